import Verif.Base
/-!
The string table and the API string cache: `/repo/src/lstring.c` 49-56 (`luaS_hash`), 72-98 (`luaS_resize`), 103-110
(`luaS_clearcache`), 116-127 (`luaS_init`), 133-151, 154-161 (`luaS_remove`), 167-196 (`internshrstr`), 202-213 (`luaS_newlstr`),
222-236 (`luaS_new`); `/repo/src/lgc.c` 897-903 (`freeobj` on strings), 963-971 (`checkSizes`), 1651-1652 (end of `atomic`).

String objects are named by numbers (addresses); an object that is not allocated maps to `none` and using it is
undefined behaviour.  Simplification: the list linked by `hnext` in a bucket is a Lean list of addresses.
What the collector decides (which strings are unreachable) is an input: any set of objects may be found dead.
-/
namespace Verif.StrTab

abbrev Bytes := List UInt8

/-- a `TString`: contents, short or long, dead (white of the finished cycle, waiting to be swept), fixed (`luaC_fix`), hash -/
structure Obj where
  bytes : Bytes
  isShort : Bool
  dead : Bool
  fixed : Bool
  hash : BitVec 32

/-- the parts of `global_State` used here: objects, `strt.hash`, `strt.size` (= number of buckets), `strt.nuse`, `seed`,
`strcache` (row-major) and `memerrmsg` -/
structure G where
  objs : Nat → Option Obj
  buckets : List (List Nat)
  nuse : Nat
  seed : BitVec 32
  cache : List (List Nat)
  memerr : Nat

/-- `LUAI_MAXSHORTLEN`, llimits.h 226-228 -/
def maxShort : Nat := 40
/-- `STRCACHE_N`, llimits.h 248 -/
def cacheN : Nat := 53
/-- `MAX_INT`, llimits.h -/
def maxIntC : Nat := 2 ^ 31 - 1
/-- bound on the length of a string object, lstring.c 207: `MAX_SIZE - sizeof(TString)` with `sizeof(TString)` = 24 -/
def maxLen : Nat := 2 ^ 63 - 1 - 24

/-- dereference of a string pointer -/
def getObj (g : G) (x : Nat) : Res Obj :=
  match g.objs x with
  | some o => .ok o
  | none => .ub

/-- the loop of `luaS_hash`, lstring.c 52-53; `unsigned int` has 32 bits -/
def hashLoop (str : Bytes) (step l : Nat) (h : BitVec 32) : Res (BitVec 32) :=
  if _h : step ≤ l ∧ 0 < step then
    match str[l - 1]? with
    | none => .ub
    | some b => hashLoop str step (l - step) (h ^^^ ((h <<< 5) + (h >>> 2) + BitVec.ofNat 32 b.toNat))
  else .ok h
termination_by l

/-- `luaS_hash`, lstring.c 49-55 -/
def hash (str : Bytes) (seed : BitVec 32) : Res (BitVec 32) :=
  hashLoop str (str.length >>> 5 + 1) str.length (seed ^^^ BitVec.ofNat 32 str.length)

/-- `lmod`, lobject.h 850-851 -/
def lmod (h : BitVec 32) (size : Nat) : Nat := h.toNat &&& (size - 1)

/-- push a node in front of a bucket, lstring.c 86-87 and 192-193 -/
def push (b : List (List Nat)) (i x : Nat) : Res (List (List Nat)) :=
  match b[i]? with
  | some l => .ok (b.set i (x :: l))
  | none => .ub

/-- the inner loop of `luaS_resize`, lstring.c 83-89: moves every node of the list `p` -/
def rehashList (g : G) (newsize : Nat) : List Nat → List (List Nat) → Res (List (List Nat))
  | [], b => .ok b
  | x :: p, b => do
    let o ← getObj g x
    let b ← push b (lmod o.hash newsize) x
    rehashList g newsize p b

/-- the outer loop of `luaS_resize`, lstring.c 80-90 -/
def rehash (g : G) (newsize : Nat) : Nat → Nat → List (List Nat) → Res (List (List Nat))
  | 0, _, b => .ok b
  | n + 1, i, b =>
    match b[i]? with
    | none => .ub
    | some p => do
      let b ← rehashList g newsize p (b.set i [])
      rehash g newsize n (i + 1) b

/-- `luaS_resize`, lstring.c 72-98 -/
def resize (g : G) (newsize : Nat) : Res G := do
  let size := g.buckets.length
  let b := g.buckets ++ List.replicate (newsize - size) []
  let b ← rehash g newsize size 0 b
  return { g with buckets := b.take newsize }

/-- `luaS_remove`, lstring.c 154-161: running off the end of the list dereferences NULL -/
def unlink (x : Nat) : List Nat → Res (List Nat)
  | [] => .ub
  | y :: l => if y = x then .ok l else do
      let l ← unlink x l
      return y :: l

def remove (g : G) (x : Nat) : Res G := do
  let o ← getObj g x
  let i := lmod o.hash g.buckets.length
  match g.buckets[i]? with
  | none => .ub
  | some l => do
    let l ← unlink x l
    return { g with buckets := g.buckets.set i l, nuse := g.nuse - 1 }

/-- write to a string object -/
def setObj (g : G) (x : Nat) (o : Option Obj) : G := { g with objs := fun y => if y = x then o else g.objs y }

/-- `freeobj` on a string, lgc.c 897-903 -/
def free (g : G) (x : Nat) : Res G := do
  let o ← getObj g x
  let g ← if o.isShort then remove g x else .ok g
  return setObj g x none

/-- what the collector may do to strings -/
inductive GcOp where
  /-- end of `atomic` (lgc.c 1651-1652): the white objects `s` become dead, after `luaS_clearcache` -/
  | atomic (s : Nat → Bool)
  /-- sweeping one object (`sweeplist`, lgc.c 916-935): a dead one is freed -/
  | sweep (x : Nat)

/-- `luaS_clearcache`, lstring.c 103-110: entries about to be collected are replaced by `memerrmsg` -/
def clearCache (g : G) (white : Nat → Bool) : G :=
  { g with cache := g.cache.map fun row => row.map fun x => if white x then g.memerr else x }

/-- the objects that are still white at the end of a cycle: those of the set chosen, except fixed ones -/
def whiteSet (g : G) (s : Nat → Bool) (x : Nat) : Bool :=
  s x && match g.objs x with | some o => !o.fixed | none => false

/-- one action of the collector; fixed objects are never white at the end of a cycle (they live in `fixedgc`, always marked) -/
def gcStep (g : G) : GcOp → Res G
  | .atomic s =>
    let g' := clearCache g (whiteSet g s)
    .ok { g' with objs := fun x => (g.objs x).map fun o => if whiteSet g s x then { o with dead := true } else o }
  | .sweep x =>
    match g.objs x with
    | some o => if o.dead then free g x else .ok g
    | none => .ok g

/-- a (possibly empty) run of the collector -/
def gc : List GcOp → G → Res G
  | [], g => .ok g
  | op :: ops, g => do
    let g ← gcStep g op
    gc ops g

/-- the search loop of `internshrstr`, lstring.c 173-181 -/
def find (g : G) (str : Bytes) : List Nat → Res (Option Nat)
  | [] => .ok none
  | x :: l => do
    let o ← getObj g x
    if str.length = o.bytes.length ∧ str = o.bytes then return some x
    else find g str l

/-- the bucket of a hash value, `*list` -/
def bucket (g : G) (h : BitVec 32) : Res (List Nat) :=
  match g.buckets[lmod h g.buckets.length]? with
  | some l => .ok l
  | none => .ub

/-- growth of a full table, lstring.c 182-184 -/
def growIfFull (g : G) (gc1 : List GcOp) : Res G :=
  if g.buckets.length ≤ g.nuse ∧ g.buckets.length ≤ maxIntC / 2 then do
    let g ← gc gc1 g
    resize g (g.buckets.length * 2)
  else .ok g

/-- `internshrstr`, lstring.c 167-196.  `gc1` and `gc2` are what an (emergency) collection does inside the allocations of
`luaS_resize` and `createstrobj`; `x` is the address returned by the allocator (not in use). -/
def intern (g : G) (str : Bytes) (gc1 gc2 : List GcOp) (x : Nat) : Res (G × Nat) := do
  let h ← hash str g.seed
  let l ← bucket g h
  match ← find g str l with
  | some y => do
    let o ← getObj g y
    return (setObj g y (some { o with dead := false }), y)        -- changewhite resurrects a dead string
  | none => do
    let g ← growIfFull g gc1
    let g ← gc gc2 g
    if (g.objs x).isSome then .err "not enough memory"            -- the allocator has no such address to give
    else do
      let g := setObj g x (some ⟨str, true, false, false, h⟩)
      let b ← push g.buckets (lmod h g.buckets.length) x
      return ({ g with buckets := b, nuse := g.nuse + 1 }, x)

/-- `luaS_newlstr`, lstring.c 202-213 (with `luaS_createlngstrobj`, 147-151) -/
def newlstr (g : G) (str : Bytes) (gc1 gc2 : List GcOp) (x : Nat) : Res (G × Nat) :=
  if str.length ≤ maxShort then intern g str gc1 gc2 x
  else if maxLen ≤ str.length then .err "memory allocation error: block too big"
  else do
    let g ← gc gc2 g
    if (g.objs x).isSome then .err "not enough memory"
    else return (setObj g x (some ⟨str, false, false, false, g.seed⟩), x)

/-- the bytes before the first NUL: what `strlen` and `strcmp` see -/
def cstr (s : Bytes) : Bytes := s.takeWhile (· ≠ 0)

/-- the search loop of `luaS_new`, lstring.c 226-229: `strcmp` stops at the first NUL of either string -/
def findCache (g : G) (str : Bytes) : List Nat → Res (Option Nat)
  | [] => .ok none
  | x :: l => do
    let o ← getObj g x
    if cstr str = cstr o.bytes then return some x else findCache g str l

/-- `luaS_new`, lstring.c 222-236, on the NUL-terminated bytes `str`; `slot` is `point2uint(str) % STRCACHE_N` -/
def new (g : G) (slot : Nat) (str : Bytes) (gc1 gc2 : List GcOp) (x : Nat) : Res (G × Nat) :=
  match g.cache[slot]? with
  | none => .ub
  | some row => do
    match ← findCache g str row with
    | some y => return (g, y)
    | none => do
      -- p[1] = p[0] happens before the call, p[0] is overwritten after it; the row is reread after a collection
      let g := { g with cache := g.cache.set slot (row.take 1 ++ row.dropLast) }
      let (g, y) ← newlstr g (cstr str) gc1 gc2 x
      match g.cache[slot]? with
      | none => .ub
      | some row => return ({ g with cache := g.cache.set slot (y :: row.tail) }, y)

/-- `checkSizes`, lgc.c 963-971 -/
def checkSizes (g : G) : Res G :=
  if g.nuse < g.buckets.length / 4 then resize g (g.buckets.length / 2) else .ok g

/-- what a history is made of -/
inductive Op where
  | newlstr (str : Bytes) (gc1 gc2 : List GcOp) (x : Nat)
  | new (slot : Nat) (str : Bytes) (gc1 gc2 : List GcOp) (x : Nat)
  | gc (op : GcOp)
  | checkSizes

/-- one operation; an error leaves the table as it was (allocation failures are raised before any change except those of the collector,
which are covered by the `gc` operations) -/
def step (g : G) : Op → Res G
  | .newlstr str gc1 gc2 x =>
    match newlstr g str gc1 gc2 x with
    | .ok (g, _) => .ok g
    | .err _ => .ok g
    | .ub => .ub
  | .new slot str gc1 gc2 x =>
    match new g (slot % cacheN) str gc1 gc2 x with
    | .ok (g, _) => .ok g
    | .err _ => .ok g
    | .ub => .ub
  | .gc op => gcStep g op
  | .checkSizes => checkSizes g

def steps : List Op → G → Res G
  | [], g => .ok g
  | op :: ops, g => do
    let g ← step g op
    steps ops g

/-- "not enough memory", lstring.c 25 -/
def memerrBytes : Bytes := [110, 111, 116, 32, 101, 110, 111, 117, 103, 104, 32, 109, 101, 109, 111, 114, 121]

/-- `luaS_init`, lstring.c 116-127: 128 empty buckets, the error message interned and fixed, the cache full of it -/
def init (seed : BitVec 32) : Res G := do
  let g : G := ⟨fun _ => none, List.replicate 128 [], 0, seed, [], 0⟩
  let (g, x) ← newlstr g memerrBytes [] [] 0
  let o ← getObj g x
  let g := setObj g x (some { o with fixed := true })
  return { g with memerr := x, cache := List.replicate cacheN [x, x] }

end Verif.StrTab
