import Verif.Arith.Model
/-!
Model of Lua tables: `/repo/src/ltable.c` (generic part, lines 95-800) and `/repo/src/ltable.h`.

Memory: the array part and the node vector are finite blocks; they are represented by a total
function together with a size, and every access outside the size is the outcome `ub`.  Node links
(`gnext`) are the relative `int` offsets of the code.

Simplifications (whole file)
* Allocation succeeds; `unsigned`/`int` *counters of elements* are unbounded naturals
  (a table with 2^31 elements would need at least 48 GB).  Sizes and indices are exact.
* `luaC_barrierback`, `checkliveness` and the metamethod cache are not part of this file
  (see `Verif/GC`, `Verif/Meta`).
* Loops over collision chains take fuel `sizenode + 1`; running out of fuel (the C loop would run
  forever) is the outcome `ub`, so theorems that claim a result also claim termination.
-/
namespace Verif.Table
open Verif.Arith (LInt)

/-- Keys after normalisation: an integer, or any other non-nil value.  `α` stands for booleans,
floats without an integral value, strings, pointers …; its equality is `equalkey`
(ltable.c 131-156: contents for strings, identity for other objects). -/
inductive Key (α : Type) where
  | int (i : LInt)
  | oth (x : α)
deriving DecidableEq, Repr

/-- Identity of the collectable object behind a key (`gcvalue`), `none` for non-collectable keys. -/
abbrev Obj := Option Nat

/-- Contents of a node key: nil, a live key, or a dead key (`LUA_TDEADKEY`, lobject.h 808): the tag is
overwritten, the pointer stays.  The `k` of a dead key is a ghost field: no function of the model
that represents C code branches on it. -/
inductive NKey (α : Type) where
  | nil
  | live (k : Key α) (o : Obj)
  | dead (k : Key α) (o : Obj)
deriving DecidableEq, Repr

/-- `struct Node`, lobject.h 757-760. `val = none` is a nil value. -/
structure Node (α V : Type) where
  key : NKey α
  val : Option V
  next : Int

/-- `dummynode_`, ltable.c 61-64. -/
def dummyNode {α V : Type} : Node α V := ⟨.nil, none, 0⟩

/-- `struct Table`, lobject.h 768-782 (fields used by ltable.c).  `lastfree = none` is `NULL`, which is
also how the code recognises the shared dummy node (`isdummy`, ltable.h 31). -/
structure Tbl (α V : Type) where
  asize : Nat
  arr : Nat → Option V
  lsize : Nat
  node : Nat → Node α V
  lastfree : Option Nat

/-- key argument as it arrives from a program: nil, NaN, a float with an integral value, or a
normalised key with its object identity. -/
inductive RawKey (α : Type) where
  | nil
  | nan
  | fltInt (i : LInt)
  | key (k : Key α) (o : Obj)

/-- Hash code of a non-integer key: `hashpow2` or `hashmod` style (ltable.h 54-63); the code itself
(string seed, addresses, `l_hashfloat`) is arbitrary. -/
inductive HCode where
  | pow2 (h : Nat)
  | mod (h : Nat)

/-- Where non-integer keys hash to; `nan`, `flt i`: hash codes of NaN and of integral floats
(only used by look-ups that do not normalise their key). -/
structure Hash (α : Type) where
  code : α → HCode
  nan : Nat
  flt : LInt → Nat

variable {α V : Type}

/-- `sizenode`, lobject.h 855 -/
def Tbl.size (t : Tbl α V) : Nat := 2 ^ t.lsize

/-- `(t)->hmask`: `size - 1` (ltable.c 383, 402) -/
def hmask (ls : Nat) : Nat := 2 ^ ls - 1

/-- `hashpow2`, ltable.h 54 -/
def hashpow2 (ls h : Nat) : Nat := h &&& hmask ls

/-- `hashmod`, ltable.h 62 -/
def hashmod (ls h : Nat) : Nat := h % (hmask ls ||| 1)

/-- `mainposition`, ltable.c 97-121 (integers: `hashint`, ltable.h 57). -/
def mainpos (H : Hash α) (ls : Nat) : Key α → Nat
  | .int i => hashpow2 ls i.toNat
  | .oth x => match H.code x with
    | .pow2 h => hashpow2 ls h
    | .mod h => hashmod ls h

/-- functional update of one slot -/
def upd {β : Type} (f : Nat → β) (i : Nat) (b : β) : Nat → β := fun j => if j = i then b else f j

/-- Reading node number `i` of the vector. -/
def Tbl.getNode (t : Tbl α V) (i : Int) : Res (Node α V) :=
  if 0 ≤ i ∧ i < (t.size : Int) then .ok (t.node i.toNat) else .ub

/-- A pointer to a `TValue` inside the table. -/
inductive Cell where
  | arr (i : Nat)
  | node (i : Nat)
deriving DecidableEq, Repr

/-- Search along the chain starting at node `i` for the first node with `p`: the loops of
`getgeneric` 163-174, `luaH_getint` 631-640, `luaH_getshortstr` 650-662 / ltable.h 86-106
(`none` = `luaO_nilobject`). -/
def search (t : Tbl α V) (p : Node α V → Bool) : Nat → Int → Res (Option Nat)
  | 0, _ => .ub
  | fuel + 1, i => do
    let n ← t.getNode i
    if p n then return some i.toNat
    else if n.next = 0 then return none
    else search t p fuel (i + n.next)

/-- `equalkey`, ltable.c 131-156: dead and nil keys never equal a live key. -/
def equalkey [DecidableEq α] (k : Key α) (n : Node α V) : Bool :=
  match n.key with
  | .live k' _ => decide (k = k')
  | _ => false

variable [DecidableEq α]

/-- index test `l_castS2U(key) - 1 < t->sizearray` (ltable.c 628): 64-bit unsigned wrap-around. -/
def arrIdx (asize : Nat) (i : LInt) : Option Nat :=
  if (i - 1).toNat < asize then some (i - 1).toNat else none

/-- `luaH_getint`, ltable.c 626-643. -/
def getint (H : Hash α) (t : Tbl α V) (i : LInt) : Res (Option Cell) :=
  match arrIdx t.asize i with
  | some j => .ok (some (.arr j))
  | none => do
    let r ← search t (equalkey (.int i)) (t.size + 1) (mainpos H t.lsize (.int i))
    return r.map .node

/-- `getgeneric`, ltable.c 162-174 (and the short-string search, which has the same shape). -/
def getgeneric (H : Hash α) (t : Tbl α V) (x : α) : Res (Option Cell) := do
  let r ← search t (equalkey (.oth x)) (t.size + 1) (mainpos H t.lsize (.oth x))
  return r.map .node

/-- `luaH_get` on a normalised key. -/
def getKey (H : Hash α) (t : Tbl α V) : Key α → Res (Option Cell)
  | .int i => getint H t i
  | .oth x => getgeneric H t x

/-- `luaH_get`, ltable.c 695-710.  NaN reaches `getgeneric` and equals no key. -/
def get (H : Hash α) (t : Tbl α V) : RawKey α → Res (Option Cell)
  | .nil => .ok none
  | .nan => do
    let r ← search t (fun _ => false) (t.size + 1) (hashmod t.lsize H.nan)
    return r.map .node
  | .fltInt i => getint H t i
  | .key k _ => getKey H t k

/-- Reading through a cell pointer. -/
def load (t : Tbl α V) : Cell → Res (Option V)
  | .arr i => if i < t.asize then .ok (t.arr i) else .ub
  | .node i => if i < t.size then .ok (t.node i).val else .ub

/-- Writing through a cell pointer (`setobj2t`).  The dummy node is `const`: writing it is `ub`. -/
def store (t : Tbl α V) (c : Cell) (v : Option V) : Res (Tbl α V) :=
  match c with
  | .arr i => if i < t.asize then .ok { t with arr := upd t.arr i v } else .ub
  | .node i =>
    if i < t.size ∧ t.lastfree ≠ none then
      .ok { t with node := upd t.node i { t.node i with val := v } }
    else .ub

/-- the value read by `lua_rawget`: through the cell, nil if there is none. -/
def rawget (H : Hash α) (t : Tbl α V) (k : RawKey α) : Res (Option V) := do
  match ← get H t k with
  | none => return none
  | some c => load t c

/-- loop of `getfreepos`, ltable.c 549-557: `(new lastfree, free position)`. -/
def freeLoop (node : Nat → Node α V) : Nat → Nat × Option Nat
  | 0 => (0, none)
  | l + 1 => match (node l).key with
    | .nil => (l, some l)
    | _ => freeLoop node l

/-- `getfreepos`, ltable.c 548-558. -/
def getfreepos (t : Tbl α V) : Tbl α V × Option Nat :=
  match t.lastfree with
  | none => (t, none)
  | some l => let r := freeLoop t.node l; ({ t with lastfree := some r.1 }, r.2)

/-- `while (othern + gnext(othern) != mp) othern += gnext(othern);` ltable.c 602-603. -/
def findPrev (t : Tbl α V) (mp : Int) : Nat → Int → Res Int
  | 0, _ => .ub
  | fuel + 1, o => do
    let n ← t.getNode o
    if o + n.next = mp then return o else findPrev t mp fuel (o + n.next)

/-- Result of `luaH_newkey` up to the call of `rehash`. -/
inductive Ins (α V : Type) where
  | done (t : Tbl α V) (c : Cell)
  | full (t : Tbl α V)

/-- `luaH_newkey` on a normalised key, ltable.c 586-624, up to the point where it calls `rehash`. -/
def insertKey (H : Hash α) (t : Tbl α V) (k : Key α) (o : Obj) : Res (Ins α V) := do
  let mp := mainpos H t.lsize k
  let nmp ← t.getNode mp
  if nmp.val.isSome ∨ t.lastfree = none then       -- !ttisnil(gval(mp)) || isdummy(t)
    match getfreepos t with
    | (t, none) => return .full t
    | (t, some f) =>
      match nmp.key with
      | .live k' _ =>
        let othern := mainpos H t.lsize k'
        if othern ≠ mp then do
          -- move the colliding node into the free position
          let prev ← findPrev t mp (t.size + 1) othern
          let np ← t.getNode prev
          let node1 := upd t.node prev.toNat { np with next := (f : Int) - prev }
          let m := node1 mp
          let node2 := upd node1 f { m with next := if m.next ≠ 0 then m.next + ((mp : Int) - f) else m.next }
          let node3 := upd node2 mp { node2 mp with next := 0, val := none }
          let node4 := upd node3 mp { node3 mp with key := .live k o }
          return .done { t with node := node4 } (.node mp)
        else do
          -- the new key goes into the free position
          let node1 := if nmp.next ≠ 0 then
              upd t.node f { t.node f with next := ((mp : Int) + nmp.next) - f } else t.node
          let node2 := upd node1 mp { node1 mp with next := (f : Int) - mp }
          let node3 := upd node2 f { node2 f with key := .live k o }
          return .done { t with node := node3 } (.node f)
      | _ => .ub                                   -- `mainposition` of a nil or dead key
  else
    return .done { t with node := upd t.node mp { nmp with key := .live k o } } (.node mp)

/-- `luaH_set` (736-740) inside a resize.  The code would call `rehash` recursively if no position
were free; the model makes that a `ub` outcome (theorems show that it does not happen). -/
def setNoRehash (H : Hash α) (t : Tbl α V) (k : Key α) (o : Obj) (v : Option V) : Res (Tbl α V) := do
  match ← getKey H t k with
  | some c => store t c v
  | none =>
    match ← insertKey H t k o with
    | .done t c => store t c v
    | .full _ => .ub

/-- `setnodevector`, ltable.c 377-407; `err` when the hash part would exceed `2^MAXHBITS` nodes
(`luaH_resize` turns that error into a memory error after restoring the array, 437-440). -/
def setnodevector (t : Tbl α V) (size : Nat) : Res (Tbl α V) :=
  if size = 0 then
    .ok { t with node := fun _ => dummyNode, lsize := 0, lastfree := none }
  else
    match Arith.ceillog2 size with
    | none => .ub
    | some ls =>
      if 30 < ls then .err "table overflow"
      else .ok { t with node := fun _ => ⟨.nil, none, 0⟩, lsize := ls, lastfree := some (2 ^ ls) }

/-- re-insertion of the vanishing array slice, ltable.c 444-447:
`for (i=nasize; i<oldasize; i++)`; `cnt` iterations left. -/
def reinsertArr (H : Hash α) (arr : Nat → Option V) : (cnt i : Nat) → Tbl α V → Res (Tbl α V)
  | 0, _, t => .ok t
  | cnt + 1, i, t =>
    match arr i with
    | none => reinsertArr H arr cnt (i + 1) t
    | some v => do
      let t ← setNoRehash H t (.int (BitVec.ofNat 64 (i + 1))) none (some v)
      reinsertArr H arr cnt (i + 1) t

/-- re-insertion of the old nodes, ltable.c 452-459: `for (j = oldhsize - 1; j >= 0; j--)`. -/
def reinsertNodes (H : Hash α) (old : Nat → Node α V) : Nat → Tbl α V → Res (Tbl α V)
  | 0, t => .ok t
  | j + 1, t =>
    match (old j).val with
    | none => reinsertNodes H old j t
    | some v =>
      match (old j).key with
      | .live k o => do
        let t ← setNoRehash H t k o (some v)
        reinsertNodes H old j t
      | _ => .ub

/-- `luaH_resize`, ltable.c 425-462. -/
def resize (H : Hash α) (t : Tbl α V) (nasize nhsize : Nat) : Res (Tbl α V) := do
  let oldasize := t.asize
  let oldhsize := if t.lastfree = none then 0 else t.size     -- allocsizenode
  let nold := t.node
  -- setarrayvector: new slots are nil
  let t1 := if nasize > oldasize then
      { t with asize := nasize, arr := fun i => if i < oldasize then t.arr i else none } else t
  let t2 ← setnodevector t1 nhsize
  let t3 ← if nasize < oldasize then
      reinsertArr H t2.arr (oldasize - nasize) nasize { t2 with asize := nasize } else .ok t2
  reinsertNodes H nold oldhsize t3

/-! ### rehash -/

/-- `arrayindex`, ltable.c 181-188 (`MAXASIZE` = 2^31). -/
def arrayindex : Key α → Nat
  | .int k => if 0 < k.toInt ∧ k.toNat ≤ 2 ^ 31 then k.toNat else 0
  | .oth _ => 0

/-- `nums[i] += c` on the count array of 32 entries. -/
def addNum (nums : Nat → Nat) (i c : Nat) : Res (Nat → Nat) :=
  if i < 32 then .ok (upd nums i (nums i + c)) else .ub

/-- `countint`, ltable.c 310-318 -/
def countint (k : Key α) (nums : Nat → Nat) : Res (Nat × (Nat → Nat)) :=
  let a := arrayindex k
  if a ≠ 0 then
    match Arith.ceillog2 a with
    | none => .ub
    | some lg => do let nums ← addNum nums lg 1; return (1, nums)
  else return (0, nums)

/-- number of non-nil values among array slots `i .. i+cnt-1` (1-based; inner loop 342-345) -/
def countSlice (arr : Nat → Option V) : (cnt i : Nat) → Nat
  | 0, _ => 0
  | cnt + 1, i => (if (arr (i - 1)).isSome then 1 else 0) + countSlice arr cnt (i + 1)

/-- `numusearray`, ltable.c 326-350; `rem` = iterations left of `lg = 0 .. MAXABITS`, `ttlg = 2^lg`. -/
def numuseLoop (arr : Nat → Option V) (asize : Nat) :
    (rem lg i ause : Nat) → (nums : Nat → Nat) → Res (Nat × (Nat → Nat))
  | 0, _, _, ause, nums => .ok (ause, nums)
  | rem + 1, lg, i, ause, nums =>
    let lim := if 2 ^ lg > asize then asize else 2 ^ lg
    if 2 ^ lg > asize ∧ i > lim then .ok (ause, nums)            -- break
    else do
      let lc := countSlice arr (lim + 1 - i) i
      let nums ← addNum nums lg lc
      numuseLoop arr asize rem (lg + 1) (i + (lim + 1 - i)) (ause + lc) nums

def numusearray (t : Tbl α V) (nums : Nat → Nat) : Res (Nat × (Nat → Nat)) :=
  numuseLoop t.arr t.asize 32 0 1 0 nums

/-- `numusehash`, ltable.c 353-366: `(totaluse, ause, nums)`. -/
def numusehash (node : Nat → Node α V) : (i totaluse ause : Nat) → (nums : Nat → Nat) →
    Res (Nat × Nat × (Nat → Nat))
  | 0, tu, au, nums => .ok (tu, au, nums)
  | i + 1, tu, au, nums =>
    match (node i).val with
    | none => numusehash node i tu au nums
    | some _ =>
      match (node i).key with
      | .live k _ => do
        let (c, nums) ← countint k nums
        numusehash node i (tu + 1) (au + c) nums
      | _ => numusehash node i (tu + 1) au nums      -- `arrayindex` of a non-integer is 0

/-- loop of `computesizes`, ltable.c 287-297.  `twotoi` is a 32-bit unsigned: doubling wraps to 0. -/
def csLoop (nums : Nat → Nat) (pna : Nat) :
    (fuel i twotoi a na optimal : Nat) → Res (Nat × Nat)
  | 0, _, _, _, _, _ => .ub
  | fuel + 1, i, twotoi, a, na, optimal =>
    if twotoi > 0 ∧ pna > twotoi / 2 then
      if 32 ≤ i then .ub                             -- nums[i] out of bounds
      else
        let twotoi' := (twotoi * 2) % 2 ^ 32
        if nums i > 0 then
          let a := a + nums i
          if a > twotoi / 2 then csLoop nums pna fuel (i + 1) twotoi' a a twotoi
          else csLoop nums pna fuel (i + 1) twotoi' a na optimal
        else csLoop nums pna fuel (i + 1) twotoi' a na optimal
    else .ok (optimal, na)

/-- `computesizes`, ltable.c 280-301: `(optimal size, keys that go to the array part)`. -/
def computesizes (nums : Nat → Nat) (pna : Nat) : Res (Nat × Nat) :=
  csLoop nums pna 34 0 1 0 0 0

/-- `rehash`, ltable.c 472-491 (a dummy hash part has one node with a nil value). -/
def rehash (H : Hash α) (t : Tbl α V) (ek : Key α) : Res (Tbl α V) := do
  let (na, nums) ← numusearray t (fun _ => 0)
  let (tu, au, nums) ← numusehash t.node t.size 0 0 nums
  let (c, nums) ← countint ek nums
  let totaluse := na + tu + 1
  let (asize, na) ← computesizes nums (na + au + c)
  resize H t asize (totaluse - na)

/-- `luaH_newkey` on a normalised key, with the rehash branch (ltable.c 592-597).  After `rehash` the
code calls `luaH_set`, which may only call `rehash` again if there is still no free position;
that second rehash is `ub` in the model. -/
def newkeyNorm (H : Hash α) (t : Tbl α V) (k : Key α) (o : Obj) : Res (Tbl α V × Cell) := do
  match ← insertKey H t k o with
  | .done t c => return (t, c)
  | .full t =>
    let t ← rehash H t k
    match ← getKey H t k with
    | some c => return (t, c)
    | none =>
      match ← insertKey H t k o with
      | .done t c => return (t, c)
      | .full _ => .ub

/-- `luaH_newkey`, ltable.c 571-624 -/
def newkey (H : Hash α) (t : Tbl α V) : RawKey α → Res (Tbl α V × Cell)
  | .nil => .err "table index is nil"
  | .nan => .err "table index is NaN"
  | .fltInt i => newkeyNorm H t (.int i) none
  | .key k o => newkeyNorm H t k o

/-- `luaH_set` followed by the store (`lua_rawset`, lapi.c; `luaH_setint` for integer keys). -/
def rawset (H : Hash α) (t : Tbl α V) (k : RawKey α) (v : Option V) : Res (Tbl α V) := do
  match ← get H t k with
  | some c => store t c v
  | none =>
    let (t, c) ← newkey H t k
    store t c v

/-- `luaH_new`, ltable.c 500-509 -/
def new : Tbl α V := ⟨0, fun _ => none, 0, fun _ => dummyNode, none⟩

/-- `removeentry` (lgc.c 168-172) applied to any set of nodes: an entry with a nil value and a
collectable key may be marked dead by the collector. -/
def collect (t : Tbl α V) (p : Nat → Bool) : Tbl α V :=
  { t with node := fun i =>
      let n := t.node i
      match n.key, n.val with
      | .live k (some o), none => if p i then { n with key := .dead k (some o) } else n
      | _, _ => n }

/-! ### traversal and length -/

/-- node test of `findindex`, ltable.c 208-211: raw equality or dead key of the same object. -/
def nextMatch (k : Key α) (o : Obj) (n : Node α V) : Bool :=
  match n.key with
  | .nil => false
  | .live k' _ => decide (k' = k)
  | .dead _ o' => o.isSome && decide (o' = o)

/-- `findindex`, ltable.c 196-222 (`none` key = start of the traversal). -/
def findindex (H : Hash α) (t : Tbl α V) : RawKey α → Res Nat
  | .nil => .ok 0
  | .nan => .err "invalid key to 'next'"
  | .fltInt i => do    -- floats are not normalised here: `luaV_rawequalobj` compares by value
    match ← search t (nextMatch (.int i) none) (t.size + 1) (hashmod t.lsize (H.flt i)) with
    | some j => return j + 1 + t.asize
    | none => .err "invalid key to 'next'"
  | .key k o => do
    let i := arrayindex k
    if i ≠ 0 ∧ i ≤ t.asize then return i
    else
      match ← search t (nextMatch k o) (t.size + 1) (mainpos H t.lsize k) with
      | some j => return j + 1 + t.asize
      | none => .err "invalid key to 'next'"

/-- array loop of `luaH_next`, ltable.c 228-234; `cnt` = slots left -/
def nextArr (t : Tbl α V) : (cnt i : Nat) → Option (Key α × Obj × V)
  | 0, _ => none
  | cnt + 1, i => match t.arr i with
    | some v => some (.int (BitVec.ofNat 64 (i + 1)), none, v)
    | none => nextArr t cnt (i + 1)

/-- node loop of `luaH_next`, ltable.c 235-241 -/
def nextNode (t : Tbl α V) : (cnt i : Nat) → Res (Option (Key α × Obj × V))
  | 0, _ => .ok none
  | cnt + 1, i => match (t.node i).val with
    | some v => match (t.node i).key with
      | .live k o => .ok (some (k, o, v))
      | _ => .ub                             -- would hand a nil or dead key to the program
    | none => nextNode t cnt (i + 1)

/-- `luaH_next`, ltable.c 226-243. -/
def next (H : Hash α) (t : Tbl α V) (k : RawKey α) : Res (Option (Key α × Obj × V)) := do
  let i ← findindex H t k
  match nextArr t (t.asize - i) i with
  | some r => return some r
  | none => nextNode t (t.size - (i - t.asize)) (i - t.asize)

/-- value read by `luaH_getint(t, j)` for an unsigned index -/
def getU (H : Hash α) (t : Tbl α V) (j : LInt) : Res (Option V) := rawget H t (.key (.int j) none)

/-- binary search of `unbound_search`, ltable.c 771-775 (64-bit unsigned) -/
def ubBinary (H : Hash α) (t : Tbl α V) : Nat → LInt → LInt → Res LInt
  | 0, _, _ => .ub
  | fuel + 1, i, j =>
    if 1 < (j - i).toNat then do
      let m := (i + j) / 2
      match ← getU H t m with
      | none => ubBinary H t fuel i m
      | some _ => ubBinary H t fuel m j
    else return i

/-- linear search, ltable.c 765-767 -/
def ubLinear (H : Hash α) (t : Tbl α V) : Nat → LInt → Res LInt
  | 0, _ => .ub
  | fuel + 1, i => do
    match ← getU H t i with
    | none => return i - 1
    | some _ => ubLinear H t fuel (i + 1)

/-- doubling phase, ltable.c 760-769 -/
def ubDouble (H : Hash α) (t : Tbl α V) : Nat → LInt → LInt → Res LInt
  | 0, _, _ => .ub
  | fuel + 1, i, j => do
    match ← getU H t j with
    | none => ubBinary H t 65 i j
    | some _ =>
      if (2 ^ 63 - 1) / 2 < j.toNat then ubLinear H t (2 ^ 64) 1
      else ubDouble H t fuel j (j * 2)

/-- binary search in the array part, ltable.c 787-793 (32-bit unsigned; `i + j` wraps) -/
def arrBinary (arr : Nat → Option V) (asize : Nat) : Nat → Nat → Nat → Res Nat
  | 0, _, _ => .ub
  | fuel + 1, i, j =>
    if 1 < j - i then
      let m := ((i + j) % 2 ^ 32) / 2
      if m = 0 ∨ asize < m then .ub           -- array[m - 1] out of bounds
      else match arr (m - 1) with
        | none => arrBinary arr asize fuel i m
        | some _ => arrBinary arr asize fuel m j
    else .ok i

/-- `luaH_getn`, ltable.c 783-800 -/
def getn (H : Hash α) (t : Tbl α V) : Res LInt :=
  if 0 < t.asize ∧ (t.arr (t.asize - 1)).isNone then do
    let i ← arrBinary t.arr t.asize 33 0 t.asize
    return BitVec.ofNat 64 i
  else if t.lastfree = none then return BitVec.ofNat 64 t.asize
  else ubDouble H t 65 (BitVec.ofNat 64 t.asize) (BitVec.ofNat 64 t.asize + 1)

end Verif.Table
