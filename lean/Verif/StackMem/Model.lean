import Verif.Base

/-!
# The memory of a Lua stack — ldo.c:171-255, ldo.h:23-28, lstate.c:150-171, lapi.c:92-121

Pointers into the stack are absolute addresses (in units of one `TValue`).  The address at which the allocator puts
a block is an argument of every operation that may reallocate; `none` means that the allocation fails.
Simplifications: the error values carried by Lua errors, hooks and the contents of `CallInfo` other than its pointers
into the stack are left out; an allocation that fails leaves everything as it was (`luaM_realloc_`, lmem.c:86-104; the
emergency collection it may run does not touch stacks, lgc.c `traversethread`).
-/
namespace Verif.StackMem

/-- Values stored in stack slots. -/
inductive Val
  | nil
  | v (n : Nat)
deriving DecidableEq, Repr

/-- The pointers of a `CallInfo` into the stack — lstate.h:133-152; `base` is present in Lua frames. -/
structure CI where
  func : Int
  top : Int
  base : Option Int
deriving DecidableEq, Repr

/-- The fields of `lua_State` for the stack — lstate.h:246-285.  `vals` is the allocated block at address `stack`;
`cis` are the active frames, the current one first; `ups` the targets of the open upvalues. -/
structure LS where
  stack : Int
  vals : List Val
  stacksize : Int
  top : Int
  last : Int
  cis : List CI
  ups : List Int
deriving DecidableEq, Repr

/-- `LUAI_MAXSTACK` — luaconf.h:754. -/
scoped notation "maxStack" => (1000000 : Int)
/-- `EXTRA_STACK` — lstate.h:104. -/
scoped notation "extra" => (5 : Int)
/-- `ERRORSTACKSIZE` — ldo.c:188. -/
scoped notation "errorStack" => (maxStack + 200)
/-- `LUA_MINSTACK` — lua.h:79. -/
scoped notation "minStack" => (20 : Int)

/-- How an operation ends: normally, with "stack overflow", with `LUA_ERRERR`, or out of memory. -/
inductive Status
  | ok | overflow | errerr | nomem
deriving DecidableEq, Repr

/-- A `CallInfo` moved by `correctstack` — ldo.c:178-182. -/
def CI.move (c : CI) (old new : Int) : CI :=
  { func := (c.func - old) + new, top := (c.top - old) + new, base := c.base.map (fun b => (b - old) + new) }

/-- `correctstack` — ldo.c:171-184.  (Subtracting from the freed `oldstack` is taken as arithmetic on addresses.) -/
def correctstack (L : LS) (old : Int) : LS :=
  { L with
    top := (L.top - old) + L.stack
    ups := L.ups.map (fun u => (u - old) + L.stack)
    cis := L.cis.map (fun c => c.move old L.stack) }

/-- The block after `luaM_reallocvector` and the loop that erases the new segment — ldo.c:196-198. -/
def resize (vals : List Val) (n : Nat) : List Val :=
  vals.take n ++ List.replicate (n - vals.length) .nil

/-- `luaD_reallocstack` — ldo.c:191-203, the new block at address `a`. -/
def realloc (L : LS) (newsize : Int) (a : Int) : LS :=
  correctstack
    { L with stack := a, vals := resize L.vals newsize.toNat, stacksize := newsize,
             last := a + newsize - extra } L.stack

/-- `luaD_reallocstack` with an allocator that may fail. -/
def tryRealloc (L : LS) (newsize : Int) (a : Option Int) (s : Status) : Status × LS :=
  match a with
  | some a => (s, realloc L newsize a)
  | none => (.nomem, L)

/-- Result of an operation on `int`. -/
def i32 (x : Int) : Res Int := if -2147483648 ≤ x ∧ x ≤ 2147483647 then .ok x else .ub

/-- `luaD_growstack` — ldo.c:206-223. -/
def growstack (L : LS) (n : Int) (a : Option Int) : Res (Status × LS) :=
  if L.stacksize > maxStack then .ok (.errerr, L)
  else do
    let needed ← i32 ((L.top - L.stack) + n)
    let needed ← i32 (needed + extra)
    let newsize ← i32 (2 * L.stacksize)
    let newsize := if newsize > maxStack then maxStack else newsize
    let newsize := if newsize < needed then needed else newsize
    if newsize > maxStack then pure (tryRealloc L errorStack a .overflow)
    else pure (tryRealloc L newsize a .ok)

/-- `luaD_checkstack` — ldo.h:23-28. -/
def checkstack (L : LS) (n : Int) (a : Option Int) : Res (Status × LS) :=
  if L.last - L.top ≤ n then growstack L n a else .ok (.ok, L)

/-- The loop of `stackinuse` — ldo.c:229-231. -/
def limOf : Int → List CI → Int
  | lim, [] => lim
  | lim, c :: cs => limOf (if lim < c.top then c.top else lim) cs

/-- `stackinuse` — ldo.c:226-234. -/
def stackinuse (L : LS) : Int := (limOf L.top L.cis - L.stack) + 1

/-- `luaD_shrinkstack` — ldo.c:237-255, without the freeing of unused `CallInfo`s (see `CIList`). -/
def shrinkstack (L : LS) (a : Option Int) : Status × LS :=
  let inuse := stackinuse L
  let goodsize := inuse + inuse.tdiv 8 + 2 * extra
  let goodsize := if goodsize > maxStack then maxStack else goodsize
  if inuse ≤ maxStack - extra ∧ goodsize < L.stacksize then tryRealloc L goodsize a .ok
  else (.ok, L)

/-- `ci->top = …` for the current frame. -/
def setCiTop (L : LS) (t : Int) : LS :=
  { L with cis := match L.cis with
      | [] => []
      | c :: cs => { c with top := t } :: cs }

/-- `ci->top` of the current frame. -/
def ciTop (L : LS) : Int :=
  match L.cis with
  | [] => L.stack
  | c :: _ => c.top

/-- The test and the growth in `lua_checkstack` — lapi.c:107-115.  `luaD_rawrunprotected` turns every error into a
status. -/
def apiGrow (L : LS) (n : Int) (a : Option Int) : Res (Bool × LS) :=
  if L.last - L.top > n then .ok (true, L)
  else do
    let inuse ← i32 (L.top - L.stack + extra)
    let room ← i32 (maxStack - n)
    if inuse > room then pure (false, L)
    else do
      let (s, L) ← growstack L n a
      pure (s == .ok, L)

/-- `if (res && ci->top < L->top + n) ci->top = L->top + n;` — lapi.c:116-117. -/
def apiFrame (res : Bool) (L : LS) (n : Int) : LS :=
  if res = true ∧ ciTop L < L.top + n then setCiTop L (L.top + n) else L

/-- `lua_checkstack` — lapi.c:102-121: the returned flag. -/
def apiCheckstack (L : LS) (n : Int) (a : Option Int) : Res (Bool × LS) := do
  let (res, L) ← apiGrow L n a
  pure (res, apiFrame res L n)

/-- Store into the block; outside of it the write is undefined. -/
def wr (L : LS) (p : Int) (x : Val) : Res LS :=
  if L.stack ≤ p ∧ p < L.stack + L.vals.length then
    .ok { L with vals := L.vals.set (p - L.stack).toNat x }
  else .ub

/-- Load from the block. -/
def rd (L : LS) (p : Int) : Res Val :=
  if L.stack ≤ p then
    match L.vals[(p - L.stack).toNat]? with
    | some x => .ok x
    | none => .ub
  else .ub

/-- `stack_init` — lstate.c:150-171, at address `a`. -/
def init (a : Int) : LS :=
  { stack := a, vals := List.replicate 40 .nil, stacksize := 40, last := a + 40 - extra,
    top := a + 1, cis := [⟨a, a + 1 + minStack, none⟩], ups := [] }

/-- `*L->top = x; L->top++` (`api_incr_top`, or internal pushes that assume `EXTRA_STACK`). -/
def push (L : LS) (x : Val) : Res LS := do
  let L' ← wr L L.top x
  pure { L' with top := L'.top + 1 }

/-- Entering a C function: `luaD_precall` — ldo.c:441-447, `nargs` arguments above the function.  `checkstackp` may run
the collector, which may shrink the stack, before growing it. -/
def enterC (L : LS) (nargs : Int) (gc : Bool) (a₁ a₂ : Option Int) : Res (Status × LS) :=
  let func := L.top - nargs - 1
  if L.last - L.top ≤ minStack then do
    let t := func - L.stack
    let (s, L) := if gc then shrinkstack L a₁ else (.ok, L)
    if s ≠ .ok then pure (s, L) else do
    let (s, L) ← growstack L minStack a₂
    if s ≠ .ok then pure (s, L) else
    let func := L.stack + t
    pure (.ok, { L with cis := ⟨func, L.top + minStack, none⟩ :: L.cis })
  else
    pure (.ok, { L with cis := ⟨func, L.top + minStack, none⟩ :: L.cis })

/-- `for (; n < k; n++) setnilvalue(L->top++)` — ldo.c:468-469, 320-321. -/
def nils : Nat → LS → Res LS
  | 0, L => .ok L
  | k + 1, L => do
    let L ← nils k L
    push L .nil

/-- The loop of `adjust_varargs` moving fixed parameters — ldo.c:316-319: `k` iterations from source `src`. -/
def moveArgs : Nat → LS → Int → Res LS
  | 0, L, _ => .ok L
  | k + 1, L, src => do
    let L ← moveArgs k L src
    let x ← rd L (src + k)
    let L ← push L x
    wr L (src + k) .nil

/-- Entering a Lua function with `numparams` parameters and frame size `fsize`, after the stack check —
ldo.c:465-476 with `adjust_varargs` 309-323. -/
def enterLuaBody (L : LS) (func : Int) (numparams fsize : Nat) (vararg : Bool) : Res LS := do
  let n := (L.top - func) - 1
  if vararg then do
    let base := L.top
    let m := min numparams n.toNat
    let L ← moveArgs m L (L.top - n)
    let L ← nils (numparams - m) L
    pure { L with top := base + fsize, cis := ⟨func, base + fsize, some base⟩ :: L.cis }
  else do
    let L ← nils (numparams - n.toNat) L
    let base := func + 1
    pure { L with top := base + fsize, cis := ⟨func, base + fsize, some base⟩ :: L.cis }

/-- `luaD_precall` on a Lua function — ldo.c:459-476. -/
def enterLua (L : LS) (nargs : Int) (numparams fsize : Nat) (vararg gc : Bool) (a₁ a₂ : Option Int) :
    Res (Status × LS) :=
  let func := L.top - nargs - 1
  if L.last - L.top ≤ fsize then do
    let t := func - L.stack
    let (s, L) := if gc then shrinkstack L a₁ else (.ok, L)
    if s ≠ .ok then pure (s, L) else do
    let (s, L) ← growstack L fsize a₂
    if s ≠ .ok then pure (s, L) else do
    let L ← enterLuaBody L (L.stack + t) numparams fsize vararg
    pure (.ok, L)
  else do
    let L ← enterLuaBody L func numparams fsize vararg
    pure (.ok, L)

/-- Copy `k` values from `src` up to `dst` — ldo.c:363-364, 371-376. -/
def copyVals : Nat → LS → Int → Int → Res LS
  | 0, L, _, _ => .ok L
  | k + 1, L, dst, src => do
    let L ← copyVals k L dst src
    let x ← rd L (src + k)
    wr L (dst + k) x

/-- `luaD_poscall` and `moveresults` — ldo.c:350-410, without hooks: the frame is removed and `nres` results starting
at `L->top - nres` move to the place of the function; `wanted = none` is `LUA_MULTRET`.  The special cases for 0 and 1
wanted results do the same as the general one. -/
def leave (L : LS) (nres : Nat) (wanted : Option Nat) : Res LS := do
  match L.cis with
  | [] => .ub
  | ci :: rest =>
    let first := L.top - nres
    let res := ci.func
    let L := { L with cis := rest }
    match wanted with
    | none => do
      let L ← copyVals nres L res first
      pure { L with top := res + nres }
    | some w => do
      let m := min w nres
      let L ← copyVals m L res first
      let L ← nils (w - m) { L with top := res + m }
      pure { L with top := res + w }

/-- `luaF_findupval` on a slot without an open upvalue — lfunc.c:87-93: the list gets one more target.
(`Verif.Upval` models the list itself.) -/
def capture (L : LS) (p : Int) : LS := { L with ups := p :: L.ups }

/-- `luaF_close`: the open upvalues at `level` and above are closed (lfunc.c:153-178). -/
def close (L : LS) (level : Int) : LS := { L with ups := L.ups.filter (fun u => u < level) }

/-- The error path of `luaD_pcall` — ldo.c:840-856, without deferred functions and without the final
`luaD_shrinkstack`, which is a step of its own: `keep` is the number of frames below and including the protected call,
`oldtop` its saved stack position, `e` the error value. -/
def unwind (L : LS) (keep : Nat) (oldtop : Int) (e : Val) : Res LS := do
  let old := L.stack + oldtop
  let L := { L with cis := L.cis.drop (L.cis.length - keep) }
  let L := close L old
  let L ← wr L old e
  pure { L with top := old + 1 }

/-- The operations on a stack.  Positions are counted from the bottom of the stack (`savestack`). -/
inductive Op
  | check (n : Int) (a : Option Int)
  | api (n : Int) (a : Option Int)
  | shrink (a : Option Int)
  | push (x : Val)
  | pop (n : Nat)
  | set (i : Nat) (x : Val)
  | enterC (nargs : Nat) (gc : Bool) (a₁ a₂ : Option Int)
  | enterLua (nargs numparams fsize : Nat) (vararg gc : Bool) (a₁ a₂ : Option Int)
  | leave (nres : Nat) (wanted : Option Nat)
  | capture (i : Nat)
  | close (i : Nat)
  | unwind (keep oldtop : Nat) (e : Val)

/-- One operation. A false `lua_checkstack` is reported as `overflow`. -/
def step (L : LS) : Op → Res (Status × LS)
  | .check n a => checkstack L n a
  | .api n a => do
    let (r, L) ← apiCheckstack L n a
    pure (if r then .ok else .overflow, L)
  | .shrink a => .ok (shrinkstack L a)
  | .push x => do
    let L ← push L x
    pure (.ok, L)
  | .pop n => .ok (.ok, { L with top := L.top - n })
  | .set i x => do
    let L ← wr L (L.stack + i) x
    pure (.ok, L)
  | .enterC nargs gc a₁ a₂ => enterC L nargs gc a₁ a₂
  | .enterLua nargs np fs va gc a₁ a₂ => enterLua L nargs np fs va gc a₁ a₂
  | .leave nres wanted => do
    let L ← leave L nres wanted
    pure (.ok, L)
  | .capture i => .ok (.ok, capture L (L.stack + i))
  | .close i => .ok (.ok, close L (L.stack + i))
  | .unwind keep oldtop e => do
    let L ← unwind L keep oldtop e
    pure (.ok, L)

end Verif.StackMem
