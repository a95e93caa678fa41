import Verif.Base

/-!
# The memory manager — src/lmem.c, `luaE_setdebt` in src/lstate.c

A block has a name (its address) and a size.  Sums of sizes are far below 2^63, so `l_mem` is `Int`.
-/
namespace Verif.Mem

/-- The blocks that the allocator has given out. -/
abbrev Heap := List (Nat × Nat)

/-- The part of `global_State` for memory — lstate.h:188-189: `totalbytes` and `GCdebt`; `full` is
`g->version && !g->gcstopem` (lmem.c:89). -/
structure State where
  heap : Heap
  total : Int
  debt : Int
  full : Bool

/-- The size of a block. -/
def sizeOf (h : Heap) (b : Nat) : Option Nat := h.lookup b

/-- The heap without a block. -/
def remove (h : Heap) (b : Nat) : Heap := h.filter fun p => p.1 != b

/-- How the call ended: with a block (or NULL), or with a memory error. -/
inductive Out where
  | block (b : Option Nat)
  | errmem
deriving DecidableEq, Repr

/-- The allocator, `g->frealloc` — lmem.c:86, 91 (the contract in lmem.c:20-41): the size of an old
block must be told right; a new size 0 frees the block; otherwise the answer `a` is the new address,
or NULL, which leaves the old block.  An address in use is no answer (`ub`). -/
def frealloc (h : Heap) (b : Option Nat) (osize nsize : Nat) (a : Option Nat) :
    Res (Option Nat × Heap) :=
  match b with
  | some b =>
    if sizeOf h b = some osize then
      if nsize = 0 then .ok (none, remove h b)
      else match a with
        | none => .ok (none, h)
        | some c => if (sizeOf (remove h b) c).isNone then .ok (some c, (c, nsize) :: remove h b) else .ub
    else .ub
  | none =>
    if nsize = 0 then .ok (none, h)
    else match a with
      | none => .ok (none, h)
      | some c => if (sizeOf h c).isNone then .ok (some c, (c, nsize) :: h) else .ub

/-- `g->GCdebt = (g->GCdebt + nsize) - realosize` — lmem.c:80, 97. -/
def account (s : State) (h : Heap) (b : Option Nat) (osize nsize : Nat) : State :=
  { s with heap := h, debt := s.debt + nsize - (if b.isSome then (osize : Int) else 0) }

/-- A block freed by the collector: `luaM_realloc_` with a new size 0. -/
def free (s : State) (b osize : Nat) : Res State := do
  let (_, h) ← frealloc s.heap (some b) osize 0 none
  .ok (account s h (some b) osize 0)

/-- `luaC_fullgc`, as far as memory is concerned: it frees some blocks. -/
def gc (s : State) : List (Nat × Nat) → Res State
  | [] => .ok s
  | (b, n) :: fs => do gc (← free s b n) fs

/-- `luaM_realloc_` — lmem.c:77-99.  `a1` and `a2` are the answers of the allocator, `fs` are the
blocks that an emergency collection frees. -/
def realloc (s : State) (b : Option Nat) (osize nsize : Nat) (a1 a2 : Option Nat)
    (fs : List (Nat × Nat)) : Res (Out × State) := do
  let (r, h) ← frealloc s.heap b osize nsize a1
  if r.isNone ∧ nsize > 0 then
    if s.full then do
      let s ← gc s fs
      let (r, h) ← frealloc s.heap b osize nsize a2
      if r.isNone then .ok (.errmem, s) else .ok (.block r, account s h b osize nsize)
    else .ok (.errmem, s)
  else .ok (.block r, account s h b osize nsize)

/-- `MAX_LMEM` — llimits.h:49. -/
def maxLmem : Int := 9223372036854775807

/-- `luaE_setdebt` — lstate.c:94-101 (without its assertion). -/
def setdebt (s : State) (debt : Int) : State :=
  let tb := s.total + s.debt
  let debt := if debt < tb - maxLmem then tb - maxLmem else debt
  { s with total := tb - debt, debt := debt }

/-- What the rest of the program does with the memory manager. -/
inductive Op where
  | realloc (b : Option Nat) (osize nsize : Nat) (a1 a2 : Option Nat) (fs : List (Nat × Nat))
  | setdebt (d : Int)

/-- One of these after another; a memory error does not end the program, which may catch it. -/
def run (s : State) : List Op → Res State
  | [] => .ok s
  | .realloc b o n a1 a2 fs :: os => do
    let (_, s) ← realloc s b o n a1 a2 fs
    run s os
  | .setdebt d :: os => run (setdebt s d) os

/-- `gettotalbytes` — lstate.h:325. -/
def gettotalbytes (s : State) : Int := s.total + s.debt

/-- The new size in `luaM_growaux_` — lmem.c:48-65; sizes are `int`, so a product out of range is
undefined. -/
def growaux (size limit : Int) : Res Int :=
  if size ≥ limit / 2 then
    if size ≥ limit then .err "too many" else .ok limit
  else if size * 2 > 2147483647 then .ub
  else if size * 2 < 4 then .ok 4 else .ok (size * 2)

/-- A vector: its elements, its size, and how many places were moved by reallocations so far (not in
the code: a count for the cost). -/
structure Vec (α : Type) where
  elems : List α
  size : Int
  moved : Int

/-- `luaM_growvector` — lmem.h:62-64, and the store of a new element after it.  A store past the size
is undefined. -/
def push {α : Type} (limit : Int) (v : Vec α) (x : α) : Res (Vec α) := do
  let v ← (if (v.elems.length : Int) + 1 > v.size then do
      let n ← growaux v.size limit
      .ok { v with size := n, moved := v.moved + v.size }
    else .ok v)
  if (v.elems.length : Int) < v.size then .ok { v with elems := v.elems ++ [x] } else .ub

/-- Elements added one after another. -/
def pushAll {α : Type} (limit : Int) (v : Vec α) : List α → Res (Vec α)
  | [] => .ok v
  | x :: xs => do pushAll limit (← push limit v x) xs

end Verif.Mem
