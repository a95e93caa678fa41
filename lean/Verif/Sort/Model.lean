import Verif.Base
/-!
`table.sort`: `/repo/src/ltablib.c` 275-278 (`set2`), 285-299 (`sort_comp`), 309-339 (`partition`), 346-351 (`choosePivot`), 357-410 (`auxsort`),
413-423 (`sort`).

The array is a function from positions to values; an access outside `1..n` is reported as undefined behaviour (in C it is an access to another
field of the table, which the property forbids).  The order function is arbitrary: it receives the two values and a state `σ` standing for
the rest of the program, and either answers or raises an error (`none`).  `IdxT` (`unsigned int`) arithmetic wraps.
Simplifications: the order function does not itself modify the array; `lua_geti`/`lua_seti` have no metamethods; values
kept on the Lua stack are local variables of the model.
-/
namespace Verif.Sort

variable {V σ : Type}

/-- the environment of a call to `sort`: order function, source of randomness (`l_randomizePivot`, 256-267), and array size -/
structure Env (V σ : Type) where
  cmp : σ → V → V → σ × Option Bool
  rand : σ → σ × Nat
  n : Nat

/-- computations: state is the array and the rest of the program; the final array is returned also on error -/
def M (V σ α : Type) : Type := (Nat → V) → σ → (Nat → V) × σ × Res α

def M.pure {α : Type} (x : α) : M V σ α := fun a s => (a, s, .ok x)

def M.bind {α β : Type} (m : M V σ α) (f : α → M V σ β) : M V σ β := fun a s =>
  match m a s with
  | (a, s, .ok x) => f x a s
  | (a, s, .err e) => (a, s, .err e)
  | (a, s, .ub) => (a, s, .ub)

instance : Monad (M V σ) where
  pure := M.pure
  bind := M.bind

def fail {α : Type} (msg : String) : M V σ α := fun a s => (a, s, .err msg)
def undef {α : Type} : M V σ α := fun a s => (a, s, .ub)

/-- `lua_geti(L, 1, i)` -/
def get (E : Env V σ) (i : Nat) : M V σ V := fun a s => if 1 ≤ i ∧ i ≤ E.n then (a, s, .ok (a i)) else (a, s, .ub)

/-- `lua_seti(L, 1, i)` -/
def put (E : Env V σ) (i : Nat) (v : V) : M V σ Unit := fun a s =>
  if 1 ≤ i ∧ i ≤ E.n then ((fun k => if k = i then v else a k), s, .ok ()) else (a, s, .ub)

/-- `set2`, ltablib.c 275-278: `top` and `below` are the two topmost stack values -/
def set2 (E : Env V σ) (i j : Nat) (top below : V) : M V σ Unit := do
  put E i top
  put E j below

/-- `sort_comp`, ltablib.c 285-299 -/
def comp (E : Env V σ) (x y : V) : M V σ Bool := fun a s =>
  match E.cmp s x y with
  | (s, some b) => (a, s, .ok b)
  | (s, none) => (a, s, .err "error in order function")

/-- unsigned 32-bit wrap -/
def w (x : Nat) : Nat := x % 4294967296
/-- unsigned 32-bit subtraction -/
def usub (x y : Nat) : Nat := w (x + (4294967296 - w y))

/-- first inner loop of `partition`, ltablib.c 315-319; returns `i` and `a[i]` -/
def upLoop (E : Env V σ) (P : V) (up : Nat) : Nat → Nat → M V σ (Nat × V)
  | 0, _ => undef
  | fuel + 1, i => do
    let i := w (i + 1)
    let v ← get E i
    let b ← comp E v P
    if b then
      if i = usub up 1 then fail "invalid order function for sorting" else upLoop E P up fuel i
    else return (i, v)

/-- second inner loop of `partition`, ltablib.c 322-326; returns `j` and `a[j]` -/
def downLoop (E : Env V σ) (P : V) (i : Nat) : Nat → Nat → M V σ (Nat × V)
  | 0, _ => undef
  | fuel + 1, j => do
    let j := usub j 1
    let v ← get E j
    let b ← comp E P v
    if b then
      if j < i then fail "invalid order function for sorting" else downLoop E P i fuel j
    else return (j, v)

/-- `partition`, ltablib.c 309-339 -/
def partitionLoop (E : Env V σ) (P : V) (up : Nat) : Nat → Nat → Nat → M V σ Nat
  | 0, _, _ => undef
  | fuel + 1, i, j => do
    let (i, vi) ← upLoop E P up (E.n + 1) i
    let (j, vj) ← downLoop E P i (E.n + 1) j
    if j < i then do
      set2 E (usub up 1) i vi P
      return i
    else do
      set2 E i j vj vi
      partitionLoop E P up fuel i j

def partition (E : Env V σ) (P : V) (lo up : Nat) : M V σ Nat := partitionLoop E P up (E.n + 1) lo (usub up 1)

/-- `RANLIMIT`, ltablib.c 272 -/
def ranLimit : Nat := 100

/-- `choosePivot`, ltablib.c 346-351 -/
def choosePivot (lo up rnd : Nat) : M V σ Nat :=
  let r4 := usub up lo / 4
  if w (r4 * 2) = 0 then undef else M.pure (w (rnd % w (r4 * 2) + w (lo + r4)))

/-- ltablib.c 363-368: order `a[lo]` and `a[up]` -/
def order2 (E : Env V σ) (lo up : Nat) : M V σ Unit := do
  let vlo ← get E lo
  let vup ← get E up
  let b ← comp E vup vlo
  if b then set2 E lo up vup vlo else return ()

/-- ltablib.c 371-374: the pivot index -/
def pivotIdx (lo up rnd : Nat) : M V σ Nat :=
  if usub up lo < ranLimit ∨ rnd = 0 then M.pure (w (lo + up) / 2) else choosePivot lo up rnd

/-- ltablib.c 375-386: bring `a[p]` between `a[lo]` and `a[up]` -/
def order3 (E : Env V σ) (lo p up : Nat) : M V σ Unit := do
  let vp ← get E p
  let vlo ← get E lo
  let b ← comp E vp vlo
  if b then set2 E p lo vlo vp
  else do
    let vup ← get E up
    let b ← comp E vup vp
    if b then set2 E p up vup vp else return ()

/-- ltablib.c 389-392: move the pivot to `up - 1` -/
def stash (E : Env V σ) (p up : Nat) : M V σ V := do
  let P ← get E p
  let x ← get E (usub up 1)
  set2 E p (usub up 1) x P
  return P

/-- ltablib.c 405-406 -/
def rerandom (E : Env V σ) (lo up n rnd : Nat) : M V σ Nat := fun a s =>
  if n < usub up lo / 128 then
    match E.rand s with
    | (s, r) => (a, s, .ok (w r))
  else (a, s, .ok rnd)

/-- `auxsort`, ltablib.c 357-410; the loop for the tail call is a second recursive call -/
def auxsort (E : Env V σ) : Nat → Nat → Nat → Nat → M V σ Unit
  | 0, _, _, _ => undef
  | fuel + 1, lo, up, rnd =>
    if lo < up then do
      order2 E lo up
      if usub up lo = 1 then return ()
      else do
        let p ← pivotIdx lo up rnd
        order3 E lo p up
        if usub up lo = 2 then return ()
        else do
          let P ← stash E p up
          let p ← partition E P lo up
          if usub p lo < usub up p then do
            auxsort E fuel lo (usub p 1) rnd
            let rnd ← rerandom E (w (p + 1)) up (usub p lo) rnd
            auxsort E fuel (w (p + 1)) up rnd
          else do
            auxsort E fuel (w (p + 1)) up rnd
            let rnd ← rerandom E lo (usub p 1) (usub up p) rnd
            auxsort E fuel lo (usub p 1) rnd
    else return ()

/-- `sort`, ltablib.c 413-423 (`E.n` is the length `aux_getn` returned) -/
def sort (E : Env V σ) : M V σ Unit :=
  if 1 < E.n then
    if E.n < 2147483647 then auxsort E (E.n + 1) 1 E.n 0 else fail "array too big"
  else return ()

end Verif.Sort
