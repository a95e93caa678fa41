import Verif.Graph.Model

/-!
# Dominator trees — ravicomp/src/dominator.c

`IDOM` is a function from node indices; reading or writing it at an index not below `N` (the size of
the array, the number of nodes in the graph) is undefined.
-/
namespace Verif.Dom
open Verif.Graph

/-- `ENTRY_BLOCK` — common.h:33. -/
def ENTRY_BLOCK : Nat := 0

/-- `state->IDOM[i]` — dominator.c:54-58. -/
def rd (N : Nat) (T : Nat → Option Nat) (i : Nat) : Res (Option Nat) := if i < N then .ok (T i) else .ub

/-- `state->IDOM[i] = x`. -/
def wr (N : Nat) (T : Nat → Option Nat) (i : Nat) (x : Option Nat) : Res (Nat → Option Nat) :=
  if i < N then .ok (upd T i x) else .ub

/-- `intersect` — dominator.c:80-95.  The nested loops are written as one: the conditions of the
inner loops imply that the fingers differ.  Following a NULL entry is undefined (86-87, 90-91), as
is not finishing within the number of steps given. -/
def intersect (N : Nat) (rpo : Nat → Nat) (T : Nat → Option Nat) : Nat → Nat → Nat → Res Nat
  | 0, _, _ => .ub
  | fuel + 1, i, j =>
    if i = j then .ok i
    else if rpo i > rpo j then do
      let k ← rd N T i
      match k with
      | some k => intersect N rpo T fuel k j
      | none => .ub
    else if rpo j > rpo i then do
      let k ← rd N T j
      match k with
      | some k => intersect N rpo T fuel i k
      | none => .ub
    else intersect N rpo T fuel i j

/-- `find_first_predecessor_with_idom` — dominator.c:101-109. -/
def firstPred (N : Nat) (T : Nat → Option Nat) : List Nat → Res (Option Nat)
  | [] => .ok none
  | p :: ps => do
    let d ← rd N T p
    match d with
    | some _ => pure (some p)
    | none => firstPred N T ps

/-- The loop over the other predecessors — dominator.c:148-157. -/
def meet (g : Graph) (N : Nat) (rpo : Nat → Nat) (T : Nat → Option Nat) (fuel first : Nat) :
    List Nat → Nat → Res Nat
  | [], d => .ok d
  | p :: ps, d =>
    if p = first then meet g N rpo T fuel first ps d
    else do
      needNode g p
      let q ← rd N T p
      match q with
      | some _ => do
        let d ← intersect N rpo T fuel p d
        meet g N rpo T fuel first ps d
      | none => meet g N rpo T fuel first ps d

/-- The new value for node `b` — dominator.c:142-157.  The assertion on line 145 must hold. -/
def newIdom (g : Graph) (N : Nat) (rpo : Nat → Nat) (T : Nat → Option Nat) (fuel b : Nat) : Res Nat := do
  let first ← firstPred N T (g.preds b)
  match first with
  | none => .ub
  | some p => meet g N rpo T fuel p (g.preds b) p

/-- One node — dominator.c:138-161: the new array and whether it changed. -/
def node (g : Graph) (N : Nat) (rpo : Nat → Nat) (fuel : Nat) (T : Nat → Option Nat) (b : Nat) :
    Res ((Nat → Option Nat) × Bool) :=
  if b = ENTRY_BLOCK then .ok (T, false)
  else do
    let d ← newIdom g N rpo T fuel b
    let old ← rd N T b
    if old ≠ some d then do
      let T ← wr N T b (some d)
      pure (T, true)
    else pure (T, false)

/-- One pass over the nodes — dominator.c:137-162. -/
def pass (g : Graph) (N : Nat) (rpo : Nat → Nat) (fuel : Nat) :
    List Nat → (Nat → Option Nat) → Bool → Res ((Nat → Option Nat) × Bool)
  | [], T, ch => .ok (T, ch)
  | b :: bs, T, ch => do
    let (T, c) ← node g N rpo fuel T b
    pass g N rpo fuel bs T (ch || c)

/-- `while (changed)` — dominator.c:133-163. -/
def iter (g : Graph) (N : Nat) (rpo : Nat → Nat) (fuel : Nat) (order : List Nat) :
    Nat → (Nat → Option Nat) → Res (Nat → Option Nat)
  | 0, _ => .ub
  | k + 1, T => do
    let (T, ch) ← pass g N rpo fuel order T false
    if ch then iter g N rpo fuel order k T else pure T

/-- `raviX_calculate_dominator_tree` — dominator.c:116-165, with `N` as set by
`raviX_new_dominator_tree` (60-67).  The bounds on the numbers of steps are never reached. -/
def calculate (g : Graph) (st : Num) : Res (Nat → Option Nat) := do
  let N := size g
  needNode g ENTRY_BLOCK
  let T ← wr N (fun _ => none) ENTRY_BLOCK (some ENTRY_BLOCK)
  iter g N st.rpost (2 * N + 1) (sorted g st false) (N * N + 2) T

end Verif.Dom
