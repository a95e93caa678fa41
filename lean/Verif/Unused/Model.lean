import Verif.Graph.Model

/-!
# Removal of unreachable blocks — ravicomp/src/opt_unusedcode.c

The graph is that of `Verif.Graph`; a block is an index and has a list of instructions.
-/
namespace Verif.Unused
open Verif.Graph

/-- The parts of `Proc` that the pass uses: the control-flow graph and the instructions of the
blocks. -/
structure Proc (ι : Type) where
  g : Graph
  code : Nat → List ι

/-- Deletes the edges from `b` to each of the nodes of a copied list — opt_unusedcode.c:59-62. -/
def deleteAll (g : Graph) (b : Nat) : List Nat → Res Graph
  | [] => .ok g
  | s :: ss => do deleteAll (← deleteEdge g b s) b ss

/-- `process_block` — opt_unusedcode.c:38-70. -/
def processBlock {ι : Type} (p : Proc ι) (b : Nat) : Res (Bool × Proc ι) := do
  needNode p.g b
  if (p.g.preds b).length ≠ 0 then .ok (false, p)
  else if (p.g.succs b).length = 0 then .ok (false, p)
  else do
    let g ← deleteAll p.g b (p.g.succs b)
    if (g.succs b).length = 0 then .ok (true, ⟨g, upd p.code b []⟩) else .err "assertion"

/-- The inner loop of `process_proc` — opt_unusedcode.c:81-88, over the blocks of a list; `entry` and
`exit` are `ENTRY_BLOCK` and `EXIT_BLOCK`. -/
def pass {ι : Type} (entry exit : Nat) : List Nat → Bool → Proc ι → Res (Bool × Proc ι)
  | [], changed, p => .ok (changed, p)
  | b :: bs, changed, p =>
    if b = entry ∨ b = exit then pass entry exit bs changed p
    else do
      let (c, p) ← processBlock p b
      pass entry exit bs (changed || c) p

/-- The outer loop — opt_unusedcode.c:79-89; the first number bounds the rounds (`ub` if they run
out).  The code has no bound: the proofs are for every number of rounds that is large enough. -/
def loop {ι : Type} (entry exit n : Nat) : Nat → Proc ι → Res (Proc ι)
  | 0, _ => .ub
  | f + 1, p => do
    let (c, p) ← pass entry exit (List.range n) false p
    if c then loop entry exit n f p else .ok p

end Verif.Unused
