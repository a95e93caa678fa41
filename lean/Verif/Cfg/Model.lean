import Verif.Graph.Model

/-!
# Construction of the control-flow graph — ravicomp/src/cfg.c 35-64

A function is the list of its basic blocks; block `i` is `proc->nodes[i]` and has index `i`.
-/
namespace Verif.Cfg
open Verif.Graph

/-- What the last instruction of a block is, as far as the construction looks at it
(cfg.c:40-51): there is none, it is `op_br`, `op_cbr` or `op_ret` with its target blocks, or it is
something else. -/
inductive Blk
  | empty
  | jumps (targets : List Nat)
  | other
deriving DecidableEq, Repr

/-- The edges of one block — cfg.c:45-50. -/
def addTargets (g : Graph) (a : Nat) : List Nat → Res Graph
  | [] => .ok g
  | t :: ts => do addTargets (← addEdge g a t) a ts

/-- The loop over the blocks — cfg.c:38-54, from block `i` on; `none` for the result 1. -/
def blocks : List Blk → Nat → Graph → Res (Option Graph)
  | [], _, g => .ok (some g)
  | .empty :: bs, i, g => blocks bs (i + 1) g
  | .jumps ts :: bs, i, g => do blocks bs (i + 1) (← addTargets g i ts)
  | .other :: _, _, _ => .ok none

/-- `raviX_construct_cfg` of one function — cfg.c:35-55; `ENTRY_BLOCK` is 0 and `EXIT_BLOCK` is 1
(common.h:33-34).  Not modelled: the recursion over nested functions. -/
def construct (bs : List Blk) : Res (Option Graph) := blocks bs 0 (init 0 1)

end Verif.Cfg
