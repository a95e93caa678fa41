import Verif.BitSet.Model
import Verif.Graph.Model

/-!
# The data-flow solver — ravicomp/src/dataflow_framework.c

The callbacks work on a state `σ` of their own.  `qsort` is any function `srt` returning a
rearrangement of its argument.  The model also keeps a log of the nodes handled.
-/
namespace Verif.Dataflow
open Verif.Graph Verif.BitSet

/-- The two callbacks — dataflow_framework.h:32-37.  The first argument is the user data, `none` for
NULL. -/
structure Callbacks (U σ : Type) where
  join : Option U → Nat → Bool → σ → σ × Bool
  transfer : Option U → Nat → σ → σ × Bool

/-- Adding the neighbours to `pending` — dataflow_framework.c:98-104.  Adding a NULL pointer is
undefined here; the program would follow it in the next round. -/
def push (g : Graph) : List Nat → BS → List Nat → Res (BS × List Nat)
  | [], bm, pending => .ok (bm, pending)
  | i :: is, bm, pending => do
    let (bm, new) ← setBit bm i
    if new then do
      needNode g i
      push g is bm (pending ++ [i])
    else push g is bm pending

/-- One node — dataflow_framework.c:86-106.  `ctx.userdata` is NULL: nothing but the `memset` on line
48 ever sets it. -/
def visit {U σ : Type} (cb : Callbacks U σ) (g : Graph) (forward first : Bool) (b : Nat) (s : σ) (bm : BS)
    (pending : List Nat) : Res (σ × BS × List Nat) :=
  let nodes := if forward then g.preds b else g.succs b
  let (s, changed) :=
    if nodes.isEmpty then ((cb.join none b true s).1, first)
    else ((cb.join none b false s).1, first || (cb.join none b false s).2)
  if changed then
    let (s, t) := cb.transfer none b s
    if t then do
      let (bm, pending) ← push g (if forward then g.succs b else g.preds b) bm pending
      pure (s, bm, pending)
    else .ok (s, bm, pending)
  else .ok (s, bm, pending)

/-- One round — dataflow_framework.c:86-107. -/
def round {U σ : Type} (cb : Callbacks U σ) (g : Graph) (forward first : Bool) :
    List Nat → σ → BS → List Nat → Res (σ × BS × List Nat)
  | [], s, bm, pending => .ok (s, bm, pending)
  | b :: bs, s, bm, pending => do
    let (s, bm, pending) ← visit cb g forward first b s bm pending
    round cb g forward first bs s bm pending

/-- The loop — dataflow_framework.c:82-115; the log is the last component. -/
def loop {U σ : Type} (cb : Callbacks U σ) (g : Graph) (forward : Bool) (srt : List Nat → List Nat) :
    Nat → Bool → List Nat → σ → BS → List Nat → Res (σ × List Nat)
  | 0, _, _, _, _, _ => .ub
  | fuel + 1, first, work, s, bm, log =>
    if work.isEmpty then .ok (s, log)
    else do
      let work := srt work
      let (s, bm, pending) ← round cb g forward first work s (clear bm) []
      loop cb g forward srt fuel false pending s bm (log ++ work)

/-- The initial worklist — dataflow_framework.c:78-80. -/
def initial (g : Graph) : List Nat → Res Unit
  | [] => .ok ()
  | i :: is => do
    needNode g i
    initial g is

/-- `raviX_solve_dataflow` — dataflow_framework.c:60-118, without the call of
`raviX_classify_edges` (74), which only provides the keys for the sort.  The argument `userdata` is
not used.  The bound on the number of rounds is never reached. -/
def solve {U σ : Type} (cb : Callbacks U σ) (g : Graph) (forward : Bool) (srt : List Nat → List Nat)
    (_userdata : U) (s : σ) : Res (σ × List Nat) := do
  initial g (List.range (size g))
  loop cb g forward srt (size g + 3) true (List.range (size g)) s (create 512) []

end Verif.Dataflow
