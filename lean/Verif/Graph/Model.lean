import Verif.Base

/-!
# Control-flow graphs of the Ravi compiler — ravicomp/src/graph.c

A node is identified by its index in `nodes`; `present i` says that `nodes[i]` is not NULL.  The
node lists hold indices.  Memory is always available.
-/
namespace Verif.Graph

/-- `struct Graph`, `struct GraphNode` — graph.c:29-57, without the numbering (see `Num`). -/
structure Graph where
  allocated : Nat
  present : Nat → Bool
  succs : Nat → List Nat
  preds : Nat → List Nat
  entry : Nat
  exit : Nat

/-- Array or field update. -/
def upd {α : Type} (f : Nat → α) (i : Nat) (x : α) : Nat → α := fun j => if j = i then x else f j

/-- `node_list_search(...) != -1` — graph.c:77-85. -/
def listHas (l : List Nat) (x : Nat) : Bool := l.contains x

/-- The largest number of entries for which growing the list by 8 keeps `allocated` inside its 16
bits — graph.c:44-45, 99-102. -/
def listMax : Nat := 65528

/-- `node_list_add` — graph.c:97-119.  When the list is full at 65528 entries the new capacity 65536
is stored as 0 in 16 bits: the assertion on line 114 fails, and without assertions the next addition
reallocates the array to 8 entries and writes far beyond it.  Both are undefined here. -/
def listAdd (l : List Nat) (x : Nat) : Res (List Nat) :=
  if listHas l x then .ok l
  else if l.length ≥ listMax then .ub
  else .ok (l ++ [x])

/-- `node_list_delete` — graph.c:122-128: removes the first entry equal to `x`. -/
def listDelete (l : List Nat) (x : Nat) : List Nat := l.erase x

/-- `raviX_add_node` — graph.c:181-209. -/
def addNode (g : Graph) (i : Nat) : Graph :=
  if i < g.allocated ∧ g.present i = true then g
  else
    { g with
      allocated := if i ≥ g.allocated then i + 8 else g.allocated
      present := upd g.present i true
      succs := upd g.succs i []
      preds := upd g.preds i [] }

/-- `raviX_init_graph` — graph.c:140-152. -/
def init (entry exit : Nat) : Graph :=
  let g := addNode ⟨0, fun _ => false, fun _ => [], fun _ => [], 0, 0⟩ entry
  let g := addNode g exit
  { g with entry := entry, exit := exit }

/-- `raviX_add_edge` — graph.c:211-218. -/
def addEdge (g : Graph) (a b : Nat) : Res Graph := do
  let g := addNode g a
  let g := addNode g b
  let s ← listAdd (g.succs a) b
  let g := { g with succs := upd g.succs a s }
  let p ← listAdd (g.preds b) a
  pure { g with preds := upd g.preds b p }

/-- `raviX_graph_node` followed by a use of the node — graph.c:285-299: the index must be inside the
array and the node must exist. -/
def needNode (g : Graph) (i : Nat) : Res Unit :=
  if i < g.allocated ∧ g.present i = true then .ok () else .ub

/-- `raviX_delete_edge` — graph.c:220-233. -/
def deleteEdge (g : Graph) (a b : Nat) : Res Graph := do
  needNode g a
  needNode g b
  let g := { g with succs := upd g.succs a (listDelete (g.succs a) b) }
  pure { g with preds := upd g.preds b (listDelete (g.preds b) a) }

/-- `raviX_has_edge` — graph.c:235-241. -/
def hasEdge (g : Graph) (a b : Nat) : Bool :=
  if a < g.allocated ∧ g.present a = true then listHas (g.succs a) b else false

/-- `raviX_graph_size` — graph.c:264-273. -/
def size (g : Graph) : Nat := (List.range g.allocated).countP g.present

/-- `enum EdgeType` — graph.h:55-61. -/
inductive EdgeType
  | unclassified | tree | backward | forward | cross
deriving DecidableEq, Repr

/-- The numbering: `pre` and `rpost` of each node, the edge types, and the two counters —
graph.c:37-40, 51-57, 301-304. -/
structure Num where
  pre : Nat → Nat
  rpost : Nat → Nat
  etype : Nat → Nat → EdgeType
  preorder : Nat
  rpostorder : Nat

/-- `E->edge_type = t` for the edge from `a` to `b`. -/
def setType (st : Num) (a b : Nat) (t : EdgeType) : Num :=
  { st with etype := fun x y => if x = a ∧ y = b then t else st.etype x y }

/-- The loop over the successors in `DFS_classify` — graph.c:318-331; `rec` is the recursive call. -/
def edges (g : Graph) (rec : Nat → Num → Res Num) (n : Nat) : List Nat → Num → Res Num
  | [], st => .ok st
  | s :: ss, st => do
    needNode g s
    if st.pre s = 0 then do
      let st ← rec s (setType st n s .tree)
      edges g rec n ss st
    else if st.rpost s = 0 then edges g rec n ss (setType st n s .backward)
    else if st.pre n < st.pre s then edges g rec n ss (setType st n s .forward)
    else edges g rec n ss (setType st n s .cross)

/-- `DFS_classify` — graph.c:310-335.  The first argument bounds the depth of the recursion. -/
def dfs (g : Graph) : Nat → Nat → Num → Res Num
  | 0, _, _ => .ub
  | fuel + 1, n, st => do
    let st := { st with pre := upd st.pre n st.preorder, preorder := st.preorder + 1 }
    let st ← edges g (dfs g fuel) n (g.succs n) st
    pure { st with rpost := upd st.rpost n st.rpostorder, rpostorder := st.rpostorder - 1 }

/-- The inner reset loop of `raviX_classify_edges` — graph.c:355-358.  Its counter has the same name
as the outer one, so it resets edge `j` of node `j`, for `j` from 0 on, and stops at the first node
`j` with at most `j` successors. -/
def resetInner (g : Graph) : Nat → Nat → Num → Res Num
  | 0, _, _ => .ub
  | fuel + 1, j, st => do
    needNode g j
    match (g.succs j)[j]? with
    | some s => resetInner g fuel (j + 1) (setType st j s .unclassified)
    | none => pure st

/-- The outer reset loop — graph.c:351-360. -/
def reset (g : Graph) : List Nat → Num → Res Num
  | [], st => .ok st
  | i :: is, st =>
    if g.present i then do
      let st := { st with pre := upd st.pre i 0, rpost := upd st.rpost i 0 }
      let st ← resetInner g (g.allocated + 1) 0 st
      reset g is st
    else reset g is st

/-- `raviX_classify_edges` — graph.c:342-363. -/
def classify (g : Graph) (st : Num) : Res Num :=
  let N := size g
  if N = 0 then .ok st
  else do
    let st ← reset g (List.range g.allocated) { st with preorder := 1, rpostorder := N }
    needNode g g.entry
    dfs g (N + 1) g.entry st

/-- `raviX_graph_nodes_sorted_by_RPO` — graph.c:365-393.  `qsort` is any sorting algorithm; with
distinct keys there is only one result.  `forward` gives descending order (373-378). -/
def sorted (g : Graph) (st : Num) (forward : Bool) : List Nat :=
  ((List.range g.allocated).filter g.present).mergeSort
    (fun a b => if forward then decide (st.rpost b ≤ st.rpost a) else decide (st.rpost a ≤ st.rpost b))

end Verif.Graph
