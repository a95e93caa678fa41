import Verif.Base

/-!
Model of the pointer lists of the Ravi compiler: `ravicomp/src/ptrlist.c` and
`ravicomp/src/ptrlist.h`.

A pointer list is a ring of heap nodes, doubly linked, each with up to seven entries; the list
itself is a pointer to its first node.  The model keeps the heap: nodes are reached through
their addresses only, the links `prev_` and `next_` are addresses stored in nodes, and reading or
writing through `NULL`, through a freed node, or outside the array of a node is undefined
behaviour (`Res.ub`).  A failing `assert` is the outcome `err "assert"`.

Loops that follow pointers take a number `f` of rounds they may still run; `err "rounds"` says that
they were not enough.  Theorems are about every `f` that is large enough.

Simplified: `nr_` and `rm_` are mathematical integers (they are bit-fields of eight bits; the
theorems keep them between 0 and 7); all nodes come from one allocator, which never fails (the C
code writes through the result of `calloc` without looking at it) and the field `allocator_`
is left out; `N_` is `LIST_NODE_NR` (only a test that is compiled out changes it); forming a
pointer one before the array of a node, as the shifting loops do, is not an error, reading
or writing there is.  `raviX_ptrlist_sort` and its helpers are not modelled.
-/
namespace Verif.PtrList

/-- `LIST_NODE_NR` (ptrlist.h 42-44) and `N_` (ptrlist.c 22) -/
def cap : Int := 7

/-- a node: `DECLARE_PTR_LIST` (ptrlist.h 47-55); `slot` is `list_`, of which the indices
below `cap` exist -/
structure Node where
  nr : Int
  rm : Int
  prev : Nat
  next : Nat
  slot : Nat → Nat

/-- a node as `calloc` gives it -/
def Node.zero : Node := ⟨0, 0, 0, 0, fun _ => 0⟩

/-- addresses to nodes; `NULL` is the address 0 and elements are addresses too -/
abbrev Heap := Nat → Option Node

/-- a finite heap in which `NULL` is not a node -/
def Heap.Fine (h : Heap) : Prop := h 0 = none ∧ ∃ b, ∀ q, b ≤ q → h q = none

/-- store a whole node -/
def Heap.set (h : Heap) (p : Nat) (n : Node) : Heap := fun q => if q = p then some n else h q

/-- `alloc->free(alloc->arena, p)` -/
def Heap.free (h : Heap) (p : Nat) : Res Heap :=
  match h p with
  | some _ => .ok (fun q => if q = p then none else h q)
  | none => .ub

/-- read through a pointer -/
def get (h : Heap) (p : Nat) : Res Node :=
  match h p with
  | some n => .ok n
  | none => .ub

/-- write fields through a pointer -/
def mod (h : Heap) (p : Nat) (f : Node → Node) : Res Heap :=
  match h p with
  | some n => .ok (h.set p (f n))
  | none => .ub

/-- `alloc->calloc(alloc->arena, 1, sizeof(PtrList))`: some address that is not in use -/
structure Alloc where
  new : Heap → Nat
  fresh : ∀ h : Heap, h.Fine → h (new h) = none ∧ new h ≠ 0

/-- `list_[i]` read -/
def Node.rd (n : Node) (i : Int) : Res Nat :=
  if 0 ≤ i ∧ i < cap then .ok (n.slot i.toNat) else .ub

/-- `list_[i] = v` -/
def Node.wr (n : Node) (i : Int) (v : Nat) : Res Node :=
  if 0 ≤ i ∧ i < cap then
    .ok { n with slot := fun j => if j = i.toNat then v else n.slot j }
  else .ub

/-- what `memset(…, 0xf0, …)` leaves in a pointer (ptrlist.c 41) -/
def poison : Nat := 0xf0f0f0f0f0f0f0f0

/-- `raviX_ptrlist_split_node` (ptrlist.c 24-42) -/
def splitNode (al : Alloc) (h : Heap) (p : Nat) : Res Heap := do
  let n ← get h p
  let nr := n.nr.tdiv 2
  let q := al.new h
  let next := n.next
  let old := n.nr - nr
  if 0 ≤ nr ∧ 0 ≤ old ∧ old + nr ≤ cap then do
    let h ← .ok (h.set q Node.zero)
    let h ← mod h p (fun n => { n with nr := old })
    let h ← mod h q (fun n => { n with next := next })
    let h ← mod h next (fun n => { n with prev := q })
    let h ← mod h q (fun n => { n with prev := p })
    let h ← mod h p (fun n => { n with next := q })
    let h ← mod h q (fun n => { n with nr := nr })
    let src ← get h p
    let h ← mod h q (fun n =>
      { n with slot := fun j => if j < nr.toNat then src.slot (old.toNat + j) else n.slot j })
    mod h p (fun n =>
      { n with slot := fun j =>
          if old.toNat ≤ j ∧ j < old.toNat + nr.toNat then poison else n.slot j })
  else .ub

/-- `PtrListIterator` (ptrlist.h 61-65) -/
structure It where
  head : Nat
  list : Nat
  nr : Int
deriving DecidableEq, Repr

/-- `raviX_ptrlist_forward_iterator` (ptrlist.c 44-50) -/
def forward (l : Nat) : It := ⟨l, l, -1⟩

/-- `raviX_ptrlist_reverse_iterator` (ptrlist.c 52-60) -/
def reverse (h : Heap) (l : Nat) : Res It :=
  if l = 0 then .ok ⟨0, 0, 0⟩
  else do
    let n ← get h l
    let m ← get h n.prev
    .ok ⟨n.prev, n.prev, m.nr⟩

/-- `Lretry` of `raviX_ptrlist_iter_next` (ptrlist.c 67-80) -/
def nextLoop (h : Heap) : Nat → It → Res (Nat × It)
  | 0, _ => .err "rounds"
  | f + 1, it => do
    let n ← get h it.list
    if it.nr < n.nr then do
      let p ← n.rd it.nr
      if n.rm ≠ 0 ∧ p = 0 then nextLoop h f { it with nr := it.nr + 1 }
      else .ok (p, it)
    else if n.next ≠ it.head then nextLoop h f { it with list := n.next, nr := 0 }
    else .ok (0, it)

/-- `raviX_ptrlist_iter_next` (ptrlist.c 62-81) -/
def iterNext (h : Heap) (f : Nat) (it : It) : Res (Nat × It) :=
  if it.head = 0 then .ok (0, it)
  else nextLoop h f { it with nr := it.nr + 1 }

/-- `Lretry` of `raviX_ptrlist_iter_prev` (ptrlist.c 103-116) -/
def prevLoop (h : Heap) : Nat → It → Res (Nat × It)
  | 0, _ => .err "rounds"
  | f + 1, it => do
    let n ← get h it.list
    if it.nr ≥ 0 ∧ it.nr < n.nr then do
      let p ← n.rd it.nr
      if n.rm ≠ 0 ∧ p = 0 then prevLoop h f { it with nr := it.nr - 1 }
      else .ok (p, it)
    else if n.prev ≠ it.head then do
      let m ← get h n.prev
      prevLoop h f { it with list := n.prev, nr := m.nr - 1 }
    else .ok (0, it)

/-- `raviX_ptrlist_iter_prev` (ptrlist.c 98-117) -/
def iterPrev (h : Heap) (f : Nat) (it : It) : Res (Nat × It) :=
  if it.head = 0 then .ok (0, it)
  else prevLoop h f { it with nr := it.nr - 1 }

/-- the loop of `raviX_ptrlist_nth_entry` (ptrlist.c 88-94) -/
def nthLoop (h : Heap) (head : Nat) : Nat → Nat → Int → Res Nat
  | 0, _, _ => .err "rounds"
  | f + 1, list, idx => do
    let n ← get h list
    if idx < n.nr then n.rd idx
    else if n.next ≠ head then nthLoop h head f n.next (idx - n.nr)
    else .ok 0

/-- `raviX_ptrlist_nth_entry` (ptrlist.c 83-96) -/
def nthEntry (h : Heap) (f : Nat) (l : Nat) (idx : Nat) : Res Nat :=
  if l = 0 then .ok 0 else nthLoop h l f l idx

/-- `raviX_ptrlist_iter_split_current` (ptrlist.c 119-129) -/
def iterSplitCurrent (al : Alloc) (h : Heap) (it : It) : Res (Heap × It) := do
  let n ← get h it.list
  if n.nr = cap then do
    let h ← splitNode al h it.list
    let n ← get h it.list
    if it.nr ≥ n.nr then .ok (h, { it with nr := it.nr - n.nr, list := n.next })
    else .ok (h, it)
  else .ok (h, it)

/-- the loop of `raviX_ptrlist_iter_insert` (ptrlist.c 137-140); `k` entries are left to move, the
last of them is at `this + k - 1` -/
def shiftUp (n : Node) (this : Int) : Nat → Res Node
  | 0 => .ok n
  | k + 1 => do
    let v ← n.rd (this + k)
    let n ← n.wr (this + k + 1) v
    shiftUp n this k

/-- `raviX_ptrlist_iter_insert` (ptrlist.c 131-143) -/
def iterInsert (al : Alloc) (h : Heap) (it : It) (v : Nat) : Res (Heap × It) :=
  if it.nr ≥ 0 then do
    let (h, it) ← iterSplitCurrent al h it
    let n ← get h it.list
    let n ← shiftUp n it.nr (n.nr - it.nr).toNat
    let n ← n.wr it.nr v
    .ok (h.set it.list { n with nr := n.nr + 1 }, it)
  else .err "assert"

/-- the loop of `raviX_ptrlist_iter_remove` (ptrlist.c 150-153); `k` entries are left to move -/
def shiftDown (n : Node) (this : Int) : Nat → Res (Node × Int)
  | 0 => .ok (n, this)
  | k + 1 => do
    let v ← n.rd (this + 1)
    let n ← n.wr this v
    shiftDown n (this + 1) k

/-- `raviX_ptrlist_iter_remove` (ptrlist.c 145-157) -/
def iterRemove (h : Heap) (it : It) : Res (Heap × It) :=
  if it.nr ≥ 0 then do
    let n ← get h it.list
    let (n, this) ← shiftDown n it.nr (n.nr - 1 - it.nr).toNat
    let n ← n.wr this 0xf0f0f0f0
    .ok (h.set it.list { n with nr := n.nr - 1 }, { it with nr := it.nr - 1 })
  else .err "assert"

/-- `raviX_ptrlist_iter_set` (ptrlist.c 159-163) -/
def iterSet (h : Heap) (it : It) (v : Nat) : Res Heap :=
  if it.list = 0 then .err "assert"
  else do
    let n ← get h it.list
    if it.nr ≥ 0 ∧ it.nr < n.nr then do
      let n ← n.wr it.nr v
      .ok (h.set it.list n)
    else .err "assert"

/-- `raviX_ptrlist_iter_mark_deleted` (ptrlist.c 165-169) -/
def iterMarkDeleted (h : Heap) (it : It) : Res Heap := do
  let h ← iterSet h it 0
  mod h it.list (fun n => { n with rm := n.rm + 1 })

/-- the loop of `raviX_ptrlist_size` (ptrlist.c 176-178) -/
def sizeLoop (h : Heap) (head : Nat) : Nat → Nat → Int → Res Int
  | 0, _, _ => .err "rounds"
  | f + 1, list, nr => do
    let n ← get h list
    let nr := nr + (n.nr - n.rm)
    if n.next ≠ head then sizeLoop h head f n.next nr else .ok nr

/-- `raviX_ptrlist_size` (ptrlist.c 171-181) -/
def size (h : Heap) (f : Nat) (l : Nat) : Res Int :=
  if l = 0 then .ok 0 else sizeLoop h l f l 0

/-- the end of `raviX_ptrlist_add` (ptrlist.c 206-210) -/
def fill (h : Heap) (last : Nat) (nr : Int) (v : Nat) : Res Heap := do
  let n ← get h last
  let n ← n.wr nr v
  .ok (h.set last { n with nr := nr + 1 })

/-- `raviX_ptrlist_add` (ptrlist.c 183-211); the new value of `*self` and where the element is -/
def add (al : Alloc) (h : Heap) (l : Nat) (v : Nat) : Res (Heap × Nat × Nat × Int) :=
  if l = 0 then do
    let q := al.new h
    let h ← .ok (h.set q Node.zero)
    let h ← mod h q (fun n => { n with next := q })
    let h ← mod h q (fun n => { n with prev := q })
    let h ← fill h q 0 v
    .ok (h, q, q, 0)
  else do
    let n ← get h l
    let last := n.prev
    let m ← get h last
    if m.nr ≥ cap then do
      let q := al.new h
      let h ← .ok (h.set q Node.zero)
      let h ← mod h q (fun n => { n with prev := last })
      let h ← mod h q (fun n => { n with next := l })
      let h ← mod h l (fun n => { n with prev := q })
      let h ← mod h last (fun n => { n with next := q })
      let h ← fill h q 0 v
      .ok (h, l, q, 0)
    else do
      let h ← fill h last m.nr v
      .ok (h, l, last, m.nr)

/-- `raviX_ptrlist_first` (ptrlist.c 213-218) -/
def first (h : Heap) (l : Nat) : Res Nat :=
  if l = 0 then .ok 0 else do
    let n ← get h l
    n.rd 0

/-- `raviX_ptrlist_last` (ptrlist.c 220-226) -/
def last (h : Heap) (l : Nat) : Res Nat :=
  if l = 0 then .ok 0 else do
    let n ← get h l
    let m ← get h n.prev
    m.rd (m.nr - 1)

/-- `memcpy(arr, list->list_, i * sizeof(void *))` (ptrlist.c 246) -/
def Node.copy (n : Node) (i : Int) : Res (List Nat) :=
  if 0 ≤ i ∧ i ≤ cap then .ok ((List.range i.toNat).map n.slot) else .ub

/-- the loop of `raviX_ptrlist_linearize` (ptrlist.c 242-252); the result is what has been
written to `arr` -/
def linearizeLoop (h : Heap) (head : Nat) : Nat → Nat → Int → List Nat → Res (List Nat)
  | 0, _, _, _ => .err "rounds"
  | f + 1, list, max, arr => do
    let n ← get h list
    let i := if n.nr > max then max else n.nr
    let c ← n.copy i
    let arr := arr ++ c
    let max := max - i
    if max = 0 then .ok arr
    else if n.next ≠ head then linearizeLoop h head f n.next max arr
    else .ok arr

/-- `raviX_ptrlist_linearize` (ptrlist.c 236-255); what is written to `arr`, whose length is the
result -/
def linearize (h : Heap) (f : Nat) (l : Nat) (max : Int) : Res (List Nat) :=
  if l ≠ 0 ∧ max > 0 then linearizeLoop h l f l max [] else .ok []

/-- the loop of `raviX_ptrlist_pack` (ptrlist.c 268-293) -/
def packLoop : Nat → Heap → Nat → Nat → Res (Heap × Nat)
  | 0, _, _, _ => .err "rounds"
  | f + 1, h, head, entry => do
    let n ← get h entry
    let next := n.next
    if n.nr = 0 then
      if next = entry then do
        let h ← h.free entry
        .ok (h, 0)
      else do
        let prev := n.prev
        let h ← mod h prev (fun n => { n with next := next })
        let h ← mod h next (fun n => { n with prev := prev })
        let h ← h.free entry
        if entry = head then packLoop f h next next
        else if next ≠ head then packLoop f h head next
        else .ok (h, head)
    else if next ≠ head then packLoop f h head next
    else .ok (h, head)

/-- `raviX_ptrlist_pack` (ptrlist.c 263-295); the new value of `*self` -/
def pack (h : Heap) (f : Nat) (l : Nat) : Res (Heap × Nat) :=
  if l = 0 then .ok (h, 0) else packLoop f h l l

/-- the loop of `raviX_ptrlist_remove_all` (ptrlist.c 303-308) -/
def freeLoop : Nat → Heap → Nat → Res Heap
  | 0, _, _ => .err "rounds"
  | f + 1, h, list =>
    if list = 0 then .ok h
    else do
      let n ← get h list
      let h ← h.free list
      freeLoop f h n.next

/-- `raviX_ptrlist_remove_all` (ptrlist.c 297-310); `*self` is `NULL` afterwards -/
def removeAll (h : Heap) (f : Nat) (l : Nat) : Res Heap :=
  if l = 0 then .ok h
  else do
    let n ← get h l
    let h ← mod h n.prev (fun n => { n with next := 0 })
    freeLoop f h l

/-- the loop of `raviX_ptrlist_remove` (ptrlist.c 315-322): the heap and the count after it;
`g` is the number of rounds, `f` that of `raviX_ptrlist_iter_next` -/
def removeLoop (f : Nat) (entry : Nat) : Nat → Heap → It → Int → Res (Heap × Int)
  | 0, _, _, _ => .err "rounds"
  | g + 1, h, it, count => do
    let (ptr, it) ← iterNext h f it
    if ptr = 0 then
      if count ≤ 0 then .ok (h, count) else .err "assert"
    else if ptr = entry then do
      let (h, it) ← iterRemove h it
      if count - 1 = 0 then .ok (h, 0) else removeLoop f entry g h it (count - 1)
    else removeLoop f entry g h it count

/-- `raviX_ptrlist_remove` (ptrlist.c 312-326); the new value of `*self` and the result -/
def remove (h : Heap) (f : Nat) (l : Nat) (entry : Nat) (count : Int) : Res (Heap × Nat × Int) := do
  let (h, c) ← removeLoop f entry f h (forward l) count
  let (h, l) ← pack h f l
  .ok (h, l, c)

/-- the loop of `raviX_ptrlist_replace` (ptrlist.c 331-338) -/
def replaceLoop (f : Nat) (old new : Nat) : Nat → Heap → It → Int → Res (Heap × Int)
  | 0, _, _, _ => .err "rounds"
  | g + 1, h, it, count => do
    let (ptr, it) ← iterNext h f it
    if ptr = 0 then
      if count ≤ 0 then .ok (h, count) else .err "assert"
    else if ptr = old then do
      let h ← iterSet h it new
      if count - 1 = 0 then .ok (h, 0) else replaceLoop f old new g h it (count - 1)
    else replaceLoop f old new g h it count

/-- `raviX_ptrlist_replace` (ptrlist.c 328-341) -/
def replace (h : Heap) (f : Nat) (l : Nat) (old new : Nat) (count : Int) : Res (Heap × Int) :=
  replaceLoop f old new f h (forward l) count

/-- the loop of `raviX_ptrlist_undo_last` (ptrlist.c 351-360); `last` is the value before the round -/
def undoLoop (h : Heap) (head : Nat) : Nat → Nat → Res (Heap × Nat)
  | 0, _ => .err "rounds"
  | f + 1, last => do
    let n ← get h last
    let last := n.prev
    let m ← get h last
    if m.nr ≠ 0 then do
      let nr := m.nr - 1
      let v ← m.rd nr
      let m ← m.wr nr 0xf1f1f1f1
      .ok (h.set last { m with nr := nr }, v)
    else if last ≠ head then undoLoop h head f last
    else .ok (h, 0)

/-- `raviX_ptrlist_undo_last` (ptrlist.c 344-362) -/
def undoLast (h : Heap) (f : Nat) (l : Nat) : Res (Heap × Nat) :=
  if l = 0 then .ok (h, 0) else undoLoop h l f l

/-- `raviX_ptrlist_delete_last` (ptrlist.c 364-383); the new value of `*self` and the result -/
def deleteLast (h : Heap) (l : Nat) : Res (Heap × Nat × Nat) :=
  if l = 0 then .ok (h, 0, 0)
  else do
    let n ← get h l
    let last := n.prev
    let m ← get h last
    let (h, ptr, nr) ← (if m.nr ≠ 0 then do
        let v ← m.rd (m.nr - 1)
        .ok (h.set last { m with nr := m.nr - 1 }, v, m.nr - 1)
      else .ok (h, 0, m.nr) : Res (Heap × Nat × Int))
    if nr ≤ 0 then do
      let m ← get h last
      let h ← mod h l (fun n => { n with prev := m.prev })
      let m ← get h last
      let h ← mod h m.prev (fun n => { n with next := l })
      let h' ← h.free last
      .ok (h', if last = l then 0 else l, ptr)
    else .ok (h, l, ptr)

/-- the loop of `raviX_ptrlist_concat` (ptrlist.c 395-397) -/
def concatLoop (al : Alloc) (f : Nat) : Nat → Heap → It → Nat → Res (Heap × Nat)
  | 0, _, _, _ => .err "rounds"
  | g + 1, h, it, l => do
    let (ptr, it) ← iterNext h f it
    if ptr = 0 then .ok (h, l)
    else do
      let (h, l, _, _) ← add al h l ptr
      concatLoop al f g h it l

/-- `raviX_ptrlist_concat` (ptrlist.c 385-398); the new value of `*self` -/
def concat (al : Alloc) (h : Heap) (f : Nat) (a l : Nat) : Res (Heap × Nat) :=
  if a = 0 ∧ l = 0 then .ok (h, l)
  else concatLoop al f f h (forward a) l

/-- `FOR_EACH_PTR` (ptrlist.h 100-105) with a body that only looks: the elements it sees -/
def walk (h : Heap) (f : Nat) : Nat → It → Res (List Nat)
  | 0, _ => .err "rounds"
  | g + 1, it => do
    let (p, it) ← iterNext h f it
    if p = 0 then .ok []
    else do
      let r ← walk h f g it
      .ok (p :: r)

/-- `FOR_EACH_PTR_REVERSE` (ptrlist.h 107-112) with a body that only looks; also
`RECURSE_PTR_REVERSE` (ptrlist.h 114-118), which starts from a copy of another iterator -/
def walkBack (h : Heap) (f : Nat) : Nat → It → Res (List Nat)
  | 0, _ => .err "rounds"
  | g + 1, it => do
    let (p, it) ← iterPrev h f it
    if p = 0 then .ok []
    else do
      let r ← walkBack h f g it
      .ok (p :: r)

end Verif.PtrList
