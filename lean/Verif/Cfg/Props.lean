import Verif.Cfg.Model
import Verif.Unused.Props
import Mathlib.Data.List.Perm.Subperm

/-!
# C104: the control-flow graph is that of the code
-/
namespace Verif.Cfg
open Verif.Graph

/-- Block `a` of the function ends with a jump that has `b` among its targets. -/
def JumpsTo (bs : List Blk) (a b : Nat) : Prop := ∃ ts, bs[a]? = some (.jumps ts) ∧ b ∈ ts

/-- What is known of a graph under construction: its edges are those of the relation, and its nodes
are entry, exit and the ends of edges. -/
structure Inv (E : Nat → Nat → Prop) (g : Graph) : Prop where
  wf : WF g
  edge : ∀ x y, y ∈ g.succs x ↔ E x y
  node : ∀ i, g.present i = true ↔ i = 0 ∨ i = 1 ∨ ∃ j, E i j ∨ E j i

theorem Inv.congr {E F : Nat → Nat → Prop} {g : Graph} (h : Inv E g) (hf : ∀ x y, E x y ↔ F x y) : Inv F g :=
  ⟨h.wf, fun x y => (h.edge x y).trans (hf x y), fun i => by rw [h.node]; simp only [hf]⟩

theorem Inv.addEdge {E : Nat → Nat → Prop} {g g' : Graph} (h : Inv E g) {a b : Nat}
    (he : addEdge g a b = .ok g') : Inv (fun x y => (x = a ∧ y = b) ∨ E x y) g' := by
  obtain ⟨k1, k2, k3⟩ := addEdge_spec h.wf he
  refine ⟨k1, ?_, ?_⟩
  · intro x y
    rw [← hasEdge_iff k1, k2, hasEdge_iff h.wf, h.edge]
  · intro i
    rw [k3, h.node]
    grind

theorem addTargets_inv (ts : List Nat) {E : Nat → Nat → Prop} {g g' : Graph} (h : Inv E g) {a : Nat}
    (he : addTargets g a ts = .ok g') : Inv (fun x y => (x = a ∧ y ∈ ts) ∨ E x y) g' := by
  induction ts generalizing g E with
  | nil => cases he; exact h.congr (by simp)
  | cons t ts ih =>
    simp only [addTargets] at he
    obtain ⟨g1, e1, e2⟩ := Res.bind_eq_ok.1 he
    refine (ih (h.addEdge e1) e2).congr ?_
    intro x y
    rw [List.mem_cons]
    grind

theorem jumps_cons (b : Blk) (bs : List Blk) (i x y : Nat) :
    (∃ a, x = i + a ∧ JumpsTo (b :: bs) a y) ↔
      (∃ ts, x = i ∧ b = .jumps ts ∧ y ∈ ts) ∨ ∃ a, x = i + 1 + a ∧ JumpsTo bs a y := by
  unfold JumpsTo
  constructor
  · rintro ⟨a, hx, ts, h1, h2⟩
    cases a with
    | zero => exact .inl ⟨ts, hx, by simpa using h1, h2⟩
    | succ a => exact .inr ⟨a, by omega, ts, by simpa using h1, h2⟩
  · rintro (⟨ts, hx, hb, h2⟩ | ⟨a, hx, ts, h1, h2⟩)
    · exact ⟨0, hx, ts, by simp [hb], h2⟩
    · exact ⟨a + 1, by omega, ts, by simpa using h1, h2⟩

theorem blocks_inv (bs : List Blk) (i : Nat) {E : Nat → Nat → Prop} {g g' : Graph} (h : Inv E g)
    (he : blocks bs i g = .ok (some g')) :
    Inv (fun x y => (∃ a, x = i + a ∧ JumpsTo bs a y) ∨ E x y) g' ∧ .other ∉ bs := by
  induction bs generalizing i g E with
  | nil =>
    cases he
    exact ⟨h.congr (by simp [JumpsTo]), by simp⟩
  | cons b bs ih =>
    cases b with
    | empty =>
      obtain ⟨k, k'⟩ := ih (i + 1) h he
      refine ⟨k.congr fun x y => ?_, by simpa using k'⟩
      rw [jumps_cons]
      simp
    | jumps ts =>
      simp only [blocks] at he
      obtain ⟨g1, e1, e2⟩ := Res.bind_eq_ok.1 he
      obtain ⟨k, k'⟩ := ih (i + 1) (addTargets_inv ts h e1) e2
      refine ⟨k.congr fun x y => ?_, by simpa using k'⟩
      rw [jumps_cons]
      simp only [Blk.jumps.injEq]
      grind
    | other => cases he

theorem init_inv : Inv (fun _ _ => False) (init 0 1) := by
  obtain ⟨h1, h2, h3⟩ := init_correct 0 1
  refine ⟨h1, fun x y => ?_, fun i => by rw [h3]; simp⟩
  rw [← hasEdge_iff h1, h2]
  simp

/-- When the construction succeeds, block `b` is a successor of `a`, and `a` a predecessor of `b`,
exactly if the jump at the end of `a` has `b` as a target; no list has duplicates; the nodes are entry,
exit and the blocks that jump or are jumped to; and every block that is not empty ends with a jump. -/
theorem construct_exact (bs : List Blk) (g : Graph) (h : construct bs = .ok (some g)) :
    (∀ a b, b ∈ g.succs a ↔ JumpsTo bs a b) ∧ (∀ a b, a ∈ g.preds b ↔ JumpsTo bs a b) ∧
      (∀ a, (g.succs a).Nodup ∧ (g.preds a).Nodup) ∧
      (∀ i, g.present i = true ↔ i = 0 ∨ i = 1 ∨ ∃ j, JumpsTo bs i j ∨ JumpsTo bs j i) ∧
      .other ∉ bs ∧ WF g := by
  obtain ⟨k, k'⟩ := blocks_inv bs 0 init_inv h
  have k2 : Inv (JumpsTo bs) g := k.congr fun x y => by simp
  exact ⟨k2.edge, fun a b => by rw [← k2.wf.sync, k2.edge], fun a => ⟨k2.wf.nodupS a, k2.wf.nodupP a⟩,
    k2.node, k', k2.wf⟩

theorem addEdge_small {E : Nat → Nat → Prop} {g : Graph} (h : Inv E g) {n : Nat} (hn : n < listMax)
    (hE : ∀ x y, E x y → x < n ∧ y < n) (a b : Nat) : ∃ g', Graph.addEdge g a b = .ok g' := by
  have small : ∀ l : List Nat, l.Nodup → (∀ x ∈ l, x < n) → l.length < listMax := by
    intro l hl hx
    have := (List.subperm_of_subset hl (fun x h => List.mem_range.2 (hx x h))).length_le
    rw [List.length_range] at this
    omega
  refine addEdge_total g h.wf a b (small _ (h.wf.nodupS a) fun y hy => (hE a y ((h.edge a y).1 hy)).2)
    (small _ (h.wf.nodupP b) fun x hx => ?_)
  rw [← h.wf.sync, h.edge] at hx
  exact (hE x b hx).1

theorem addTargets_total (ts : List Nat) {E : Nat → Nat → Prop} {g : Graph} (h : Inv E g) {n a : Nat}
    (hn : n < listMax) (hE : ∀ x y, E x y → x < n ∧ y < n) (ha : a < n) (ht : ∀ t ∈ ts, t < n) :
    ∃ g', addTargets g a ts = .ok g' := by
  induction ts generalizing g E with
  | nil => exact ⟨g, rfl⟩
  | cons t ts ih =>
    obtain ⟨g1, e1⟩ := addEdge_small h hn hE a t
    have htn := ht t (by simp)
    obtain ⟨g2, e2⟩ := ih (h.addEdge e1) (by
      rintro x y (⟨rfl, rfl⟩ | hxy)
      · exact ⟨ha, htn⟩
      · exact hE x y hxy) (fun s hs => ht s (by simp [hs]))
    exact ⟨g2, by simp only [addTargets, e1, Res.bind_ok, e2]⟩

theorem blocks_total (bs : List Blk) (i : Nat) {E : Nat → Nat → Prop} {g : Graph} (h : Inv E g) {n : Nat}
    (hn : n < listMax) (hE : ∀ x y, E x y → x < n ∧ y < n) (hi : i + bs.length = n)
    (ht : ∀ ts, .jumps ts ∈ bs → ∀ t ∈ ts, t < n) :
    ∃ r, blocks bs i g = .ok r ∧ (r = none ↔ .other ∈ bs) := by
  induction bs generalizing i g E with
  | nil => exact ⟨some g, rfl, by simp⟩
  | cons b bs ih =>
    have hi' : i + 1 + bs.length = n := by simp at hi; omega
    have ht' : ∀ ts, .jumps ts ∈ bs → ∀ t ∈ ts, t < n := fun ts h => ht ts (by simp [h])
    cases b with
    | empty =>
      obtain ⟨r, k1, k2⟩ := ih (i + 1) h hE hi' ht'
      exact ⟨r, k1, by simpa using k2⟩
    | jumps ts =>
      have hts := ht ts (by simp)
      obtain ⟨g1, e1⟩ := addTargets_total ts h hn hE (a := i) (by omega) hts
      obtain ⟨r, k1, k2⟩ := ih (i + 1) (addTargets_inv ts h e1) (by
        rintro x y (⟨rfl, hy⟩ | hxy)
        · exact ⟨by omega, hts y hy⟩
        · exact hE x y hxy) hi' ht'
      exact ⟨r, by simp only [blocks, e1, Res.bind_ok, k1], by simpa using k2⟩
    | other => exact ⟨none, rfl, by simp⟩

/-- On a function of less than 65528 blocks whose jumps go to its own blocks the construction never
goes wrong; it gives up exactly if a block that is not empty does not end with a jump. -/
theorem construct_total (bs : List Blk) (hn : bs.length < listMax)
    (ht : ∀ ts, .jumps ts ∈ bs → ∀ t ∈ ts, t < bs.length) :
    ∃ r, construct bs = .ok r ∧ (r = none ↔ .other ∈ bs) :=
  blocks_total bs 0 init_inv hn (by simp) (by simp) ht

/-- Construction and removal together, on a function whose blocks, except block 1 (the exit),
all end with a jump to some block of it: neither goes wrong, and the removal leaves the
instructions and the jumps of every block that control may reach, where control goes by the
jumps of the code. -/
theorem construct_remove {ι : Type} (bs : List Blk) (hn : bs.length < listMax)
    (hb : ∀ (i : Nat) (b : Blk), i ≠ 1 → bs[i]? = some b → ∃ t ts, b = .jumps (t :: ts))
    (h1 : bs[1]? = some .empty) (ht : ∀ ts, .jumps ts ∈ bs → ∀ t ∈ ts, t < bs.length) (code : Nat → List ι) :
    ∃ g q, construct bs = .ok (some g) ∧
      Unused.loop 0 1 bs.length (bs.length + 1) ⟨g, code⟩ = .ok q ∧
      ∀ v, Relation.ReflTransGen (JumpsTo bs) 0 v →
        q.code v = code v ∧ ∀ w, w ∈ q.g.succs v ↔ JumpsTo bs v w := by
  obtain ⟨r, k1, k2⟩ := construct_total bs hn ht
  have hno : .other ∉ bs := by
    intro h
    obtain ⟨i, hi, he⟩ := List.mem_iff_getElem.1 h
    have he' : bs[i]? = some .other := by rw [List.getElem?_eq_getElem hi, he]
    by_cases h1i : i = 1
    · rw [h1i, h1] at he'; cases he'
    · obtain ⟨t, ts, hb⟩ := hb i _ h1i he'
      cases hb
  cases r with
  | none => exact absurd (k2.1 rfl) hno
  | some g =>
    obtain ⟨e1, _, _, e4, _, e6⟩ := construct_exact bs g k1
    obtain ⟨q, j1, j2, _⟩ := Unused.removal_safe 0 1 bs.length (⟨g, code⟩ : Unused.Proc ι) e6 (by
      intro b hlt
      show g.present b = true
      rw [e4]
      by_cases h1b : b = 1
      · exact .inr (.inl h1b)
      · obtain ⟨t, ts, h⟩ := hb b bs[b] h1b (List.getElem?_eq_getElem hlt)
        exact .inr (.inr ⟨t, .inl ⟨t :: ts, by rw [List.getElem?_eq_getElem hlt, h], by simp⟩⟩))
      (bs.length + 1) (by omega)
    refine ⟨g, q, k1, j1, fun v hv => ?_⟩
    have hr : Unused.Reach g 0 v := by
      induction hv with
      | refl => exact .entry
      | tail _ he ih => exact .step _ _ ih ((e1 _ _).2 he)
    obtain ⟨m1, m2⟩ := j2 v hr
    exact ⟨m1, fun w => (m2 w).trans (e1 v w)⟩

/-- A block that is empty and that nothing jumps to has no node, and the removal then uses a null
pointer: the condition on empty blocks is needed. -/
theorem empty_block_ub :
    (match construct [.jumps [1], .empty, .empty] with
      | .ok (some g) => (match Unused.loop 0 1 3 4 (⟨g, fun _ => []⟩ : Unused.Proc Nat) with
        | .ub => true | _ => false)
      | _ => false) = true := by decide +kernel

/-- `if c then return end`, with a dead block behind the `return`. -/
def exBlocks : List Blk := [.jumps [2, 4], .empty, .jumps [1], .jumps [4], .jumps [1]]

example : exBlocks.length < listMax ∧
    (∀ (i : Nat) (b : Blk), i ≠ 1 → exBlocks[i]? = some b → ∃ t ts, b = .jumps (t :: ts)) ∧
    exBlocks[1]? = some .empty ∧ (∀ ts, .jumps ts ∈ exBlocks → ∀ t ∈ ts, t < exBlocks.length) := by
  refine ⟨by decide, ?_, rfl, by simp [exBlocks]⟩
  intro i b hi hb
  rcases i with _ | _ | _ | _ | _ | i
  · cases hb; exact ⟨_, _, rfl⟩
  · exact absurd rfl hi
  · cases hb; exact ⟨_, _, rfl⟩
  · cases hb; exact ⟨_, _, rfl⟩
  · cases hb; exact ⟨_, _, rfl⟩
  · simp [exBlocks] at hb

end Verif.Cfg
