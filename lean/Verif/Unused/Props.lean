import Verif.Unused.Model
import Verif.Graph.Props

/-!
# C102: the removal of unreachable blocks does not change what a function does
-/
namespace Verif.Unused
open Verif.Graph

/-- A block that control may reach. -/
inductive Reach (g : Graph) (entry : Nat) : Nat → Prop
  | entry : Reach g entry entry
  | step (a b : Nat) : Reach g entry a → b ∈ g.succs a → Reach g entry b

/-- Control goes through the blocks of the list, one after another. -/
def Path (g : Graph) : Nat → List Nat → Prop
  | _, [] => True
  | a, b :: bs => b ∈ g.succs a ∧ Path g b bs

theorem deleteEdge_mem {g : Graph} (h : WF g) {a b : Nat} (hb : b ∈ g.succs a) :
    ∃ g', deleteEdge g a b = .ok g' ∧ WF g' ∧
      (∀ x y, y ∈ g'.succs x ↔ ¬ (x = a ∧ y = b) ∧ y ∈ g.succs x) ∧ ∀ i, g'.present i = g.present i := by
  obtain ⟨h1, h2⟩ := h.ends a b hb
  obtain ⟨g', k1, k2, k3, k4⟩ := deleteEdge_spec h h1 h2
  refine ⟨g', k1, k2, ?_, k4⟩
  intro x y
  rw [← hasEdge_iff k2, ← hasEdge_iff h]
  exact k3 x y

theorem deleteAll_spec (ss : List Nat) {g : Graph} (h : WF g) {b : Nat} (hn : ss.Nodup)
    (hs : ∀ s ∈ ss, s ∈ g.succs b) :
    ∃ g', deleteAll g b ss = .ok g' ∧ WF g' ∧
      (∀ x y, y ∈ g'.succs x ↔ ¬ (x = b ∧ y ∈ ss) ∧ y ∈ g.succs x) ∧ ∀ i, g'.present i = g.present i := by
  induction ss generalizing g with
  | nil => exact ⟨g, rfl, h, by simp, fun _ => rfl⟩
  | cons s ss ih =>
    obtain ⟨g1, k1, k2, k3, k4⟩ := deleteEdge_mem h (hs s (by simp))
    rw [List.nodup_cons] at hn
    obtain ⟨g2, j1, j2, j3, j4⟩ := ih k2 hn.2 (by
      intro t ht
      rw [k3]
      refine ⟨?_, hs t (by simp [ht])⟩
      rintro ⟨_, rfl⟩
      exact hn.1 ht)
    refine ⟨g2, by simp only [deleteAll, k1, Res.bind_ok, j1], j2, ?_, fun i => (j4 i).trans (k4 i)⟩
    intro x y
    rw [j3, k3, List.mem_cons]
    grind

/-- What `process_block` does. -/
theorem processBlock_spec {ι : Type} (p : Proc ι) (hw : WF p.g) (b : Nat) (hb : p.g.present b = true) :
    (processBlock p b = .ok (false, p) ∧ (p.g.preds b ≠ [] ∨ p.g.succs b = [])) ∨
    ∃ q, processBlock p b = .ok (true, q) ∧ p.g.preds b = [] ∧ p.g.succs b ≠ [] ∧ WF q.g ∧
      (∀ x y, y ∈ q.g.succs x ↔ x ≠ b ∧ y ∈ p.g.succs x) ∧ (∀ i, q.g.present i = p.g.present i) ∧
      q.code b = [] ∧ ∀ x, x ≠ b → q.code x = p.code x := by
  have hneed : needNode p.g b = .ok () := by
    unfold needNode
    rw [if_pos ⟨hw.bound b hb, hb⟩]
  unfold processBlock
  rw [hneed]
  simp only [Res.bind_ok]
  by_cases h1 : p.g.preds b = []
  · rw [if_neg (by simp [h1])]
    by_cases h2 : p.g.succs b = []
    · rw [if_pos (by simp [h2])]
      exact .inl ⟨rfl, .inr h2⟩
    · rw [if_neg (by simpa using h2)]
      obtain ⟨g', k1, k2, k3, k4⟩ := deleteAll_spec (p.g.succs b) hw (hw.nodupS b) (fun _ h => h)
      have he : g'.succs b = [] := by
        rw [List.eq_nil_iff_forall_not_mem]
        intro y hy
        rw [k3] at hy
        exact hy.1 ⟨rfl, hy.2⟩
      rw [k1]
      simp only [Res.bind_ok]
      rw [if_pos (by simp [he])]
      refine .inr ⟨_, rfl, h1, h2, k2, ?_, k4, upd_same _ _ _, fun x hx => upd_ne _ _ hx⟩
      intro x y
      rw [k3]
      grind
  · rw [if_pos (by simpa using h1)]
    exact .inl ⟨rfl, .inl h1⟩

/-- What is true of the function all the time, against what it was at first. -/
structure Inv {ι : Type} (entry n : Nat) (p0 p : Proc ι) : Prop where
  wf : WF p.g
  present : ∀ i, p.g.present i = p0.g.present i
  keep : ∀ v, Reach p0.g entry v → p.code v = p0.code v ∧ ∀ w, w ∈ p.g.succs v ↔ w ∈ p0.g.succs v
  sub : ∀ v w, w ∈ p.g.succs v → w ∈ p0.g.succs v
  code : ∀ v, p.code v = p0.code v ∨ (p.code v = [] ∧ p.g.succs v = [] ∧ ¬ Reach p0.g entry v)

theorem Inv.block {ι : Type} {entry n : Nat} {p0 p q : Proc ι} (h : Inv entry n p0 p) {b : Nat}
    (hb : p.g.present b = true) (hne : b ≠ entry) (hp : processBlock p b = .ok (true, q)) :
    Inv entry n p0 q ∧ p.g.succs b ≠ [] ∧ q.g.succs b = [] ∧ ∀ x, p.g.succs x = [] → q.g.succs x = [] := by
  rcases processBlock_spec p h.wf b hb with ⟨k, _⟩ | ⟨q', k1, k2, k3, k4, k5, k6, k7, k8⟩
  · rw [k] at hp; cases hp
  · rw [k1] at hp
    cases hp
    have hnr : ¬ Reach p0.g entry b := by
      intro hr
      cases hr with
      | entry => exact hne rfl
      | step a _ ha he =>
        have := ((h.keep a ha).2 b).2 he
        rw [h.wf.sync, k2] at this
        cases this
    have hnil : ∀ x, (∀ y, ¬ y ∈ q.g.succs x) → q.g.succs x = [] :=
      fun x hx => List.eq_nil_iff_forall_not_mem.2 hx
    have hqb : q.g.succs b = [] := hnil b fun y hy => ((k5 b y).1 hy).1 rfl
    have hmono : ∀ x, p.g.succs x = [] → q.g.succs x = [] := by
      intro x hx
      refine hnil x fun y hy => ?_
      have := ((k5 x y).1 hy).2
      rw [hx] at this
      cases this
    refine ⟨⟨k4, fun i => (k6 i).trans (h.present i), ?_, ?_, ?_⟩, k3, hqb, hmono⟩
    · intro v hv
      have hvb : v ≠ b := by rintro rfl; exact hnr hv
      obtain ⟨j1, j2⟩ := h.keep v hv
      refine ⟨(k8 v hvb).trans j1, fun w => ?_⟩
      rw [k5, ← j2]
      simp [hvb]
    · intro v w hw
      exact h.sub v w ((k5 v w).1 hw).2
    · intro v
      by_cases hvb : v = b
      · subst hvb
        exact .inr ⟨k7, hqb, hnr⟩
      · rw [k8 v hvb]
        rcases h.code v with j | ⟨j1, j2, j3⟩
        · exact .inl j
        · exact .inr ⟨j1, hmono v j2, j3⟩

/-- The number of blocks with successors. -/
def meas (g : Graph) (bs : List Nat) : Nat := bs.countP fun b => !(g.succs b).isEmpty

theorem meas_le {g g' : Graph} (bs : List Nat) (h : ∀ x, g.succs x = [] → g'.succs x = []) :
    meas g' bs ≤ meas g bs := by
  unfold meas
  apply List.countP_mono_left
  intro x _ hx
  cases hc : g.succs x with
  | nil =>
    rw [h x hc] at hx
    simp at hx
  | cons _ _ => rfl

theorem meas_lt {g g' : Graph} (bs : List Nat) (h : ∀ x, g.succs x = [] → g'.succs x = []) {b : Nat}
    (hb : b ∈ bs) (h1 : g.succs b ≠ []) (h2 : g'.succs b = []) : meas g' bs < meas g bs := by
  induction bs with
  | nil => cases hb
  | cons c bs ih =>
    have hle := meas_le bs h
    unfold meas at hle ih ⊢
    rw [List.countP_cons, List.countP_cons]
    rcases List.mem_cons.1 hb with rfl | hb
    · rw [h2]
      have : (!(g.succs b).isEmpty) = true := by simpa using h1
      rw [this]
      simp only [List.isEmpty_nil, Bool.not_true, Bool.false_eq_true, if_false, if_true]
      omega
    · have := ih hb
      by_cases hc : g.succs c = []
      · rw [hc, h c hc]
        omega
      · have : (!(g.succs c).isEmpty) = true := by simpa using hc
        rw [this]
        simp only [if_true]
        split <;> omega

theorem pass_spec {ι : Type} {entry exit n : Nat} {p0 : Proc ι} (all bs : List Nat) (ha : ∀ b ∈ bs, b ∈ all)
    (hp0 : ∀ b ∈ bs, p0.g.present b = true) (c : Bool) (p : Proc ι) (h : Inv entry n p0 p) :
    ∃ c' q, pass entry exit bs c p = .ok (c', q) ∧ Inv entry n p0 q ∧
      (∀ x, p.g.succs x = [] → q.g.succs x = []) ∧
      ((c' = c ∧ q = p ∧ ∀ b ∈ bs, b ≠ entry → b ≠ exit → p.g.preds b ≠ [] ∨ p.g.succs b = []) ∨
        c' = true ∧ meas q.g all < meas p.g all) := by
  induction bs generalizing c p with
  | nil => exact ⟨c, p, rfl, h, fun _ hx => hx, .inl ⟨rfl, rfl, by simp⟩⟩
  | cons b bs ih =>
    have ha' : ∀ b ∈ bs, b ∈ all := fun x hx => ha x (by simp [hx])
    have hp0' : ∀ b ∈ bs, p0.g.present b = true := fun x hx => hp0 x (by simp [hx])
    by_cases hbe : b = entry ∨ b = exit
    · obtain ⟨c', q, k1, k2, k3, k4⟩ := ih ha' hp0' c p h
      refine ⟨c', q, by simp only [pass]; rw [if_pos hbe]; exact k1, k2, k3, ?_⟩
      rcases k4 with ⟨j1, j2, j3⟩ | k4
      · refine .inl ⟨j1, j2, ?_⟩
        intro x hx h1 h2
        rcases List.mem_cons.1 hx with rfl | hx
        · rcases hbe with rfl | rfl
          · exact absurd rfl h1
          · exact absurd rfl h2
        · exact j3 x hx h1 h2
      · exact .inr k4
    · have hpb : p.g.present b = true := by rw [h.present]; exact hp0 b (by simp)
      rcases processBlock_spec p h.wf b hpb with ⟨k, hk⟩ | ⟨q', k1, _⟩
      · obtain ⟨c', q, k1, k2, k3, k4⟩ := ih ha' hp0' c p h
        refine ⟨c', q, ?_, k2, k3, ?_⟩
        · simp only [pass]
          rw [if_neg hbe, k]
          simp only [Res.bind_ok, Bool.or_false]
          exact k1
        · rcases k4 with ⟨j1, j2, j3⟩ | k4
          · refine .inl ⟨j1, j2, ?_⟩
            intro x hx h1 h2
            rcases List.mem_cons.1 hx with rfl | hx
            · exact hk
            · exact j3 x hx h1 h2
          · exact .inr k4
      · obtain ⟨i1, i2, i3, i4⟩ := h.block hpb (fun he => hbe (.inl he)) k1
        obtain ⟨c', q, m1, m2, m3, m4⟩ := ih ha' hp0' true q' i1
        have hlt := meas_lt all i4 (ha b (by simp)) i2 i3
        refine ⟨c', q, ?_, m2, fun x hx => m3 x (i4 x hx), .inr ?_⟩
        · simp only [pass]
          rw [if_neg hbe, k1]
          simp only [Res.bind_ok, Bool.or_true]
          exact m1
        · rcases m4 with ⟨j1, j2, _⟩ | ⟨j1, j2⟩
          · rw [j2]; exact ⟨j1, hlt⟩
          · exact ⟨j1, by omega⟩

theorem loop_spec {ι : Type} {entry exit n : Nat} {p0 : Proc ι}
    (hp0 : ∀ b, b < n → p0.g.present b = true) (f : Nat) (p : Proc ι) (h : Inv entry n p0 p)
    (hf : meas p.g (List.range n) < f) :
    ∃ q, loop entry exit n f p = .ok q ∧ Inv entry n p0 q ∧
      ∀ b, b < n → b ≠ entry → b ≠ exit → q.g.preds b ≠ [] ∨ q.g.succs b = [] := by
  induction f generalizing p with
  | zero => omega
  | succ f ih =>
    obtain ⟨c', q, k1, k2, _, k4⟩ := pass_spec (exit := exit) (List.range n) (List.range n) (fun _ h => h)
      (fun b hb => hp0 b (List.mem_range.1 hb)) false p h
    simp only [loop, k1, Res.bind_ok]
    rcases k4 with ⟨rfl, rfl, j⟩ | ⟨rfl, j⟩
    · exact ⟨q, rfl, k2, fun b hb => j b (List.mem_range.2 hb)⟩
    · simp only [if_true]
      exact ih q k2 (by omega)

/-- The removal of unreachable blocks, on a function whose blocks `0..n-1` are all nodes of its graph:
it ends, without an assertion that fails; every block that control may reach keeps its instructions
and its successors; other blocks keep their instructions or lose all of them; and then no block (but
the first and the last) has successors and no predecessor. -/
theorem removal_safe {ι : Type} (entry exit n : Nat) (p : Proc ι) (hw : WF p.g)
    (hp : ∀ b, b < n → p.g.present b = true) (f : Nat) (hf : n < f) :
    ∃ q, loop entry exit n f p = .ok q ∧
      (∀ v, Reach p.g entry v → q.code v = p.code v ∧ ∀ w, w ∈ q.g.succs v ↔ w ∈ p.g.succs v) ∧
      (∀ v, q.code v = p.code v ∨ (q.code v = [] ∧ ¬ Reach p.g entry v)) ∧
      ∀ b, b < n → b ≠ entry → b ≠ exit → q.g.preds b ≠ [] ∨ q.g.succs b = [] := by
  have h0 : Inv entry n p p := ⟨hw, fun _ => rfl, fun _ _ => ⟨rfl, fun _ => Iff.rfl⟩, fun _ _ h => h,
    fun _ => .inl rfl⟩
  have hm : meas p.g (List.range n) < f := by
    have := List.countP_le_length (p := fun b => !(p.g.succs b).isEmpty) (l := List.range n)
    rw [List.length_range] at this
    unfold meas
    omega
  obtain ⟨q, k1, k2, k3⟩ := loop_spec (exit := exit) hp f p h0 hm
  refine ⟨q, k1, k2.keep, fun v => ?_, k3⟩
  rcases k2.code v with h | ⟨h1, _, h3⟩
  · exact .inl h
  · exact .inr ⟨h1, h3⟩

/-- Hence control goes the same ways before and after, through the same instructions. -/
theorem same_runs {ι : Type} (entry exit n : Nat) (p q : Proc ι) (hw : WF p.g)
    (hp : ∀ b, b < n → p.g.present b = true) (f : Nat) (hf : n < f)
    (h : loop entry exit n f p = .ok q) (bs : List Nat) :
    (Path q.g entry bs ↔ Path p.g entry bs) ∧
      (Path p.g entry bs → (entry :: bs).map q.code = (entry :: bs).map p.code) := by
  obtain ⟨q', k1, k2, _⟩ := removal_safe entry exit n p hw hp f hf
  rw [h] at k1
  cases k1
  have key : ∀ a, Reach p.g entry a → (Path q.g a bs ↔ Path p.g a bs) ∧
      (Path p.g a bs → (a :: bs).map q.code = (a :: bs).map p.code) := by
    induction bs with
    | nil =>
      intro a ha
      exact ⟨Iff.rfl, fun _ => by simp [(k2 a ha).1]⟩
    | cons b bs ih =>
      intro a ha
      refine ⟨?_, ?_⟩
      · simp only [Path, (k2 a ha).2 b]
        constructor
        · rintro ⟨h1, h2⟩
          exact ⟨h1, (ih b (.step a b ha h1)).1.1 h2⟩
        · rintro ⟨h1, h2⟩
          exact ⟨h1, (ih b (.step a b ha h1)).1.2 h2⟩
      · rintro ⟨h1, h2⟩
        have := (ih b (.step a b ha h1)).2 h2
        rw [List.map_cons, this, (k2 a ha).1]
        rfl
  exact key entry .entry

/-- A graph: 0 → 2 → 1, and the blocks 3 → 4 → 2 that nothing reaches, and a loop 5 ↔ 6. -/
def exGraph : Graph :=
  match run [.add 0 2, .add 2 1, .add 3 4, .add 4 2, .add 5 6, .add 6 5] (init 0 1) with
  | .ok g => g
  | _ => init 0 1

/-- The hypotheses of `removal_safe` hold of it. -/
example : WF exGraph ∧ (∀ b, b < 7 → exGraph.present b = true) ∧ Reach exGraph 0 1 := by
  have h : ∃ g, run [.add 0 2, .add 2 1, .add 3 4, .add 4 2, .add 5 6, .add 6 5] (init 0 1) = .ok g ∧
      exGraph = g := ⟨_, rfl, rfl⟩
  obtain ⟨g, h1, h2⟩ := h
  refine ⟨h2 ▸ (run_spec _ _ g (init_correct 0 1).1 h1).1, by decide +kernel, ?_⟩
  exact .step 2 1 (.step 0 2 .entry (by decide +kernel)) (by decide +kernel)

/-- Blocks 3 and 4 are emptied, in two rounds or one; the loop that nothing reaches stays. -/
theorem loop_stays : (match loop 0 1 7 8 (⟨exGraph, fun b => [b]⟩ : Proc Nat) with
    | .ok q => (List.range 7).map q.code == [[0], [1], [2], [], [], [5], [6]]
    | _ => false) = true := by decide +kernel

end Verif.Unused
