import Verif.Graph.Dfs

/-!
# C60 — numbering and classifying the edges of a control-flow graph

`raviX_classify_edges` gives a number to exactly the nodes reachable from the entry; the numbers are
a reverse postorder, and the edges marked BACKWARD are exactly those that do not go to a larger
number.  The reset loop of the function uses one name for two counters, and can follow a NULL
pointer.
-/
namespace Verif.Graph

/-- Reachable from the entry. -/
inductive Reach (g : Graph) : Nat → Prop
  | entry : Reach g g.entry
  | step {a b : Nat} : Reach g a → b ∈ g.succs a → Reach g b

theorem resetInner_ok {g : Graph} (hg : WF g) {j0 : Nat} (hpre : ∀ i, i ≤ j0 → g.present i = true)
    (hj0 : (g.succs j0).length ≤ j0) : ∀ (fuel j : Nat) (st : Num), j ≤ j0 → j0 - j < fuel →
    ∃ st', resetInner g fuel j st = .ok st' ∧ st'.pre = st.pre ∧ st'.rpost = st.rpost ∧
      st'.preorder = st.preorder ∧ st'.rpostorder = st.rpostorder := by
  intro fuel
  induction fuel with
  | zero => intro j st _ h; omega
  | succ fuel ih =>
    intro j st hj hf
    show ∃ st', (needNode g j >>= _) = .ok st' ∧ _
    rw [needNode_ok hg (hpre j hj), Res.bind_ok]
    cases hs : (g.succs j)[j]? with
    | none => exact ⟨st, rfl, rfl, rfl, rfl, rfl⟩
    | some s =>
      have hlt : j < (g.succs j).length := (List.getElem?_eq_some_iff.1 hs).1
      have hne : j ≠ j0 := by intro e; subst e; omega
      obtain ⟨st', r1, r2, r3, r4, r5⟩ := ih (j + 1) (setType st j s .unclassified) (by omega) (by omega)
      exact ⟨st', r1, r2, r3, r4, r5⟩

theorem reset_ok {g : Graph} (hg : WF g) {j0 : Nat} (hpre : ∀ i, i ≤ j0 → g.present i = true)
    (hj0 : (g.succs j0).length ≤ j0) : ∀ (is : List Nat) (st : Num),
    ∃ st', reset g is st = .ok st' ∧
      (∀ v, v ∈ is → g.present v = true → st'.pre v = 0 ∧ st'.rpost v = 0) ∧
      (∀ v, st.pre v = 0 → st'.pre v = 0) ∧ (∀ v, st.rpost v = 0 → st'.rpost v = 0) ∧
      st'.preorder = st.preorder ∧ st'.rpostorder = st.rpostorder := by
  intro is
  induction is with
  | nil => intro st; exact ⟨st, rfl, fun v h => (nomatch h), fun _ h => h, fun _ h => h, rfl, rfl⟩
  | cons i is ih =>
    intro st
    unfold reset
    by_cases hp : g.present i = true
    · rw [if_pos hp]
      dsimp only
      have hb := hg.bound j0 (hpre j0 (Nat.le_refl _))
      obtain ⟨st1, r1, r2, r3, r4, r5⟩ := resetInner_ok hg hpre hj0 (g.allocated + 1) 0
        { st with pre := upd st.pre i 0, rpost := upd st.rpost i 0 } (Nat.zero_le _) (by omega)
      rw [r1, Res.bind_ok]
      obtain ⟨st2, s1, s2, s3, s4, s5, s6⟩ := ih st1
      have hz : ∀ (f : Nat → Nat) v, (v = i ∨ f v = 0) → upd f i 0 v = 0 := by
        intro f v hv
        by_cases e : v = i
        · rw [e, upd_same]
        · rw [upd_ne _ _ e]; rcases hv with h | h
          · exact absurd h e
          · exact h
      refine ⟨st2, s1, ?_, ?_, ?_, by rw [s5, r4], by rw [s6, r5]⟩
      · intro v hv hpv
        rcases List.mem_cons.1 hv with e | e
        · exact ⟨s3 v (by rw [r2]; exact hz _ v (Or.inl e)), s4 v (by rw [r3]; exact hz _ v (Or.inl e))⟩
        · exact s2 v e hpv
      · intro v hv; exact s3 v (by rw [r2]; exact hz _ v (Or.inr hv))
      · intro v hv; exact s4 v (by rw [r3]; exact hz _ v (Or.inr hv))
    · rw [if_neg hp]
      obtain ⟨st2, s1, s2, s3, s4, s5, s6⟩ := ih st
      refine ⟨st2, s1, ?_, s3, s4, s5, s6⟩
      intro v hv hpv
      rcases List.mem_cons.1 hv with e | e
      · subst e; exact absurd hpv hp
      · exact s2 v e hpv

theorem present_size {g : Graph} (hg : WF g) {i : Nat} (hi : g.present i = true) : size g ≠ 0 := by
  have := countP_lt (p := g.present) (q := fun _ => false) (l := List.range g.allocated) (by simp)
    (List.mem_range.2 (hg.bound i hi)) hi rfl
  unfold size; omega

theorem reach_present {g : Graph} (hg : WF g) (he : g.present g.entry = true) {v : Nat} (h : Reach g v) :
    g.present v = true := by
  induction h with
  | entry => exact he
  | step _ hs _ => exact (hg.ends _ _ hs).2

/-- The numbering.  `hstop` excludes the NULL access of the reset loop (`classify_null`): some node
`j` has at most `j` successors and all nodes up to it exist.  In the compiler's graphs node 1 is the
exit block, which has none. -/
theorem classify_correct_partial (g : Graph) (hg : WF g) (he : g.present g.entry = true)
    (hstop : ∃ j, (∀ i, i ≤ j → g.present i = true) ∧ (g.succs j).length ≤ j) (st : Num)
    (habs : ∀ v, g.present v = false → st.pre v = 0 ∧ st.rpost v = 0) :
    ∃ st', classify g st = .ok st' ∧
      (∀ v, st'.rpost v ≠ 0 ↔ Reach g v) ∧ (∀ v, st'.rpost v ≤ size g) ∧
      (∀ u v, Reach g u → st'.rpost u = st'.rpost v → u = v) ∧
      (∀ v, Reach g v → v ≠ g.entry → ∃ p, Reach g p ∧ v ∈ g.succs p ∧ st'.rpost p < st'.rpost v) ∧
      (∀ u s, Reach g u → s ∈ g.succs u → (st'.etype u s = .backward ↔ st'.rpost s ≤ st'.rpost u)) := by
  obtain ⟨j, hj1, hj2⟩ := hstop
  obtain ⟨st0, r1, r2, r3, r4, r5, r6⟩ := reset_ok hg hj1 hj2 (List.range g.allocated)
    { st with preorder := 1, rpostorder := size g }
  have hz : ∀ v, st0.pre v = 0 ∧ st0.rpost v = 0 := by
    intro v
    by_cases hp : g.present v = true
    · exact r2 v (List.mem_range.2 (hg.bound v hp)) hp
    · have := habs v (by simpa using hp)
      exact ⟨r3 v this.1, r4 v this.2⟩
  have i0 : Inv g g.entry (size g) st0 := by
    refine ⟨by rw [r5]; exact Nat.one_pos, ?_, ?_, ?_, ?_, ?_, ?_⟩
    · intro v hv; exact absurd (hz v).1 hv
    · intro v hv; exact absurd (hz v).2 hv
    · intro u v hu; exact absurd (hz u).2 hu
    · rw [r6]
      have : fin g st0 = 0 := by
        unfold fin; rw [List.countP_eq_zero]; intro v _; simp [(hz v).2]
      rw [this]; rfl
    · intro v hv; exact absurd (hz v).2 hv
    · intro v hv; exact absurd (hz v).1 hv
  have hunv : unv g st0 ≤ size g + 1 := by
    have : unv g st0 ≤ size g := by
      apply countP_le
      intro x _ hx
      simp only [Bool.and_eq_true] at hx
      exact hx.1
    omega
  obtain ⟨st', s1, s2, s3, s4, _⟩ := dfs_spec hg g.entry (size g + 1) g.entry st0 i0 he (hz _).1 (Or.inl rfl) hunv
  -- nothing is left on the stack
  have hstack : ∀ v, st'.pre v ≠ 0 → st'.rpost v ≠ 0 := by
    intro v hv hr
    exact absurd (hz v).1 ((s3.stack v).1 ⟨hv, hr⟩).1
  have hreach : ∀ v, st'.rpost v ≠ 0 ↔ Reach g v := by
    intro v
    constructor
    · -- by descent along parents
      have : ∀ k v, st'.rpost v ≤ k → st'.rpost v ≠ 0 → Reach g v := by
        intro k
        induction k with
        | zero => intro v h1 h2; omega
        | succ k ih =>
          intro v h1 h2
          by_cases hv : v = g.entry
          · rw [hv]; exact Reach.entry
          · obtain ⟨p, p1, p2, p3, p4⟩ := s2.parent v (s2.fin v h2).1 hv
            rcases p4 h2 with h | h
            · exact absurd h (hstack p p2)
            · exact Reach.step (ih p (by omega) (hstack p p2)) p1
      exact this _ v (Nat.le_refl _)
    · intro h
      induction h with
      | entry => exact s4
      | step _ hs ih => exact hstack _ (s2.closed _ ih _ hs).1
  refine ⟨st', ?_, hreach, ?_, ?_, ?_, ?_⟩
  · unfold classify
    dsimp only
    rw [if_neg (present_size hg he), r1, Res.bind_ok, needNode_ok hg he, Res.bind_ok]
    exact s1
  · intro v
    by_cases h0 : st'.rpost v = 0
    · omega
    · exact (s2.fin v h0).2.2
  · intro u v hu huv
    exact s2.inj u v ((hreach u).2 hu) huv
  · intro v hv hne
    have h0 := (hreach v).2 hv
    obtain ⟨p, p1, p2, p3, p4⟩ := s2.parent v (s2.fin v h0).1 hne
    have hp := hstack p p2
    refine ⟨p, (hreach p).1 hp, p1, ?_⟩
    rcases p4 h0 with h | h
    · exact absurd h hp
    · exact h
  · intro u s hu hs
    have := (s2.closed u ((hreach u).2 hu) s hs)
    rw [this.2]
    have hs0 := hstack s this.1
    constructor
    · rintro (h | h)
      · exact absurd h hs0
      · exact h
    · exact Or.inr

/-- A walk of at least one edge. -/
inductive Walk (g : Graph) : Nat → Nat → Prop
  | one {a b : Nat} : b ∈ g.succs a → Walk g a b
  | cons {a b c : Nat} : b ∈ g.succs a → Walk g b c → Walk g a c

/-- A reachable cycle contains a BACKWARD edge, so a graph without BACKWARD edges is acyclic. -/
theorem cycle_has_backward_partial (g : Graph) (hg : WF g) (he : g.present g.entry = true)
    (hstop : ∃ j, (∀ i, i ≤ j → g.present i = true) ∧ (g.succs j).length ≤ j) (st st' : Num)
    (habs : ∀ v, g.present v = false → st.pre v = 0 ∧ st.rpost v = 0) (hc : classify g st = .ok st')
    (v : Nat) (hv : Reach g v) (hcyc : Walk g v v) :
    ∃ a b, b ∈ g.succs a ∧ Reach g a ∧ st'.etype a b = .backward := by
  obtain ⟨st1, e1, h1, _, _, _, h5⟩ := classify_correct_partial g hg he hstop st habs
  rw [hc] at e1; injection e1 with e1; subst e1
  rcases Classical.em (∃ a b, b ∈ g.succs a ∧ Reach g a ∧ st'.etype a b = .backward) with h | h
  · exact h
  · exfalso
    have edge : ∀ a b, Reach g a → b ∈ g.succs a → st'.rpost a < st'.rpost b := by
      intro a b ha hb
      by_cases hle : st'.rpost b ≤ st'.rpost a
      · exact absurd ⟨a, b, hb, ha, (h5 a b ha hb).2 hle⟩ h
      · omega
    have key : ∀ a b, Walk g a b → Reach g a → st'.rpost a < st'.rpost b := by
      intro a b w
      induction w with
      | one hb => intro ha; exact edge _ _ ha hb
      | cons hb _ ih => intro ha; exact Nat.lt_trans (edge _ _ ha hb) (ih (Reach.step ha hb))
    exact Nat.lt_irrefl _ (key v v hcyc hv)

/-- Two nodes and three edges already make the reset loop follow a NULL pointer. -/
theorem classify_null :
    ∃ g st, run [.add 0 1, .add 1 0, .add 1 1] (init 0 1) = .ok g ∧ WF g ∧
      (∀ v, g.present v = false → st.pre v = 0 ∧ st.rpost v = 0) ∧ classify g st = .ub := by
  let st : Num := ⟨fun _ => 0, fun _ => 0, fun _ _ => .unclassified, 0, 0⟩
  have h : ∃ g, run [.add 0 1, .add 1 0, .add 1 1] (init 0 1) = .ok g := ⟨_, rfl⟩
  obtain ⟨g, hg⟩ := h
  refine ⟨g, st, hg, (run_spec _ _ _ (init_correct 0 1).1 hg).1, fun _ _ => ⟨rfl, rfl⟩, ?_⟩
  have : (run [.add 0 1, .add 1 0, .add 1 1] (init 0 1) >>= fun g => classify g st) = .ub := by rfl
  rw [hg] at this; exact this

/-- The hypotheses of `classify_correct_partial` hold for the graph of a loop: 0 → 2 → 3 → 2, 3 → 1. -/
example : ∃ g, run [.add 0 2, .add 2 3, .add 3 2, .add 3 1] (init 0 1) = .ok g ∧ WF g ∧
    g.present g.entry = true ∧ ∃ j, (∀ i, i ≤ j → g.present i = true) ∧ (g.succs j).length ≤ j := by
  have h : ∃ g, run [.add 0 2, .add 2 3, .add 3 2, .add 3 1] (init 0 1) = .ok g := ⟨_, rfl⟩
  obtain ⟨g, hg⟩ := h
  have hw := (run_spec _ _ _ (init_correct 0 1).1 hg).1
  have e : (run [.add 0 2, .add 2 3, .add 3 2, .add 3 1] (init 0 1) >>= fun g =>
      Res.ok (g.present g.entry, g.present 0, g.present 1, g.succs 1)) = .ok (true, true, true, []) := rfl
  rw [hg] at e
  injection e with e
  simp only [Prod.mk.injEq] at e
  refine ⟨g, hg, hw, e.1, 1, ?_, by rw [e.2.2.2]; decide⟩
  intro i hi
  have : i = 0 ∨ i = 1 := by omega
  rcases this with h | h
  · rw [h]; exact e.2.1
  · rw [h]; exact e.2.2.1

end Verif.Graph
