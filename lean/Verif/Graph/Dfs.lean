import Verif.Graph.Props

/-! The depth-first numbering of `raviX_classify_edges`. -/
namespace Verif.Graph

theorem countP_lt {p q : Nat → Bool} {l : List Nat} (h : ∀ x ∈ l, q x = true → p x = true) {a : Nat} (ha : a ∈ l)
    (hp : p a = true) (hq : q a = false) : l.countP q < l.countP p := by
  induction l with
  | nil => cases ha
  | cons b l ih =>
    have hle : l.countP q ≤ l.countP p := by
      apply List.countP_mono_left
      intro x hx; exact h x (List.mem_cons_of_mem _ hx)
    rw [List.countP_cons, List.countP_cons]
    rcases List.mem_cons.1 ha with e | e
    · subst e; simp [hp, hq]; omega
    · have := ih (fun x hx => h x (List.mem_cons_of_mem _ hx)) e
      by_cases hb : q b = true
      · simp [hb, h b (List.mem_cons_self ..) hb]; omega
      · simp [hb]; omega

theorem countP_le {p q : Nat → Bool} {l : List Nat} (h : ∀ x ∈ l, q x = true → p x = true) :
    l.countP q ≤ l.countP p := List.countP_mono_left h

theorem countP_add_one {p q : Nat → Bool} {l : List Nat} (hn : l.Nodup) {a : Nat} (ha : a ∈ l)
    (h : ∀ x, x ≠ a → q x = p x) (hp : p a = false) (hq : q a = true) : l.countP q = l.countP p + 1 := by
  induction l with
  | nil => cases ha
  | cons b l ih =>
    rw [List.nodup_cons] at hn
    rw [List.countP_cons, List.countP_cons]
    rcases List.mem_cons.1 ha with e | e
    · subst e
      have : l.countP q = l.countP p := by
        apply List.countP_congr
        intro x hx
        rw [h x (fun e => hn.1 (e ▸ hx))]
      simp [hp, hq, this]
    · have hb : b ≠ a := fun e' => hn.1 (e' ▸ e)
      rw [ih hn.2 e, h b hb]; omega

/-- Unvisited nodes. -/
def unv (g : Graph) (st : Num) : Nat := (List.range g.allocated).countP (fun v => g.present v && decide (st.pre v = 0))

/-- Finished nodes. -/
def fin (g : Graph) (st : Num) : Nat := (List.range g.allocated).countP (fun v => decide (st.rpost v ≠ 0))

/-- The invariant of the search from `root`. -/
structure Inv (g : Graph) (root N : Nat) (st : Num) : Prop where
  pos : 0 < st.preorder
  vis : ∀ v, st.pre v ≠ 0 → g.present v = true
  fin : ∀ v, st.rpost v ≠ 0 → st.pre v ≠ 0 ∧ st.rpostorder < st.rpost v ∧ st.rpost v ≤ N
  inj : ∀ u v, st.rpost u ≠ 0 → st.rpost u = st.rpost v → u = v
  cnt : st.rpostorder + Graph.fin g st = N
  closed : ∀ v, st.rpost v ≠ 0 → ∀ s ∈ g.succs v, st.pre s ≠ 0 ∧
    (st.etype v s = .backward ↔ st.rpost s = 0 ∨ st.rpost s ≤ st.rpost v)
  parent : ∀ v, st.pre v ≠ 0 → v ≠ root → ∃ p, v ∈ g.succs p ∧ st.pre p ≠ 0 ∧
    (st.rpost v = 0 → st.rpost p = 0) ∧ (st.rpost v ≠ 0 → st.rpost p = 0 ∨ st.rpost p < st.rpost v)

/-- What a part of the search leaves alone: numbers given, the set of nodes on the stack. -/
structure Ext (st st' : Num) : Prop where
  pre : ∀ v, st.pre v ≠ 0 → st'.pre v = st.pre v
  rpost : ∀ v, st.rpost v ≠ 0 → st'.rpost v = st.rpost v
  stack : ∀ v, (st'.pre v ≠ 0 ∧ st'.rpost v = 0) ↔ (st.pre v ≠ 0 ∧ st.rpost v = 0)

theorem Ext.refl (st : Num) : Ext st st := ⟨fun _ _ => rfl, fun _ _ => rfl, fun _ => Iff.rfl⟩

theorem Ext.trans {a b c : Num} (h : Ext a b) (k : Ext b c) : Ext a c := by
  refine ⟨?_, ?_, fun v => (k.stack v).trans (h.stack v)⟩
  · intro v hv
    have := h.pre v hv
    rw [k.pre v (by rw [this]; exact hv), this]
  · intro v hv
    have := h.rpost v hv
    rw [k.rpost v (by rw [this]; exact hv), this]

theorem unv_mono {g : Graph} {a b : Num} (h : Ext a b) : unv g b ≤ unv g a := by
  apply countP_le
  intro x _ hx
  simp only [Bool.and_eq_true, decide_eq_true_iff] at hx ⊢
  refine ⟨hx.1, ?_⟩
  by_cases h0 : a.pre x = 0
  · exact h0
  · rw [h.pre x h0] at hx; exact hx.2

theorem Inv.setType {g : Graph} {root N : Nat} {st : Num} (h : Inv g root N st) {a b : Nat} {t : EdgeType}
    (ha : st.rpost a = 0) : Inv g root N (setType st a b t) := by
  refine ⟨h.pos, h.vis, h.fin, h.inj, h.cnt, ?_, h.parent⟩
  intro v hv s hs
  have hv' : st.rpost v ≠ 0 := hv
  have hva : v ≠ a := fun e => hv' (e ▸ ha)
  have : (Graph.setType st a b t).etype v s = st.etype v s := by
    show (if v = a ∧ s = b then t else st.etype v s) = _
    rw [if_neg (fun e => hva e.1)]
  rw [this]
  exact h.closed v hv s hs

theorem ext_setType (st : Num) (a b : Nat) (t : EdgeType) : Ext st (setType st a b t) :=
  ⟨fun _ _ => rfl, fun _ _ => rfl, fun _ => Iff.rfl⟩

/-- The specification of the recursive call. -/
def DfsSpec (g : Graph) (root N fuel : Nat) (rec : Nat → Num → Res Num) : Prop :=
  ∀ n st, Inv g root N st → g.present n = true → st.pre n = 0 →
    (n = root ∨ ∃ p, n ∈ g.succs p ∧ st.pre p ≠ 0 ∧ st.rpost p = 0) → unv g st ≤ fuel →
    ∃ st', rec n st = .ok st' ∧ Inv g root N st' ∧ Ext st st' ∧ st'.rpost n ≠ 0 ∧
      (∀ u s, st.pre u ≠ 0 → st'.etype u s = st.etype u s)

theorem needNode_ok {g : Graph} (h : WF g) {i : Nat} (hi : g.present i = true) : needNode g i = .ok () := by
  unfold needNode; rw [if_pos ⟨h.bound i hi, hi⟩]

theorem edges_spec {g : Graph} (hg : WF g) {root N fuel : Nat} {rec : Nat → Num → Res Num}
    (hrec : DfsSpec g root N fuel rec) (n : Nat) : ∀ (ss : List Nat) (st : Num), (∀ s ∈ ss, s ∈ g.succs n) →
    Inv g root N st → st.pre n ≠ 0 → st.rpost n = 0 → unv g st ≤ fuel →
    ∃ st', edges g rec n ss st = .ok st' ∧ Inv g root N st' ∧ Ext st st' ∧
      (∀ s ∈ ss, st'.pre s ≠ 0 ∧ (st'.etype n s = .backward ↔ st'.rpost s = 0)) ∧
      (∀ u s, st.pre u ≠ 0 → ¬ (u = n ∧ s ∈ ss) → st'.etype u s = st.etype u s) := by
  intro ss
  induction ss with
  | nil =>
    intro st _ h _ _ _
    exact ⟨st, rfl, h, Ext.refl st, fun s hs => (nomatch hs), fun _ _ _ _ => rfl⟩
  | cons s ss ih =>
    intro st hss h hn1 hn2 hf
    have hs := hss s (List.mem_cons_self ..)
    have hps := (hg.ends n s hs).2
    have hss' : ∀ x ∈ ss, x ∈ g.succs n := fun x hx => hss x (List.mem_cons_of_mem _ hx)
    -- the rest of the loop after the edge to `s` is handled
    have rest : ∀ st1, Inv g root N st1 → Ext st st1 → st1.pre s ≠ 0 →
        (st1.etype n s = .backward ↔ st1.rpost s = 0) →
        (∀ u x, st.pre u ≠ 0 → ¬ (u = n ∧ x = s) → st1.etype u x = st.etype u x) →
        ∃ st', edges g rec n ss st1 = .ok st' ∧ Inv g root N st' ∧ Ext st st' ∧
          (∀ x ∈ s :: ss, st'.pre x ≠ 0 ∧ (st'.etype n x = .backward ↔ st'.rpost x = 0)) ∧
          (∀ u x, st.pre u ≠ 0 → ¬ (u = n ∧ x ∈ s :: ss) → st'.etype u x = st.etype u x) := by
      intro st1 i1 e1 p1 t1 k1
      have hn1' : st1.pre n ≠ 0 ∧ st1.rpost n = 0 := (e1.stack n).2 ⟨hn1, hn2⟩
      obtain ⟨st', r1, r2, r3, r4, r5⟩ := ih st1 hss' i1 hn1'.1 hn1'.2 (Nat.le_trans (unv_mono e1) hf)
      refine ⟨st', r1, r2, e1.trans r3, ?_, ?_⟩
      · intro x hx
        by_cases hxs : x ∈ ss
        · exact r4 x hxs
        · have hx : x = s := by
            rcases List.mem_cons.1 hx with e | e
            · exact e
            · exact absurd e hxs
          subst hx
          refine ⟨by rw [r3.pre x p1]; exact p1, ?_⟩
          rw [r5 n x hn1'.1 (fun e => hxs e.2), t1]
          constructor
          · intro h0; exact ((r3.stack x).2 ⟨p1, h0⟩).2
          · intro h0
            by_cases h1 : st1.rpost x = 0
            · exact h1
            · rw [r3.rpost x h1] at h0; exact absurd h0 h1
      · intro u x hu hux
        rw [r5 u x (by rw [e1.pre u hu]; exact hu) (fun e => hux ⟨e.1, List.mem_cons_of_mem _ e.2⟩),
          k1 u x hu (fun e => hux ⟨e.1, e.2 ▸ List.mem_cons_self ..⟩)]
    have hset : ∀ t u x, ¬ (u = n ∧ x = s) → (setType st n s t).etype u x = st.etype u x := by
      intro t u x hne
      show (if u = n ∧ x = s then t else st.etype u x) = _
      rw [if_neg hne]
    have hself : ∀ t, (setType st n s t).etype n s = t := by
      intro t
      show (if n = n ∧ s = s then t else st.etype n s) = _
      rw [if_pos ⟨rfl, rfl⟩]
    have hunfold : edges g rec n (s :: ss) st = (if st.pre s = 0 then (rec s (setType st n s .tree) >>= fun st => edges g rec n ss st)
        else if st.rpost s = 0 then edges g rec n ss (setType st n s .backward)
        else if st.pre n < st.pre s then edges g rec n ss (setType st n s .forward)
        else edges g rec n ss (setType st n s .cross)) := by
      show (needNode g s >>= _) = _
      rw [needNode_ok hg hps, Res.bind_ok]
    rw [hunfold]
    by_cases h0 : st.pre s = 0
    · rw [if_pos h0]
      obtain ⟨st1, r1, r2, r3, r4, r5⟩ := hrec s (setType st n s .tree) (h.setType hn2) hps h0
        (Or.inr ⟨n, hs, hn1, hn2⟩) hf
      rw [r1, Res.bind_ok]
      have he : Ext st st1 := (ext_setType st n s .tree).trans r3
      have hpre : st1.pre s ≠ 0 := (r2.fin s r4).1
      refine rest st1 r2 he hpre ?_ ?_
      · rw [r5 n s hn1, hself]
        simp [r4]
      · intro u x hu hux
        rw [r5 u x hu, hset _ u x hux]
    · rw [if_neg h0]
      by_cases h1 : st.rpost s = 0
      · rw [if_pos h1]
        refine rest _ (h.setType hn2) (ext_setType ..) h0 ?_ (fun u x _ hux => hset _ u x hux)
        rw [hself]
        exact ⟨fun _ => h1, fun _ => rfl⟩
      · rw [if_neg h1]
        split
        · refine rest _ (h.setType hn2) (ext_setType ..) h0 ?_ (fun u x _ hux => hset _ u x hux)
          rw [hself]
          exact ⟨fun e => (nomatch e), fun e => absurd e h1⟩
        · refine rest _ (h.setType hn2) (ext_setType ..) h0 ?_ (fun u x _ hux => hset _ u x hux)
          rw [hself]
          exact ⟨fun e => (nomatch e), fun e => absurd e h1⟩

theorem fin_lt {g : Graph} {root N : Nat} {st : Num} (hg : WF g) (h : Inv g root N st) {n : Nat} (hp : g.present n = true)
    (h0 : st.rpost n = 0) : fin g st < size g := by
  unfold fin size
  apply countP_lt (a := n) ?_ (List.mem_range.2 (hg.bound n hp)) hp (by simp [h0])
  intro x _ hx
  simp only [decide_eq_true_iff] at hx
  exact h.vis x (h.fin x hx).1

theorem dfs_spec {g : Graph} (hg : WF g) (root : Nat) : ∀ fuel, DfsSpec g root (size g) fuel (dfs g fuel) := by
  intro fuel
  induction fuel with
  | zero =>
    intro n st _ hp h0 _ hf
    exfalso
    have : 0 < unv g st := by
      have := countP_lt (p := fun v => g.present v && decide (st.pre v = 0)) (q := fun _ => false)
        (l := List.range g.allocated) (by simp) (List.mem_range.2 (hg.bound n hp)) (by simp [hp, h0]) rfl
      unfold unv; omega
    omega
  | succ fuel ih =>
    intro n st h hp h0 hpar hf
    have hr0 : st.rpost n = 0 := by
      by_cases hr : st.rpost n = 0
      · exact hr
      · exact absurd h0 (h.fin n hr).1
    -- entering the node
    generalize hst1 : ({ st with pre := upd st.pre n st.preorder, preorder := st.preorder + 1 } : Num) = st1
    have hpre1 : ∀ v, st1.pre v = if v = n then st.preorder else st.pre v := by intro v; subst hst1; rfl
    have hrp1 : ∀ v, st1.rpost v = st.rpost v := by intro v; subst hst1; rfl
    have het1 : ∀ u s, st1.etype u s = st.etype u s := by intro u s; subst hst1; rfl
    have hcnt1 : st1.rpostorder = st.rpostorder := by subst hst1; rfl
    have hpos := h.pos
    have hkeep : ∀ v, st.pre v ≠ 0 → st1.pre v = st.pre v := by
      intro v hv; rw [hpre1, if_neg (fun e : v = n => hv (e ▸ h0))]
    have hn1 : st1.pre n ≠ 0 := by rw [hpre1, if_pos rfl]; omega
    have hvis1 : ∀ v, st1.pre v ≠ 0 → v = n ∨ st.pre v ≠ 0 := by
      intro v hv
      rw [hpre1] at hv
      by_cases e : v = n
      · exact Or.inl e
      · rw [if_neg e] at hv; exact Or.inr hv
    have hfin1 : fin g st1 = fin g st := by
      unfold fin; apply List.countP_congr; intro v _; rw [hrp1]
    have i1 : Inv g root (size g) st1 := by
      refine ⟨by subst hst1; show 0 < st.preorder + 1; omega, ?_, ?_, ?_, ?_, ?_, ?_⟩
      · intro v hv
        rcases hvis1 v hv with e | e
        · subst e; exact hp
        · exact h.vis v e
      · intro v hv
        rw [hrp1] at hv ⊢
        have := h.fin v hv
        rw [hkeep v this.1, hcnt1]; exact this
      · intro u v hu huv
        rw [hrp1] at hu huv; rw [hrp1] at huv
        exact h.inj u v hu huv
      · rw [hcnt1, hfin1]; exact h.cnt
      · intro v hv s hs
        rw [hrp1] at hv
        have := h.closed v hv s hs
        rw [hkeep s this.1, het1, hrp1, hrp1]; exact this
      · intro v hv hvr
        rcases hvis1 v hv with e | e
        · subst e
          rcases hpar with e' | ⟨p, p1, p2, p3⟩
          · exact absurd e' hvr
          · refine ⟨p, p1, by rw [hkeep p p2]; exact p2, fun _ => by rw [hrp1]; exact p3, fun _ => Or.inl (by rw [hrp1]; exact p3)⟩
        · obtain ⟨p, p1, p2, p3, p4⟩ := h.parent v e hvr
          refine ⟨p, p1, by rw [hkeep p p2]; exact p2, ?_, ?_⟩
          · rw [hrp1, hrp1]; exact p3
          · rw [hrp1, hrp1]; exact p4
    have hunv1 : unv g st1 ≤ fuel := by
      have : unv g st1 < unv g st := by
        unfold unv
        apply countP_lt (a := n) ?_ (List.mem_range.2 (hg.bound n hp)) (by simp [hp, h0]) (by simp [hn1])
        intro x _ hx
        simp only [Bool.and_eq_true, decide_eq_true_iff] at hx ⊢
        refine ⟨hx.1, ?_⟩
        by_cases hx0 : st.pre x = 0
        · exact hx0
        · rw [hkeep x hx0] at hx; exact hx.2
      omega
    obtain ⟨st2, r1, r2, r3, r4, r5⟩ := edges_spec hg ih n (g.succs n) st1 (fun _ h => h) i1 hn1
      (by rw [hrp1]; exact hr0) hunv1
    have hn2 : st2.pre n ≠ 0 ∧ st2.rpost n = 0 := (r3.stack n).2 ⟨hn1, by rw [hrp1]; exact hr0⟩
    -- leaving it
    have hlt := fin_lt hg r2 hp hn2.2
    have hc2 := r2.cnt
    generalize hst3 : ({ st2 with rpost := upd st2.rpost n st2.rpostorder, rpostorder := st2.rpostorder - 1 } : Num) = st3
    have hpre3 : ∀ v, st3.pre v = st2.pre v := by intro v; subst hst3; rfl
    have hrp3 : ∀ v, st3.rpost v = if v = n then st2.rpostorder else st2.rpost v := by intro v; subst hst3; rfl
    have het3 : ∀ u s, st3.etype u s = st2.etype u s := by intro u s; subst hst3; rfl
    have hcnt3 : st3.rpostorder = st2.rpostorder - 1 := by subst hst3; rfl
    have hn3 : st3.rpost n = st2.rpostorder := by rw [hrp3, if_pos rfl]
    have hkeep3 : ∀ v, st2.rpost v ≠ 0 → st3.rpost v = st2.rpost v := by
      intro v hv; rw [hrp3, if_neg (fun e : v = n => hv (e ▸ hn2.2))]
    have hne3 : ∀ v, v ≠ n → st3.rpost v = st2.rpost v := by
      intro v hv; rw [hrp3, if_neg hv]
    have hext : Ext st st3 := by
      refine ⟨?_, ?_, ?_⟩
      · intro v hv
        rw [hpre3, r3.pre v (by rw [hkeep v hv]; exact hv), hkeep v hv]
      · intro v hv
        have a1 : st1.rpost v ≠ 0 := by rw [hrp1]; exact hv
        have a2 := r3.rpost v a1
        rw [hkeep3 v (by rw [a2]; exact a1), a2, hrp1]
      · intro v
        rw [hpre3]
        by_cases e : v = n
        · subst e
          rw [hn3]
          constructor
          · rintro ⟨_, b⟩; omega
          · rintro ⟨b, _⟩; exact absurd h0 b
        · rw [hne3 v e, r3.stack v, hpre1, if_neg e, hrp1]
    refine ⟨st3, ?_, ?_, hext, ?_, ?_⟩
    · show (edges g (dfs g fuel) n (g.succs n) _ >>= _) = _
      rw [hst1, r1, Res.bind_ok, ← hst3]; rfl
    · refine ⟨by subst hst3; exact r2.pos, ?_, ?_, ?_, ?_, ?_, ?_⟩
      · intro v hv; rw [hpre3] at hv; exact r2.vis v hv
      · intro v hv
        rw [hpre3, hcnt3]
        by_cases e : v = n
        · subst e; rw [hn3]; exact ⟨hn2.1, by omega, by omega⟩
        · rw [hne3 v e] at hv ⊢
          have := r2.fin v hv
          exact ⟨this.1, by omega, this.2.2⟩
      · intro u v hu huv
        by_cases e : u = n
        · subst e
          by_cases e2 : v = u
          · exact e2.symm
          · rw [hn3, hne3 v e2] at huv
            have hv0 : st2.rpost v ≠ 0 := by omega
            have := (r2.fin v hv0).2.1
            omega
        · rw [hne3 u e] at hu huv
          by_cases e2 : v = n
          · subst e2
            rw [hn3] at huv
            have := (r2.fin u hu).2.1
            omega
          · rw [hne3 v e2] at huv
            exact r2.inj u v hu huv
      · rw [hcnt3]
        have : fin g st3 = fin g st2 + 1 := by
          unfold fin
          apply countP_add_one List.nodup_range (List.mem_range.2 (hg.bound n hp))
          · intro x hx; rw [hne3 x hx]
          · simp [hn2.2]
          · simp [hn3]; omega
        omega
      · intro v hv s hs
        rw [hpre3, het3]
        by_cases e : v = n
        · subst e
          have := r4 s hs
          refine ⟨this.1, ?_⟩
          rw [this.2, hn3]
          by_cases es : s = v
          · subst es
            rw [hn3]
            simp [hn2.2]
          · rw [hne3 s es]
            constructor
            · exact Or.inl
            · rintro (h' | h')
              · exact h'
              · by_cases hs0 : st2.rpost s = 0
                · exact hs0
                · have := (r2.fin s hs0).2.1
                  omega
        · rw [hne3 v e] at hv ⊢
          have := r2.closed v hv s hs
          refine ⟨this.1, ?_⟩
          rw [this.2]
          by_cases es : s = n
          · subst es
            rw [hn3]
            have := (r2.fin v hv).2.1
            constructor
            · intro _; exact Or.inr (by omega)
            · intro _; exact Or.inl hn2.2
          · rw [hne3 s es]
      · intro v hv hvr
        rw [hpre3] at hv
        by_cases hv0 : st2.rpost v = 0
        · -- on the stack: either the node itself or a node that was on it before
          by_cases e : v = n
          · subst e
            rcases hpar with e' | ⟨p, p1, p2, p3⟩
            · exact absurd e' hvr
            · have hst := (hext.stack p).2 ⟨p2, p3⟩
              refine ⟨p, p1, hst.1, ?_, fun _ => Or.inl hst.2⟩
              intro hz; rw [hn3] at hz; omega
          · have hold := (r3.stack v).1 ⟨hv, hv0⟩
            rw [hpre1, if_neg e, hrp1] at hold
            obtain ⟨p, p1, p2, p3, p4⟩ := h.parent v hold.1 hvr
            have hst := (hext.stack p).2 ⟨p2, p3 hold.2⟩
            refine ⟨p, p1, hst.1, fun _ => hst.2, fun _ => Or.inl hst.2⟩
        · obtain ⟨p, p1, p2, p3, p4⟩ := r2.parent v hv hvr
          refine ⟨p, p1, by rw [hpre3]; exact p2, ?_, ?_⟩
          · intro hz; rw [hkeep3 v hv0] at hz; exact absurd hz hv0
          · intro _
            rw [hkeep3 v hv0]
            by_cases e : p = n
            · subst e
              rw [hn3]
              have := (r2.fin v hv0).2.1
              exact Or.inr this
            · rw [hne3 p e]; exact p4 hv0
    · rw [hn3]; omega
    · intro u s hu
      have hun : u ≠ n := fun e => hu (e ▸ h0)
      rw [het3, r5 u s (by rw [hkeep u hu]; exact hu) (fun e => hun e.1), het1]

end Verif.Graph
