import Verif.LinStmt.Struct

/-!
# Which blocks and registers the code of a statement touches
-/
namespace Verif.LinStmt
open Verif.Lin

variable {P : Par} {Γ : Nat → LV} {ρ : Nat → P.V} {st st' : St P.F P.O}

/-! ## Expressions in statements -/

/-- Giving back what an operand used. -/
theorem use_sub (hρ : ∀ x, HasTy (Γ x).ty (ρ x)) {e : Exp P.F P.O} {n s1 q s2} {x : Ins P.F P.O}
    (h1 : lin Γ e st = .ok (n, s1)) (h2 : operand s1 n = .ok (q, s2)) (w : Wf Γ st) {k}
    (hk : live st k) : live (freeN (tofree (emit s2 x) n q) n) k ∧
      live (tofree (emit (freeN s2 n) x) n q) k := by
  have A := lin_sim hρ e _ _ _ h1 w
  obtain ⟨o1, o2, o3, o4, _⟩ := operand_st h2 A.ok
  have hl : live (freeN s1 n) k := (live_freeN _ _ _).2 ⟨A.sub k hk, fun h => A.new k h hk⟩
  have h2 := o2 k hl
  refine ⟨(live_freeN _ _ _).2 ⟨live_tofree ((live_emit _ _ _).2 h2) fun e => o4 k e hl,
    fun h => A.new k h hk⟩, live_tofree ((live_emit _ _ _).2 ((live_freeN _ _ _).2
      ⟨h2, fun h => A.new k h hk⟩)) fun e => o4 k e hl⟩

theorem use_same (s2 : St P.F P.O) (x : Ins P.F P.O) (n q) :
    (freeN (tofree (emit s2 x) n q) n).blocks = (emit s2 x).blocks ∧
    (freeN (tofree (emit s2 x) n q) n).nb = (emit s2 x).nb ∧
    (freeN (tofree (emit s2 x) n q) n).cur = (emit s2 x).cur := by
  obtain ⟨a1, a2, a3⟩ := tofree_blocks (emit s2 x) n q
  obtain ⟨b1, b2, b3⟩ := freeN_blocks (tofree (emit s2 x) n q) n
  exact ⟨b1.trans a1, b2.trans a2, b3.trans a3⟩

theorem use_same' (s2 : St P.F P.O) (x : Ins P.F P.O) (n q) :
    (tofree (emit (freeN s2 n) x) n q).blocks = (emit s2 x).blocks ∧
    (tofree (emit (freeN s2 n) x) n q).nb = (emit s2 x).nb ∧
    (tofree (emit (freeN s2 n) x) n q).cur = (emit s2 x).cur := by
  obtain ⟨a1, a2, a3⟩ := tofree_blocks (emit (freeN s2 n) x) n q
  obtain ⟨b1, b2, b3⟩ := freeN_blocks s2 n
  refine ⟨a1.trans ?_, a2.trans b2, a3.trans b3⟩
  simp only [emit, b1, b3]

/-- An expression that is evaluated and used by one instruction. -/
theorem use_stp (hρ : ∀ x, HasTy (Γ x).ty (ρ x)) {e : Exp P.F P.O} {n s1 q s2} {x : Ins P.F P.O}
    (h1 : lin Γ e st = .ok (n, s1)) (h2 : operand s1 n = .ok (q, s2)) (w : Wf Γ st) :
    Stp (· = st.cur) st (freeN (tofree (emit s2 x) n q) n) ∧
    Stp (· = st.cur) st (tofree (emit (freeN s2 n) x) n q) := by
  have A := lin_sim hρ e _ _ _ h1 w
  obtain ⟨o1, _⟩ := operand_st h2 A.ok
  exact ⟨.of w (((A.ext.trans o1).trans (.emit _ _)).trans (.same (use_same s2 x n q)))
    fun k hk => (use_sub hρ h1 h2 w hk).1,
    .of w (((A.ext.trans o1).trans (.emit _ _)).trans (.same (use_same' s2 x n q)))
    fun k hk => (use_sub hρ h1 h2 w hk).2⟩

theorem cond_stp (hρ : ∀ x, HasTy (Γ x).ty (ρ x)) {c : Exp P.F P.O} {t f}
    (h : linCond Γ c t f st = .ok st') (w : Wf Γ st) :
    Stp (· = st.cur) st st' ∧ terminated st' = true := by
  simp only [linCond, Res.bind_eq_ok] at h
  obtain ⟨⟨n, s1⟩, h1, ⟨q, s2⟩, h2, h3⟩ := h
  simp only [Res.ok.injEq] at h3
  dsimp only at h2
  rw [← h3]
  refine ⟨(use_stp hρ h1 h2 w).1, ?_⟩
  rw [term_same (use_same s2 _ n q).1 (use_same s2 _ n q).2.2]
  exact term_emit rfl

theorem linTo_stp (hρ : ∀ x, HasTy (Γ x).ty (ρ x)) {e : Exp P.F P.O} {d}
    (h : linTo Γ e d st = .ok st') (w : Wf Γ st) : Stp (· = st.cur) st st' ∧ Open st' := by
  simp only [linTo, Res.bind_eq_ok] at h
  obtain ⟨⟨n, s1⟩, h1, ⟨q, s2⟩, h2, h3⟩ := h
  simp only [Res.ok.injEq] at h3
  dsimp only at h2
  rw [← h3]
  refine ⟨(use_stp hρ h1 h2 w).1, ?_⟩
  unfold Open
  rw [term_same (use_same s2 _ n q).1 (use_same s2 _ n q).2.2]
  exact open_emit rfl

theorem linStep_stp (hρ : ∀ x, HasTy (Γ x).ty (ρ x)) {e : Option (Exp P.F P.O)} {d}
    (h : linStep Γ e d st = .ok st') (w : Wf Γ st) : Stp (· = st.cur) st st' ∧ Open st' := by
  cases e with
  | none =>
    simp only [linStep, Res.ok.injEq] at h
    rw [← h]
    exact ⟨.emit w _, open_emit rfl⟩
  | some e => exact linTo_stp hρ h w

/-! ## Assignments -/

theorem tgts_open (hρ : ∀ x, HasTy (Γ x).ty (ρ x)) :
    ∀ {ts : List (Tgt P.F P.O)} {st ns st'}, linTgts Γ ts st = .ok (ns, st') → Good Γ st →
      Open st'
  | [], st, ns, st', h, g => by
    simp only [linTgts, Res.ok.injEq, Prod.mk.injEq] at h
    exact h.2 ▸ g.opn
  | .loc x :: ts, st, ns, st', h, g => by
    simp only [linTgts, Res.bind_eq_ok] at h
    obtain ⟨⟨r, s1⟩, h1, h2⟩ := h
    simp only [Res.ok.injEq, Prod.mk.injEq] at h2
    exact h2.2 ▸ tgts_open hρ h1 g
  | .idx e k :: ts, st, ns, st', h, g => by
    simp only [linTgts, Res.bind_eq_ok] at h
    obtain ⟨⟨n, s1⟩, h1, ⟨r, s2⟩, h2, h3⟩ := h
    simp only [Res.ok.injEq, Prod.mk.injEq] at h3
    have A := lin_sim hρ _ _ _ _ h1 g.wf
    exact h3.2 ▸ tgts_open hρ h2 ⟨g.wf.ext A.ext A.sub, lin_open hρ _ h1 g⟩

theorem vals_open (hρ : ∀ x, HasTy (Γ x).ty (ρ x)) :
    ∀ {es : List (Exp P.F P.O)} {st qs st'}, linVals Γ es st = .ok (qs, st') → Good Γ st →
      (∀ e ∈ es, Plain Γ e = true) → Open st'
  | [], st, ns, st', h, g, _ => by
    simp only [linVals, Res.ok.injEq, Prod.mk.injEq] at h
    exact h.2 ▸ g.opn
  | e :: es, st, qs, st', h, g, hp => by
    simp only [linVals, Res.bind_eq_ok] at h
    obtain ⟨⟨n, s1⟩, h1, ⟨q, s2⟩, h2, ⟨p, s3⟩, h3, ⟨r, s4⟩, h4, h5⟩ := h
    simp only [Res.ok.injEq, Prod.mk.injEq] at h5
    dsimp only at h2 h3 h4
    have A := op_sim hρ (hp e (List.mem_cons_self ..)) h1 h2 g.wf
    have w2 := g.wf.ext A.ext A.sub
    have o2 := operand_open h2 (lin_open hρ _ h1 g)
    have g3 : Good Γ s3 := by
      cases q with
      | sym r t =>
        simp only [copyT, Res.bind_eq_ok] at h3
        obtain ⟨⟨a, s⟩, h6, h7⟩ := h3
        simp only [Res.ok.injEq, Prod.mk.injEq] at h7
        obtain ⟨_, ⟨k, _, _, hl⟩, hb⟩ := allocT_ok h6
        rw [← h7.2]
        have w3 := w2.ext (.same hb) fun k' hk => (hl k').2 (Or.inl hk)
        exact ⟨(Stp.emit w3 _).wf w3, open_emit rfl⟩
      | _ =>
        simp only [copyT, Res.ok.injEq, Prod.mk.injEq] at h3
        exact h3.2 ▸ ⟨w2, o2⟩
    exact h5.2 ▸ vals_open hρ h4 g3 fun e he => hp e (List.mem_cons_of_mem _ he)

theorem store_open {n : Pn P.F P.O} {t q vt} : Open (store st n t q vt) := by
  unfold store
  repeat' split
  all_goals exact open_emit rfl

theorem stores_st : ∀ {nts qs} {st st' : St P.F P.O}, linStores nts qs st = .ok st' → Open st →
    Open st' ∧ ∀ k, live st k → (∀ a ∈ qs, fk (a : Ps P.F P.O × Ty).1 ≠ some k) → live st' k
  | [], _, st, st', h, o => by
    simp only [linStores, Res.ok.injEq] at h
    subst h
    exact ⟨o, fun _ h _ => h⟩
  | (t, tt) :: ts, (v, vt) :: vs, st, st', h, o => by
    simp only [linStores] at h
    obtain ⟨h1, h2⟩ := stores_st h (by
      unfold Open
      rw [term_same (freeP_blocks _ v).1 (freeP_blocks _ v).2.2]
      exact store_open)
    refine ⟨h1, fun k hk ha => h2 k ((live_freeP _ _ _).2 ⟨?_, ha _ (List.mem_cons_self ..)⟩)
      fun a h => ha a (List.mem_cons_of_mem _ h)⟩
    unfold store
    repeat' split
    all_goals simpa using hk
  | (.idx _ _, _) :: _, [], _, _, h, _ => by
    simp only [linStores, assertion] at h
    cases h
  | (.p d, _) :: ts, [], st, st', h, o => by
    simp only [linStores] at h
    obtain ⟨h1, h2⟩ := stores_st h (open_emit rfl)
    exact ⟨h1, fun k hk ha => h2 k ((live_emit _ _ _).2 hk) ha⟩

theorem foldl_live {α : Type} {f : St P.F P.O → α → St P.F P.O} {R : α → K × Nat → Prop}
    (hf : ∀ st a k, live st k → ¬ R a k → live (f st a) k) :
    ∀ (l : List α) (st : St P.F P.O) (k), live st k → (∀ a ∈ l, ¬ R a k) → live (l.foldl f st) k
  | [], _, _, h, _ => h
  | a :: l, st, k, h, hr => foldl_live hf l (f st a) k (hf st a k h (hr a (List.mem_cons_self ..)))
      fun b hb => hr b (List.mem_cons_of_mem _ hb)

theorem assign_stp (hρ : ∀ x, HasTy (Γ x).ty (ρ x)) {ts : List (Tgt P.F P.O)}
    {es : List (Exp P.F P.O)} (h : linAssign Γ ts es st = .ok st')
    (hts : ∀ t ∈ ts, PlainT Γ t = true) (hes : ∀ e ∈ es, Plain Γ e = true) (g : Good Γ st) :
    Stp (· = st.cur) st st' ∧ Open st' := by
  simp only [linAssign, Res.bind_eq_ok] at h
  obtain ⟨⟨ns, s1⟩, h1, ⟨qs, s2⟩, h2, s3, h3, h4⟩ := h
  simp only [Res.ok.injEq] at h4
  dsimp only at h2 h3
  have A := tgts_sim hρ h1 g.wf hts
  have w1 := g.wf.ext A.ext A.sub
  have B := vals_sim hρ h2 w1 hes
  have o2 := vals_open hρ h2 ⟨w1, tgts_open hρ h1 g⟩ hes
  obtain ⟨o3, l3⟩ := stores_st h3 o2
  have f1 := foldl_free (P := P) freeP freeP_blocks (qs.map Prod.fst).reverse s3
  have f2 := foldl_free (P := P) freeN freeN_blocks ns.reverse
    ((qs.map Prod.fst).reverse.foldl freeP s3)
  have hsame : st'.blocks = s3.blocks ∧ st'.nb = s3.nb ∧ st'.cur = s3.cur := by
    rw [← h4]
    exact ⟨f2.1.trans f1.1, f2.2.1.trans f1.2.1, f2.2.2.trans f1.2.2⟩
  refine ⟨.of g.wf (((A.ext.trans B.ext).trans (stores_ext h3)).trans (.same hsame)) ?_, ?_⟩
  · intro k hk
    rw [← h4]
    refine foldl_live (R := fun n k => k ∈ fks n)
      (fun st a k h r => (live_freeN _ _ _).2 ⟨h, r⟩) _ _ _ ?_ ?_
    · refine foldl_live (R := fun q k => fk q = some k)
        (fun st a k h r => (live_freeP _ _ _).2 ⟨h, r⟩) _ _ _ ?_ ?_
      · exact l3 k (B.sub k (A.sub k hk)) fun a ha e => B.new a ha k e (A.sub k hk)
      · intro a ha e
        simp only [List.mem_reverse, List.mem_map] at ha
        obtain ⟨b, hb, rfl⟩ := ha
        exact B.new b hb k e (A.sub k hk)
    · intro a ha e
      exact A.new a (List.mem_reverse.1 ha) k e hk
  · unfold Open
    rw [term_same hsame.1 hsame.2.2]
    exact o3

end Verif.LinStmt
