import Verif.ExpCode.Call
/-! The code of an expression computes its value: the induction. -/
namespace Verif.ExpCode
open Verif.Fold (FOps BOp UOp)
variable {W : Type} {P : Ops W} {K : List Val}

theorem gs_wf {s0 s : FS} {d : D} {ev : Regs → W → Res (Val × W)} (h : GS P K s0 s d ev) : s.nactvar = s0.nactvar := by
  obtain ⟨_, _, q, sem, g, hs⟩ := h
  exact hs.nact

theorem loc_acc {nact : Nat} {s : FS} {r : Nat} (h : r < nact) : Acc nact s.freereg s (.loc r) := ⟨h, rfl⟩

/-- a fresh object in the next register -/
theorem obj_spec {s0 : FS} (hw : WF s0) (hna : s0.nactvar ≤ s0.freereg) {x : Src} (hx : ∀ b c, x ≠ .concat b c)
    {tm : Typed.TM} {s : FS} {d : D} {r : Nat}
    (h : exp2nextreg (emit s0 (.set 0 x)) { kind := .reloc s0.pc, tm := tm } = .ok (s, d, r)) :
    GS P K s0 s d (fun R w => x.value P K R w) ∧ ∀ u, d.kind ≠ .up u := by
  have hs : Spec P K (fun r => r < s0.freereg) s0 (emit s0 (.set 0 x)) { kind := .reloc s0.pc, tm := tm }
      (fun R w => x.value P K R w) (dischargejpc s0) (x.value P K) skipG :=
    emit_finish (Ext.refl hw) (Ext.refl hw) rfl (fun _ R w => ⟨fun _ _ => rfl, rfl⟩) rfl rfl rfl
  obtain ⟨y1, y2, y3, y4, y5, y6, g', y7⟩ := exp2nextreg_spec hs (Nat.lt_irrefl _) hna (acc_emit rfl hx) h
  refine ⟨⟨?_, ?_, _, _, g', y7⟩, ?_⟩
  · rw [y3]; exact Or.inr ⟨rfl, y2⟩
  · rw [y3]; exact True.intro
  · rw [y3]; intro u e; cases e

theorem disch_up {k : Kind} (h : k.disch = true) (u : Nat) : k ≠ .up u := by
  intro e; rw [e] at h; cases h

theorem codenot_up {s : FS} {d : D} {s' : FS} {d' : D} (h : codenot s d = .ok (s', d')) (u : Nat) : d'.kind ≠ .up u := by
  unfold codenot at h
  obtain ⟨⟨s1, k⟩, e1, h⟩ := Res.bind_eq_ok.1 h
  cases h
  show k ≠ .up u
  rcases codenotKind_cases e1 with ⟨_, e⟩ | ⟨_, e⟩ | ⟨j, _, e⟩ | ⟨_, s3, d3, r, _, e⟩ <;> (cases e; intro e; cases e)

theorem gen_gs : ∀ (e : E) (s0 s : FS) (d : D), gen P.F true e s0 = .ok (s, d) → WF s0 →
    s0.nactvar ≤ s0.freereg → e.ok s0.nactvar →
    GS P K s0 s d (fun R w => eval P R e w) ∧ ∀ u, d.kind = .up u → e = .up u ∧ s = s0 ∧ d.t = [] ∧ d.f = [] := by
  have nu : ∀ {e : E} {s0 s : FS} {d : D} {A : Prop}, (A ∧ ∀ u, d.kind ≠ .up u) →
      A ∧ ∀ u, d.kind = .up u → e = .up u ∧ s = s0 ∧ d.t = [] ∧ d.f = [] :=
    fun h => ⟨h.1, fun u e => absurd e (h.2 u)⟩
  intro e
  induction e with
  | nil =>
    intro s0 s d h hw hna hok
    simp only [gen] at h
    cases h
    exact ⟨⟨rfl, True.intro, s0, _, _, Spec.triv hw ⟨rfl, rfl⟩ rfl rfl⟩, fun u e => nomatch e⟩
  | tru =>
    intro s0 s d h hw hna hok
    simp only [gen] at h
    cases h
    exact ⟨⟨rfl, True.intro, s0, _, _, Spec.triv hw ⟨rfl, rfl⟩ rfl rfl⟩, fun u e => nomatch e⟩
  | fls =>
    intro s0 s d h hw hna hok
    simp only [gen] at h
    cases h
    exact ⟨⟨rfl, True.intro, s0, _, _, Spec.triv hw ⟨rfl, rfl⟩ rfl rfl⟩, fun u e => nomatch e⟩
  | int i =>
    intro s0 s d h hw hna hok
    simp only [gen] at h
    cases h
    exact ⟨⟨rfl, True.intro, s0, _, _, Spec.triv hw ⟨rfl, rfl⟩ rfl rfl⟩, fun u e => nomatch e⟩
  | flt x =>
    intro s0 s d h hw hna hok
    simp only [gen] at h
    cases h
    exact ⟨⟨rfl, True.intro, s0, _, _, Spec.triv hw ⟨rfl, rfl⟩ rfl rfl⟩, fun u e => nomatch e⟩
  | str b =>
    intro s0 s d h hw hna hok
    simp only [gen] at h
    cases h
    refine ⟨⟨(addK_same s0 (.str b)).2.2.2.2, ⟨_, (addK_spec s0 (.str b)).2, rfl⟩, _, _, skipG,
      Spec.mkNil addK_pre (addK_ext hw _) ?_ rfl rfl⟩, fun u e => nomatch e⟩
    intro hK R w
    refine ⟨fun _ _ => rfl, ?_⟩
    rw [prefix_getD hK (addK_spec s0 (.str b)).2]
    simp only [eval]
  | loc r =>
    intro s0 s d h hw hna hok
    simp only [gen] at h
    cases h
    exact ⟨⟨loc_acc hok, True.intro, s0, _, _, Spec.triv hw ⟨rfl, rfl⟩ rfl rfl⟩, fun u e => nomatch e⟩
  | up u =>
    intro s0 s d h hw hna hok
    simp only [gen] at h
    cases h
    refine ⟨⟨rfl, True.intro, s0, _, _, Spec.triv hw ⟨rfl, rfl⟩ rfl rfl⟩, fun u' e => ?_⟩
    cases e
    exact ⟨rfl, rfl, rfl, rfl⟩
  | tnew =>
    intro s0 s d h hw hna hok
    simp only [gen] at h
    obtain ⟨⟨s1, d1, r⟩, e1, h⟩ := Res.bind_eq_ok.1 h
    cases h
    exact nu (obj_spec hw hna (x := .newtable) (fun _ _ e => nomatch e) e1)
  | func i =>
    intro s0 s d h hw hna hok
    simp only [gen] at h
    obtain ⟨⟨s1, d1, r⟩, e1, h⟩ := Res.bind_eq_ok.1 h
    cases h
    exact nu (obj_spec hw hna (x := .closure i) (fun _ _ e => nomatch e) e1)
  | paren a ih =>
    intro s0 s d h hw hna hok
    simp only [gen] at h
    obtain ⟨⟨s1, d1⟩, e1, h⟩ := Res.bind_eq_ok.1 h
    obtain ⟨⟨ha, hv, q, sem, g, hs⟩, _⟩ := ih _ _ _ e1 hw hna hok
    dsimp only at h
    obtain ⟨h1, h2, h3, h4, q1, h5, _⟩ := dischargevars_spec hs
    have ha1 := dischargevars_acc hs.nact hna ha
    have hv1 := dischargevars_kinv hv
    generalize dischargevars s1 d1 = x at *
    cases h
    exact nu ⟨⟨ha1, hv1, _, _, _, h5⟩, disch_up h1⟩
  | bin o a b iha ihb =>
    intro s0 s d h hw hna hok
    simp only [gen] at h
    obtain ⟨⟨s1, d1⟩, e1, h⟩ := Res.bind_eq_ok.1 h
    obtain ⟨⟨s2, d2⟩, e2, h⟩ := Res.bind_eq_ok.1 h
    obtain ⟨⟨s3, d3⟩, e3, h⟩ := Res.bind_eq_ok.1 h
    obtain ⟨hg1, _⟩ := iha _ _ _ e1 hw hna hok.1
    obtain ⟨n1, k1, g1, h1⟩ := infix_spec hna hg1 e2
    have hw2 : WF s2 := by
      rcases h1 with ⟨x, _, _, h1⟩ | ⟨rk, _, _, h1⟩
      · exact h1.ext.wf
      · exact h1.ext.wf
    have hfr : s0.freereg ≤ s2.freereg := by
      rcases h1 with ⟨x, _, h1, _⟩ | ⟨rk, _, h1, _⟩
      · omega
      · exact h1.le
    obtain ⟨hg2, _⟩ := ihb _ _ _ e3 hw2 (by dsimp only; omega) (by rw [n1]; exact hok.2)
    exact nu (posfixArith_spec hna n1 h1 hg2
      (fun R R' w hR => eval_congr (fun r hr => hR r (by omega)) b hok.2 w) o (fun R w => rfl) h)
  | cmp o a b iha ihb =>
    intro s0 s d h hw hna hok
    simp only [gen] at h
    obtain ⟨⟨s1, d1⟩, e1, h⟩ := Res.bind_eq_ok.1 h
    obtain ⟨⟨s2, d2, rk⟩, e2, h⟩ := Res.bind_eq_ok.1 h
    obtain ⟨⟨s3, d3⟩, e3, h⟩ := Res.bind_eq_ok.1 h
    obtain ⟨⟨ha, hv, q, sem, g, hs⟩, _⟩ := iha _ _ _ e1 hw hna hok.1
    obtain ⟨y1, y2, y3, y4, y5, g', y6⟩ := exp2RK_spec hs (Nat.lt_irrefl _) hna ha e2
    have := y1.le
    obtain ⟨hg2, _⟩ := ihb _ _ _ e3 y6.ext.wf (by dsimp only; omega) (by rw [y4]; exact hok.2)
    exact nu (codecomp_spec hna y4 y2 y1 y6 hg2
      (fun R R' w hR => eval_congr (fun r hr => hR r (by omega)) b hok.2 w) o
      (fun R w => by cases o <;> rfl) h)
  | and a b iha ihb =>
    intro s0 s d h hw hna hok
    simp only [gen] at h
    obtain ⟨⟨s1, d1⟩, e1, h⟩ := Res.bind_eq_ok.1 h
    obtain ⟨⟨s2, d2⟩, e2, h⟩ := Res.bind_eq_ok.1 h
    obtain ⟨⟨s3, d3⟩, e3, h⟩ := Res.bind_eq_ok.1 h
    obtain ⟨⟨ha, hv, q, sem, g, hs⟩, _⟩ := iha _ _ _ e1 hw hna hok.1
    obtain ⟨y1, y2, y3, g', y4⟩ := goiftrue_spec hs (Nat.lt_irrefl _) hna ha hv e2
    obtain ⟨⟨ha3, hv3, q3, sem3, g3, hs3⟩, _⟩ := ihb _ _ _ e3 y4.ext.wf (by dsimp only; omega) (by rw [y2]; exact hok.2)
    dsimp only at h
    have hna2 : s2.nactvar ≤ s2.freereg := by omega
    obtain ⟨h1, h2, h3, h4, q4, h5, _⟩ := dischargevars_spec hs3
    have ha4 := dischargevars_acc hs3.nact hna2 ha3
    have hv4 := dischargevars_kinv hv3
    generalize dischargevars s3 d3 = x at *
    cases h
    rw [y1, y2] at ha4
    rw [y1] at h5
    refine nu ⟨⟨ha4, hv4, q4, sem3, _, condSeq y4 h5
      (fun R R' w hR => eval_congr (fun r hr => hR r (by omega)) b hok.2 w) ?_ rfl (fun j hj => hj)
      (fun j hj => List.mem_append_left _ hj) (fun j hj => List.mem_append_right _ hj) ?_⟩, disch_up h1⟩
    · intro R w
      simp only [eval]
      cases eval P R a w with
      | ok p => obtain ⟨v, w⟩ := p; cases hv : v.truthy <;> simp [Res.bind, hv]
      | err m => rfl
      | ub => rfl
    · show (x.2.t ++ (x.2.f ++ d2.f)).Perm _
      rw [List.append_assoc]
  | or a b iha ihb =>
    intro s0 s d h hw hna hok
    simp only [gen] at h
    obtain ⟨⟨s1, d1⟩, e1, h⟩ := Res.bind_eq_ok.1 h
    obtain ⟨⟨s2, d2⟩, e2, h⟩ := Res.bind_eq_ok.1 h
    obtain ⟨⟨s3, d3⟩, e3, h⟩ := Res.bind_eq_ok.1 h
    obtain ⟨⟨ha, hv, q, sem, g, hs⟩, _⟩ := iha _ _ _ e1 hw hna hok.1
    obtain ⟨y1, y2, y3, g', y4⟩ := goiffalse_spec hs (Nat.lt_irrefl _) hna ha e2
    obtain ⟨⟨ha3, hv3, q3, sem3, g3, hs3⟩, _⟩ := ihb _ _ _ e3 y4.ext.wf (by dsimp only; omega) (by rw [y2]; exact hok.2)
    dsimp only at h
    have hna2 : s2.nactvar ≤ s2.freereg := by omega
    obtain ⟨h1, h2, h3, h4, q4, h5, _⟩ := dischargevars_spec hs3
    have ha4 := dischargevars_acc hs3.nact hna2 ha3
    have hv4 := dischargevars_kinv hv3
    generalize dischargevars s3 d3 = x at *
    cases h
    rw [y1, y2] at ha4
    rw [y1] at h5
    refine nu ⟨⟨ha4, hv4, q4, sem3, _, condSeq y4 h5
      (fun R R' w hR => eval_congr (fun r hr => hR r (by omega)) b hok.2 w) ?_ rfl
      (fun j hj => List.mem_append_left _ hj) (fun j hj => hj) (fun j hj => List.mem_append_right _ hj) ?_⟩, disch_up h1⟩
    · intro R w
      simp only [eval]
      cases eval P R a w with
      | ok p => obtain ⟨v, w⟩ := p; cases hv : v.truthy <;> simp [Res.bind, hv]
      | err m => rfl
      | ub => rfl
    · show ((x.2.t ++ d2.t) ++ x.2.f).Perm _
      rw [List.append_assoc, List.append_assoc]
      exact List.Perm.append_left _ List.perm_append_comm
  | not a ih =>
    intro s0 s d h hw hna hok
    simp only [gen] at h
    obtain ⟨⟨s1, d1⟩, e1, h⟩ := Res.bind_eq_ok.1 h
    obtain ⟨⟨ha, hv, q, sem, g, hs⟩, _⟩ := ih _ _ _ e1 hw hna hok
    obtain ⟨y1, y2, q', sem', g', y3⟩ := codenot_spec hs (Nat.lt_irrefl _) hna ha hv h
    refine nu ⟨⟨y1, y2, q', sem', g', ?_⟩, codenot_up h⟩
    have e : (fun R w => eval P R (.not a) w) = fun R w => notR (eval P R a w) := by
      funext R w
      simp only [eval]
      cases eval P R a w <;> rfl
    rw [e]
    exact y3
  | un o a ih =>
    intro s0 s d h hw hna hok
    simp only [gen] at h
    obtain ⟨⟨s1, d1⟩, e1, h⟩ := Res.bind_eq_ok.1 h
    obtain ⟨hg, _⟩ := ih _ _ _ e1 hw hna hok
    exact nu (codeun_spec hna hg o (fun R w => rfl) h)
  | len a ih =>
    intro s0 s d h hw hna hok
    simp only [gen] at h
    obtain ⟨⟨s1, d1⟩, e1, h⟩ := Res.bind_eq_ok.1 h
    obtain ⟨hg, _⟩ := ih _ _ _ e1 hw hna hok
    exact nu (codelen_spec hna hg (fun R w => rfl) h)
  | cat a b iha ihb =>
    intro s0 s d h hw hna hok
    simp only [gen] at h
    obtain ⟨⟨s1, d1⟩, e1, h⟩ := Res.bind_eq_ok.1 h
    obtain ⟨⟨s2, d2, r⟩, e2, h⟩ := Res.bind_eq_ok.1 h
    obtain ⟨⟨s3, d3⟩, e3, h⟩ := Res.bind_eq_ok.1 h
    obtain ⟨⟨ha, hv, q, sem, g, hs⟩, _⟩ := iha _ _ _ e1 hw hna hok.1
    obtain ⟨rfl, y2, y3, y4, y5, y6, g', y7⟩ := exp2nextreg_spec hs (Nat.lt_irrefl _) hna ha e2
    obtain ⟨hg2, _⟩ := ihb _ _ _ e3 y7.ext.wf (by have := y7.nact; dsimp only; omega) (by rw [y7.nact]; exact hok.2)
    exact nu (posfixCat_spec hna y7.nact y3 y4 y5 y2 (y7.opd y4 y5) hg2
      (fun R R' w hR => eval_congr (fun r hr => hR r (by omega)) b hok.2 w) (fun R w => rfl) h)
  | index a b iha ihb =>
    intro s0 s d h hw hna hok
    simp only [gen] at h
    obtain ⟨⟨s1, d1⟩, e1, h⟩ := Res.bind_eq_ok.1 h
    obtain ⟨⟨s2, d2⟩, e2, h⟩ := Res.bind_eq_ok.1 h
    obtain ⟨⟨s3, d3⟩, e3, h⟩ := Res.bind_eq_ok.1 h
    obtain ⟨⟨s4, d4⟩, e4, hI⟩ := Res.bind_eq_ok.1 h
    obtain ⟨⟨ha, hv, q, sem, g, hs⟩, hup⟩ := iha _ _ _ e1 hw hna hok.1
    dsimp only at e2 e3 e4 hI
    have other : (∀ u, d1.kind ≠ .up u) → (do
        let (s, d, _) ← exp2anyreg s1 d1
        return (s, d)) = Res.ok (s2, d2) → GS P K s0 s d (fun R w => eval P R (.index a b) w) ∧ ∀ u, d.kind ≠ .up u := by
      intro hnu e2
      obtain ⟨⟨s5, d5, r⟩, e5, e2⟩ := Res.bind_eq_ok.1 e2
      cases e2
      obtain ⟨y1, y2, y3, y4, y5, g', y6⟩ := exp2anyreg_spec hs (Nat.lt_irrefl _) hna ha e5
      have := y1.le
      obtain ⟨hg2, _⟩ := ihb _ _ _ e3 y6.ext.wf (by have := y6.nact; omega) (by rw [y6.nact]; exact hok.2)
      refine index_spec hna y6.nact y2 y3 y4 y1 (y6.opd y3 y4) hg2
        (fun R R' w hR => eval_congr (fun r hr => hR r (by omega)) b hok.2 w) (fun R w => ?_) e4 hI
      have hau : ∀ u, a ≠ .up u := by
        rintro u rfl
        simp only [gen] at e1
        cases e1
        exact hnu u rfl
      exact eval_index hau R w
    unfold exp2anyregup at e2
    split at e2
    · rename_i u hk hj
      cases e2
      obtain ⟨rfl, rfl, ht, hf⟩ := hup u hk
      obtain ⟨hg2, _⟩ := ihb _ _ _ e3 hw hna hok.2
      exact nu (indexup_spec hna hk ht hf hg2 (fun R w => rfl) e4 hI)
    · rename_i hx
      refine nu (other ?_ e2)
      intro u hk
      obtain ⟨_, _, ht, hf⟩ := hup u hk
      exact hx u hk (by simp [D.hasjumps, ht, hf])
  | call f as ihf iha =>
    intro s0 s d h hw hna hok
    simp only [gen] at h
    obtain ⟨⟨s1, d1⟩, e1, h⟩ := Res.bind_eq_ok.1 h
    obtain ⟨⟨s2, d2, b⟩, e2, h⟩ := Res.bind_eq_ok.1 h
    obtain ⟨⟨s3, o⟩, e3, h⟩ := Res.bind_eq_ok.1 h
    obtain ⟨rfl, hn⟩ := gs_next (ihf _ _ _ e1 hw hna hok.1).1 hna e2
    obtain ⟨hf, _, x, _⟩ := id hn
    obtain ⟨hga, _⟩ := genArgs_ga as (fun a ha s0 s d h hw hna hok => (iha a ha s0 s d h hw hna hok).1) _ _ _ e3 x.wf
      (by rw [x.nact]; dsimp only; omega) (by rw [x.nact]; exact hok.2)
    obtain ⟨g, x, m⟩ := call_ext hn.head hga (fun R R' w hR => evalArgs_local (fun r hr => hR r (by omega)) as hok.2 w)
    cases h
    refine nu ⟨⟨Or.inr ⟨rfl, rfl⟩, True.intro, _, _, g, Spec.mkNil ⟨rfl, rfl⟩ x (fun hK R w => ?_) rfl rfl⟩, fun u e => nomatch e⟩
    have m := m hK R w
    have he : eval P R (.call f as) w = ((((eval P R f w).bind fun p => .ok ((p.1, []), p.2)).bind fun p => (evalArgs P R as p.2).bind fun q =>
        P.call p.1.1 (p.1.2 ++ q.1) q.2).bind fun p => .ok (p.1.headD .nil, p.2)) := by
      simp only [eval]
      cases eval P R f w with
      | ok p =>
        simp only [Res.bind_ok, Res.bind, List.nil_append]
        cases evalArgs P R as p.2 with
        | ok q =>
          simp only [Res.bind_ok]
          cases P.call p.1 q.1 q.2 <;> rfl
        | err m => rfl
        | ub => rfl
      | err m => rfl
      | ub => rfl
    dsimp only at m ⊢
    rw [he]
    cases hg : g R w with
    | err e => rw [hg] at m; rw [m]; exact rfl
    | ub => rw [hg] at m; rw [m]; exact rfl
    | ok o1 =>
      cases o1 with
      | exit j R1 w1 => rw [hg] at m; exact m.elim
      | fall R1 w1 =>
        rw [hg] at m
        obtain ⟨a1, vs, a2, a3⟩ := m
        rw [a2]
        exact ⟨a1, by dsimp only [Res.bind]; rw [← a3]⟩
  | mcall f k as ihf iha =>
    intro s0 s d h hw hna hok
    simp only [gen] at h
    obtain ⟨⟨s1, d1⟩, e1, h⟩ := Res.bind_eq_ok.1 h
    dsimp only at h
    obtain ⟨⟨s2, b⟩, e2, h⟩ := Res.bind_eq_ok.1 h
    obtain ⟨⟨s3, o⟩, e3, h⟩ := Res.bind_eq_ok.1 h
    obtain ⟨rfl, hf, hn⟩ := self_head (ihf _ _ _ e1 hw hna hok.1).1 hna e2
    obtain ⟨_, _, x, _⟩ := id hn
    obtain ⟨hga, _⟩ := genArgs_ga as (fun a ha s0 s d h hw hna hok => (iha a ha s0 s d h hw hna hok).1) _ _ _ e3 x.wf
      (by rw [x.nact]; dsimp only; omega) (by rw [x.nact]; exact hok.2)
    obtain ⟨g, x, m⟩ := call_ext hn hga (fun R R' w hR => evalArgs_local (fun r hr => hR r (by omega)) as hok.2 w)
    cases h
    refine nu ⟨⟨Or.inr ⟨rfl, rfl⟩, True.intro, _, _, g, Spec.mkNil ⟨rfl, rfl⟩ x (fun hK R w => ?_) rfl rfl⟩, fun u e => nomatch e⟩
    have m := m hK R w
    have he : eval P R (.mcall f k as) w = ((((eval P R f w).bind fun p => (P.index p.1 (.str k) p.2).bind fun q => .ok ((q.1, [p.1]), q.2)).bind fun p => (evalArgs P R as p.2).bind fun q =>
        P.call p.1.1 (p.1.2 ++ q.1) q.2).bind fun p => .ok (p.1.headD .nil, p.2)) := by
      simp only [eval]
      cases eval P R f w with
      | ok p =>
        simp only [Res.bind_ok, Res.bind]
        cases P.index p.1 (.str k) p.2 with
        | ok f =>
          simp only [Res.bind_ok, List.cons_append, List.nil_append]
          cases evalArgs P R as f.2 with
          | ok q =>
            simp only [Res.bind_ok]
            cases P.call f.1 (p.1 :: q.1) q.2 <;> rfl
          | err m => rfl
          | ub => rfl
        | err m => rfl
        | ub => rfl
      | err m => rfl
      | ub => rfl
    dsimp only at m ⊢
    rw [he]
    cases hg : g R w with
    | err e => rw [hg] at m; rw [m]; exact rfl
    | ub => rw [hg] at m; rw [m]; exact rfl
    | ok o1 =>
      cases o1 with
      | exit j R1 w1 => rw [hg] at m; exact m.elim
      | fall R1 w1 =>
        rw [hg] at m
        obtain ⟨a1, vs, a2, a3⟩ := m
        rw [a2]
        exact ⟨a1, by dsimp only [Res.bind]; rw [← a3]⟩
  | anil => intro s0 s d h; simp only [gen] at h; cases h
  | acons a r => intro s0 s d h; simp only [gen] at h; cases h
  | aopen f as => intro s0 s d h; simp only [gen] at h; cases h
  | amopen f k as => intro s0 s d h; simp only [gen] at h; cases h

theorem gen_args {as : E} {s0 s : FS} {o : Option OpenCall} (h : genArgs P.F true as s0 = .ok (s, o)) (hw : WF s0)
    (hna : s0.nactvar ≤ s0.freereg) (hok : as.ok s0.nactvar) :
    GA P K s0 s o (fun R w => evalArgs P R as w) ∧ s.freereg = s0.freereg + as.exps :=
  genArgs_ga as (fun a _ s0 s d h hw hna hok => (gen_gs a s0 s d h hw hna hok).1) _ _ _ h hw hna hok

/-- the values of a list of expressions that ends with a call, in registers -/
theorem genMulti_ext {as : E} {n : Nat} {s0 s : FS} (h : genMulti P.F true as n s0 = .ok s) (hw : WF s0)
    (hna : s0.nactvar ≤ s0.freereg) (hok : as.ok s0.nactvar) :
    s.freereg = s0.freereg + n ∧ ∃ g, Ext P K s0 s g ∧ (s.k <+: K → ∀ R w,
      match g R w with
      | .ok (.fall R' w') => (∀ r, r < s0.freereg → R' r = R r) ∧ ∃ vs, evalArgs P R as w = .ok (vs, w') ∧
          ∀ i, i < n → R' (s0.freereg + i) = vs.getD i .nil
      | .ok (.exit ..) => False
      | .err m => evalArgs P R as w = .err m
      | .ub => evalArgs P R as w = .ub) := by
  unfold genMulti at h
  obtain ⟨⟨s1, o⟩, e1, h⟩ := Res.bind_eq_ok.1 h
  obtain ⟨hga, hf⟩ := gen_args (P := P) (K := K) e1 hw hna hok
  have hlast := genArgs_free as _ _ _ e1
  cases o with
  | none => cases h
  | some c =>
    obtain ⟨a, k, l⟩ := c
    dsimp only at h
    obtain ⟨s2, e2, h⟩ := Res.bind_eq_ok.1 h
    have hl := hlast _ rfl
    dsimp only at hl
    have hpos : 1 ≤ as.exps := by
      cases as <;> simp only [genArgs] at e1 <;> first | (cases e1) | (simp [E.exps])
    obtain ⟨g, x, m⟩ := multi_ext hga hl n (by omega)
    rw [show s0.freereg + n - (s1.freereg - 1) = n + 1 - as.exps by omega] at x
    have r1 := reserve_lt e2
    have r2 := reserve_ext (P := P) (K := K) x.wf e2
    cases h
    refine ⟨?_, g, ?_, ?_⟩
    · dsimp only
      rw [r1]
      show s1.freereg + _ - _ = _
      omega
    · exact (x.trans_skip r2).trans_skip (Ext.of_same r2.wf rfl rfl rfl rfl (List.prefix_refl _))
    · intro hK R w
      exact m (r2.k.trans hK) R w

end Verif.ExpCode
