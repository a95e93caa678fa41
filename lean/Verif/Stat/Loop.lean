import Verif.Stat.Block
/-! Blocks, loops and conditions. -/
namespace Verif.Stat
open Verif.ExpCode
variable {W : Type} {P : Ops W} {K : List Val} {C : List Instr}

theorem ents_nil {i : Nat} {κ : LMap} : Ents P K C i κ [] := fun _ h => nomatch h

theorem block_done {b s : S} {sort : Srt} (hc : Claim P b) {u : Bool} {g g' i : G} {esc : List Nat}
    (h : gs P.F true false b (enter g.fs) = .ok (i, esc)) (hl : leave false i g = .ok g') (hg : Good sort g)
    (hwf : b.wf (Assign.Stable P) .list g.fs.nactvar) (hs0 : s.nloc = 0) (hs1 : s.names = []) (hso : sort ≠ .list)
    (hs : ∀ d n0 ρ k, sem P d u n0 g.fs.nactvar s ρ k =
      (scope d b ρ (sem P d false g.fs.nactvar g.fs.nactvar b) (cut g.fs.nactvar k), [])) : Done P u sort s g g' [] := by
  obtain ⟨b1, b2, b3, b4, b5, b6, b7, b8⟩ := block hc h hl hg.free hg.sep hwf
  refine ⟨b1, by rw [b3, hs0]; rfl, ⟨[], by rw [b2, List.append_nil], hs1.symm⟩, fun _ => b4.trans b3.symm, fun _ => rfl, b5, b6, b7,
    fun X hX => (b8 X hX).1, fun X hX C κ t hA _ => ?_, ?_⟩
  · have := ((b8 X hX).2 C κ hA).1
    exact ⟨this.ok, this.gts, this.lbs⟩
  · intro K hK X hX C κ hA _ d i hi n0 ρ k _ hρ hk _
    rw [hs]
    rw [hs1] at hρ
    refine ⟨?_, ents_nil⟩
    rw [b3] at hk
    exact ((b8 X hX).2 C κ hA).2 K hK d i hi ρ _ _ (Nat.le_refl _) hρ (fun N hN => hk.cut hN)

theorem claim_do {b : S} (hc : Claim P b) : Claim P (.do_ b) := by
  intro u sort g g' esc h hg hwf
  have hst : sort = .stmt := by cases sort <;> first | rfl | exact hwf.elim
  subst hst
  rw [gs] at h
  obtain ⟨⟨i, e0⟩, e1, h⟩ := Res.bind_eq_ok.1 h
  obtain ⟨g1, e2, h⟩ := Res.bind_eq_ok.1 h
  cases h
  exact block_done hc e1 e2 hg hwf rfl rfl (fun h => nomatch h) (fun d n0 ρ k => by rw [sem])

theorem claim_els {b : S} (hc : Claim P b) : Claim P (.els b) := by
  intro u sort g g' esc h hg hwf
  have hst : sort = .part := by cases sort <;> first | rfl | exact hwf.elim
  subst hst
  rw [gs] at h
  obtain ⟨⟨i, e0⟩, e1, h⟩ := Res.bind_eq_ok.1 h
  obtain ⟨g1, e2, h⟩ := Res.bind_eq_ok.1 h
  cases h
  exact block_done hc e1 e2 hg hwf rfl rfl (fun h => nomatch h) (fun d n0 ρ k => by rw [sem])

theorem claim_fi : Claim P .fi := by
  intro u sort g g' esc h hg hwf
  rw [gs] at h
  cases h
  refine ⟨rfl, rfl, ⟨[], (List.append_nil _).symm, rfl⟩, fun _ => hg.free, fun _ => rfl, Nat.le_refl _, List.prefix_refl _, hg.sep,
    fun X hX => hX, fun X hX C κ t hA _ => hA, ?_⟩
  intro K hK X hX C κ hA _ d i _ n0 ρ k _ _ hk _
  exact ⟨hk, fun _ h => nomatch h⟩

theorem claim_label (l : Nat) : Claim P (.label l) := by
  intro u sort g g' esc h _ _
  rw [gs] at h
  cases h

theorem claim_if {p : S} (hc : Claim P p) : Claim P (.if_ p) := by
  intro u sort g g' esc h hg hwf
  have hst : sort = .stmt := by cases sort <;> first | rfl | exact hwf.elim
  subst hst
  have hwf : p.wf (Assign.Stable P) .part g.fs.nactvar := hwf
  rw [gs] at h
  obtain ⟨⟨g1, e0⟩, e1, h⟩ := Res.bind_eq_ok.1 h
  cases h
  have hD := hc false .part _ _ _ e1 hg.wk hwf
  have hnm : p.names = [] ∧ p.nloc = 0 := by cases p <;> first | exact ⟨rfl, rfl⟩ | exact hwf.elim
  have hp := patchtohere_pa g1.fs e0
  obtain ⟨ls, q1, q2⟩ := hD.labels
  rw [hnm.1] at q2
  rw [List.map_eq_nil_iff.1 q2] at q1
  refine ⟨hD.nact, ?_, ⟨[], q1, rfl⟩, fun _ => hD.free (fun h => nomatch h), fun _ => rfl, hD.le, hD.k, ⟨hD.sep.gl, hD.sep.nodup⟩, ?_, ?_, ?_⟩
  · show g1.fs.nactvar = _
    rw [hD.act, hnm.2]; rfl
  · intro X hX
    exact hp.inv _ (hD.inv X hX).inv3
  · intro X hX C κ t hA _
    obtain ⟨a1, a2⟩ := hp.back _ (hD.inv X hX).inv3 C hA.ok
    exact hD.back X hX C κ _ ⟨a1, hA.gts, hA.lbs⟩ a2
  · intro K hK X hX C κ hA _ d i hi n0 ρ k _ hρ hk _
    obtain ⟨a1, a2⟩ := hp.back _ (hD.inv X hX).inv3 C hA.ok
    have := (hD.sim K hK X hX C κ ⟨a1, hA.gts, hA.lbs⟩ a2 d i hi g.fs.nactvar ρ k (fun h => nomatch h) (by rw [hnm.1]; exact hρ)
      hk (fun h => nomatch h)).1
    rw [sem]
    exact ⟨this, ents_nil⟩

/-! ### conditions -/

theorem getlabel_cond {c : E} {s s' : FS} {b : Bool} {l : List Nat} (h : CondRes P c (getlabel s) s' b l) : CondRes P c s s' b l := by
  obtain ⟨h1, h2, h3, h4, h5⟩ := h
  exact ⟨(Tr.same rfl rfl (List.prefix_refl _) : Tr s (getlabel s) []).trans h1, h2, h3, h4, h5⟩

theorem cond_res {c : E} {s s' : FS} {l : List Nat} (h : cond P.F true c s = .ok (s', l)) (hna : s.nactvar ≤ s.freereg)
    (hok : c.ok s.nactvar) : CondRes P c s s' true l := by
  unfold cond at h
  obtain ⟨⟨s1, d1⟩, e1, h⟩ := Res.bind_eq_ok.1 h
  obtain ⟨⟨s2, d2⟩, e2, h⟩ := Res.bind_eq_ok.1 h
  cases h
  exact getlabel_cond (condTrue (f := nilfls) (Or.inr rfl) e1 e2 rfl hna hok)

theorem condIf_res {c : E} {s s' : FS} {l : List Nat} (h : condIf P.F true c s = .ok (s', l)) (hna : s.nactvar ≤ s.freereg)
    (hok : c.ok s.nactvar) : CondRes P c s s' true l := by
  unfold condIf at h
  obtain ⟨⟨s1, d1⟩, e1, h⟩ := Res.bind_eq_ok.1 h
  obtain ⟨⟨s2, d2⟩, e2, h⟩ := Res.bind_eq_ok.1 h
  cases h
  exact getlabel_cond (condTrue (f := id) (Or.inl rfl) e1 e2 rfl hna hok)

theorem condGoto_res {c : E} {s s' : FS} {l : List Nat} (h : condGoto P.F true c s = .ok (s', l)) (hna : s.nactvar ≤ s.freereg)
    (hok : c.ok s.nactvar) : CondRes P c s s' false l := by
  unfold condGoto at h
  obtain ⟨⟨s1, d1⟩, e1, h⟩ := Res.bind_eq_ok.1 h
  obtain ⟨⟨s2, d2⟩, e2, h⟩ := Res.bind_eq_ok.1 h
  cases h
  exact getlabel_cond (condFalse e1 e2 rfl hna hok)

/-! ### loops -/

theorem loop_lok {i : Nat} {ρ : LEnv W} {κ : LMap} {p n : Nat} {t : Nat × Nat} {k : Kont W} (h : LOK P K C i ρ κ p [])
    (hk : Sim P K C i k t.1 n) (hn : n ≤ t.2) : LOK P K C i (extend ρ [(brk, n, k)]) (atbrk true t κ) p [] := by
  intro l t' ht
  unfold atbrk at ht
  by_cases hl : l = brk
  · rw [if_pos ⟨rfl, hl⟩] at ht
    cases ht
    refine ⟨n, k, ?_, hn, hk.mono (by omega), fun _ _ => hk⟩
    subst hl
    rfl
  · rw [if_neg (fun h => hl h.2)] at ht
    obtain ⟨m, k', a1, a2, a3, a4⟩ := h l t' ht
    exact ⟨m, k', by rw [extend_not (by simpa using hl)]; exact a1, a2, a3, a4⟩

theorem jumpto_res (s : FS) (t : Nat) : (jumpto s t).pc = s.pc + 1 ∧ (jumpto s t).k = s.k ∧ (jumpto s t).nactvar = s.nactvar ∧
    (jumpto s t).freereg = s.freereg ∧ ∀ X, Inv s.code (s.jpc ++ X) → Inv (jumpto s t).code ((jumpto s t).jpc ++ X) ∧
    ∀ C, OK C (jumpto s t) → OK C s ∧ ∃ js, s.pc ∈ js ∧ Tgt C js t := by
  have hj := jump_tr s
  have hp := patchlist_pa (jump s).1 (jump s).2 t
  have e : jumpto s t = patchlist (jump s).1 (jump s).2 t := rfl
  rw [e]
  refine ⟨by rw [hp.pc]; exact jump_length s, hp.k, hp.nact, hp.free, fun X hX => ⟨hp.inv _ (hj.inv X hX), fun C hC => ?_⟩⟩
  obtain ⟨a1, a2⟩ := hp.back _ (hj.inv X hX) C hC
  exact ⟨hj.back X hX C _ a1 a2, _, List.mem_cons_self .., a2⟩

theorem claim_while {c : E} {b : S} (hc : Claim P b) : Claim P (.while_ c b) := by
  intro u sort g g' esc h hg hwf
  have hst : sort = .stmt := by cases sort <;> first | rfl | exact hwf.elim
  subst hst
  obtain ⟨w1, w2⟩ : c.ok g.fs.nactvar ∧ b.wf (Assign.Stable P) .list g.fs.nactvar := hwf
  rw [gs] at h
  dsimp only at h
  obtain ⟨⟨s1, ex⟩, e1, h⟩ := Res.bind_eq_ok.1 h
  obtain ⟨⟨i, e0⟩, e2, h⟩ := Res.bind_eq_ok.1 h
  obtain ⟨lp, e3, h⟩ := Res.bind_eq_ok.1 h
  obtain ⟨g2, e4, h⟩ := Res.bind_eq_ok.1 h
  cases h
  obtain ⟨c1, c2, c3, c4, c5⟩ := cond_res e1 (Nat.le_of_eq hg.free.symm) w1
  have hsep0 : Sep (enter s1) := ⟨(fun _ h => nomatch h), List.nodup_nil⟩
  obtain ⟨b1, b2, b3, b4, b5, b6, b7, b8⟩ := block hc (s := s1) (o := enter s1) e2 e3 (by rw [c3, c2]; exact hg.free) hsep0
    (by rw [c2]; exact w2)
  have b1 : lp.nact = s1.nactvar := b1
  have b2 : lp.labels = [] := b2
  obtain ⟨j1, j2, j3, j4, j5⟩ := jumpto_res lp.fs g.fs.pc
  obtain ⟨l1, l2, l3, l4, l5, l6, l7, l8⟩ := leave_res e4 ⟨b7.gl, b7.nodup⟩ hg.sep
  have l3 : g2.fs.pc = (jumpto lp.fs g.fs.pc).pc := l3
  have l4 : g2.fs.k = (jumpto lp.fs g.fs.pc).k := l4
  have l5 : g2.fs.nactvar = lp.nact := l5
  have hp := patchtohere_pa g2.fs ex
  have hact : g2.fs.nactvar = g.fs.nactvar := by rw [l5, b1, c2]
  -- the states one after the other
  have chain : ∀ X, GInv g X → Inv s1.code (s1.jpc ++ (jms (enter s1).gotos ++ (ex ++ (jms g.gotos ++ X)))) ∧
      GInv lp (ex ++ (jms g.gotos ++ X)) ∧ GInv { lp with fs := jumpto lp.fs g.fs.pc } (jms g.gotos ++ (ex ++ X)) ∧
      Inv g2.fs.code (g2.fs.jpc ++ (ex ++ (jms g2.gotos ++ X))) := by
    intro X hX
    have z1 : Inv s1.code (s1.jpc ++ (jms (enter s1).gotos ++ (ex ++ (jms g.gotos ++ X)))) := c1.inv _ hX
    have z2 := (b8 _ z1).1
    have z3 : GInv { lp with fs := jumpto lp.fs g.fs.pc } (jms g.gotos ++ (ex ++ X)) :=
      GInv.perm ((j5 _ z2).1 : GInv { lp with fs := jumpto lp.fs g.fs.pc } _) (perm2 ..)
    exact ⟨z1, z2, z3, ((l8 _ z3).1 : GInv g2 (ex ++ X)).inv3⟩
  have backs : ∀ X, GInv g X → ∀ C κ, All C κ { g2 with fs := patchtohere g2.fs ex } →
      All C (atbrk true (g2.fs.pc, g.fs.nactvar) κ) lp ∧ OK C s1 ∧ OK C g.fs ∧ Gts C κ g.gotos ∧ Lbs κ g.labels ∧ Tgt C ex g2.fs.pc ∧
        ∃ js, lp.fs.pc ∈ js ∧ Tgt C js g.fs.pc := by
    intro X hX C κ hA
    obtain ⟨z1, z2, z3, z4⟩ := chain X hX
    obtain ⟨a1, a2⟩ := hp.back _ z4 C hA.ok
    obtain ⟨a3, a4, a5⟩ := (l8 _ z3).2 C κ ⟨a1, hA.gts, hA.lbs⟩
    have e : inner lp.labels (atbrk true ((jumpto lp.fs g.fs.pc).pc, (jumpto lp.fs g.fs.pc).nactvar) κ) =
        atbrk true (g2.fs.pc, g.fs.nactvar) κ := by
      rw [b2, inner_nil, l3, j3, b3, c2]
    have a3 : All C (inner lp.labels (atbrk true ((jumpto lp.fs g.fs.pc).pc, (jumpto lp.fs g.fs.pc).nactvar) κ))
      { lp with fs := jumpto lp.fs g.fs.pc } := a3
    rw [e] at a3
    obtain ⟨a6, a7⟩ := (j5 _ z2).2 C a3.ok
    have a8 : All C (atbrk true (g2.fs.pc, g.fs.nactvar) κ) lp := ⟨a6, a3.gts, a3.lbs⟩
    have a9 := ((b8 _ z1).2 C _ a8).1.ok
    exact ⟨a8, a9, c1.back _ hX C _ a9 a2, a4, a5, a2, a7⟩
  refine ⟨l1, hact, ⟨[], by rw [List.append_nil]; exact l2, rfl⟩, fun h => absurd rfl h, fun _ => rfl, ?_, ?_, ⟨l7.gl, l7.nodup⟩, ?_, ?_, ?_⟩
  · show g.fs.pc ≤ g2.fs.pc
    have := c1.le
    omega
  · show g.fs.k <+: g2.fs.k
    rw [l4, j2]
    exact c1.k.trans b6
  · intro X hX
    exact hp.inv _ (chain X hX).2.2.2
  · intro X hX C κ t hA _
    obtain ⟨_, _, a3, a4, a5, _⟩ := backs X hX C κ hA
    exact ⟨a3, a4, a5⟩
  · intro K hK X hX C κ hA _ d i hi n0 ρ k _ hρ hk _
    obtain ⟨a1, a2, a3, a4, a5, a6, js, a7, a8⟩ := backs X hX C κ hA
    have hk : Sim P K C i k g2.fs.pc g2.fs.nactvar := hk
    rw [hact] at hk
    have hK2 : lp.fs.k <+: K := by rw [← j2, ← l4]; exact hK
    refine ⟨?_, ents_nil⟩
    rw [sem]
    dsimp only
    have main : ∀ j i', i' ≤ j → i' ≤ i → Sim P K C i' (iter (fun again env w => bindR (eval P (look env) c w) fun v w =>
        if v.truthy then scope d b (extend ρ [(brk, g.fs.nactvar, k)]) (sem P d false g.fs.nactvar g.fs.nactvar b)
          (cut g.fs.nactvar again) env w else k env w) j) g.fs.pc g.fs.nactvar := by
      intro j
      induction j with
      | zero => intro i' h _; rw [Nat.le_zero.1 h]; exact Sim.bot
      | succ j ih =>
        intro i' h1 h2 env R w hl hR
        rw [iter]
        have hp := c5 K (b6.trans hK2) _ hX C a2 R w
        rw [eval_congr (fun r hr => hR r hr) _ w1] at hp
        refine hp.does ?_
        rintro v w' _ ⟨R', r1, r2⟩
        have hR' : ∀ x, x < g.fs.nactvar → R' x = look env x := fun x hx => by rw [r1 x (by rw [hg.free]; exact hx), hR x hx]
        by_cases hv : v.truthy = true
        · rw [if_pos hv] at r2 ⊢
          refine r2 _ _ ?_
          have hb := ((b8 _ (chain X hX).1).2 C _ a1).2 K hK2 d i' (by omega) (extend ρ [(brk, g.fs.nactvar, k)])
            (cut g.fs.nactvar (iter (fun again env w => bindR (eval P (look env) c w) fun v w =>
              if v.truthy then scope d b (extend ρ [(brk, g.fs.nactvar, k)]) (sem P d false g.fs.nactvar g.fs.nactvar b)
                (cut g.fs.nactvar again) env w else k env w) j)) g.fs.pc c1.le
            (loop_lok (hρ.mono h2 (Nat.le_refl _) (fun _ h => h)) (hk.mono h2) (Nat.le_refl _)) (fun N hN => by
              rw [c2] at hN
              refine Sim.cut ?_ hN
              intro env R w hl hR
              exact (a8.goS a7 (Nat.le_trans c1.le b5) R w).does (ih _ (by omega) (by omega) env R w hl hR))
          rw [c2] at hb
          exact hb env R' w' hl hR'
        · rw [if_neg hv] at r2 ⊢
          obtain ⟨j, hj, r2⟩ := r2
          exact r2 _ _ (a6.go hj R' w' _ _ (hk.mono h2 env R' w' hl hR'))
    exact main d i hi (Nat.le_refl _)

theorem claim_repeat {c : E} {b : S} (hc : Claim P b) : Claim P (.repeat_ b c) := by
  intro u sort g g' esc h hg hwf
  have hst : sort = .stmt := by cases sort <;> first | rfl | exact hwf.elim
  subst hst
  obtain ⟨w1, w2⟩ : b.wf (Assign.Stable P) .list g.fs.nactvar ∧ c.ok (g.fs.nactvar + b.nloc) := hwf
  rw [gs] at h
  dsimp only at h
  obtain ⟨⟨i, e0⟩, e1, h⟩ := Res.bind_eq_ok.1 h
  obtain ⟨⟨s1, ex⟩, e2, h⟩ := Res.bind_eq_ok.1 h
  obtain ⟨lp, e3, h⟩ := Res.bind_eq_ok.1 h
  obtain ⟨gx, e4, h⟩ := Res.bind_eq_ok.1 h
  cases h
  have hD := hc true .list _ _ _ e1 (enter_good (s := getlabel g.fs) hg.free) w1
  have he := hD.noesc (fun h => nomatch h)
  subst he
  have d1 : i.fs.nactvar = g.fs.nactvar + b.nloc := hD.act
  have d2 : i.nact = g.fs.nactvar := hD.nact
  have d3 : g.fs.pc ≤ i.fs.pc := hD.le
  obtain ⟨c1, c2, c3, c4, c5⟩ := cond_res e2 (Nat.le_of_eq (hD.free (fun h => nomatch h)).symm) (by rw [d1]; exact w2)
  have hsep0 : Sep (enter (getlabel g.fs)) := ⟨(fun _ h => nomatch h), List.nodup_nil⟩
  obtain ⟨k1, k2, k3, k4, k5, k6, k7, k8⟩ := leave_res e3 ⟨hD.sep.gl, hD.sep.nodup⟩ hsep0
  have k1 : lp.nact = g.fs.nactvar := k1
  have k2 : lp.labels = [] := k2
  have k3 : lp.fs.pc = s1.pc := k3
  have k4 : lp.fs.k = s1.k := k4
  have k5 : lp.fs.nactvar = i.nact := k5
  have hp := patchlist_pa lp.fs ex g.fs.pc
  obtain ⟨l1, l2, l3, l4, l5, l6, l7, l8⟩ := leave_res e4 ⟨k7.gl, k7.nodup⟩ hg.sep
  have l3 : g'.fs.pc = (patchlist lp.fs ex g.fs.pc).pc := l3
  have l4 : g'.fs.k = (patchlist lp.fs ex g.fs.pc).k := l4
  have l5 : g'.fs.nactvar = lp.nact := l5
  have hact : g'.fs.nactvar = g.fs.nactvar := by rw [l5, k1]
  have hpc : g'.fs.pc = s1.pc := by rw [l3, hp.pc, k3]
  have chain : ∀ X, GInv g X → GInv (enter (getlabel g.fs)) (jms g.gotos ++ X) ∧ GInv i (jms g.gotos ++ X) ∧
      GInv { i with fs := s1 } (jms (enter (getlabel g.fs)).gotos ++ (ex ++ (jms g.gotos ++ X))) ∧
      Inv lp.fs.code (lp.fs.jpc ++ (ex ++ (jms lp.gotos ++ (jms g.gotos ++ X)))) ∧
      GInv { lp with fs := patchlist lp.fs ex g.fs.pc } (jms g.gotos ++ X) := by
    intro X hX
    have z1 : GInv (enter (getlabel g.fs)) (jms g.gotos ++ X) := hX
    have z2 : GInv i (jms g.gotos ++ X) := hD.inv _ z1
    have z3 : GInv { i with fs := s1 } (jms (enter (getlabel g.fs)).gotos ++ (ex ++ (jms g.gotos ++ X))) :=
      (c1.inv _ z2).perm (perm3 ..)
    have z4 : Inv lp.fs.code (lp.fs.jpc ++ (ex ++ (jms lp.gotos ++ (jms g.gotos ++ X)))) :=
      ((k8 _ z3).1 : GInv lp (ex ++ (jms g.gotos ++ X))).inv3
    exact ⟨z1, z2, z3, z4, hp.inv _ z4⟩
  have backs : ∀ X, GInv g X → ∀ C κ, All C κ g' →
      All C (inner i.labels (atbrk true (g'.fs.pc, g.fs.nactvar) κ)) i ∧ OK C s1 ∧ OK C g.fs ∧ Gts C κ g.gotos ∧ Lbs κ g.labels ∧
        Tgt C ex g.fs.pc := by
    intro X hX C κ hA
    obtain ⟨z1, z2, z3, z4, z5⟩ := chain X hX
    obtain ⟨a3, a4, a5⟩ := (l8 _ z5).2 C κ hA
    have e : inner lp.labels (atbrk true ((patchlist lp.fs ex g.fs.pc).pc, (patchlist lp.fs ex g.fs.pc).nactvar) κ) =
        atbrk true (g'.fs.pc, g.fs.nactvar) κ := by
      rw [k2, inner_nil, l3, hp.nact, k5, d2]
    have a3 : All C (inner lp.labels (atbrk true ((patchlist lp.fs ex g.fs.pc).pc, (patchlist lp.fs ex g.fs.pc).nactvar) κ))
      { lp with fs := patchlist lp.fs ex g.fs.pc } := a3
    rw [e] at a3
    obtain ⟨a6, a7⟩ := hp.back _ z4 C a3.ok
    have a8 : All C (atbrk true (g'.fs.pc, g.fs.nactvar) κ) lp := ⟨a6, a3.gts, a3.lbs⟩
    obtain ⟨b1, _, _⟩ := (k8 _ z3).2 C _ a8
    rw [atbrk_false] at b1
    have b2 : All C (inner i.labels (atbrk true (g'.fs.pc, g.fs.nactvar) κ)) i := ⟨c1.back _ z2 C _ b1.ok a7, b1.gts, b1.lbs⟩
    exact ⟨b2, b1.ok, (hD.back _ z1 C _ 0 b2 Tgt.nil).ok, a4, a5, a7⟩
  refine ⟨l1, hact, ⟨[], by rw [List.append_nil]; exact l2, rfl⟩, fun h => absurd rfl h, fun _ => rfl, ?_, ?_, ⟨l7.gl, l7.nodup⟩, ?_, ?_, ?_⟩
  · rw [hpc]
    exact Nat.le_trans d3 c1.le
  · rw [l4, hp.k, k4]
    exact List.IsPrefix.trans hD.k c1.k
  · intro X hX
    exact (l8 _ (chain X hX).2.2.2.2).1
  · intro X hX C κ t hA _
    obtain ⟨_, _, a3, a4, a5, _⟩ := backs X hX C κ hA
    exact ⟨a3, a4, a5⟩
  · intro K hK X hX C κ hA _ d ii hi n0 ρ k _ hρ hk _
    obtain ⟨a1, a2, a3, a4, a5, a6⟩ := backs X hX C κ hA
    rw [hact] at hk
    have hK2 : s1.k <+: K := by rw [← k4, ← hp.k, ← l4]; exact hK
    refine ⟨?_, ents_nil⟩
    rw [sem]
    dsimp only
    have main : ∀ j i', i' ≤ j → i' ≤ ii → Sim P K C i' (iter (fun again => scope d b (extend ρ [(brk, g.fs.nactvar, k)])
        (sem P d true g.fs.nactvar g.fs.nactvar b) fun env w => bindR (eval P (look env) c w) fun v w =>
          if v.truthy then cut g.fs.nactvar k env w else cut g.fs.nactvar again env w) j) g.fs.pc g.fs.nactvar := by
      intro j
      induction j with
      | zero => intro i' h _; rw [Nat.le_zero.1 h]; exact Sim.bot
      | succ j ih =>
        intro i' h1 h2
        rw [iter]
        generalize hag : iter (fun again => scope d b (extend ρ [(brk, g.fs.nactvar, k)])
          (sem P d true g.fs.nactvar g.fs.nactvar b) fun env w => bindR (eval P (look env) c w) fun v w =>
            if v.truthy then cut g.fs.nactvar k env w else cut g.fs.nactvar again env w) j = again at ih ⊢
        refine (scope_sim (K := K) hD rfl (c1.k.trans hK2) (chain X hX).1 a1 (d := d) (i := i') (by omega)
          (ρ := extend ρ [(brk, g.fs.nactvar, k)]) (p := g.fs.pc) (Nat.le_refl _)
          (loop_lok (hρ.mono h2 (Nat.le_refl _) (fun _ h => h)) (hk.mono h2) (Nat.le_refl _)) ?_ (fun h => nomatch h) rfl).1
        intro env R w hl hR
        have hp := c5 K hK2 _ (chain X hX).2.1 C a2 R w
        rw [eval_congr (fun r hr => hR r hr) _ (by rw [d1]; exact w2)] at hp
        refine hp.does ?_
        rintro v w' _ ⟨R', r1, r2⟩
        have hR' : ∀ x, x < g.fs.nactvar → R' x = look env x := fun x hx => by
          have hx : x < i.fs.nactvar := by omega
          rw [r1 x (by rw [hD.free (fun h => nomatch h)]; exact hx), hR x hx]
        have hle : g.fs.nactvar ≤ env.length := by omega
        by_cases hv : v.truthy = true
        · rw [if_pos hv] at r2 ⊢
          rw [hpc] at hk
          exact r2 _ _ ((hk.mono h2).take hle hR')
        · rw [if_neg hv] at r2 ⊢
          obtain ⟨j', hj, r2⟩ := r2
          refine r2 _ _ ((a6.goS hj ?_ R' w').does ((ih (i' - 1) (by omega) (by omega)).take hle hR'))
          exact Nat.le_trans d3 (c4 j' hj)
    exact main d ii hi (Nat.le_refl _)

end Verif.Stat
