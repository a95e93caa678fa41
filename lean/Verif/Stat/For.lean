import Verif.Stat.Loop
/-! The numeric `for` loop, and the parts of `if`. -/
namespace Verif.Stat
open Verif.ExpCode
variable {W : Type} {P : Ops W} {K : List Val} {C : List Instr}

theorem Tr.act {s : FS} (a b : Nat) : Tr s { s with nactvar := a, freereg := b } [] := Tr.same rfl rfl (List.prefix_refl _)

/-- the code before the body -/
theorem forhead_res {e1 e2 e3 : E} {s s' : FS} {prep : Nat} (h : forhead P.F true e1 e2 e3 s = .ok (s', prep))
    (hl : s.lasttarget = s.pc) (hfree : s.freereg = s.nactvar) (h1 : e1.ok s.nactvar) (h2 : e2.ok s.nactvar) (h3 : e3.ok s.nactvar) :
    Tr s s' [prep] ∧ s'.nactvar = s.nactvar + 3 ∧ s'.freereg = s.nactvar + 3 ∧ s'.pc = prep + 1 ∧
    ∀ K, s'.k <+: K → ∀ X, Inv s.code (s.jpc ++ X) → ∀ C, OK C s' → ∀ t, Tgt C [prep] t → ∀ env R w, env.length = s.nactvar →
      (∀ x, x < s.nactvar → R x = look env x) → ∀ i (k : Kont W), Sim P K C i k t (s.nactvar + 3) →
      Does P K C i (.run s.pc R w) (bindR (evalList P (look env) [e1, e2, e3] w) fun vs w =>
        match P.forprep (look vs 0) (look vs 1) (look vs 2) with
        | .err m => .fin (.err m)
        | .ub => .fin .ub
        | .ok (i, l, st) => k (env ++ [i, l, st]) w) := by
  unfold forhead at h
  dsimp only at h
  obtain ⟨s0, g1, h⟩ := Res.bind_eq_ok.1 h
  cases h
  have hok : ∀ e ∈ [e1, e2, e3], e.ok s.nactvar := by
    intro e he
    simp only [List.mem_cons, List.not_mem_nil, or_false] at he
    rcases he with rfl | rfl | rfl <;> assumption
  obtain ⟨p1, p2, p3, p4⟩ := list_piece g1 hl (Nat.le_of_eq hfree.symm) hok
  have p3 : s0.freereg = s.nactvar + 3 := by rw [p3, hfree]; rfl
  have t1 : Tr s0 { s0 with nactvar := s0.nactvar + 3 } [] := Tr.same rfl rfl (List.prefix_refl _)
  have t2 : Tr { s0 with nactvar := s0.nactvar + 3 } (emit { s0 with nactvar := s0.nactvar + 3 } (.forprep s.freereg)) [] :=
    emit_tr _ (fun _ _ _ e => nomatch e)
  have hpc1 : (emit { s0 with nactvar := s0.nactvar + 3 } (.forprep s.freereg)).pc = s0.pc + 1 := emit_length ..
  have t3 := emitjmp_tr (emit { s0 with nactvar := s0.nactvar + 3 } (.forprep s.freereg))
  have hpc2 : (emit (emit { s0 with nactvar := s0.nactvar + 3 } (.forprep s.freereg)) (.jmp none)).pc =
    (emit { s0 with nactvar := s0.nactvar + 3 } (.forprep s.freereg)).pc + 1 := emit_length ..
  generalize hs1 : emit { s0 with nactvar := s0.nactvar + 3 } (.forprep s.freereg) = s1 at *
  refine ⟨(p1.trans (t1.trans t2)).trans t3, ?_, ?_, hpc2, ?_⟩
  · show s1.nactvar = _
    rw [← hs1]
    show s0.nactvar + 3 = _
    rw [p2]
  · show s1.freereg = _
    rw [← hs1]
    exact p3
  · intro K hK X hX C hC t ht env R w hl hR i k hk
    have i0 := p1.inv _ hX
    have hC1 : OK C s1 := t3.back _ (t2.inv _ (t1.inv _ i0)) C t hC ht
    have hC0 : OK C s0 := t2.back0 (t1.inv _ i0) hC1
    have hK0 : s0.k <+: K := t2.k.trans hK
    have hp := p4 K hK0 X hX C hC0 R w
    rw [evalList_congr (fun r hr => hR r hr) _ hok] at hp
    refine hp.does ?_
    rintro vs w' _ ⟨R', r1, r2, r3⟩
    refine r3 _ _ ?_
    have v0 : look vs 0 = R' s.nactvar := by rw [← hfree]; exact map_range' r2 (x := 0) (by simp)
    have v1 : look vs 1 = R' (s.nactvar + 1) := by rw [← hfree]; exact map_range' r2 (x := 1) (by simp)
    have v2 : look vs 2 = R' (s.nactvar + 2) := by rw [← hfree]; exact map_range' r2 (x := 2) (by simp)
    rw [v0, v1, v2]
    have hat : C[s0.pc]? = some (.forprep s.freereg) := by
      rw [← hs1] at hC1
      exact emit_at hC1 (fun e => nomatch e) (fun _ _ e => nomatch e)
    rw [hfree] at hat
    have hstep := mstep_exec (P := P) (K := K) hat (fun _ e => nomatch e) rfl R' w'
    simp only [Instr.exec] at hstep
    cases hf : P.forprep (R' s.nactvar) (R' (s.nactvar + 1)) (R' (s.nactvar + 2)) with
    | err m => rw [hf] at hstep; exact ⟨1, hstep⟩
    | ub => rw [hf] at hstep; exact ⟨1, hstep⟩
    | ok r =>
      obtain ⟨a, b, c⟩ := r
      rw [hf] at hstep
      have hstep : mstep P K C s0.pc R' w' =
        .run (s0.pc + 1) (Regs.set (Regs.set (Regs.set R' s.nactvar a) (s.nactvar + 1) b) (s.nactvar + 2) c) w' := hstep
      refine (goS_step hstep).go _ _ ?_
      rw [← hpc1]
      refine ht.go (List.mem_singleton.2 rfl) _ w' _ _ (hk _ _ _ (by rw [List.length_append, hl]; rfl) ?_)
      intro x hx
      unfold look
      rw [List.getD_eq_getElem?_getD]
      simp only [Regs.set]
      by_cases x2 : x = s.nactvar + 2
      · subst x2
        rw [if_pos rfl, List.getElem?_append_right (by omega), show s.nactvar + 2 - env.length = 2 by omega]; rfl
      · rw [if_neg x2]
        by_cases x1 : x = s.nactvar + 1
        · subst x1
          rw [if_pos rfl, List.getElem?_append_right (by omega), show s.nactvar + 1 - env.length = 1 by omega]; rfl
        · rw [if_neg x1]
          by_cases x0 : x = s.nactvar
          · subst x0
            rw [if_pos rfl, List.getElem?_append_right (by omega), show s.nactvar - env.length = 0 by omega]; rfl
          · rw [if_neg x0, List.getElem?_append_left (by omega), r1 x (by omega), hR x (by omega)]
            unfold look
            rw [List.getD_eq_getElem?_getD]

/-- the code after the body -/
theorem fortail_res (base prep : Nat) (s : FS) : (fortail base prep s).pc = s.pc + 2 ∧ (fortail base prep s).k = s.k ∧
    (fortail base prep s).nactvar = s.nactvar ∧
    ∀ X, Inv s.code (s.jpc ++ ([prep] ++ X)) → Inv (fortail base prep s).code ((fortail base prep s).jpc ++ X) ∧
    ∀ C, OK C (fortail base prep s) → OK C s ∧ Tgt C [prep] s.pc ∧ C[s.pc]? = some (.forloop base) ∧ Tgt C [s.pc + 1] (prep + 1) := by
  have h1 := patchtohere_pa s [prep]
  have h2 := emit_tr (patchtohere s [prep]) (i := .forloop base) (fun _ _ _ e => nomatch e)
  have hpc2 : (emit (patchtohere s [prep]) (.forloop base)).pc = s.pc + 1 := emit_length ..
  have hat : ∀ C, OK C (emit (patchtohere s [prep]) (.forloop base)) → C[s.pc]? = some (.forloop base) := fun C h =>
    emit_at (s := patchtohere s [prep]) h (fun e => nomatch e) (fun _ _ e => nomatch e)
  have hk2 : (emit (patchtohere s [prep]) (.forloop base)).k = s.k := rfl
  have hn2 : (emit (patchtohere s [prep]) (.forloop base)).nactvar = s.nactvar := rfl
  have e : fortail base prep s = patchlist (emit (emit (patchtohere s [prep]) (.forloop base)) (.jmp none))
    [(emit (patchtohere s [prep]) (.forloop base)).pc] (prep + 1) := rfl
  rw [e]
  generalize emit (patchtohere s [prep]) (.forloop base) = s2 at *
  have h3 := emitjmp_tr s2
  have hpc3 : (emit s2 (.jmp none)).pc = s2.pc + 1 := emit_length ..
  have h4 := patchlist_pa (emit s2 (.jmp none)) [s2.pc] (prep + 1)
  refine ⟨by rw [h4.pc, hpc3, hpc2], h4.k.trans hk2, h4.nact.trans hn2, fun X hX => ?_⟩
  have i1 := h1.inv _ hX
  have i2 := h2.inv _ i1
  have i3 := h3.inv _ i2
  refine ⟨h4.inv _ i3, fun C hC => ?_⟩
  obtain ⟨c1, c2⟩ := h4.back _ i3 C hC
  have c3 := h3.back _ i2 C _ c1 c2
  have c4 := h2.back0 i1 c3
  obtain ⟨c5, c6⟩ := h1.back _ hX C c4
  refine ⟨c5, c6, hat C c3, ?_⟩
  rw [← hpc2]; exact c2

theorem claim_for {e1 e2 e3 : E} {b : S} (hc : Claim P b) : Claim P (.for_ e1 e2 e3 b) := by
  intro u sort g g' esc h hg hwf
  have hst : sort = .stmt := by cases sort <;> first | rfl | exact hwf.elim
  subst hst
  obtain ⟨w1, w2, w3, w4⟩ : e1.ok g.fs.nactvar ∧ e2.ok g.fs.nactvar ∧ e3.ok g.fs.nactvar ∧ b.wf (Assign.Stable P) .list (g.fs.nactvar + 4) := hwf
  rw [gs] at h
  dsimp only at h
  obtain ⟨⟨s, prep⟩, q1, h⟩ := Res.bind_eq_ok.1 h
  obtain ⟨s3, q2, h⟩ := Res.bind_eq_ok.1 h
  obtain ⟨⟨i, e0⟩, q3, h⟩ := Res.bind_eq_ok.1 h
  obtain ⟨sc, q4, h⟩ := Res.bind_eq_ok.1 h
  obtain ⟨lp, q5, h⟩ := Res.bind_eq_ok.1 h
  obtain ⟨gx, q6, h⟩ := Res.bind_eq_ok.1 h
  cases h
  obtain ⟨f1, f2, f3, f4, f5⟩ := forhead_res q1 (hg.last rfl) hg.free w1 w2 w3
  have hs3 : s3 = { s with nactvar := s.nactvar + 1, freereg := s.freereg + 1 } := by
    unfold reserve at q2
    split at q2
    · cases q2
    · cases q2; rfl
  have n3 : s3.nactvar = g.fs.nactvar + 4 := by rw [hs3]; show s.nactvar + 1 = _; rw [f2]
  have t3 : Tr s s3 [] := by rw [hs3]; exact Tr.act ..
  have pc3 : s3.pc = s.pc := by rw [hs3]; rfl
  have hsep0 : Sep { enter s with fs := s3 } := ⟨(fun _ h => nomatch h), List.nodup_nil⟩
  obtain ⟨b1, b2, b3, b4, b5, b6, b7, b8⟩ := block hc (s := s3) (o := { enter s with fs := s3 }) q3 q4
    (by rw [n3, hs3]; show s.freereg + 1 = _; rw [f3]) hsep0 (by rw [n3]; exact w4)
  have b1 : sc.nact = g.fs.nactvar + 3 := by rw [b1]; exact f2
  have b2 : sc.labels = [] := b2
  have hsep1 : Sep { enter g.fs with fs := s } := ⟨(fun _ h => nomatch h), List.nodup_nil⟩
  obtain ⟨k1, k2, k3, k4, k5, k6, k7, k8⟩ := leave_res q5 b7 hsep1
  have k1 : lp.nact = g.fs.nactvar := k1
  have k2 : lp.labels = [] := k2
  obtain ⟨j1, j2, j3, j4⟩ := fortail_res g.fs.freereg prep lp.fs
  obtain ⟨l1, l2, l3, l4, l5, l6, l7, l8⟩ := leave_res q6 ⟨k7.gl, k7.nodup⟩ hg.sep
  have l3 : g'.fs.pc = (fortail g.fs.freereg prep lp.fs).pc := l3
  have l4 : g'.fs.k = (fortail g.fs.freereg prep lp.fs).k := l4
  have l5 : g'.fs.nactvar = lp.nact := l5
  have hact : g'.fs.nactvar = g.fs.nactvar := by rw [l5, k1]
  have hpc : g'.fs.pc = lp.fs.pc + 2 := by rw [l3, j1]
  have chain : ∀ X, GInv g X → Inv s.code (s.jpc ++ ([prep] ++ (jms g.gotos ++ X))) ∧
      Inv s3.code (s3.jpc ++ (jms ({ enter s with fs := s3 } : G).gotos ++ ([prep] ++ (jms g.gotos ++ X)))) ∧
      GInv sc (jms ({ enter g.fs with fs := s } : G).gotos ++ ([prep] ++ (jms g.gotos ++ X))) ∧
      Inv lp.fs.code (lp.fs.jpc ++ ([prep] ++ (jms lp.gotos ++ (jms g.gotos ++ X)))) ∧
      GInv { lp with fs := fortail g.fs.freereg prep lp.fs } (jms g.gotos ++ X) := by
    intro X hX
    have z1 := f1.inv _ hX
    have z2 : Inv s3.code (s3.jpc ++ (jms ({ enter s with fs := s3 } : G).gotos ++ ([prep] ++ (jms g.gotos ++ X)))) := t3.inv _ z1
    have z3 : GInv sc (jms ({ enter g.fs with fs := s } : G).gotos ++ ([prep] ++ (jms g.gotos ++ X))) := (b8 _ z2).1
    have z4 : Inv lp.fs.code (lp.fs.jpc ++ ([prep] ++ (jms lp.gotos ++ (jms g.gotos ++ X)))) := ((k8 _ z3).1).inv3
    exact ⟨z1, z2, z3, z4, (j4 _ z4).1⟩
  have backs : ∀ X, GInv g X → ∀ C κ, All C κ g' →
      All C (atbrk true (g'.fs.pc, g.fs.nactvar + 3) κ) sc ∧ OK C s ∧ OK C g.fs ∧ Gts C κ g.gotos ∧ Lbs κ g.labels ∧
      Tgt C [prep] lp.fs.pc ∧ C[lp.fs.pc]? = some (.forloop g.fs.freereg) ∧ Tgt C [lp.fs.pc + 1] (prep + 1) := by
    intro X hX C κ hA
    obtain ⟨z1, z2, z3, z4, z5⟩ := chain X hX
    obtain ⟨a3, a4, a5⟩ := (l8 _ z5).2 C κ hA
    have e : inner lp.labels (atbrk true ((fortail g.fs.freereg prep lp.fs).pc, (fortail g.fs.freereg prep lp.fs).nactvar) κ) =
        atbrk true (g'.fs.pc, g.fs.nactvar + 3) κ := by
      rw [k2, inner_nil, l3, j3, k5, b1]
    have a3 : All C (inner lp.labels (atbrk true ((fortail g.fs.freereg prep lp.fs).pc, (fortail g.fs.freereg prep lp.fs).nactvar) κ))
      { lp with fs := fortail g.fs.freereg prep lp.fs } := a3
    rw [e] at a3
    obtain ⟨a6, a7, a8, a9⟩ := (j4 _ z4).2 C a3.ok
    have c1 : All C (atbrk true (g'.fs.pc, g.fs.nactvar + 3) κ) lp := ⟨a6, a3.gts, a3.lbs⟩
    obtain ⟨c2, _, _⟩ := (k8 _ z3).2 C _ c1
    rw [atbrk_false, b2, inner_nil] at c2
    have c3 : OK C s3 := ((b8 _ z2).2 C _ c2).1.ok
    have c4 := t3.back0 z1 c3
    exact ⟨c2, c4, f1.back _ hX C _ c4 a7, a4, a5, a7, a8, a9⟩
  have hle : s.pc ≤ lp.fs.pc := by rw [k3, ← pc3]; exact b5
  refine ⟨l1, hact, ⟨[], by rw [List.append_nil]; exact l2, rfl⟩, fun h => absurd rfl h, fun _ => rfl, ?_, ?_, ⟨l7.gl, l7.nodup⟩, ?_, ?_, ?_⟩
  · have := f1.le
    omega
  · rw [l4, j2, k4]
    exact f1.k.trans (t3.k.trans b6)
  · intro X hX
    exact (l8 _ (chain X hX).2.2.2.2).1
  · intro X hX C κ t hA _
    obtain ⟨_, _, a3, a4, a5, _⟩ := backs X hX C κ hA
    exact ⟨a3, a4, a5⟩
  · intro K hK X hX C κ hA _ d ii hi n0 ρ k _ hρ hk _
    obtain ⟨a1, a2, a3, a4, a5, a6, a7, a8⟩ := backs X hX C κ hA
    rw [hact] at hk
    have hK2 : sc.fs.k <+: K := by rw [← k4, ← j2, ← l4]; exact hK
    refine ⟨?_, ents_nil⟩
    rw [sem]
    dsimp only
    intro env R w hl hR
    refine f5 K ((t3.k.trans b6).trans hK2) _ hX C a2 _ a6 env R w hl hR ii _ ?_
    have main : ∀ j i', i' ≤ j → i' ≤ ii → Sim P K C i' (iter (fun again env w =>
          match P.forloop (look env g.fs.nactvar) (look env (g.fs.nactvar + 1)) (look env (g.fs.nactvar + 2)) with
          | none => cut g.fs.nactvar k env w
          | some v => scope d b (extend ρ [(brk, g.fs.nactvar, k)]) (sem P d false (g.fs.nactvar + 4) (g.fs.nactvar + 4) b)
            (cut (g.fs.nactvar + 3) again) (env.set g.fs.nactvar v ++ [v]) w) j) lp.fs.pc (g.fs.nactvar + 3) := by
      intro j
      induction j with
      | zero => intro i' h _; rw [Nat.le_zero.1 h]; exact Sim.bot
      | succ j ih =>
        intro i' h1 h2 env R w hl hR
        rw [iter]
        generalize hag : iter (fun again env w =>
          match P.forloop (look env g.fs.nactvar) (look env (g.fs.nactvar + 1)) (look env (g.fs.nactvar + 2)) with
          | none => cut g.fs.nactvar k env w
          | some v => scope d b (extend ρ [(brk, g.fs.nactvar, k)]) (sem P d false (g.fs.nactvar + 4) (g.fs.nactvar + 4) b)
            (cut (g.fs.nactvar + 3) again) (env.set g.fs.nactvar v ++ [v]) w) j = again at ih ⊢
        rw [hg.free] at a7
        have hstep := mstep_exec (P := P) (K := K) a7 (fun _ e => nomatch e) rfl R w
        simp only [Instr.exec] at hstep
        rw [← hR _ (by omega), ← hR _ (by omega), ← hR _ (by omega)]
        cases hf : P.forloop (R g.fs.nactvar) (R (g.fs.nactvar + 1)) (R (g.fs.nactvar + 2)) with
        | none =>
          rw [hf] at hstep
          have hstep : mstep P K C lp.fs.pc R w = .run (lp.fs.pc + 2) R w := hstep
          refine (goS_step hstep).go _ _ ?_
          rw [← hpc]
          exact (hk.mono h2).take (by omega) (fun x hx => hR x (by omega))
        | some v =>
          rw [hf] at hstep
          have hstep : mstep P K C lp.fs.pc R w =
            .run (lp.fs.pc + 1) ((R.set g.fs.nactvar v).set (g.fs.nactvar + 3) v) w := hstep
          refine (goS_step hstep).does (a8.go (List.mem_singleton.2 rfl) _ w _ _ ?_)
          rw [← f4, ← pc3]
          have hb := ((b8 _ (chain X hX).2.1).2 C _ a1).2 K hK2 d (i' - 1) (by omega) (extend ρ [(brk, g.fs.nactvar, k)])
            (cut (g.fs.nactvar + 3) again) g.fs.pc (by rw [pc3]; exact f1.le)
            (loop_lok (hρ.mono (by omega) (Nat.le_refl _) (fun _ h => h)) (hk.mono (by omega)) (by dsimp only; omega)) (fun N hN => by
              rw [n3] at hN
              rw [← k3]
              exact (ih _ (by omega) (by omega)).cut (by omega))
          rw [n3] at hb
          refine hb _ _ w (by rw [List.length_append, List.length_set, hl]; rfl) ?_
          intro x hx
          unfold look
          rw [List.getD_eq_getElem?_getD]
          simp only [Regs.set]
          by_cases x3 : x = g.fs.nactvar + 3
          · subst x3
            rw [if_pos rfl, List.getElem?_append_right (by rw [List.length_set]; omega), List.length_set,
              show g.fs.nactvar + 3 - env.length = 0 by omega]; rfl
          · rw [if_neg x3, List.getElem?_append_left (by rw [List.length_set]; omega), List.getElem?_set]
            by_cases x0 : x = g.fs.nactvar
            · subst x0
              rw [if_pos rfl, if_pos rfl, if_pos (by omega)]; rfl
            · rw [if_neg x0, if_neg (fun h => x0 h.symm), hR x (by omega)]
              unfold look
              rw [List.getD_eq_getElem?_getD]
    exact main d ii hi (Nat.le_refl _)

/-- the code after the body of a generic `for` -/
theorem forintail_res (base n prep : Nat) (js : List Nat) (s : FS) : (forintail base n prep js s).pc = s.pc + 3 ∧ (forintail base n prep js s).k = s.k ∧
    (forintail base n prep js s).nactvar = s.nactvar ∧
    ∀ X, Inv s.code (s.jpc ++ (js ++ X)) → Inv (forintail base n prep js s).code ((forintail base n prep js s).jpc ++ X) ∧
    ∀ C, OK C (forintail base n prep js s) → OK C s ∧ Tgt C js s.pc ∧ C[s.pc]? = some (.tforcall base n) ∧ C[s.pc + 1]? = some (.tforloop (base + 2)) ∧
      Tgt C [s.pc + 2] (prep + 1) := by
  have h1 := patchtohere_pa s js
  have h2 := emit_tr (patchtohere s js) (i := .tforcall base n) (fun _ _ _ e => nomatch e)
  have hpc2 : (emit (patchtohere s js) (.tforcall base n)).pc = s.pc + 1 := emit_length ..
  have hat2 : ∀ C, OK C (emit (patchtohere s js) (.tforcall base n)) → C[s.pc]? = some (.tforcall base n) := fun C h =>
    emit_at (s := patchtohere s js) h (fun e => nomatch e) (fun _ _ e => nomatch e)
  have h2' := emit_tr (emit (patchtohere s js) (.tforcall base n)) (i := .tforloop (base + 2)) (fun _ _ _ e => nomatch e)
  have hpc2' : (emit (emit (patchtohere s js) (.tforcall base n)) (.tforloop (base + 2))).pc = (emit (patchtohere s js) (.tforcall base n)).pc + 1 := emit_length ..
  have hat : ∀ C, OK C (emit (emit (patchtohere s js) (.tforcall base n)) (.tforloop (base + 2))) →
      C[(emit (patchtohere s js) (.tforcall base n)).pc]? = some (.tforloop (base + 2)) := fun C h =>
    emit_at (s := emit (patchtohere s js) (.tforcall base n)) h (fun e => nomatch e) (fun _ _ e => nomatch e)
  have hk2 : (emit (emit (patchtohere s js) (.tforcall base n)) (.tforloop (base + 2))).k = s.k := rfl
  have hn2 : (emit (emit (patchtohere s js) (.tforcall base n)) (.tforloop (base + 2))).nactvar = s.nactvar := rfl
  have e : forintail base n prep js s = patchlist (emit (emit (emit (patchtohere s js) (.tforcall base n)) (.tforloop (base + 2))) (.jmp none))
    [(emit (emit (patchtohere s js) (.tforcall base n)) (.tforloop (base + 2))).pc] (prep + 1) := rfl
  rw [e]
  generalize emit (emit (patchtohere s js) (.tforcall base n)) (.tforloop (base + 2)) = s3 at *
  generalize emit (patchtohere s js) (.tforcall base n) = s2 at *
  have h3 := emitjmp_tr s3
  have hpc3 : (emit s3 (.jmp none)).pc = s3.pc + 1 := emit_length ..
  have h4 := patchlist_pa (emit s3 (.jmp none)) [s3.pc] (prep + 1)
  refine ⟨by rw [h4.pc, hpc3, hpc2', hpc2], h4.k.trans hk2, h4.nact.trans hn2, fun X hX => ?_⟩
  have i1 := h1.inv _ hX
  have i2 := h2.inv _ i1
  have i2' := h2'.inv _ i2
  have i3 := h3.inv _ i2'
  refine ⟨h4.inv _ i3, fun C hC => ?_⟩
  obtain ⟨c1, c2⟩ := h4.back _ i3 C hC
  have c3 := h3.back _ i2' C _ c1 c2
  have c4 := h2'.back0 i2 c3
  have c4' := h2.back0 i1 c4
  obtain ⟨c5, c6⟩ := h1.back _ hX C c4'
  refine ⟨c5, c6, hat2 C c4, ?_, ?_⟩
  · rw [← hpc2]; exact hat C c3
  · rw [show s.pc + 2 = s3.pc from by rw [hpc2', hpc2]]; exact c2

theorem adjust_len (m : Nat) (vs : List Val) : (adjust m vs).length = m := by
  unfold adjust
  rw [List.length_take, List.length_append, List.length_replicate]
  omega

theorem adjust_look {m : Nat} {vs : List Val} {i : Nat} (h : i < m) : (adjust m vs)[i]?.getD .nil = vs.getD i .nil := by
  unfold adjust
  rw [List.getElem?_take, if_pos h, List.getD_eq_getElem?_getD]
  rcases Nat.lt_or_ge i vs.length with h1 | h1
  · rw [List.getElem?_append_left h1]
  · rw [List.getElem?_append_right h1, List.getElem?_eq_none h1, List.getElem?_replicate]
    split <;> rfl

theorem claim_forin {m : Nat} {b : S} (hc : Claim P b) : Claim P (.forin m b) := by
  intro u sort g g' esc h hg hwf
  have hst : sort = .stmt := by cases sort <;> first | rfl | exact hwf.elim
  subst hst
  obtain ⟨w1, w2, w4⟩ : 3 ≤ g.fs.nactvar ∧ 1 ≤ m ∧ b.wf (Assign.Stable P) .list (g.fs.nactvar + m) := hwf
  rw [gs] at h
  dsimp only at h
  obtain ⟨_, _, h⟩ := Res.bind_eq_ok.1 h
  obtain ⟨s3, q2, h⟩ := Res.bind_eq_ok.1 h
  obtain ⟨⟨i, e0⟩, q3, h⟩ := Res.bind_eq_ok.1 h
  obtain ⟨sc, q4, h⟩ := Res.bind_eq_ok.1 h
  obtain ⟨lp, q5, h⟩ := Res.bind_eq_ok.1 h
  obtain ⟨gx, q6, h⟩ := Res.bind_eq_ok.1 h
  cases h
  have f1 := jump_tr g.fs
  have f2 : (jump g.fs).1.nactvar = g.fs.nactvar := rfl
  have f3 : (jump g.fs).1.freereg = g.fs.nactvar := hg.free
  have f4 : (jump g.fs).1.pc = g.fs.pc + 1 := by unfold FS.pc jump; simp
  have f6 : g.fs.pc ∈ (jump g.fs).2 := List.mem_cons_self ..
  generalize (jump g.fs).2 = js at *
  generalize (jump g.fs).1 = s at *
  have hs3 : s3 = { s with nactvar := s.nactvar + m, freereg := s.freereg + m } := by
    unfold reserve at q2
    split at q2
    · cases q2
    · cases q2; rfl
  have n3 : s3.nactvar = g.fs.nactvar + m := by rw [hs3]; show s.nactvar + m = _; rw [f2]
  have t3 : Tr s s3 [] := by rw [hs3]; exact Tr.act ..
  have pc3 : s3.pc = s.pc := by rw [hs3]; rfl
  have hsep0 : Sep { enter s with fs := s3 } := ⟨(fun _ h => nomatch h), List.nodup_nil⟩
  obtain ⟨b1, b2, b3, b4, b5, b6, b7, b8⟩ := block hc (s := s3) (o := { enter s with fs := s3 }) q3 q4
    (by rw [n3, hs3]; show s.freereg + m = _; rw [f3]) hsep0 (by rw [n3]; exact w4)
  have b1 : sc.nact = g.fs.nactvar := by rw [b1]; exact f2
  have b2 : sc.labels = [] := b2
  have hsep1 : Sep { enter g.fs with fs := s } := ⟨(fun _ h => nomatch h), List.nodup_nil⟩
  obtain ⟨k1, k2, k3, k4, k5, k6, k7, k8⟩ := leave_res q5 b7 hsep1
  have k1 : lp.nact = g.fs.nactvar := k1
  have k2 : lp.labels = [] := k2
  obtain ⟨j1, j2, j3, j4⟩ := forintail_res (g.fs.nactvar - 3) m g.fs.pc js lp.fs
  obtain ⟨l1, l2, l3, l4, l5, l6, l7, l8⟩ := leave_res q6 ⟨k7.gl, k7.nodup⟩ hg.sep
  have l3 : g'.fs.pc = (forintail (g.fs.nactvar - 3) m g.fs.pc js lp.fs).pc := l3
  have l4 : g'.fs.k = (forintail (g.fs.nactvar - 3) m g.fs.pc js lp.fs).k := l4
  have l5 : g'.fs.nactvar = lp.nact := l5
  have hact : g'.fs.nactvar = g.fs.nactvar := by rw [l5, k1]
  have hpc : g'.fs.pc = lp.fs.pc + 3 := by rw [l3, j1]
  have chain : ∀ X, GInv g X → Inv s.code (s.jpc ++ (js ++ (jms g.gotos ++ X))) ∧
      Inv s3.code (s3.jpc ++ (jms ({ enter s with fs := s3 } : G).gotos ++ (js ++ (jms g.gotos ++ X)))) ∧
      GInv sc (jms ({ enter g.fs with fs := s } : G).gotos ++ (js ++ (jms g.gotos ++ X))) ∧
      Inv lp.fs.code (lp.fs.jpc ++ (js ++ (jms lp.gotos ++ (jms g.gotos ++ X)))) ∧
      GInv { lp with fs := forintail (g.fs.nactvar - 3) m g.fs.pc js lp.fs } (jms g.gotos ++ X) := by
    intro X hX
    have z1 := f1.inv _ hX
    have z2 : Inv s3.code (s3.jpc ++ (jms ({ enter s with fs := s3 } : G).gotos ++ (js ++ (jms g.gotos ++ X)))) := t3.inv _ z1
    have z3 : GInv sc (jms ({ enter g.fs with fs := s } : G).gotos ++ (js ++ (jms g.gotos ++ X))) := (b8 _ z2).1
    have z4 : Inv lp.fs.code (lp.fs.jpc ++ (js ++ (jms lp.gotos ++ (jms g.gotos ++ X)))) := ((k8 _ z3).1).inv3
    exact ⟨z1, z2, z3, z4, (j4 _ z4).1⟩
  have backs : ∀ X, GInv g X → ∀ C κ, All C κ g' →
      All C (atbrk true (g'.fs.pc, g.fs.nactvar) κ) sc ∧ OK C s ∧ OK C g.fs ∧ Gts C κ g.gotos ∧ Lbs κ g.labels ∧
      Tgt C js lp.fs.pc ∧ C[lp.fs.pc]? = some (.tforcall (g.fs.nactvar - 3) m) ∧ C[lp.fs.pc + 1]? = some (.tforloop (g.fs.nactvar - 3 + 2)) ∧
      Tgt C [lp.fs.pc + 2] (g.fs.pc + 1) := by
    intro X hX C κ hA
    obtain ⟨z1, z2, z3, z4, z5⟩ := chain X hX
    obtain ⟨a3, a4, a5⟩ := (l8 _ z5).2 C κ hA
    have e : inner lp.labels (atbrk true ((forintail (g.fs.nactvar - 3) m g.fs.pc js lp.fs).pc,
        (forintail (g.fs.nactvar - 3) m g.fs.pc js lp.fs).nactvar) κ) = atbrk true (g'.fs.pc, g.fs.nactvar) κ := by
      rw [k2, inner_nil, l3, j3, k5, b1]
    have a3 : All C (inner lp.labels (atbrk true ((forintail (g.fs.nactvar - 3) m g.fs.pc js lp.fs).pc,
        (forintail (g.fs.nactvar - 3) m g.fs.pc js lp.fs).nactvar) κ))
      { lp with fs := forintail (g.fs.nactvar - 3) m g.fs.pc js lp.fs } := a3
    rw [e] at a3
    obtain ⟨a6, a7, a8, a9, a10⟩ := (j4 _ z4).2 C a3.ok
    have c1 : All C (atbrk true (g'.fs.pc, g.fs.nactvar) κ) lp := ⟨a6, a3.gts, a3.lbs⟩
    obtain ⟨c2, _, _⟩ := (k8 _ z3).2 C _ c1
    rw [atbrk_false, b2, inner_nil] at c2
    have c3 : OK C s3 := ((b8 _ z2).2 C _ c2).1.ok
    have c4 := t3.back0 z1 c3
    exact ⟨c2, c4, f1.back _ hX C _ c4 a7, a4, a5, a7, a8, a9, a10⟩
  have hle : s.pc ≤ lp.fs.pc := by rw [k3, ← pc3]; exact b5
  refine ⟨l1, hact, ⟨[], by rw [List.append_nil]; exact l2, rfl⟩, fun h => absurd rfl h, fun _ => rfl, ?_, ?_, ⟨l7.gl, l7.nodup⟩, ?_, ?_, ?_⟩
  · have := f1.le
    omega
  · rw [l4, j2, k4]
    exact f1.k.trans (t3.k.trans b6)
  · intro X hX
    exact (l8 _ (chain X hX).2.2.2.2).1
  · intro X hX C κ t hA _
    obtain ⟨_, _, a3, a4, a5, _⟩ := backs X hX C κ hA
    exact ⟨a3, a4, a5⟩
  · intro K hK X hX C κ hA _ d ii hi n0 ρ k _ hρ hk _
    obtain ⟨a1, a2, a3, a4, a5, a6, a7, a7', a8⟩ := backs X hX C κ hA
    rw [hact] at hk
    have hK2 : sc.fs.k <+: K := by rw [← k4, ← j2, ← l4]; exact hK
    refine ⟨?_, ents_nil⟩
    rw [sem]
    dsimp only
    obtain ⟨n, hn⟩ : ∃ n, g.fs.nactvar = n + 3 := ⟨g.fs.nactvar - 3, by omega⟩
    rw [show g.fs.nactvar - 3 = n from by omega] at a7 a7'
    rw [hn] at hk n3 a1 ⊢
    simp only [show n + 3 - 3 = n from rfl, show n + 3 - 2 = n + 1 from rfl, show n + 3 - 1 = n + 2 from rfl]
    have main : ∀ j i', i' ≤ j → i' ≤ ii → Sim P K C i' (iter (fun again env w =>
          bindR (P.call (look env n) [look env (n + 1), look env (n + 2)] w) fun vs w =>
            if look vs 0 = .nil then k env w
            else scope d b (extend ρ [(brk, n + 3, k)]) (sem P d false (n + 3 + m) (n + 3 + m) b)
              (cut (n + 3) again) (env.set (n + 2) (look vs 0) ++ adjust m vs) w) j) lp.fs.pc (n + 3) := by
      intro j
      induction j with
      | zero => intro i' h _; rw [Nat.le_zero.1 h]; exact Sim.bot
      | succ j ih =>
        intro i' h1 h2 env R w hl hR
        rw [iter]
        generalize hag : iter (fun again env w =>
          bindR (P.call (look env n) [look env (n + 1), look env (n + 2)] w) fun vs w =>
            if look vs 0 = .nil then k env w
            else scope d b (extend ρ [(brk, n + 3, k)]) (sem P d false (n + 3 + m) (n + 3 + m) b)
              (cut (n + 3) again) (env.set (n + 2) (look vs 0) ++ adjust m vs) w) j = again at ih ⊢
        have hstep := mstep_exec (P := P) (K := K) a7 (fun _ e => nomatch e) rfl R w
        simp only [Instr.exec] at hstep
        rw [← hR _ (by omega), ← hR _ (by omega), ← hR _ (by omega)]
        cases hf : P.call (R n) [R (n + 1), R (n + 2)] w with
        | err m => rw [hf] at hstep; exact ⟨1, hstep⟩
        | ub => rw [hf] at hstep; exact ⟨1, hstep⟩
        | ok r =>
          obtain ⟨vs, w'⟩ := r
          rw [hf] at hstep
          dsimp only at hstep
          generalize hR2 : (fun r => if r < n + 3 then R r else if r < n + 3 + m then vs.getD (r - (n + 3)) .nil else P.junk r w' : Regs) = R2 at hstep
          have r1 : ∀ x, x < n + 3 → R2 x = R x := fun x hx => by rw [← hR2]; dsimp only; rw [if_pos hx]
          have r2 : ∀ x, x < m → R2 (n + 3 + x) = vs.getD x .nil := fun x hx => by
            rw [← hR2]; dsimp only; rw [if_neg (by omega), if_pos (by omega), Nat.add_sub_cancel_left]
          have r0 : R2 (n + 2 + 1) = look vs 0 := r2 0 w2
          have hstep : mstep P K C lp.fs.pc R w = .run (lp.fs.pc + 1) R2 w' := hstep
          have hstep2 := mstep_exec (P := P) (K := K) a7' (fun _ e => nomatch e) rfl R2 w'
          simp only [Instr.exec] at hstep2
          rw [r0] at hstep2
          show Does P K C i' _ (if look vs 0 = .nil then _ else _)
          by_cases hv : look vs 0 = .nil
          · rw [if_pos hv] at hstep2 ⊢
            have hstep2 : mstep P K C (lp.fs.pc + 1) R2 w' = .run (lp.fs.pc + 3) R2 w' := hstep2
            refine (goS_step hstep).go _ _ ((goS_step hstep2).go _ _ ?_)
            rw [← hpc]
            exact hk.mono h2 env R2 w' hl (fun x hx => by rw [r1 x hx]; exact hR x hx)
          · rw [if_neg hv] at hstep2 ⊢
            have hstep2 : mstep P K C (lp.fs.pc + 1) R2 w' = .run (lp.fs.pc + 2) (Regs.set R2 (n + 2) (look vs 0)) w' := hstep2
            refine (goS_step hstep).does ((goS_step hstep2).go _ _ (a8.go (List.mem_singleton.2 rfl) _ w' _ _ ?_))
            rw [← f4, ← pc3]
            have hb := ((b8 _ (chain X hX).2.1).2 C _ a1).2 K hK2 d (i' - 1) (by omega) (extend ρ [(brk, n + 3, k)])
              (cut (n + 3) again) g.fs.pc (by rw [pc3]; exact f1.le)
              (loop_lok (hρ.mono (by omega) (Nat.le_refl _) (fun _ h => h)) (hk.mono (by omega)) (by dsimp only; omega)) (fun N hN => by
                rw [n3] at hN
                rw [← k3]
                exact (ih _ (by omega) (by omega)).cut (by omega))
            rw [n3] at hb
            refine hb _ _ w' (by rw [List.length_append, List.length_set, hl, adjust_len]) ?_
            intro x hx
            simp only [Regs.set]
            generalize look vs 0 = v0
            unfold look
            rw [List.getD_eq_getElem?_getD]
            rcases Nat.lt_or_ge x (n + 3) with x3 | x3
            · rw [List.getElem?_append_left (by rw [List.length_set]; omega), List.getElem?_set]
              by_cases x0 : x = n + 2
              · subst x0
                rw [if_pos rfl, if_pos rfl, if_pos (by omega)]; rfl
              · rw [if_neg x0, if_neg (fun h => x0 h.symm), r1 x x3, hR x x3]
                unfold look
                rw [List.getD_eq_getElem?_getD]
            · obtain ⟨y, rfl⟩ : ∃ y, x = n + 3 + y := ⟨x - (n + 3), by omega⟩
              rw [if_neg (by omega), r2 y (by omega), List.getElem?_append_right (by rw [List.length_set]; omega), List.length_set, hl,
                Nat.add_sub_cancel_left, adjust_look (by omega)]
    intro env R w hl hR
    exact a6.go f6 R w _ _ (main d ii hi (Nat.le_refl _) env R w hl hR)

end Verif.Stat
