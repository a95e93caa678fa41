import Verif.LinStmt.Sim

/-!
# The numeric `for`: its code, all together
-/
namespace Verif.LinStmt
open Verif.Lin

variable {P : Par} {Γ : Nat → LV} {ρ : Nat → P.V} {g : Prog P} {st st' : St P.F P.O}

theorem int_ty {t : Ty} (h : t = .any ∨ t = .int) (i : I64) : HasTy (P := P) t (.int i) := by
  rcases h with rfl | rfl
  · trivial
  · exact ⟨i, rfl⟩

/-- The assignment to the loop variable. -/
theorem mov_loop {ri : Nat} {x : Nat} {M : Mach P} (hD : Distinct Γ) (hx : (Γ x).ty = .any ∨ (Γ x).ty = .int)
    (hg : Covers g (emit st (.mov (.ti ri false) (Γ x).ps))) (hL : Locals Γ ρ M) (s0 : St P.F P.O) :
    ∃ M', Run P g (here st M) (.ok (here (emit st (.mov (.ti ri false) (Γ x).ps)) M')) ∧
      M'.s = M.s ∧ (∀ r, slot (.ti r false : Ps P.F P.O) ≠ some (Γ x).slot → M'.I r = M.I r) ∧
      Locals Γ (Lin.set ρ x (.int (M.I ri))) M' ∧ FrameT Γ s0 M M' := by
  obtain ⟨M', h1, h2, h3, h4⟩ := mov_upd (l := Γ x) (M := M) (q := .ti ri false) (int_ty hx _)
  refine ⟨M', run_ins hg rfl h1, h3, fun r hr => ?_, fun y => ?_, fun q _ hs => ?_⟩
  · exact rd_I (l := false) (h4 _ (by rwa [slot_ps]))
  · by_cases hy : y = x
    · subst hy
      simp only [Lin.set, if_true]
      exact h2
    · simp only [Lin.set, if_neg hy]
      rw [h4 _ (by
        rw [slot_ps, slot_ps]
        intro e
        exact hy (hD _ _ (Option.some.inj e)))]
      exact hL y
  · exact h4 q (by rw [slot_ps]; exact hs x)

theorem for_code (hD : Distinct Γ) (hρ : ∀ x, HasTy (Γ x).ty (ρ x)) {x : Nat} {e1 e2 : Exp P.F P.O}
    {e3 b ri rl rs rt rp ps N} {s4 s5 s6 s7 s8 sT s13 : St P.F P.O} {l d : I64}
    (F : ForS Γ x e1 e2 e3 b st st' ri rl rs rt rp ps N s4 s5 s6 s7 s8 sT s13) (gd : Good Γ st)
    (hx : (Γ x).ty = .any ∨ (Γ x).ty = .int) (hpb : PlainS Γ b = true) (hg : Covers g st')
    (hpos : posStep e3 = true → (0 : I64).slt d = true) :
    ∃ sb h k e K, ForCode Γ g x l d h k e st sb ri K ∧ Body Γ g b e h st sb ∧
      here (P := P) st' = (⟨e, 0, ·⟩) ∧ Covers g s7 ∧
      ∀ M : Mach P, M.I rl = l → M.I rs = d → (M.I ri).ssubOverflow d = false → ∃ M',
        Run P g (here s7 M) (.ok ⟨h, 0, M'⟩) ∧ M'.s = M.s ∧ M'.I ri = M.I ri - d ∧ K M' ∧
        Frame st M M' := by
  obtain ⟨w4, a5, a6, a7, a8', a8, o8, w8, aT, wT⟩ := F.stp hρ gd.wf
  have hN : N = 2 ∨ N = 3 := by
    rcases F.var with ⟨_, h, _⟩ | ⟨_, _, _, _, _, _, h, _⟩
    · exact Or.inl h
    · exact Or.inr h
  have hcur := w8.cur
  obtain ⟨_, _, g3, k3, o4, k5, k6, k7, k8, k9, k10, gb, ab, ek, nk⟩ :=
    loop_stp (t := s8.nb) (linS_stp hρ b).1 hpb
    (fun g => ⟨.emit g.wf _, open_emit rfl⟩) F.body wT aT rfl (by omega) (by omega) hcur
    ⟨w8.emp _ (by omega), w8.emp _ (by omega)⟩
  have hfold := foldl_free (P := P) freeP freeP_blocks ps (startBlock (instBr s13 s8.nb) (s8.nb + N + 1))
  have hgE : Covers g (startBlock (instBr s13 s8.nb) (s8.nb + N + 1)) := by
    rw [F.fin] at hg
    exact Covers.same hg hfold.1
  have w13 := k3.wf g3.wf
  have hgi : Covers g (emit s13 (.br s8.nb)) := by
    have a9 := Stp.instBr w13 o4 s8.nb
    have := hgE.stp (startBlock_stp (a9.wf w13) (b := s8.nb + N + 1)
      (by have := a9.nb; have := k3.nb; rw [startBlock_nb] at this; omega))
    rwa [instBr_open o4] at this
  have hg13 := hgi.mono (.emit _ _)
  have hgb := hg13.stp ab
  have hgk : Covers g (startBlock sT (s8.nb + N)) := hgb.mono (.emit _ _)
  have hgT : Covers g sT := hgk.stp (startBlock_stp wT (by omega))
  have hg8 : Covers g s8 := (hgT.stp aT).same rfl
  have sb8 : ∀ k, live s8 k → live (emit (startBlock sT (s8.nb + N))
      (.mov (.ti ri false) (Γ x).ps)) k :=
    fun k hk => (live_emit _ _ _).2 ((startBlock_live _ _ _).2 (aT.sub k ((live_nb _ _ _).2 hk)))
  have s48 : ∀ k, live s4 k → live s8 k :=
    fun k hk => a8'.sub k (a7.sub k (a6.sub k (a5.sub k hk)))
  have sub0 : ∀ k, live st k → live (emit (startBlock sT (s8.nb + N))
      (.mov (.ti ri false) (Γ x).ps)) k := fun k hk => sb8 k (a8.sub k hk)
  have keepI : ∀ {M M' : Mach P} {r}, FrameT Γ (emit (startBlock sT (s8.nb + N))
      (.mov (.ti ri false) (Γ x).ps)) M M' → ¬ live st (.i, r) → live s4 (.i, r) → M'.I r = M.I r := by
    intro M M' r hf hn hl
    refine rd_I (l := false) (hf _ ?_ (notloc gd.wf hn))
    intro k hk
    cases hk
    exact sb8 _ (s48 _ hl)
  -- the jump to the head of the loop
  have hrun8 : ∀ M : Mach P, Run P g (here s8 M) (.ok ⟨s8.nb, 0, M⟩) := by
    intro M
    rcases F.var with ⟨_, rfl, h8, hT⟩ | ⟨_, _, _, _, _, _, rfl, h8, hT⟩
    · refine run_start (st := { s8 with nb := s8.nb + 4 }) o8 ?_
      have oh : Open (head 4 (.ti ri false) (.ti rs false) s8) := open_emit rfl
      have := hgT
      rw [hT] at this
      unfold headP at this
      have := (this.mono (.emit _ _)).mono (.emit _ _)
      rw [instBr_open oh, startBlock_term (term_emit rfl)] at this
      have : Covers g (emit (head 4 (.ti ri false) (.ti rs false) s8) (.br (s8.nb + 1))) := this
      exact (this.mono (.emit _ _)).mono (.emit _ _)
    · refine run_start (st := { s8 with nb := s8.nb + 5 }) o8 ?_
      have tt : terminated (linTest (.ti rl false) (.ti ri false) (.tb rt) (s8.nb + 4) (s8.nb + 3)
        (startBlock (emit (head 5 (.ti ri false) (.ti rs false) s8) (.cbr (.tb rp) (s8.nb + 1) (s8.nb + 2)))
        (s8.nb + 1))) = true := term_emit rfl
      have := hgT
      rw [hT] at this
      unfold headN at this
      have := (this.mono (.emit _ _)).mono (.emit _ _)
      rw [startBlock_term tt] at this
      have : Covers g (linTest (.ti rl false) (.ti ri false) (.tb rt) (s8.nb + 4) (s8.nb + 3)
        (startBlock (emit (head 5 (.ti ri false) (.ti rs false) s8) (.cbr (.tb rp) (s8.nb + 1) (s8.nb + 2)))
        (s8.nb + 1))) := this
      have := (this.mono (.emit _ _)).mono (.emit _ _)
      rw [startBlock_term (term_emit rfl)] at this
      have : Covers g (emit (head 5 (.ti ri false) (.ti rs false) s8)
        (.cbr (.tb rp) (s8.nb + 1) (s8.nb + 2))) := this
      exact (this.mono (.emit _ _)).mono (.emit _ _)
  have hN : s8.nb + N ≠ s8.nb := by
    rcases F.var with ⟨_, rfl, _⟩ | ⟨_, _, _, _, _, _, rfl, _⟩ <;> omega
  refine ⟨_, s8.nb, s8.nb + N, s8.nb + N + 1, Kept N rl rs rp l d, ⟨?_, ?_, ?_⟩,
    ⟨s13, F.body, hpb, gb, hgi, sub0, hN⟩, ?_, hg8.stp a8', ?_⟩
  · intro M hK hov
    rcases F.var with ⟨hp, rfl, h8, hT⟩ | ⟨n5, l5, e5, e6, e7, e9, rfl, h8, hT⟩
    · rw [hT] at hgT
      obtain ⟨M', c1, c2, c3, c4, c5⟩ := headP_run w8 o8 hgT (by decide) (hpos hp) F.ne hK hov
      exact ⟨M', c1, c2, c3, c4, c5 _ F.new.1 F.new.2.2.2⟩
    · rw [hT] at hgT
      obtain ⟨M', c1, c2, c3, c4, c5⟩ := headN_run w8 o8 hgT rfl F.ne ⟨e5, e9⟩ hK hov
      exact ⟨M', c1, c2, c3, c4, c5 _ F.new.1 F.new.2.2.2⟩
  · intro M ρ hK hL
    obtain ⟨M', c1, c2, c3, c4, c5⟩ := mov_loop (M := M) hD hx hgb hL st
    rw [here_empty (b := s8.nb + N) rfl (by rw [startBlock_blocks nk, ek])] at c1
    have c3' : ∀ {r}, ¬ live st (.i, r) → M'.I r = M.I r := fun hn => c3 _ (notloc gd.wf hn x)
    refine ⟨M', c1, c2, c3' F.new.1, ⟨?_, ?_, fun h => ?_⟩, c4, c5⟩
    · rw [c3' F.new.2.1, hK.1]
    · rw [c3' F.new.2.2.1, hK.2.1]
    · rcases F.var with ⟨hp, h', _⟩ | ⟨n5, _⟩
      · omega
      · rw [c3' n5, hK.2.2 h]
  · intro M M' hf hK
    refine ⟨⟨?_, ?_, fun h => ?_⟩, keepI hf F.new.1 F.liv.1⟩
    · rw [keepI hf F.new.2.1 F.liv.2.1, hK.1]
    · rw [keepI hf F.new.2.2.1 F.liv.2.2, hK.2.1]
    · rcases F.var with ⟨hp, h', _⟩ | ⟨n5, l5, _⟩
      · omega
      · rw [keepI hf n5 l5, hK.2.2 h]
  · funext M'
    rw [F.fin, here_same hfold.1 hfold.2.2]
    refine here_empty rfl ?_
    rw [startBlock_blocks (by rw [instBr_open o4]; exact k7)]
    exact k6
  · intro M h1 h2 h3
    have hne := F.ne
    rcases F.var with ⟨hp, rfl, h8, hT⟩ | ⟨n5, l5, e5, e6, e7, e9, rfl, h8, hT⟩
    · have hg8' := hg8
      rw [h8] at hg8'
      have r1 : Run P g (here s7 M) (.ok (here s8 (setI M ri (M.I ri - d)))) := by
        rw [h8]
        refine run_ins hg8' rfl ?_
        simp only [exIns, exBin, rdI, Res.bind_ok, h2, cOp, h3, Bool.false_eq_true, if_false, wrI, setI]
      refine ⟨_, r1.trans (hrun8 _), rfl, setI_same, ⟨?_, ?_, fun h => ?_⟩, setI_frame F.new.1⟩
      · rw [setI_ne hne.1.symm, h1]
      · rw [setI_ne hne.2.1.symm, h2]
      · cases h
    · have hg8' := hg8
      rw [h8] at hg8'
      have r0 : Run P g (here s7 M) (.ok (here (emit s7 (.bin (.cm .lt .ii) (.kc (.int 0))
          (.ti rs false) (.tb rp))) (setI M rp (if (0 : I64).slt d then 1 else 0)))) := by
        refine run_ins (hg8'.mono (.emit _ _)) rfl ?_
        simp only [exIns, exBin, rdI, Res.bind_ok, h2, wrB, setI, cmpI]
        rfl
      have r1 : Run P g (here (emit s7 (.bin (.cm .lt .ii) (.kc (.int 0))
          (.ti rs false) (.tb rp))) (setI M rp (if (0 : I64).slt d then 1 else 0)))
          (.ok (here s8 (setI (setI M rp (if (0 : I64).slt d then 1 else 0)) ri (M.I ri - d)))) := by
        rw [h8]
        refine run_ins hg8' rfl ?_
        simp only [exIns, exBin, rdI, Res.bind_ok, setI_ne e5.symm, setI_ne e7.symm, h2, cOp, h3,
          Bool.false_eq_true, if_false, wrI]
        rfl
      refine ⟨_, (r0.trans r1).trans (hrun8 _), rfl, setI_same, ⟨?_, ?_, fun h => ?_⟩,
        (setI_frame n5).trans (setI_frame F.new.1) fun _ => id⟩
      · rw [setI_ne hne.1.symm, setI_ne e6.symm, h1]
      · rw [setI_ne hne.2.1.symm, setI_ne e7.symm, h2]
      · rw [setI_ne e5, setI_same]

theorem sub_add (i d : I64) : i - d + d = i := by
  exact BitVec.sub_add_cancel i d

theorem sub_add_ovf {i d : I64} (h : i.ssubOverflow d = false) : (i - d).saddOverflow d = false := by
  have h1 := BitVec.toInt_sub_of_not_ssubOverflow (by rw [h]; decide)
  have := i.toInt_lt
  have := i.le_toInt
  simp only [BitVec.saddOverflow, h1, Int.sub_add_cancel]
  simp
  omega

end Verif.LinStmt
