import Verif.LinStmt.ForSim

/-!
# The code of a statement does what the statement means
-/
namespace Verif.LinStmt
open Verif.Lin

variable {P : Par} {Γ : Nat → LV} {ρ : Nat → P.V} {g : Prog P} {st st' : St P.F P.O}

theorem Goal.norm {c : Cfg P} {tgt bt s0 M ρ s} (h : c = tgt M) (hL : Locals Γ ρ M)
    (hs : M.s = s) (hρ : ∀ x, HasTy (Γ x).ty (ρ x)) : Goal Γ g c tgt bt s0 M (.norm ρ s) :=
  ⟨M, h ▸ .here _, hL, hs, hρ, .refl _ _⟩

theorem Goal.cut {c : Cfg P} {tgt bt s0 M} : Goal Γ g c tgt bt s0 M (.long 0) :=
  ⟨0, c, le_rfl, .zero⟩

theorem ne_block {b b' i i' : Nat} {M M' : Mach P} (h : b ≠ b') : (⟨b, i, M⟩ : Cfg P) ≠ ⟨b', i', M'⟩ :=
  fun e => h (congrArg Cfg.b e)

/-- A block of an `if` runs. -/
theorem block_run {b : Stm P.F P.O} {bt s0 sb s2 t} {M : Mach P} {s o e} (hp : PlainS Γ b = true)
    (h : linS Γ b bt sb = .ok s2) (gd : Good Γ sb) (hh : ∀ M, here sb M = ⟨t, 0, M⟩)
    (hg : Covers g (emit s2 (.br e))) (hs0 : ∀ k, live s0 k → live sb k)
    (ih : Mot Γ g (.stm b) ρ s o) (hL : Locals Γ ρ M) (hs : M.s = s) :
    Goal Γ g ⟨t, 0, M⟩ (⟨e, 0, ·⟩) bt s0 M o := by
  have := (ih hp).1 h gd (hg.mono (.emit _ _)) hL hs
  rw [hh] at this
  exact (Goal.to (fun M' => run_br hg) this).sub hs0

theorem condOk_plain {c : Exp P.F P.O} (h : condOk Γ c = true) : Plain Γ c = true := by
  simp only [condOk, Bool.and_eq_true] at h
  exact h.1

/-- Not a chain. -/
theorem mot_stm {a : Stm P.F P.O} {s o} (ha : a.isRest = false)
    (H : ∀ {bt st st' M}, PlainS Γ a = true → linS Γ a bt st = .ok st' → Good Γ st →
      Covers g st' → Locals Γ ρ M → M.s = s → Goal Γ g (here st M) (here st') bt st M o) :
    Mot Γ g (.stm a) ρ s o :=
  fun hp => ⟨fun h1 h2 h3 h4 h5 => H hp h1 h2 h3 h4 h5, fun h => by rw [ha] at h; cases h⟩

theorem mot_ite {c : Exp P.F P.O} {b r : Stm P.F P.O} {s o} (hρ : ∀ x, HasTy (Γ x).ty (ρ x))
    (H : PlainS Γ (.ite c b r) = true → ∀ {bt blk tru s0 sa sb sc sd M},
      Chain Γ g (.ite c b r) bt blk tru s0 sa sb sc sd →
      Locals Γ ρ M → M.s = s → Goal Γ g ⟨blk, 0, M⟩
        (⟨tru + (Stm.ite c b r).blks, 0, ·⟩) bt s0 M o) :
    Mot Γ g (.stm (.ite c b r)) ρ s o :=
  fun hp => ⟨fun h1 h2 h3 h4 h5 => Goal.chain_ite hp hρ (fun C => H hp C) h1 h2 h3 h4 h5,
    fun _ => fun C => H hp C⟩

theorem set_ty {x : Nat} (hρ : ∀ x, HasTy (Γ x).ty (ρ x)) (hx : (Γ x).ty = .any ∨ (Γ x).ty = .int)
    (i : I64) : ∀ y, HasTy (Γ y).ty (Lin.set ρ x (.int i) y) := by
  intro y
  by_cases hy : y = x
  · subst hy
    simp only [Lin.set, if_true]
    exact int_ty hx i
  · simp only [Lin.set, if_neg hy]
    exact hρ y

/-- A numeric `for` up to the head of its loop. -/
theorem for_front (hD : Distinct Γ) (hρ : ∀ x, HasTy (Γ x).ty (ρ x)) {x : Nat} {e1 e2 : Exp P.F P.O}
    {e3 b bt} {M : Mach P} (h : linS Γ (.forn x e1 e2 e3 b) bt st = .ok st')
    (hp : PlainS Γ (.forn x e1 e2 e3 b) = true) (gd : Good Γ st) (hg : Covers g st')
    (hL : Locals Γ ρ M) (hu : evalFor P (evalS Γ ρ) e1 e2 e3 M.s ≠ .ub) :
    (∀ {i l d s1}, evalFor P (eval P ρ) e1 e2 e3 M.s = .ok ((.int i, .int l, .int d), s1) →
      i.ssubOverflow d = false → ∃ sb h k e ri K M1, ForCode Γ g x l d h k e st sb ri K ∧
        Body Γ g b e h st sb ∧ ((Γ x).ty = .any ∨ (Γ x).ty = .int) ∧
        here (P := P) st' = (⟨e, 0, ·⟩) ∧
        Run P g (here st M) (.ok ⟨h, 0, M1⟩) ∧ M1.s = s1 ∧ M1.I ri = i - d ∧ K M1 ∧ Frame st M M1) ∧
    ∀ {m}, evalFor P (eval P ρ) e1 e2 e3 M.s = .err m → Run P g (here st M) (.err m) := by
  obtain ⟨hi, ri, rl, rs, rt, rp, ps, N, s4, s5, s6, s7, s8, sT, s13, F⟩ := linFor h
  unfold PlainS at hp
  simp only [Bool.and_eq_true, Bool.or_eq_true, beq_iff_eq] at hp
  obtain ⟨⟨⟨⟨p1, p2⟩, p3⟩, hx⟩, hpb⟩ := hp
  have p3' : ∀ e, e3 = some e → Plain Γ e = true := by
    rintro e rfl
    exact p3
  have w4 := (F.stp hρ gd.wf).1
  have front : ∀ (hg7 : Covers g s7), _ := fun hg7 => front_exe hρ F.h5 F.h6 F.h7 hi p1 p2 p3' gd.wf w4 F.sub
    ⟨F.new.1, F.new.2.1, F.new.2.2.1⟩ ⟨F.liv.1, F.liv.2.1⟩ ⟨F.ne.1, F.ne.2.1, F.ne.2.2.1⟩ hg7 hL
  have he' := (evalFor_eq Γ ρ e1 e2 e3 M.s).resolve_left hu
  have hh : here s4 M = here st M := here_same F.same.1 F.same.2.2 M
  rw [he', hh] at front
  constructor
  · intro i l d s1 he hov
    have hpos : posStep e3 = true → (0 : I64).slt d = true := by
      intro hps
      unfold evalFor at he
      simp only [Res.bind_eq_ok] at he
      obtain ⟨⟨a, t1⟩, _, ⟨c, t2⟩, _, h3⟩ := he
      cases e3 with
      | none =>
        simp only [Res.ok.injEq, Prod.mk.injEq, Val.int.injEq] at h3
        rw [← h3.1.2.2]
        decide
      | some e =>
        simp only [Res.bind_eq_ok] at h3
        obtain ⟨⟨v, t3⟩, h4, h5⟩ := h3
        simp only [Res.ok.injEq, Prod.mk.injEq] at h5
        cases e with
        | lit v' =>
          simp only [eval, Res.ok.injEq, Prod.mk.injEq] at h4
          rw [h5.1.2.2] at h4
          rw [h4.1] at hps
          exact hps
        | _ => cases hps
    obtain ⟨sb, h, k, e, K, C, B, hfin, hg7, hst⟩ := for_code (l := l) (d := d) hD hρ F gd hx hpb hg hpos
    have key := front hg7
    rw [he] at key
    obtain ⟨M1, c1, c2, c3, c4⟩ := key
    simp only [Prod.mk.injEq, Val.int.injEq] at c2
    obtain ⟨M2, d1, d2, d3, d4, d5⟩ := hst M1 c2.2.1.symm c2.2.2.symm (by rw [← c2.1]; exact hov)
    refine ⟨sb, h, k, e, ri, K, M2, C, B, hx, hfin, c1.trans d1, d2.trans c3, ?_, d4,
      c4.trans d5 fun _ => id⟩
    rw [d3, ← c2.1]
  · intro m he
    have hg7 : Covers g s7 := by
      obtain ⟨_, _, _, _, _, _, _, _, hg7, _⟩ :=
        for_code (l := 0) (d := 1) hD hρ F gd hx hpb hg (fun _ => by decide)
      exact hg7
    have key := front hg7
    rw [he] at key
    exact key

theorem exec_sim (hD : Distinct Γ) {cmd : Cmd P} {ρ s o}
    (h : Exec (fun x => (Γ x).ty) (Guard.safe Γ) cmd ρ s o) :
    (∀ x, HasTy (Γ x).ty (ρ x)) → Mot Γ g cmd ρ s o := by
  induction h with
  | @cut cmd ρ s =>
    intro hρ
    cases cmd with
    | stm a => exact fun _ => ⟨fun _ _ _ _ _ => .cut, fun _ => fun _ _ _ => .cut⟩
    | whl c b => exact fun _ _ _ _ _ _ => .cut
    | rep b c => exact fun _ _ _ _ _ _ => .cut
    | loop x i l d b => exact fun _ _ _ _ _ _ _ _ _ => .cut
  | skip =>
    intro hρ
    refine mot_stm rfl fun _ h _ _ hL hs => ?_
    simp only [linS, Res.ok.injEq] at h
    exact .norm (by rw [h]) hL hs hρ
  | @seq a b ρ s ρ1 s1 o ha hb iha ihb =>
    intro hρ
    refine mot_stm rfl fun hp h gd hg hL hs => ?_
    simp only [linS, Res.bind_eq_ok] at h
    obtain ⟨t1, h1, h2⟩ := h
    simp only [PlainS, Bool.and_eq_true] at hp
    obtain ⟨a1, o1⟩ := (linS_stp hρ a).1 h1 hp.1 gd
    have g1 : Good Γ t1 := ⟨a1.wf gd.wf, o1⟩
    obtain ⟨a2, _⟩ := (linS_stp hρ b).1 h2 hp.2 g1
    obtain ⟨M1, k1, k2, k3, k4, k5⟩ := (iha hρ hp.1).1 h1 gd (hg.stp a2) hL hs
    exact Goal.pre k1 k5 (((ihb k4 hp.2).1 h2 g1 hg k2 k3).sub a1.sub)
  | @seqB a b ρ s ρ1 s1 ha iha =>
    intro hρ
    refine mot_stm rfl fun hp h gd hg hL hs => ?_
    simp only [linS, Res.bind_eq_ok] at h
    obtain ⟨t1, h1, h2⟩ := h
    simp only [PlainS, Bool.and_eq_true] at hp
    obtain ⟨a1, o1⟩ := (linS_stp hρ a).1 h1 hp.1 gd
    obtain ⟨a2, _⟩ := (linS_stp hρ b).1 h2 hp.2 ⟨a1.wf gd.wf, o1⟩
    have key := (iha hρ hp.1).1 h1 gd (hg.stp a2) hL hs
    exact key
  | @seqP a b ρ s o ho ha iha =>
    intro hρ
    refine mot_stm rfl fun hp h gd hg hL hs => ?_
    simp only [linS, Res.bind_eq_ok] at h
    obtain ⟨t1, h1, h2⟩ := h
    simp only [PlainS, Bool.and_eq_true] at hp
    obtain ⟨a1, o1⟩ := (linS_stp hρ a).1 h1 hp.1 gd
    obtain ⟨a2, _⟩ := (linS_stp hρ b).1 h2 hp.2 ⟨a1.wf gd.wf, o1⟩
    have key := (iha hρ hp.1).1 h1 gd (hg.stp a2) hL hs
    exact key.pass ho
  | @asg ts es ρ s ρ1 s1 hG he =>
    intro hρ
    refine mot_stm rfl fun {bt st st' M} hp h gd hg hL hs => ?_
    simp only [PlainS, Bool.and_eq_true, List.all_eq_true] at hp
    subst hs
    have key := assign_exe hD hρ gd.wf h hp.1.1 hp.1.2 hp.2 g hg M hL hG
    rw [(evalAssignS_eq Γ ts es ρ M.s).resolve_left hG, he] at key
    exact key
  | @asgE ts es ρ s m hG he =>
    intro hρ
    refine mot_stm rfl fun {bt st st' M} hp h gd hg hL hs => ?_
    simp only [PlainS, Bool.and_eq_true, List.all_eq_true] at hp
    subst hs
    have key := assign_exe hD hρ gd.wf h hp.1.1 hp.1.2 hp.2 g hg M hL hG
    rw [(evalAssignS_eq Γ ts es ρ M.s).resolve_left hG, he] at key
    exact key
  | asgX _ =>
    intro hρ
    exact mot_stm rfl fun _ _ _ _ _ _ => trivial
  | brk =>
    intro hρ
    refine mot_stm rfl fun {bt st st' M} hp h gd hg hL hs => ?_
    cases bt with
    | none => simp [linS] at h
    | some t =>
      have a1 := Stp.emit gd.wf (Ins.br t)
      have hg1 : Covers g (emit st (.br t)) := by
        simp only [linS, Res.ok.injEq] at h
        rw [instBr_open gd.opn] at h
        have w1 := a1.wf gd.wf
        have w2 := (Stp.bump w1 1).wf w1
        rw [← h] at hg
        exact (hg.stp (startBlock_stp w2 (Nat.lt_succ_self _))).stp (Stp.bump w1 1)
      exact ⟨t, M, rfl, run_br hg1, hL, hs, hρ, .refl _ _⟩
  | @whl c b ρ s o hw ih =>
    intro hρ
    refine mot_stm rfl fun {bt st st' M} hp h gd hg hL hs => ?_
    simp only [linS, Res.bind_eq_ok] at h
    obtain ⟨s1, h1, s2, h2, h3⟩ := h
    simp only [PlainS, Bool.and_eq_true] at hp
    have hcur := gd.wf.cur
    have w0 := (Stp.bump gd.wf 3).wf gd.wf
    have a1 := startBlock_stp w0 (b := st.nb) (by show st.nb < st.nb + 3; omega)
    have w1 := a1.wf w0
    obtain ⟨a2, t2⟩ := cond_stp hρ h1 w1
    have w2 := a2.wf w1
    have hn1 := startBlock_nb { st with nb := st.nb + 3 } st.nb
    have hc1 := startBlock_cur { st with nb := st.nb + 3 } st.nb
    dsimp only at hn1
    have hc2 := a2.cur
    obtain ⟨_, _, g3, k3, o4, k5, k6, k7, k8, k9, k10, _⟩ := loop_stp (t := st.nb) (linS_stp hρ b).1 hp.2
      (fun g => ⟨.refl g.wf, g.opn⟩) h2 w2
      ((a1.trans a2).weaken (S' := fun i => i = st.cur ∨ st.nb ≤ i ∧ i < st.nb + 1) (by
        rintro i ((hi | hi) | hi)
        · exact Or.inl (Or.inl hi)
        · exact Or.inl (Or.inr (by omega))
        · exact Or.inl (Or.inr (by omega)))) rfl (by omega) (by omega) hcur
      ⟨gd.wf.emp _ (by omega), gd.wf.emp _ (by omega)⟩
    have h3 := Res.ok.inj h3
    have hgi : Covers g (emit s2 (.br st.nb)) := by
      rw [← h3] at hg
      have w4 := k3.wf g3.wf
      have a5 := Stp.instBr w4 o4 st.nb
      have := hg.stp (startBlock_stp (a5.wf w4) (b := st.nb + 2)
        (by have := a5.nb; have := k3.nb; rw [startBlock_nb] at this; omega))
      rwa [instBr_open o4] at this
    have hg2 := (hgi.mono (.emit _ _))
    have hg1 := (hg2.stp k3).stp (startBlock_stp w2 (b := st.nb + 1) (by omega))
    have C := cond_run h1 hp.1 w1 rfl (by
      rw [startBlock_blocks (by show st.nb ≠ st.cur; omega)]
      exact gd.wf.emp _ le_rfl) hg1
    have e1 : s1.blocks (st.nb + 1) = [] := by
      rw [a2.oth _ (by omega) (by omega), startBlock_blocks (by show _ ≠ st.cur; omega)]
      exact gd.wf.emp _ (by omega)
    have key := ih hρ (M := M) (sb := startBlock s1 (st.nb + 1)) C ⟨s2, h2, hp.2, g3, hgi, ?_⟩
      (fun M => here_empty rfl (by rw [startBlock_blocks (by omega), e1])) w1 hL hs
    · have hfin : here st' = fun M' => ⟨st.nb + 2, 0, M'⟩ := by
        funext M'
        rw [← h3]
        refine here_empty rfl ?_
        rw [startBlock_blocks (by rw [instBr_open o4]; exact k7)]
        exact k6
      rw [hfin]
      refine Goal.pre (M' := M) ?_ (.refl _ _) (Goal.anyBt (key.sub fun k hk => ?_))
      · exact run_start (st := { st with nb := st.nb + 3 }) gd.opn (hg1.stp a2)
      · exact (startBlock_live _ _ _).2 hk
    · exact ⟨fun k hk => (startBlock_live _ _ _).2 (a2.sub k hk), by rw [startBlock_cur]; omega⟩
  | @whlC c b ρ s m hG he =>
    intro hρ h k e s0 sb M C B hh w hL hs
    subst hs
    exact C.err hρ hL hG he
  | @whlF c b ρ s v s1 hG he hv =>
    intro hρ h k e s0 sb M C B hh w hL hs
    subst hs
    obtain ⟨M1, k1, k2, k3⟩ := C.ok hρ hL hG he
    simp only [hv, if_true] at k1
    exact Goal.pre k1 (.of k3) (.norm rfl (hL.frame w k3) k2 hρ)
  | @whlT c b ρ s v s1 ρ2 s2 o hG he hv hb hw ihb ihw =>
    intro hρ h k e s0 sb M C B hh w hL hs
    subst hs
    obtain ⟨M1, k1, k2, k3⟩ := C.ok hρ hL hG he
    simp only [hv, Bool.false_eq_true, if_false] at k1
    obtain ⟨M2, j1, j2, j3, j4, j5⟩ := B.run (ihb hρ) (hL.frame w k3) k2
    rw [hh] at j1
    exact Goal.pre (k1.trans j1) ((FrameT.of k3).trans (j5.sub B.choose_spec.2.2.2.2.1))
      (ihw j4 C B hh w j2 j3)
  | @whlB c b ρ s v s1 ρ2 s2 hG he hv hb ihb =>
    intro hρ h k e s0 sb M C B hh w hL hs
    subst hs
    obtain ⟨M1, k1, k2, k3⟩ := C.ok hρ hL hG he
    simp only [hv, Bool.false_eq_true, if_false] at k1
    obtain ⟨t, M2, ht, j1, j2, j3, j4, j5⟩ := B.run (ihb hρ) (hL.frame w k3) k2
    rw [hh] at j1
    cases ht
    exact Goal.pre (k1.trans j1) ((FrameT.of k3).trans (j5.sub B.choose_spec.2.2.2.2.1))
      (.norm rfl j2 j3 j4)
  | @whlP c b ρ s v s1 o hG he hv ho hb ihb =>
    intro hρ h k e s0 sb M C B hh w hL hs
    subst hs
    obtain ⟨M1, k1, k2, k3⟩ := C.ok hρ hL hG he
    simp only [hv, Bool.false_eq_true, if_false] at k1
    have j1 := B.run (ihb hρ) (hL.frame w k3) k2
    rw [hh] at j1
    exact Goal.pre k1 (.of k3) (j1.pass ho)
  | whlX _ => exact fun _ _ _ _ _ _ => by intros; trivial
  | @whlN c b ρ s v s1 ρ2 s2 n hG he hv hb hw ihb ihw =>
    intro hρ h k e s0 sb M C B hh w hL hs
    subst hs
    obtain ⟨M1, k1, k2, k3⟩ := C.ok hρ hL hG he
    simp only [hv, Bool.false_eq_true, if_false] at k1
    obtain ⟨M2, j1, j2, j3, j4, j5⟩ := B.run (ihb hρ) (hL.frame w k3) k2
    have hne := B.choose_spec.2.2.2.2.2
    rw [hh] at j1
    have hk : sb.cur = k := congrArg Cfg.b (hh M)
    rw [hk] at hne
    exact Goal.pre k1 (.of k3) (Goal.tick j1 (ne_block hne) (ihw j4 C B hh w j2 j3))
  | @rep b c ρ s o hw ih =>
    intro hρ
    refine mot_stm rfl fun {bt st st' M} hp h gd hg hL hs => ?_
    obtain ⟨d, s1, n, s2, q, s3, s4, h1, h2, h3, _, _, h4, h5⟩ := linRep h
    simp only [PlainS, Bool.and_eq_true] at hp
    have hcur := gd.wf.cur
    have w0 := (Stp.bump gd.wf 3).wf gd.wf
    have a1 := Stp.instBr w0 gd.opn (st.nb + 1)
    have w1 := a1.wf w0
    have hi1 := instBr_open (st := { st with nb := st.nb + 3 }) gd.opn (st.nb + 1)
    have hc1 : (instBr { st with nb := st.nb + 3 } (st.nb + 1)).cur = st.cur := by rw [hi1]; rfl
    have hn1 : (instBr { st with nb := st.nb + 3 } (st.nb + 1)).nb = st.nb + 3 := by rw [hi1]; rfl
    have a2 := startBlock_stp w1 (b := st.nb) (by omega)
    have w2 := a2.wf w1
    obtain ⟨a3, t3⟩ := repCond_stp hρ (t := st.nb + 1) (f := st.nb + 2) w2 h1 h2 h3
    have w3 := a3.wf w2
    have hc2 := startBlock_cur (instBr { st with nb := st.nb + 3 } (st.nb + 1)) st.nb
    have hn2 := startBlock_nb (instBr { st with nb := st.nb + 3 } (st.nb + 1)) st.nb
    have hc3 := a3.cur
    obtain ⟨_, _, g3, k3, o4, k5, k6, k7, k8, k9, k10, _⟩ := loop_stp (t := st.nb) (linS_stp hρ b).1 hp.2
      (fun g => ⟨.refl g.wf, g.opn⟩) h4 w3
      (((a1.trans a2).trans a3).weaken (S' := fun i => i = st.cur ∨ st.nb ≤ i ∧ i < st.nb + 1) (by
        rintro i ((hi | hi | hi) | hi)
        · exact Or.inl (Or.inl hi)
        · exact Or.inl (Or.inl (by omega))
        · exact Or.inl (Or.inr (by omega))
        · exact Or.inl (Or.inr (by omega)))) rfl (by omega) (by omega) hcur
      ⟨gd.wf.emp _ (by omega), gd.wf.emp _ (by omega)⟩
    have hgi : Covers g (emit s4 (.br st.nb)) := by
      rw [h5] at hg
      have w4 := k3.wf g3.wf
      have a5 := Stp.instBr w4 o4 st.nb
      have := hg.stp (startBlock_stp (a5.wf w4) (b := st.nb + 2)
        (by have := a5.nb; have := k3.nb; rw [startBlock_nb] at this; omega))
      rwa [instBr_open o4] at this
    have hg2 := (hgi.mono (.emit _ _))
    have hg1 := (hg2.stp k3).stp (startBlock_stp w3 (b := st.nb + 1) (by omega))
    have eI : ∀ i, st.nb ≤ i → (startBlock (instBr { st with nb := st.nb + 3 } (st.nb + 1)) st.nb).blocks i = [] := by
      intro i hi
      rw [startBlock_blocks (by omega), hi1, emit_blocks (by show i ≠ st.cur; omega)]
      exact gd.wf.emp i hi
    have C := rep_run h1 h2 h3 hp.1 w2 hc2 (eI _ le_rfl) hg1
    have key := ih hρ (M := M) C ⟨s4, h4, hp.2, g3, hgi, ?_⟩
      (fun M => here_empty rfl (by
        rw [startBlock_blocks (by omega), a3.oth _ (by omega) (by omega)]
        exact eI _ (by omega))) w2 hL hs
    · have hfin : here st' = fun M' => ⟨st.nb + 2, 0, M'⟩ := by
        funext M'
        rw [h5]
        refine here_empty rfl ?_
        rw [startBlock_blocks (by rw [instBr_open o4]; exact k7)]
        exact k6
      rw [hfin]
      refine Goal.pre (M' := M) ?_ (.refl _ _) (Goal.anyBt (key.sub fun k hk => ?_))
      · have := (hg1.stp a3).stp a2
        rw [hi1] at this
        exact run_br (st := { st with nb := st.nb + 3 }) this
      · exact (startBlock_live _ _ _).2 (a1.sub k hk)
    · exact ⟨fun k hk => (startBlock_live _ _ _).2 (a3.sub k hk), by rw [startBlock_cur]; omega⟩
  | @repC b c ρ s ρ1 s1 m hb hG he ihb =>
    intro hρ h k e s0 sb M C B hh w hL hs
    obtain ⟨M2, j1, j2, j3, j4, j5⟩ := B.run (ihb hρ) hL hs
    rw [hh] at j1
    subst j3
    exact j1.trans (C.err j4 j2 hG he)
  | @repT b c ρ s ρ1 s1 v s2 hb hG he hv ihb =>
    intro hρ h k e s0 sb M C B hh w hL hs
    obtain ⟨M2, j1, j2, j3, j4, j5⟩ := B.run (ihb hρ) hL hs
    rw [hh] at j1
    subst j3
    obtain ⟨M1, k1, k2, k3⟩ := C.ok j4 j2 hG he
    simp only [hv, Bool.false_eq_true, if_false] at k1
    exact Goal.pre (j1.trans k1) ((j5.sub B.choose_spec.2.2.2.2.1).trans (FrameT.of k3))
      (.norm rfl (j2.frame w k3) k2 j4)
  | @repF b c ρ s ρ1 s1 v s2 o hb hG he hv hr ihb ihr =>
    intro hρ h k e s0 sb M C B hh w hL hs
    obtain ⟨M2, j1, j2, j3, j4, j5⟩ := B.run (ihb hρ) hL hs
    rw [hh] at j1
    subst j3
    obtain ⟨M1, k1, k2, k3⟩ := C.ok j4 j2 hG he
    simp only [hv, if_true] at k1
    exact Goal.pre (j1.trans k1) ((j5.sub B.choose_spec.2.2.2.2.1).trans (FrameT.of k3))
      (ihr j4 C B hh w (j2.frame w k3) k2)
  | @repB b c ρ s ρ1 s1 hb ihb =>
    intro hρ h k e s0 sb M C B hh w hL hs
    obtain ⟨t, M2, ht, j1, j2, j3, j4, j5⟩ := B.run (ihb hρ) hL hs
    rw [hh] at j1
    cases ht
    exact Goal.pre j1 (j5.sub B.choose_spec.2.2.2.2.1) (.norm rfl j2 j3 j4)
  | @repP b c ρ s o ho hb ihb =>
    intro hρ h k e s0 sb M C B hh w hL hs
    have j1 := B.run (ihb hρ) hL hs
    rw [hh] at j1
    exact j1.pass ho
  | repX _ _ _ => exact fun _ _ _ _ _ _ => by intros; trivial
  | @repN b c ρ s ρ1 s1 v s2 n hb hG he hv hr ihb ihr =>
    intro hρ h k e s0 sb M C B hh w hL hs
    obtain ⟨M2, j1, j2, j3, j4, j5⟩ := B.run (ihb hρ) hL hs
    have hne := B.choose_spec.2.2.2.2.2
    rw [hh] at j1
    have hk : sb.cur = k := congrArg Cfg.b (hh M)
    rw [hk] at hne
    subst j3
    obtain ⟨M1, k1, k2, k3⟩ := C.ok j4 j2 hG he
    simp only [hv, if_true] at k1
    refine Goal.tick j1 (ne_block hne) (M' := M2) (Goal.pre k1 (.of k3) ?_)
    exact ihr j4 C B hh w (j2.frame w k3) k2
  | @forE x e1 e2 e3 b ρ s m hG he =>
    intro hρ
    refine mot_stm rfl fun {bt st st' M} hp h gd hg hL hs => ?_
    subst hs
    exact (for_front hD hρ h hp gd hg hL hG).2 he
  | @forn x e1 e2 e3 b ρ s i l d s1 o hG he hG' hl ih =>
    intro hρ
    refine mot_stm rfl fun {bt st st' M} hp h gd hg hL hs => ?_
    subst hs
    obtain ⟨sb, h, k, e, ri, K, M1, C, B, hx, hfin, c1, c2, c3, c4, c5⟩ :=
      (for_front hD hρ h hp gd hg hL hG).1 he hG'
    rw [hfin]
    refine Goal.pre c1 (.of c5) (Goal.anyBt ?_)
    exact ih hρ C B gd.wf hx c4 (by rw [c3, sub_add]) (by rw [c3]; exact sub_add_ovf hG')
      (hL.frame gd.wf c5) c2
  | forX _ =>
    intro hρ
    exact mot_stm rfl fun _ _ _ _ _ _ => trivial
  | forV _ _ _ =>
    intro hρ
    exact mot_stm rfl fun _ _ _ _ _ _ => trivial
  | @stop x i l d b ρ s hn =>
    intro hρ h k e s0 sb ri K M C B w hx hK hi hov hL hs
    obtain ⟨M1, k1, k2, k3, k4, k5⟩ := C.run M hK hov
    rw [hi, hn, if_neg (by decide)] at k1
    exact Goal.pre k1 (.of k5) (.norm rfl (hL.frame w k5) (k2.trans hs) hρ)
  | @next x i l d b ρ s ρ1 s1 o hn hb hG hl ihb ihl =>
    intro hρ h k e s0 sb ri K M C B w hx hK hi hov hL hs
    obtain ⟨M1, k1, k2, k3, k4, k5⟩ := C.run M hK hov
    rw [hi, hn, if_pos rfl] at k1
    obtain ⟨M2, j1, j2, j3, j4, j5, j6⟩ := C.mov M1 ρ k4 (hL.frame w k5)
    rw [k3, hi] at j5 j3
    obtain ⟨M3, i1, i2, i3, i4, i5⟩ := B.run (ihb (set_ty hρ hx i)) j5 (j2.trans (k2.trans hs))
    obtain ⟨K3, I3⟩ := C.keep _ _ i5 j4
    refine Goal.pre ((k1.trans j1).trans i1)
      (((FrameT.of k5).trans j6).trans (i5.sub B.choose_spec.2.2.2.2.1)) ?_
    exact ihl i4 C B w hx K3 (by rw [I3, j3]) (by rw [I3, j3]; exact hG) i2 i3
  | @loopB x i l d b ρ s ρ1 s1 hn hb ihb =>
    intro hρ h k e s0 sb ri K M C B w hx hK hi hov hL hs
    obtain ⟨M1, k1, k2, k3, k4, k5⟩ := C.run M hK hov
    rw [hi, hn, if_pos rfl] at k1
    obtain ⟨M2, j1, j2, j3, j4, j5, j6⟩ := C.mov M1 ρ k4 (hL.frame w k5)
    rw [k3, hi] at j5 j3
    obtain ⟨t, M3, ht, i1, i2, i3, i4, i5⟩ := B.run (ihb (set_ty hρ hx i)) j5 (j2.trans (k2.trans hs))
    cases ht
    exact Goal.pre ((k1.trans j1).trans i1)
      (((FrameT.of k5).trans j6).trans (i5.sub B.choose_spec.2.2.2.2.1)) (.norm rfl i2 i3 i4)
  | @loopP x i l d b ρ s o hn ho hb ihb =>
    intro hρ h k e s0 sb ri K M C B w hx hK hi hov hL hs
    obtain ⟨M1, k1, k2, k3, k4, k5⟩ := C.run M hK hov
    rw [hi, hn, if_pos rfl] at k1
    obtain ⟨M2, j1, j2, j3, j4, j5, j6⟩ := C.mov M1 ρ k4 (hL.frame w k5)
    rw [k3, hi] at j5 j3
    have i1 := B.run (ihb (set_ty hρ hx i)) j5 (j2.trans (k2.trans hs))
    exact Goal.pre (k1.trans j1) ((FrameT.of k5).trans j6) (i1.pass ho)
  | loopX _ _ _ _ => exact fun _ _ _ _ _ _ => by intros; trivial
  | @loopN x i l d b ρ s ρ1 s1 n hn hb hG hl ihb ihl =>
    intro hρ h k e s0 sb ri K M C B w hx hK hi hov hL hs
    obtain ⟨M1, k1, k2, k3, k4, k5⟩ := C.run M hK hov
    rw [hi, hn, if_pos rfl] at k1
    obtain ⟨M2, j1, j2, j3, j4, j5, j6⟩ := C.mov M1 ρ k4 (hL.frame w k5)
    rw [k3, hi] at j5 j3
    obtain ⟨M3, i1, i2, i3, i4, i5⟩ := B.run (ihb (set_ty hρ hx i)) j5 (j2.trans (k2.trans hs))
    obtain ⟨K3, I3⟩ := C.keep _ _ i5 j4
    refine Goal.pre (k1.trans j1) ((FrameT.of k5).trans j6) (Goal.tick i1 (M' := M3) ?_ ?_)
    · exact ne_block B.choose_spec.2.2.2.2.2
    · exact ihl i4 C B w hx K3 (by rw [I3, j3]) (by rw [I3, j3]; exact hG) i2 i3
  | @iteC c b r ρ s m hG he =>
    intro hρ
    refine mot_ite hρ fun hp {bt blk tru s0 sa sb sc sd M} C hL hs => ?_
    subst hs
    exact (C.ite hρ hp).1.err hρ hL hG he
  | iteX _ =>
    intro hρ
    exact mot_ite hρ fun _ => fun _ _ _ => trivial
  | @iteT c b r ρ s v s1 o hG he hv hb ihb =>
    intro hρ
    refine mot_ite hρ fun hp {bt blk tru s0 sa sb sc sd M} C hL hs => ?_
    subst hs
    obtain ⟨c1, ⟨s2, c2, c3, c4, c5, c6⟩, _⟩ := C.ite hρ hp
    obtain ⟨M1, k1, k2, k3⟩ := c1.ok hρ hL hG he
    simp only [hv, Bool.false_eq_true, if_false] at k1
    simp only [PlainS, Bool.and_eq_true] at hp
    exact Goal.pre k1 (.of k3) (block_run hp.1.1.2 c2 c3 c4 c5 c6 (ihb hρ) (hL.frame C.w0 k3) k2)
  | @iteF c b r ρ s v s1 o hG he hv hb ihb =>
    intro hρ
    refine mot_ite hρ fun hp {bt blk tru s0 sa sb sc sd M} C hL hs => ?_
    subst hs
    obtain ⟨c1, _, sa', sc', c2⟩ := C.ite hρ hp
    obtain ⟨M1, k1, k2, k3⟩ := c1.ok hρ hL hG he
    simp only [hv, if_true] at k1
    simp only [PlainS, Bool.and_eq_true] at hp
    have key := (ihb hρ hp.1.2).2 hp.2 c2 (hL.frame C.w0 k3) k2
    have hl : (Stm.ite c b r).blks = r.blks + 1 := by
      unfold Stm.blks
      show r.len + 1 + (if r.hasElse then 1 else 0) = _
      omega
    rw [show tru + (Stm.ite c b r).blks = tru + 1 + r.blks by omega]
    exact Goal.pre k1 (.of k3) key
  | @els b ρ s o hb ihb =>
    intro hρ hp
    refine ⟨fun h => by simp [linS] at h, fun _ => fun {bt blk tru s0 sa sb sc sd M} C hL hs => ?_⟩
    simp only [PlainS] at hp
    by_cases hk : b = .skip
    · subst hk
      cases hb with
      | cut => exact .cut
      | skip => exact .norm rfl hL hs hρ
    · obtain ⟨s2, c2, c3, c4, c5, c6⟩ := C.els hρ hp hk
      exact block_run hp c2 c3 c4 c5 c6 (ihb hρ) hL hs
  | fin =>
    intro hρ hp
    exact ⟨fun h => by simp [linS] at h, fun _ => fun C hL hs => .norm rfl hL hs hρ⟩

end Verif.LinStmt
