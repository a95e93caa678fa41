import Verif.LinStmt.Cond

/-!
# The numeric `for`: what its code does
-/
namespace Verif.LinStmt
open Verif.Lin

variable {P : Par} {Γ : Nat → LV} {ρ : Nat → P.V} {g : Prog P} {st st' : St P.F P.O} {M : Mach P}

/-! ## The pieces -/

theorem rd_I {M M' : Mach P} {r : Nat} {l : Bool} (h : rd P M' (.ti r l) = rd P M (.ti r l)) :
    M'.I r = M.I r := by
  simp only [rd, Val.int.injEq] at h
  exact h

/-- An expression goes to an integer register. -/
theorem linTo_exe (hρ : ∀ x, HasTy (Γ x).ty (ρ x)) {e : Exp P.F P.O} {r : Nat}
    (h : linTo Γ e (.ti r false) st = .ok st') (hp : Plain Γ e = true) (ht : typ Γ e = .int)
    (w : Wf Γ st) (hg : Covers g st') (hL : Locals Γ ρ M) :
    Exe g (here st M) st' (evalS Γ ρ e M.s) (fun y M' => y.1 = .int (M'.I r) ∧ M'.s = y.2 ∧
      ∀ q, Ok st q → use q ≠ some (.i, r) → rd P M' q = rd P M q) := by
  simp only [linTo, Res.bind_eq_ok] at h
  obtain ⟨⟨n, s1⟩, h1, ⟨q, s2⟩, h2, h3⟩ := h
  simp only [Res.ok.injEq] at h3
  dsimp only at h2
  have A := op_sim hρ hp h1 h2 w
  have e1 := use_same s2 (.mov q (.ti r false)) n q
  rw [h3] at e1
  have hg2 : Covers g (emit s2 (.mov q (.ti r false))) := Covers.same hg e1.1
  have key := A.exe g M (hg2.mono (.emit _ _)) hL
  have hty : ∀ y, evalS Γ ρ e M.s = .ok y → ∃ i, y.1 = .int i := by
    rintro ⟨v, s⟩ hy
    have := evalS_ty hρ hp hy
    rw [ht] at this
    exact this
  revert key hty
  generalize evalS Γ ρ e M.s = res
  intro key hty
  rcases res with ⟨v, s⟩ | m | _
  · obtain ⟨M1, k1, k2, k3, k4⟩ := key
    obtain ⟨i, hi⟩ := hty _ rfl
    dsimp only at k2 k3 hi
    have hT : HasTy (LV.ireg r).ty (rd P M1 q) := ⟨i, k2.trans hi⟩
    obtain ⟨M2, j1, j2, j3, j4⟩ := mov_upd hT
    have j1 : exIns P M1 (.mov q (.ti r false)) = .ok M2 := j1
    refine ⟨M2, ?_, ?_, j3.trans k3, ?_⟩
    · rw [here_same e1.1 e1.2.2]
      exact k1.trans (run_ins hg2 rfl j1)
    · exact (j2.trans k2).symm
    · intro p hp hu
      rw [j4 p, k4 p hp]
      intro hs
      exact hu (use_slot hs)
  · exact key
  · exact key

theorem linStep_exe (hρ : ∀ x, HasTy (Γ x).ty (ρ x)) {e3 : Option (Exp P.F P.O)} {r : Nat}
    (h : linStep Γ e3 (.ti r false) st = .ok st')
    (hp : ∀ e, e3 = some e → Plain Γ e = true) (ht : ∀ e, e3 = some e → typ Γ e = .int)
    (w : Wf Γ st) (hg : Covers g st') (hL : Locals Γ ρ M) :
    Exe g (here st M) st' (match e3 with | none => .ok (.int 1, M.s) | some e => evalS Γ ρ e M.s)
      (fun y M' => y.1 = .int (M'.I r) ∧ M'.s = y.2 ∧
      ∀ q, Ok st q → use q ≠ some (.i, r) → rd P M' q = rd P M q) := by
  cases e3 with
  | none =>
    simp only [linStep, Res.ok.injEq] at h
    rw [← h] at hg ⊢
    obtain ⟨M', h1, h2, h3, h4⟩ := mov_upd (P := P) (l := .ireg r) (M := M) (q := .kc (.int 1)) ⟨1, rfl⟩
    refine ⟨M', run_ins hg rfl h1, h2.symm, h3, ?_⟩
    intro p hp hu
    exact h4 p fun hs => hu (use_slot hs)
  | some e => exact linTo_exe hρ h (hp e rfl) (ht e rfl) w hg hL

/-- The expressions of a `for`. -/
theorem front_exe (hρ : ∀ x, HasTy (Γ x).ty (ρ x)) {e1 e2 : Exp P.F P.O} {e3}
    {s4 s5 s6 s7 : St P.F P.O} {ri rl rs} (h1 : linTo Γ e1 (.ti ri false) s4 = .ok s5)
    (h2 : linTo Γ e2 (.ti rl false) s5 = .ok s6) (h3 : linStep Γ e3 (.ti rs false) s6 = .ok s7)
    (hi : forInt Γ e1 e2 e3 = true) (p1 : Plain Γ e1 = true) (p2 : Plain Γ e2 = true)
    (p3 : ∀ e, e3 = some e → Plain Γ e = true) (w0 : Wf Γ st) (w : Wf Γ s4)
    (sub : ∀ k, live st k → live s4 k)
    (new : ¬ live st (.i, ri) ∧ ¬ live st (.i, rl) ∧ ¬ live st (.i, rs))
    (liv : live s4 (.i, ri) ∧ live s4 (.i, rl)) (ne : ri ≠ rl ∧ ri ≠ rs ∧ rl ≠ rs)
    (hg : Covers g s7) (hL : Locals Γ ρ M) :
    Exe g (here s4 M) s7 (evalFor P (evalS Γ ρ) e1 e2 e3 M.s) (fun y M' =>
      y.1 = (.int (M'.I ri), .int (M'.I rl), .int (M'.I rs)) ∧ M'.s = y.2 ∧ Frame st M M') := by
  unfold forInt at hi
  simp only [Bool.and_eq_true, beq_iff_eq] at hi
  obtain ⟨a1, a2, a3, _⟩ := front_stp hρ h1 h2 h3 w
  have w5 := a1.wf w
  have w6 := a2.wf w5
  have fr : ∀ {s : St P.F P.O} {r M M'}, (∀ k, live st k → live s k) → ¬ live st (.i, r) →
      (∀ q, Ok s q → use q ≠ some (.i, r) → rd P M' q = rd P M q) → Frame st M M' := by
    intro s r M M' hs hn h q hq
    exact h q (fun k hk => hs k (hq k hk)) fun hu => hn (hq _ hu)
  have oki : ∀ {s : St P.F P.O} {r : Nat}, live s (.i, r) → Ok s (.ti r false) := by
    intro s r hl k hk
    cases hk
    exact hl
  have k1 := linTo_exe hρ h1 p1 hi.1.1 w ((hg.stp a3).stp a2) hL
  unfold evalFor
  revert k1
  generalize evalS Γ ρ e1 M.s = r1
  intro k1
  rcases r1 with ⟨v1, t1⟩ | m | _
  · obtain ⟨M1, c1, c2, c3, c4⟩ := k1
    dsimp only at c2 c3
    have f1 := fr sub new.1 c4
    have k2 := linTo_exe hρ h2 p2 hi.1.2 w5 (hg.stp a3) (hL.frame w0 f1)
    rw [c3] at k2
    refine Exe.pre c1 ?_
    simp only [Res.bind_ok]
    revert k2
    generalize evalS Γ ρ e2 t1 = r2
    intro k2
    rcases r2 with ⟨v2, t2⟩ | m | _
    · obtain ⟨M2, d1, d2, d3, d4⟩ := k2
      dsimp only at d2 d3
      have f2 := fr (fun k hk => a1.sub k (sub k hk)) new.2.1 d4
      have f12 := f1.trans f2 fun _ => id
      have k3 := linStep_exe hρ h3 p3 (by rintro e rfl; exact beq_iff_eq.1 hi.2) w6 hg (hL.frame w0 f12)
      rw [d3] at k3
      refine Exe.pre d1 ?_
      simp only [Res.bind_ok]
      have I2 : M2.I ri = M1.I ri := rd_I (l := false) (d4 _ (oki (a1.sub _ liv.1)) (by
        simp only [use, ne_eq, Option.some.injEq, Prod.mk.injEq, true_and]; exact ne.1))
      have fin : ∀ {M3 : Mach P}, (∀ q, Ok s6 q → use q ≠ some (.i, rs) → rd P M3 q = rd P M2 q) →
          M3.I ri = M1.I ri ∧ M3.I rl = M2.I rl ∧ Frame st M M3 := by
        intro M3 h
        refine ⟨?_, ?_, f12.trans (fr (fun k hk => a2.sub k (a1.sub k (sub k hk))) new.2.2 h) fun _ => id⟩
        · rw [rd_I (l := false) (h _ (oki (a2.sub _ (a1.sub _ liv.1))) (by
            simp only [use, ne_eq, Option.some.injEq, Prod.mk.injEq, true_and]; exact ne.2.1)), I2]
        · exact rd_I (l := false) (h _ (oki (a2.sub _ (a1.sub _ liv.2))) (by
            simp only [use, ne_eq, Option.some.injEq, Prod.mk.injEq, true_and]; exact ne.2.2))
      cases e3 with
      | none =>
        obtain ⟨M3, g1, g2, g3, g4⟩ := k3
        obtain ⟨i1, i2, i3⟩ := fin g4
        dsimp only at g2 g3
        exact ⟨M3, g1, by dsimp only; rw [c2, d2, g2, i1, i2], g3, i3⟩
      | some e =>
        dsimp only at k3 ⊢
        revert k3
        generalize evalS Γ ρ e t2 = r3
        intro k3
        rcases r3 with ⟨v3, t3⟩ | m | _
        · obtain ⟨M3, g1, g2, g3, g4⟩ := k3
          obtain ⟨i1, i2, i3⟩ := fin g4
          dsimp only at g2 g3
          exact ⟨M3, g1, by dsimp only; rw [c2, d2, g2, i1, i2], g3, i3⟩
        · exact k3
        · exact k3
    · exact k2
    · exact k2
  · exact k1
  · exact k1

theorem evalFor_eq (Γ : Nat → LV) (ρ : Nat → P.V) (e1 e2 : Exp P.F P.O) (e3) (s : P.S) :
    evalFor P (evalS Γ ρ) e1 e2 e3 s = .ub ∨
      evalFor P (evalS Γ ρ) e1 e2 e3 s = evalFor P (eval P ρ) e1 e2 e3 s := by
  refine bind_ub (evalS_eval Γ ρ e1 s) fun ⟨a, s⟩ _ =>
    bind_ub (evalS_eval Γ ρ e2 s) fun ⟨b, s⟩ _ => ?_
  cases e3 with
  | none => exact Or.inr rfl
  | some e => exact bind_ub (evalS_eval Γ ρ e s) fun ⟨c, s⟩ _ => Or.inr rfl

/-- `M` with another integer register. -/
def setI (M : Mach P) (r : Nat) (i : I64) : Mach P := { M with I := Lin.set M.I r i }

theorem setI_same {r i} : (setI M r i).I r = i := by simp [setI, Lin.set]

theorem setI_ne {r r' i} (h : r' ≠ r) : (setI M r i).I r' = M.I r' := by simp [setI, Lin.set, h]

theorem setI_frame {r i} (h : ¬ live st (.i, r)) : Frame st M (setI M r i) := by
  intro q hq
  have : use q ≠ some (.i, r) := fun hu => h (hq _ hu)
  cases q <;> simp_all [rd, setI, Lin.set, use]

theorem ar_run {o : Op} {a b c : Nat} {i : I64} {h : Nat}
    (hg : Covers g (emit st (.bin (.ar o .ii) (.ti a false) (.ti b false) (.ti c false))))
    (hi : cOp P o (M.I a) (M.I b) = .ok i) (hc : ∀ M, here st M = ⟨h, 0, M⟩ ) :
    Run P g ⟨h, 0, M⟩ (.ok (here (emit st (.bin (.ar o .ii) (.ti a false) (.ti b false) (.ti c false)))
      (setI M c i))) := by
  rw [← hc]
  refine run_ins hg rfl ?_
  simp only [exIns, exBin, rdI, Res.bind_ok, hi, wrI, setI]

/-- The test in its block. -/
theorem test_run {a b rt e k p : Nat} (hg : Covers g (linTest (.ti a false) (.ti b false) (.tb rt) e k st))
    (hh : st.cur = p) (he : st.blocks p = []) :
    Run P g ⟨p, 0, M⟩ (.ok ⟨if (M.I a).slt (M.I b) then e else k, 0,
      setI M rt (if (M.I a).slt (M.I b) then 1 else 0)⟩) := by
  unfold linTest at hg
  rw [← here_empty hh he]
  refine (run_ins (M' := setI M rt (if (M.I a).slt (M.I b) then 1 else 0)) (hg.mono (.emit _ _)) rfl ?_).trans ?_
  · simp only [exIns, exBin, rdI, Res.bind_ok, wrB, setI, cmpI]
    rfl
  · have := run_cbr (M := setI M rt (if (M.I a).slt (M.I b) then 1 else 0))
      (r := (M.I a).slt (M.I b)) hg (by
        simp only [exCbr, setI_same]
        cases (M.I a).slt (M.I b) <;> rfl)
    exact this

theorem sle_slt (x y : I64) : x.sle y = !(y.slt x) := by
  simp only [BitVec.sle, BitVec.slt]
  by_cases h : x.toInt ≤ y.toInt
  · simp [h]
  · simp only [h, decide_false]; simp; omega

/-! ## The loop -/

/-- The code of a loop at `h`, with body at `k` and end at `e`: one round up to the body, and the
assignment to the loop variable.  `K` says that limit and step are where they should be. -/
structure ForCode (Γ : Nat → LV) (g : Prog P) (x : Nat) (l d : I64) (h k e : Nat)
    (s0 sb : St P.F P.O) (ri : Nat) (K : Mach P → Prop) : Prop where
  run : ∀ M, K M → (M.I ri).saddOverflow d = false → ∃ M',
    Run P g ⟨h, 0, M⟩ (.ok ⟨if goesOn (M.I ri + d) l d then k else e, 0, M'⟩) ∧ M'.s = M.s ∧
    M'.I ri = M.I ri + d ∧ K M' ∧ Frame s0 M M'
  mov : ∀ M ρ, K M → Locals Γ ρ M → ∃ M', Run P g ⟨k, 0, M⟩ (.ok (here sb M')) ∧ M'.s = M.s ∧
    M'.I ri = M.I ri ∧ K M' ∧ Locals Γ (Lin.set ρ x (.int (M.I ri))) M' ∧ FrameT Γ s0 M M'
  keep : ∀ M M', FrameT Γ sb M M' → K M → K M' ∧ M'.I ri = M.I ri

/-- Where limit, step and sign of the step are kept. -/
def Kept (N rl rs rp : Nat) (l d : I64) (M : Mach P) : Prop :=
  M.I rl = l ∧ M.I rs = d ∧ (N = 3 → M.I rp = if (0 : I64).slt d then 1 else 0)

theorem notloc (w : Wf Γ st) {r : Nat} (h : ¬ live st (.i, r)) (y : Nat) :
    slot (.ti r false : Ps P.F P.O) ≠ some (Γ y).slot := by
  intro e
  refine h (w.loc _ ⟨y, ?_⟩)
  refine use_slot ?_
  rw [slot_ps, ← e]
  rfl

/-- One round of a loop whose step is positive. -/
theorem headP_run {ri rl rs rt rp N : Nat} {l d : I64} (w : Wf Γ st) (o : Open st)
    (hg : Covers g (headP (.ti ri false) (.ti rl false) (.ti rs false) (.tb rt) st)) (hN : N ≠ 3)
    (hd : (0 : I64).slt d = true) (ne : ri ≠ rl ∧ ri ≠ rs ∧ rl ≠ rs ∧ rt ≠ ri ∧ rt ≠ rl ∧ rt ≠ rs)
    (hK : Kept N rl rs rp l d M) (hov : (M.I ri).saddOverflow d = false) : ∃ M',
    Run P g ⟨st.nb, 0, M⟩ (.ok ⟨if goesOn (M.I ri + d) l d then st.nb + 2 else st.nb + 3, 0, M'⟩) ∧
    M'.s = M.s ∧ M'.I ri = M.I ri + d ∧ Kept N rl rs rp l d M' ∧
    ∀ s0 : St P.F P.O, ¬ live s0 (.i, ri) → ¬ live s0 (.i, rt) → Frame s0 M M' := by
  obtain ⟨k1, k2, k3⟩ := hK
  have hcur := w.cur
  have hc : ∀ i, st.nb ≤ i → (startBlock { st with nb := st.nb + 4 } st.nb).blocks i = [] := by
    intro i hi
    rw [startBlock_blocks (by show i ≠ st.cur; omega)]
    exact w.emp i hi
  have oh : Open (head 4 (.ti ri false) (.ti rs false) st) := open_emit rfl
  unfold headP at hg
  have hg1 : Covers g (startBlock (instBr (head 4 (.ti ri false) (.ti rs false) st) (st.nb + 1))
    (st.nb + 1)) := (hg.mono (.emit _ _)).mono (.emit _ _)
  have hi := instBr_open oh (st.nb + 1)
  have hg2 : Covers g (emit (head 4 (.ti ri false) (.ti rs false) st) (.br (st.nb + 1))) := by
    rw [hi, startBlock_term (term_emit rfl)] at hg1
    exact hg1
  have hg3 := hg2.mono (.emit _ _)
  have r1 := ar_run (M := M) (i := M.I ri + d) hg3 (by simp only [cOp, k2, hov, Bool.false_eq_true, if_false])
    (fun M => here_empty (b := st.nb) rfl (hc _ le_rfl))
  have r2 := run_br (M := setI M ri (M.I ri + d)) hg2
  have r3 := test_run (M := setI M ri (M.I ri + d)) hg (p := st.nb + 1) rfl (by
    rw [hi, startBlock_term (term_emit rfl)]
    show (emit (emit (startBlock { st with nb := st.nb + 4 } st.nb) _) _).blocks (st.nb + 1) = []
    rw [emit_blocks (by show st.nb + 1 ≠ st.nb; omega), emit_blocks (by show st.nb + 1 ≠ st.nb; omega)]
    exact hc _ (by omega))
  have fin : ∀ {b : I64} {X}, (X = if goesOn (M.I ri + d) l d then st.nb + 2 else st.nb + 3) →
      Run P g ⟨st.nb, 0, M⟩ (.ok ⟨X, 0, setI (setI M ri (M.I ri + d)) rt b⟩) → ∃ M',
      Run P g ⟨st.nb, 0, M⟩ (.ok ⟨if goesOn (M.I ri + d) l d then st.nb + 2 else st.nb + 3, 0, M'⟩) ∧
      M'.s = M.s ∧ M'.I ri = M.I ri + d ∧ Kept N rl rs rp l d M' ∧
      ∀ s0 : St P.F P.O, ¬ live s0 (.i, ri) → ¬ live s0 (.i, rt) → Frame s0 M M' := by
    rintro b X hX hr
    rw [hX] at hr
    refine ⟨_, hr, rfl, ?_, ⟨?_, ?_, fun h => absurd h hN⟩, ?_⟩
    · rw [setI_ne ne.2.2.2.1.symm, setI_same]
    · rw [setI_ne ne.2.2.2.2.1.symm, setI_ne ne.1.symm, k1]
    · rw [setI_ne ne.2.2.2.2.2.symm, setI_ne ne.2.1.symm, k2]
    · intro s0 h1 h2
      exact (setI_frame h1).trans (setI_frame h2) fun _ => id
  refine fin ?_ ((r1.trans r2).trans r3)
  rw [setI_same, setI_ne ne.1.symm, k1]
  simp only [goesOn, hd, if_true, sle_slt]
  cases l.slt (M.I ri + d) <;> rfl

/-- One round of a loop, whatever its step. -/
theorem headN_run {ri rl rs rt rp N : Nat} {l d : I64} (w : Wf Γ st) (o : Open st)
    (hg : Covers g (headN (.ti ri false) (.ti rl false) (.ti rs false) (.tb rp) (.tb rt) st)) (hN : N = 3)
    (ne : ri ≠ rl ∧ ri ≠ rs ∧ rl ≠ rs ∧ rt ≠ ri ∧ rt ≠ rl ∧ rt ≠ rs) (ne' : rp ≠ ri ∧ rp ≠ rt)
    (hK : Kept N rl rs rp l d M) (hov : (M.I ri).saddOverflow d = false) : ∃ M',
    Run P g ⟨st.nb, 0, M⟩ (.ok ⟨if goesOn (M.I ri + d) l d then st.nb + 3 else st.nb + 4, 0, M'⟩) ∧
    M'.s = M.s ∧ M'.I ri = M.I ri + d ∧ Kept N rl rs rp l d M' ∧
    ∀ s0 : St P.F P.O, ¬ live s0 (.i, ri) → ¬ live s0 (.i, rt) → Frame s0 M M' := by
  obtain ⟨k1, k2, k3⟩ := hK
  have hcur := w.cur
  have hc : ∀ i, st.nb ≤ i → (startBlock { st with nb := st.nb + 5 } st.nb).blocks i = [] := by
    intro i hi
    rw [startBlock_blocks (by show i ≠ st.cur; omega)]
    exact w.emp i hi
  unfold headN at hg
  have tt : terminated (linTest (.ti rl false) (.ti ri false) (.tb rt) (st.nb + 4) (st.nb + 3)
      (startBlock (emit (head 5 (.ti ri false) (.ti rs false) st) (.cbr (.tb rp) (st.nb + 1) (st.nb + 2)))
        (st.nb + 1))) = true := term_emit rfl
  have hg0 : Covers g (linTest (.ti rl false) (.ti ri false) (.tb rt) (st.nb + 4) (st.nb + 3)
      (startBlock (emit (head 5 (.ti ri false) (.ti rs false) st) (.cbr (.tb rp) (st.nb + 1) (st.nb + 2)))
        (st.nb + 1))) := by
    have := (hg.mono (.emit _ _)).mono (.emit _ _)
    rw [startBlock_term tt] at this
    exact this
  have hg2 : Covers g (emit (head 5 (.ti ri false) (.ti rs false) st)
      (.cbr (.tb rp) (st.nb + 1) (st.nb + 2))) := by
    have := (hg0.mono (.emit _ _)).mono (.emit _ _)
    rw [startBlock_term (term_emit rfl)] at this
    exact this
  have hg3 := hg2.mono (.emit _ _)
  have r1 := ar_run (M := M) (i := M.I ri + d) hg3 (by simp only [cOp, k2, hov, Bool.false_eq_true, if_false])
    (fun M => here_empty (b := st.nb) rfl (hc _ le_rfl))
  have r2 := run_cbr (M := setI M ri (M.I ri + d)) (r := (0 : I64).slt d) hg2 (by
    simp only [exCbr, setI_ne ne'.1, k3 hN]
    cases (0 : I64).slt d <;> rfl)
  have e1 : ∀ i, st.nb < i → (startBlock (emit (head 5 (.ti ri false) (.ti rs false) st)
      (.cbr (.tb rp) (st.nb + 1) (st.nb + 2))) (st.nb + 1)).blocks i = [] := by
    intro i h
    rw [startBlock_term (term_emit rfl)]
    show (emit (emit (startBlock { st with nb := st.nb + 5 } st.nb) _) _).blocks i = []
    rw [emit_blocks (by show i ≠ st.nb; omega), emit_blocks (by show i ≠ st.nb; omega)]
    exact hc _ (by omega)
  have fin : ∀ {b : I64} {X Y}, (X = if goesOn (M.I ri + d) l d then st.nb + 3 else st.nb + 4) →
      Y = setI M ri (M.I ri + d) →
      Run P g ⟨st.nb, 0, M⟩ (.ok ⟨X, 0, setI Y rt b⟩) → ∃ M',
      Run P g ⟨st.nb, 0, M⟩ (.ok ⟨if goesOn (M.I ri + d) l d then st.nb + 3 else st.nb + 4, 0, M'⟩) ∧
      M'.s = M.s ∧ M'.I ri = M.I ri + d ∧ Kept N rl rs rp l d M' ∧
      ∀ s0 : St P.F P.O, ¬ live s0 (.i, ri) → ¬ live s0 (.i, rt) → Frame s0 M M' := by
    rintro b X Y hX rfl hr
    rw [hX] at hr
    refine ⟨_, hr, rfl, ?_, ⟨?_, ?_, fun h => ?_⟩, ?_⟩
    · rw [setI_ne ne.2.2.2.1.symm, setI_same]
    · rw [setI_ne ne.2.2.2.2.1.symm, setI_ne ne.1.symm, k1]
    · rw [setI_ne ne.2.2.2.2.2.symm, setI_ne ne.2.1.symm, k2]
    · rw [setI_ne ne'.2, setI_ne ne'.1, k3 h]
    · intro s0 h1 h2
      exact (setI_frame h1).trans (setI_frame h2) fun _ => id
  by_cases hd : (0 : I64).slt d = true
  · rw [if_pos hd] at r2
    have r3 := test_run (M := setI M ri (M.I ri + d)) hg0 (p := st.nb + 1) rfl (e1 _ (by omega))
    refine fin ?_ rfl ((r1.trans r2).trans r3)
    rw [setI_same, setI_ne ne.1.symm, k1]
    simp only [goesOn, hd, if_true, sle_slt]
    cases l.slt (M.I ri + d) <;> rfl
  · rw [if_neg hd] at r2
    have r3 := test_run (M := setI M ri (M.I ri + d)) hg (p := st.nb + 2) rfl (by
      rw [startBlock_term tt]
      show (linTest _ _ _ _ _ (startBlock _ _)).blocks (st.nb + 2) = []
      unfold linTest
      rw [emit_blocks (by show st.nb + 2 ≠ st.nb + 1; omega),
        emit_blocks (by show st.nb + 2 ≠ st.nb + 1; omega)]
      exact e1 _ (by omega))
    refine fin ?_ rfl ((r1.trans r2).trans r3)
    rw [setI_same, setI_ne ne.1.symm, k1]
    simp only [goesOn, hd, if_false, sle_slt]
    cases (M.I ri + d).slt l <;> rfl

end Verif.LinStmt
