import Verif.LinStmt.Blocks

/-!
# Running conditions; what is to be shown of statements
-/
namespace Verif.LinStmt
open Verif.Lin

variable {P : Par} {Γ : Nat → LV} {ρ : Nat → P.V} {g : Prog P} {st st' : St P.F P.O}

/-! ## Jumps -/

theorem _root_.Verif.Lin.Covers.stp {S : Nat → Prop} (h : Covers g st') (a : Stp S st st') : Covers g st :=
  fun b => (a.pre b).trans (h b)

theorem _root_.Verif.Lin.Covers.same (h : Covers g st') (e : st'.blocks = st.blocks) : Covers g st := by
  unfold Covers at *
  rw [← e]; exact h

theorem run_br {b : Nat} {M : Mach P} (h : Covers g (emit st (.br b))) :
    Run P g (here st M) (.ok ⟨b, 0, M⟩) := by
  have hf := fetch h
  refine .step _ _ _ ?_ (.here _)
  unfold step
  simp only [here, hf]

theorem run_cbr {q : Ps P.F P.O} {t f : Nat} {M : Mach P} {r} (h : Covers g (emit st (.cbr q t f)))
    (hr : exCbr P M q = .ok r) :
    Run P g (here st M) (.ok ⟨if r then t else f, 0, M⟩) := by
  have hf := fetch h
  refine .step _ _ _ ?_ (.here _)
  unfold step
  simp only [here, hf, hr, Res.bind_ok]

theorem here_empty {M : Mach P} {b} (hc : st.cur = b) (h : st.blocks b = []) :
    here st M = ⟨b, 0, M⟩ := by
  simp only [here, hc, h, List.length_nil]

theorem run_start {b : Nat} {M : Mach P} (o : Open st) (h : Covers g (startBlock st b)) :
    Run P g (here st M) (.ok ⟨b, 0, M⟩) := by
  rw [startBlock_open o] at h
  exact run_br h

/-! ## Conditions -/

/-- From block `h`, the code of the condition `c` goes to `t` or `f`. -/
def CondRun (Γ : Nat → LV) (g : Prog P) (c : Exp P.F P.O) (h t f : Nat) (s0 : St P.F P.O) : Prop :=
  ∀ (ρ : Nat → P.V) (M : Mach P), (∀ x, HasTy (Γ x).ty (ρ x)) → Locals Γ ρ M →
    match evalS Γ ρ c M.s with
    | .ok (v, s') => ∃ M', Run P g ⟨h, 0, M⟩ (.ok ⟨if isFalse v then f else t, 0, M'⟩) ∧
        M'.s = s' ∧ Frame s0 M M'
    | .err m => Run P g ⟨h, 0, M⟩ (.err m)
    | .ub => True

theorem cbr_ok {c : Exp P.F P.O} {n s1 q s2} {M : Mach P} (hρ : ∀ x, HasTy (Γ x).ty (ρ x))
    (hc : condOk Γ c = true) (h1 : lin Γ c st = .ok (n, s1)) (h2 : operand s1 n = .ok (q, s2))
    (w : Wf Γ st) : exCbr P M q = .ok (!isFalse (rd P M q)) := by
  simp only [condOk, Bool.and_eq_true, Bool.or_eq_true] at hc
  have A := op_sim hρ hc.1 h1 h2 w
  by_cases hl : Exp.isLit c = true
  · cases c with
    | lit v =>
      simp only [lin, Res.ok.injEq, Prod.mk.injEq] at h1
      rw [← h1.1] at h2
      simp only [operand, Res.ok.injEq, Prod.mk.injEq] at h2
      rw [← h2.1]
      rfl
    | _ => cases hl
  · have ht := hc.2.resolve_left hl
    simp only [bne_iff_ne, ne_eq] at ht
    have hf := A.fit
    cases q with
    | ti r l => exact absurd hf ht.1
    | tf r l => exact absurd hf ht.2
    | tb r =>
      simp only [exCbr, rd]
      cases h : (M.I r != 0) <;> rfl
    | _ => rfl

theorem cond_run {c : Exp P.F P.O} {t f h : Nat} (hl : linCond Γ c t f st = .ok st')
    (hc : condOk Γ c = true) (w : Wf Γ st) (hh : st.cur = h) (he : st.blocks h = [])
    (hg : Covers g st') : CondRun Γ g c h t f st := by
  intro ρ M hρ hL
  simp only [linCond, Res.bind_eq_ok] at hl
  obtain ⟨⟨n, s1⟩, h1, ⟨q, s2⟩, h2, h3⟩ := hl
  simp only [Res.ok.injEq] at h3
  dsimp only at h2
  have hp : Plain Γ c = true := by
    simp only [condOk, Bool.and_eq_true] at hc
    exact hc.1
  have A := op_sim hρ hp h1 h2 w
  have hg2 : Covers g (emit s2 (.cbr q t f)) := by
    refine Covers.same hg ?_
    rw [← h3]
    exact (use_same s2 _ n q).1
  have key := A.exe g M (hg2.mono (.emit _ _)) hL
  rw [here_empty hh he] at key
  revert key
  generalize evalS Γ ρ c M.s = r
  intro key
  rcases r with ⟨v, s⟩ | m | _
  · obtain ⟨M', k1, k2, k3, k4⟩ := key
    refine ⟨M', k1.trans ?_, k3, k4⟩
    have := run_cbr (M := M') hg2 (cbr_ok hρ hc h1 h2 w)
    dsimp only at k2
    rw [k2] at this
    convert this using 3
    cases isFalse v <;> rfl
  · exact key
  · trivial

theorem rep_run {c : Exp P.F P.O} {s1 s2 s3 : St P.F P.O} {d n q t f h}
    (h1 : allocT st .bool = .ok (d, s1)) (h2 : lin Γ c s1 = .ok (n, s2))
    (h3 : operand s2 n = .ok (q, s3)) (hc : condOk Γ c = true) (w : Wf Γ st)
    (hh : st.cur = h) (he : st.blocks h = [])
    (hg : Covers g (freeP (emit (tofree (emit (freeN s3 n) (.not q d)) n q) (.cbr d t f)) d)) :
    CondRun Γ g c h f t st := by
  intro ρ M hρ hL
  have hp : Plain Γ c = true := by
    simp only [condOk, Bool.and_eq_true] at hc
    exact hc.1
  have a1 := allocT_stp h1 w
  obtain ⟨hk, ⟨κ, hκ, hl, hl'⟩, hb⟩ := allocT_ok h1
  have A := op_sim hρ hp h2 h3 (a1.wf w)
  have hg1 : Covers g (emit (tofree (emit (freeN s3 n) (.not q d)) n q) (.cbr d t f)) :=
    Covers.same hg (freeP_blocks _ d).1
  have e1 := use_same' s3 (.not q d) n q
  have hg2 : Covers g (emit s3 (.not q d)) :=
    Covers.same (hg1.mono (.emit _ _)) e1.1
  have key := A.exe g M (hg2.mono (.emit _ _)) hL
  have hh' : here s1 M = ⟨h, 0, M⟩ := by
    rw [here_same hb.1 hb.2.2]
    exact here_empty hh he
  rw [hh'] at key
  revert key
  generalize evalS Γ ρ c M.s = r
  intro key
  rcases r with ⟨v, s⟩ | m | _
  · obtain ⟨M1, k1, k2, k3, k4⟩ := key
    dsimp only at k2 k3
    obtain ⟨M2, j1, j2, j3, j4⟩ := exe_ins (M := M1) (t := d) (r := .ok (.bool (isFalse v), s)) hg2 rfl
      (by
        have := wrB_kind (M := M1) (d := d) (b := isFalse v) (s := s) (Or.inl hk)
        simp only [exIns, k2]
        convert this using 2
        rw [← k3])
    dsimp only at j2 j3
    refine ⟨M2, (k1.trans j1).trans ?_, j3, ?_⟩
    · have hd : exCbr P M2 d = .ok (isFalse v) := by
        obtain ⟨r, rfl⟩ := hk
        simp only [exCbr, rd] at j2 ⊢
        revert j2
        cases (M2.I r != 0) <;> cases isFalse v <;> intro j2 <;> first | rfl | cases j2
      have := run_cbr (M := M2) hg1 hd
      rw [here_same e1.1 e1.2.2] at this
      convert this using 3
    · intro p hp
      rw [j4 p, k4 p fun k hk => (hl' k).2 (Or.inl (hp k hk))]
      intro e
      exact hl (hp κ (e.trans (fk_use hκ)))
  · exact key
  · trivial

/-! ## Outcomes -/

theorem _root_.Verif.Lin.FrameT.refl (st : St P.F P.O) (M : Mach P) : FrameT Γ st M M := fun _ _ _ => rfl

theorem _root_.Verif.Lin.FrameT.of {M M' : Mach P} (h : Frame st M M') : FrameT Γ st M M' := fun q hq _ => h q hq

theorem _root_.Verif.Lin.FrameT.trans {M M' M'' : Mach P} (h : FrameT Γ st M M') (h' : FrameT Γ st M' M'') :
    FrameT Γ st M M'' := fun q hq hs => (h' q hq hs).trans (h q hq hs)

theorem _root_.Verif.Lin.FrameT.sub {M M' : Mach P} (h : FrameT Γ st' M M') (hs : ∀ k, live st k → live st' k) :
    FrameT Γ st M M' := fun q hq hv => h q (fun k hk => hs k (hq k hk)) hv

/-- The state `M'` is right: variables, memory, types; and what is in use, but not by variables,
is as it was in `M`. -/
def Post (Γ : Nat → LV) (s0 : St P.F P.O) (M : Mach P) (ρ : Nat → P.V) (s : P.S) (M' : Mach P) :
    Prop :=
  Locals Γ ρ M' ∧ M'.s = s ∧ (∀ x, HasTy (Γ x).ty (ρ x)) ∧ FrameT Γ s0 M M'

theorem Steps.trans {m n : Nat} {c c1 c2 : Cfg P} (h : Steps g m c c1) (h' : Steps g n c1 c2) :
    Steps g (m + n) c c2 := by
  induction h with
  | zero => rwa [Nat.zero_add]
  | succ h _ ih =>
    rw [Nat.add_right_comm]
    exact .succ h (ih h')

theorem Run.steps {c c' : Cfg P} (h : Run P g c (.ok c')) :
    ∃ k, Steps g k c c' ∧ (c ≠ c' → 1 ≤ k) := by
  generalize ho : Res.ok c' = o at h
  induction h with
  | here c =>
    cases ho
    exact ⟨0, .zero, fun h => absurd rfl h⟩
  | step c c1 o h _ ih =>
    obtain ⟨k, h1, _⟩ := ih ho
    exact ⟨k + 1, .succ h h1, fun _ => Nat.le_add_left _ _⟩
  | err => cases ho
  | ub => cases ho

/-- What the program does from `c`: it gets to `tgt`, or to the block `bt` after `break`, or raises
the error. -/
def Goal (Γ : Nat → LV) (g : Prog P) (c : Cfg P) (tgt : Mach P → Cfg P) (bt : Option Nat)
    (s0 : St P.F P.O) (M : Mach P) : Out P → Prop
  | .norm ρ s => ∃ M', Run P g c (.ok (tgt M')) ∧ Post Γ s0 M ρ s M'
  | .brk ρ s => ∃ t M', bt = some t ∧ Run P g c (.ok ⟨t, 0, M'⟩) ∧ Post Γ s0 M ρ s M'
  | .err m => Run P g c (.err m)
  | .long n => ∃ k c', n ≤ k ∧ Steps g k c c'
  | .bad => True

variable {c c' : Cfg P} {tgt tgt' : Mach P → Cfg P} {bt : Option Nat} {s0 : St P.F P.O}
  {M M' : Mach P} {o : Out P}

theorem Goal.pre (h : Run P g c (.ok c')) (hf : FrameT Γ s0 M M')
    (h' : Goal Γ g c' tgt bt s0 M' o) : Goal Γ g c tgt bt s0 M o := by
  cases o with
  | norm ρ s =>
    obtain ⟨N, h1, h2, h3, h4, h5⟩ := h'
    exact ⟨N, h.trans h1, h2, h3, h4, hf.trans h5⟩
  | brk ρ s =>
    obtain ⟨t, N, ht, h1, h2, h3, h4, h5⟩ := h'
    exact ⟨t, N, ht, h.trans h1, h2, h3, h4, hf.trans h5⟩
  | err m => exact h.trans h'
  | long n =>
    obtain ⟨k, c2, h1, h2⟩ := h'
    obtain ⟨k', h3, _⟩ := Run.steps h
    exact ⟨k' + k, c2, Nat.le_add_left_of_le h1, h3.trans h2⟩
  | bad => trivial

/-- A round of a loop. -/
theorem Goal.tick {n : Nat} (h : Run P g c (.ok c')) (hne : c ≠ c')
    (h' : Goal Γ g c' tgt bt s0 M' (.long n)) : Goal Γ g c tgt bt s0 M (.long (n + 1)) := by
  obtain ⟨k, c2, h1, h2⟩ := h'
  obtain ⟨k', h3, h4⟩ := Run.steps h
  have := h4 hne
  exact ⟨k' + k, c2, by omega, h3.trans h2⟩

theorem Goal.sub {s1 : St P.F P.O} (h : Goal Γ g c tgt bt s1 M o)
    (hs : ∀ k, live s0 k → live s1 k) : Goal Γ g c tgt bt s0 M o := by
  cases o with
  | norm ρ s =>
    obtain ⟨N, h1, h2, h3, h4, h5⟩ := h
    exact ⟨N, h1, h2, h3, h4, h5.sub hs⟩
  | brk ρ s =>
    obtain ⟨t, N, ht, h1, h2, h3, h4, h5⟩ := h
    exact ⟨t, N, ht, h1, h2, h3, h4, h5.sub hs⟩
  | err m => exact h
  | long n => exact h
  | bad => trivial

theorem Goal.to (hr : ∀ M', Run P g (tgt M') (.ok (tgt' M'))) (h : Goal Γ g c tgt bt s0 M o) :
    Goal Γ g c tgt' bt s0 M o := by
  cases o with
  | norm ρ s =>
    obtain ⟨N, h1, h2⟩ := h
    exact ⟨N, h1.trans (hr N), h2⟩
  | brk ρ s => exact h
  | err m => exact h
  | long n => exact h
  | bad => trivial

theorem Goal.anyBt (h : Goal Γ g c tgt none s0 M o) : Goal Γ g c tgt bt s0 M o := by
  cases o with
  | norm ρ s => exact h
  | brk ρ s =>
    obtain ⟨t, N, ht, _⟩ := h
    cases ht
  | err m => exact h
  | long n => exact h
  | bad => trivial

theorem Goal.pass {s1 : St P.F P.O} {bt' : Option Nat} (ho : o.pass = true)
    (h : Goal Γ g c tgt bt s1 M o) : Goal Γ g c tgt' bt' s0 M' o := by
  cases o with
  | norm ρ s => cases ho
  | brk ρ s => cases ho
  | err m => exact h
  | long n => exact h
  | bad => trivial

end Verif.LinStmt
