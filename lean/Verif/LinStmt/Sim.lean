import Verif.LinStmt.ForRun

/-!
# The code of a statement does what the statement means
-/
namespace Verif.LinStmt
open Verif.Lin

variable {P : Par} {Γ : Nat → LV} {ρ : Nat → P.V} {g : Prog P} {st st' : St P.F P.O}

/-- The runs considered: no integer overflows where the generated code computes with the signed
type, and no float comes from an untyped place into an integer variable. -/
def Guard.safe (Γ : Nat → LV) : Guard P where
  exp ρ c s := evalS Γ ρ c s ≠ .ub
  asg ρ ts es s := evalAssignS Γ ts es ρ s ≠ .ub
  efor ρ e1 e2 e3 s := evalFor P (evalS Γ ρ) e1 e2 e3 s ≠ .ub
  start i d := i.ssubOverflow d = false
  next i d := i.saddOverflow d = false

/-- The code of the body of a loop: it starts in `sb` and ends with a jump to `h`. -/
def Body (Γ : Nat → LV) (g : Prog P) (b : Stm P.F P.O) (e h : Nat) (s0 sb : St P.F P.O) : Prop :=
  ∃ s2, linS Γ b (some e) sb = .ok s2 ∧ PlainS Γ b = true ∧ Good Γ sb ∧
    Covers g (emit s2 (.br h)) ∧ (∀ k, live s0 k → live sb k) ∧ sb.cur ≠ h

/-- Where the rest of an `if` begins. -/
def entry {F O : Type} (a : Stm F O) (blk tru : Nat) : Nat :=
  match a with
  | .ite _ _ _ => blk
  | a => tru + a.len

/-- The code of a chain: conditions from `sa`, blocks from `sc`. -/
structure Chain (Γ : Nat → LV) (g : Prog P) (a : Stm P.F P.O) (bt : Option Nat) (blk tru : Nat)
    (s0 sa sb sc sd : St P.F P.O) : Prop where
  conds : linConds Γ a blk tru (tru + a.len) sa = .ok sb
  bodies : linBodies Γ a bt tru (tru + a.blks) sc = .ok sd
  w0 : Wf Γ s0
  wa : Wf Γ sa
  wc : Wf Γ sc
  tc : terminated sc = true
  ea : ∀ i, blk ≤ i → i < blk + a.len → i < sa.nb ∧ i ≠ sa.cur ∧ sa.blocks i = []
  ec : ∀ i, tru ≤ i → i < tru + a.blks → i < sc.nb ∧ i ≠ sc.cur ∧ sc.blocks i = []
  gb : Covers g sb
  gd : Covers g sd
  la : ∀ k, live s0 k → live sa k
  lc : ∀ k, live s0 k → live sc k

/-- What is to be shown of a statement, or of a loop that is running. -/
def Mot (Γ : Nat → LV) (g : Prog P) (cmd : Cmd P) (ρ : Nat → P.V) (s : P.S) (o : Out P) : Prop :=
  match cmd with
  | .stm a => PlainS Γ a = true →
    (∀ {bt st st' M}, linS Γ a bt st = .ok st' → Good Γ st → Covers g st' → Locals Γ ρ M → M.s = s →
      Goal Γ g (here st M) (here st') bt st M o) ∧
    (a.isRest = true → ∀ {bt blk tru s0 sa sb sc sd M}, Chain Γ g a bt blk tru s0 sa sb sc sd →
      Locals Γ ρ M → M.s = s → Goal Γ g ⟨entry a blk tru, 0, M⟩ (⟨tru + a.blks, 0, ·⟩) bt s0 M o)
  | .whl c b => ∀ {h k e s0 sb M}, CondRun Γ g c h k e s0 → Body Γ g b e h s0 sb →
      (∀ M, here sb M = ⟨k, 0, M⟩) → Wf Γ s0 → Locals Γ ρ M → M.s = s →
      Goal Γ g ⟨h, 0, M⟩ (⟨e, 0, ·⟩) none s0 M o
  | .rep b c => ∀ {h k e s0 sb M}, CondRun Γ g c h e k s0 → Body Γ g b e h s0 sb →
      (∀ M, here sb M = ⟨k, 0, M⟩) → Wf Γ s0 → Locals Γ ρ M → M.s = s →
      Goal Γ g ⟨k, 0, M⟩ (⟨e, 0, ·⟩) none s0 M o
  | .loop x i l d b => ∀ {h k e s0 sb ri K M}, ForCode Γ g x l d h k e s0 sb ri K →
      Body Γ g b e h s0 sb → Wf Γ s0 → ((Γ x).ty = .any ∨ (Γ x).ty = .int) → K M →
      M.I ri + d = i → (M.I ri).saddOverflow d = false → Locals Γ ρ M → M.s = s →
      Goal Γ g ⟨h, 0, M⟩ (⟨e, 0, ·⟩) none s0 M o

theorem CondRun.ok {c : Exp P.F P.O} {h t f s0} {M : Mach P} {v s'} (H : CondRun Γ g c h t f s0)
    (hρ : ∀ x, HasTy (Γ x).ty (ρ x)) (hL : Locals Γ ρ M) (hu : evalS Γ ρ c M.s ≠ .ub)
    (he : eval P ρ c M.s = .ok (v, s')) :
    ∃ M', Run P g ⟨h, 0, M⟩ (.ok ⟨if isFalse v then f else t, 0, M'⟩) ∧ M'.s = s' ∧
      Frame s0 M M' := by
  have := H ρ M hρ hL
  rw [(evalS_eval Γ ρ c M.s).resolve_left hu, he] at this
  exact this

theorem CondRun.err {c : Exp P.F P.O} {h t f s0} {M : Mach P} {m} (H : CondRun Γ g c h t f s0)
    (hρ : ∀ x, HasTy (Γ x).ty (ρ x)) (hL : Locals Γ ρ M) (hu : evalS Γ ρ c M.s ≠ .ub)
    (he : eval P ρ c M.s = .err m) : Run P g ⟨h, 0, M⟩ (.err m) := by
  have := H ρ M hρ hL
  rw [(evalS_eval Γ ρ c M.s).resolve_left hu, he] at this
  exact this

/-- The body of a loop runs. -/
theorem Body.run {b : Stm P.F P.O} {e h s0 sb} {M : Mach P} {s o} (B : Body Γ g b e h s0 sb)
    (ih : Mot Γ g (.stm b) ρ s o) (hL : Locals Γ ρ M) (hs : M.s = s) :
    Goal Γ g (here sb M) (⟨h, 0, ·⟩) (some e) sb M o := by
  obtain ⟨s2, h1, h2, h3, h4, _, _⟩ := B
  exact Goal.to (fun M' => run_br h4) ((ih h2).1 h1 h3 (h4.mono (.emit _ _)) hL hs)

theorem Goal.chain_ite {c : Exp P.F P.O} {b r : Stm P.F P.O} {s o} (hp : PlainS Γ (.ite c b r) = true)
    (hρ : ∀ x, HasTy (Γ x).ty (ρ x))
    (H : ∀ {bt blk tru s0 sa sb sc sd M}, Chain Γ g (.ite c b r) bt blk tru s0 sa sb sc sd →
      Locals Γ ρ M → M.s = s → Goal Γ g ⟨entry (.ite c b r) blk tru, 0, M⟩
        (⟨tru + (Stm.ite c b r).blks, 0, ·⟩) bt s0 M o)
    {bt st st' M} (h : linS Γ (.ite c b r) bt st = .ok st') (gd : Good Γ st) (hg : Covers g st')
    (hL : Locals Γ ρ M) (hs : M.s = s) : Goal Γ g (here st M) (here st') bt st M o := by
  obtain ⟨s1, s2, h1, h2, h3⟩ := linS_ite h
  have hcur := gd.wf.cur
  have hl : (Stm.ite c b r).blks = r.len + 1 + (if r.hasElse then 1 else 0) := rfl
  have hl' : (Stm.ite c b r).len = r.len + 1 := rfl
  generalize hx : (if r.hasElse = true then 1 else 0) = x at *
  have a0 := Stp.bump gd.wf (2 * (r.len + 1) + x + 1)
  have w0 := a0.wf gd.wf
  rw [← Nat.add_assoc, ← Nat.add_assoc] at a0 w0
  have ea : ∀ i, st.nb ≤ i → i < st.nb + (Stm.ite c b r).len →
      i < st.nb + 2 * (r.len + 1) + x + 1 ∧ i ≠ st.cur ∧ st.blocks i = [] :=
    fun i hi hi' => ⟨by omega, by omega, gd.wf.emp i hi⟩
  obtain ⟨a1, t1⟩ := conds_stp hρ h1 w0 ea
  have t1 := t1 (by omega)
  have w1 := a1.wf w0
  have hn1 := a1.nb
  have hc1 := a1.cur
  dsimp only at hn1 hc1
  have e1 : ∀ i, st.nb + (r.len + 1) ≤ i → i < st.nb + 2 * (r.len + 1) + x + 1 →
      s1.blocks i = [] := by
    intro i hi hi'
    rw [a1.oth i (by show i < st.nb + 2 * (r.len + 1) + x + 1; omega)
      (by show ¬ (i = st.cur ∨ _); omega)]
    exact gd.wf.emp i (by omega)
  have ec : ∀ i, st.nb + (r.len + 1) ≤ i → i < st.nb + (r.len + 1) + (Stm.ite c b r).blks →
      i < s1.nb ∧ i ≠ s1.cur ∧ s1.blocks i = [] := by
    intro i hi hi'
    exact ⟨by omega, by omega, e1 i hi (by omega)⟩
  obtain ⟨a2, t2⟩ := (linS_stp hρ (.ite c b r)).2 h2 hp w1 t1 ec
  have w2 := a2.wf w1
  have hn2 := a2.nb
  have hc2 := a2.cur
  have a3 := startBlock_stp w2 (b := st.nb + 2 * (r.len + 1) + x) (by omega)
  have hg2 : Covers g s2 := Covers.stp (h3 ▸ hg) a3
  have hE : s2.blocks (st.nb + 2 * (r.len + 1) + x) = [] := by
    rw [a2.oth _ (by omega) (by omega)]
    exact e1 _ (by omega) (by omega)
  have hb : st.nb + (r.len + 1) + (Stm.ite c b r).blks = st.nb + 2 * (r.len + 1) + x := by omega
  have hb' : st.nb + (r.len + 1) + (Stm.ite c b r).len = st.nb + 2 * (r.len + 1) := by omega
  have C : Chain Γ g (.ite c b r) bt st.nb (st.nb + (r.len + 1)) st
      { st with nb := st.nb + 2 * (r.len + 1) + x + 1 } s1 s1 s2 :=
    ⟨by rw [hb']; exact h1, by rw [hb]; exact h2, gd.wf, w0, w1, t1, ea, ec,
      hg2.stp a2, hg2, fun k hk => hk, fun k hk => a1.sub k hk⟩
  have key := H C hL hs
  rw [hb] at key
  have hfin : ∀ M', here st' M' = ⟨st.nb + 2 * (r.len + 1) + x, 0, M'⟩ := by
    intro M'
    rw [h3]
    exact here_empty rfl (by rw [startBlock_blocks (by omega)]; exact hE)
  have hfin : here st' = fun M' => ⟨st.nb + 2 * (r.len + 1) + x, 0, M'⟩ := funext hfin
  rw [hfin]
  refine Goal.pre (M' := M) ?_ (.refl _ _) key
  -- the first condition is reached by a jump
  simp only [linConds, Res.bind_eq_ok] at h1
  obtain ⟨s3, h5, h6⟩ := h1
  have w3 := (startBlock_stp w0 (b := st.nb) (by show st.nb < st.nb + 2 * (r.len + 1) + x + 1; omega)).wf w0
  obtain ⟨a5, _⟩ := cond_stp hρ h5 w3
  have w5 := a5.wf w3
  have hn5 := a5.nb
  have hc5 := a5.cur
  rw [startBlock_cur] at hc5
  rw [startBlock_nb] at hn5 hc5
  dsimp only at hn5 hc5
  obtain ⟨a6, _⟩ := conds_stp hρ h6 w5 (by
    intro i hi hi'
    refine ⟨by omega, by omega, ?_⟩
    rw [a5.oth i (by rw [startBlock_nb]; show i < st.nb + 2 * (r.len + 1) + x + 1; omega)
      (by rw [startBlock_cur]; omega), startBlock_blocks (by show i ≠ st.cur; omega)]
    exact gd.wf.emp i (by omega))
  have hg3 := ((hg2.stp a2).stp a6).stp a5
  exact run_start (st := { st with nb := st.nb + 2 * (r.len + 1) + x + 1 }) gd.opn hg3

theorem CondRun.sub {c : Exp P.F P.O} {h t f s0 s1} (H : CondRun Γ g c h t f s1)
    (hs : ∀ k, live s0 k → live s1 k) : CondRun Γ g c h t f s0 := by
  intro ρ M hρ hL
  have := H ρ M hρ hL
  revert this
  generalize evalS Γ ρ c M.s = r
  intro key
  rcases r with ⟨v, s⟩ | m | _
  · obtain ⟨M', k1, k2, k3⟩ := key
    exact ⟨M', k1, k2, k3.sub hs⟩
  · exact key
  · trivial

/-- A chain that begins with a condition. -/
theorem Chain.ite {c : Exp P.F P.O} {b r : Stm P.F P.O} {bt blk tru s0 sa sb sc sd}
    (hρ : ∀ x, HasTy (Γ x).ty (ρ x)) (hp : PlainS Γ (.ite c b r) = true)
    (C : Chain Γ g (.ite c b r) bt blk tru s0 sa sb sc sd) :
    CondRun Γ g c blk tru (entry r (blk + 1) (tru + 1)) s0 ∧
    (∃ s2, linS Γ b bt (startBlock sc tru) = .ok s2 ∧ Good Γ (startBlock sc tru) ∧
      (∀ M, here (startBlock sc tru) M = ⟨tru, 0, M⟩) ∧
      Covers g (emit s2 (.br (tru + (Stm.ite c b r).blks))) ∧
      ∀ k, live s0 k → live (startBlock sc tru) k) ∧
    ∃ sa' sc', Chain Γ g r bt (blk + 1) (tru + 1) s0 sa' sb sc' sd := by
  obtain ⟨h1, h2, w0, wa, wc, tc, ea, ec, gb, gd, la, lc⟩ := C
  have hl : (Stm.ite c b r).blks = r.blks + 1 := by
    unfold Stm.blks
    show r.len + 1 + (if r.hasElse then 1 else 0) = _
    omega
  have hl' : (Stm.ite c b r).len = r.len + 1 := rfl
  simp only [linConds, Res.bind_eq_ok] at h1
  obtain ⟨s1, h3, h4⟩ := h1
  simp only [linBodies, Res.bind_eq_ok] at h2
  obtain ⟨s2, h5, h6⟩ := h2
  simp only [PlainS, Bool.and_eq_true] at hp
  obtain ⟨b1, b2, b3⟩ := ea blk le_rfl (by omega)
  have a1 := startBlock_stp wa b1
  have w1 := a1.wf wa
  obtain ⟨a2, _⟩ := cond_stp hρ h3 w1
  have w2 := a2.wf w1
  have hn2 := a2.nb
  have hc2 := a2.cur
  rw [startBlock_cur] at hc2
  rw [startBlock_nb] at hn2 hc2
  have ea' : ∀ i, blk + 1 ≤ i → i < blk + 1 + r.len → i < s1.nb ∧ i ≠ s1.cur ∧ s1.blocks i = [] := by
    intro i hi hi'
    obtain ⟨c1, c2, c3⟩ := ea i (by omega) (by omega)
    refine ⟨by omega, by omega, ?_⟩
    rw [a2.oth i (by rw [startBlock_nb]; omega) (by rw [startBlock_cur]; omega),
      startBlock_blocks c2, c3]
  obtain ⟨a3, _⟩ := conds_stp hρ h4 w2 ea'
  obtain ⟨c1, c2, c3⟩ := ec tru le_rfl (by omega)
  obtain ⟨k1, k2, k3, k4, k5⟩ := block_stp (e := tru + (Stm.ite c b r).blks) (linS_stp hρ b).1 h5
    hp.1.1.2 wc c1 c2 c3
  rw [k1] at h6
  have hn4 := k2.nb
  have hc4 := k2.cur
  have w4 := k2.wf wc
  have ec' : ∀ i, tru + 1 ≤ i → i < tru + 1 + r.blks →
      i < (emit s2 (.br (tru + (Stm.ite c b r).blks))).nb ∧
      i ≠ (emit s2 (.br (tru + (Stm.ite c b r).blks))).cur ∧
      (emit s2 (.br (tru + (Stm.ite c b r).blks))).blocks i = [] := by
    intro i hi hi'
    obtain ⟨d1, d2, d3⟩ := ec i (by omega) (by omega)
    exact ⟨by omega, by omega, by rw [k2.oth i d1 (by omega), d3]⟩
  obtain ⟨a5, _⟩ := (linS_stp hρ r).2 h6 hp.1.2 w4 (term_emit rfl) ec'
  refine ⟨?_, ⟨s2, h5, k5, ?_, gd.stp a5, ?_⟩, s1, _, ?_, ?_, w0, w2, w4, term_emit rfl, ea', ec', gb,
    gd, ?_, ?_⟩
  · refine CondRun.sub (s1 := startBlock sa blk) ?_ fun k hk => (startBlock_live _ _ _).2 (la k hk)
    have := cond_run h3 hp.1.1.1 w1 (startBlock_cur sa blk)
      (by rw [startBlock_blocks b2, b3]) (gb.stp a3)
    convert this using 1
    cases r <;> first | rfl | (simp only [entry, Stm.len]; rfl)
  · exact fun M => here_empty rfl (by rw [startBlock_blocks c2, c3])
  · exact fun k hk => (startBlock_live _ _ _).2 (lc k hk)
  · rw [show tru + 1 + r.len = tru + (Stm.ite c b r).len by omega]; exact h4
  · rw [show tru + 1 + r.blks = tru + (Stm.ite c b r).blks by omega]; exact h6
  · exact fun k hk => a2.sub k ((startBlock_live _ _ _).2 (la k hk))
  · exact fun k hk => k2.sub k (lc k hk)

/-- A chain that begins with an `else`. -/
theorem Chain.els {b : Stm P.F P.O} {bt blk tru s0 sa sb sc sd}
    (hρ : ∀ x, HasTy (Γ x).ty (ρ x)) (hp : PlainS Γ b = true) (hb : b ≠ .skip)
    (C : Chain Γ g (.els b) bt blk tru s0 sa sb sc sd) :
    ∃ s2, linS Γ b bt (startBlock sc tru) = .ok s2 ∧ Good Γ (startBlock sc tru) ∧
      (∀ M, here (startBlock sc tru) M = ⟨tru, 0, M⟩) ∧
      Covers g (emit s2 (.br (tru + (Stm.els b).blks))) ∧
      ∀ k, live s0 k → live (startBlock sc tru) k := by
  obtain ⟨h1, h2, w0, wa, wc, tc, ea, ec, gb, gd, la, lc⟩ := C
  have hl : (Stm.els b).blks = 1 := by
    cases b <;> first | rfl | exact absurd rfl hb
  have h2 : (do
      let st ← linS Γ b bt (startBlock sc tru)
      .ok (if terminated st then st else emit st (.br (tru + (Stm.els b).blks)))) = Res.ok sd := by
    cases b <;> first | exact h2 | exact absurd rfl hb
  simp only [Res.bind_eq_ok] at h2
  obtain ⟨s2, h5, h6⟩ := h2
  obtain ⟨c1, c2, c3⟩ := ec tru le_rfl (by omega)
  obtain ⟨k1, k2, k3, k4, k5⟩ := block_stp (e := tru + (Stm.els b).blks) (linS_stp hρ b).1 h5
    hp wc c1 c2 c3
  rw [k1] at h6
  rw [← Res.ok.inj h6] at gd
  exact ⟨s2, h5, k5, fun M => here_empty rfl (by rw [startBlock_blocks c2, c3]), gd,
    fun k hk => (startBlock_live _ _ _).2 (lc k hk)⟩

end Verif.LinStmt
