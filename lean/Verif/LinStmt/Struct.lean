import Verif.LinStmt.Model
import Verif.Lin.Assign

/-!
# Blocks and registers of statements
-/
namespace Verif.LinStmt
open Verif.Lin

variable {P : Par}

/-! ## Steps of the linearizer -/

/-- From `st` to `st'` only blocks in `S`, and new ones, have been touched; no register in use has
been given back. -/
structure Stp (S : Nat → Prop) (st st' : St P.F P.O) : Prop where
  nb : st.nb ≤ st'.nb
  pre : ∀ b, st.blocks b <+: st'.blocks b
  oth : ∀ b, b < st.nb → ¬ S b → st'.blocks b = st.blocks b
  lt : st'.cur < st'.nb
  emp : ∀ b, st'.nb ≤ b → st'.blocks b = []
  cur : S st'.cur ∨ st.nb ≤ st'.cur
  sub : ∀ k, live st k → live st' k

variable {Γ : Nat → LV} {S S' : Nat → Prop} {st st' st'' : St P.F P.O}

theorem Stp.wf (h : Stp S st st') (w : Wf Γ st) : Wf Γ st' :=
  ⟨fun k hk => h.sub k (w.loc k hk), h.lt, h.emp⟩

theorem Stp.refl (w : Wf Γ st) : Stp (· = st.cur) st st :=
  ⟨le_refl _, fun _ => List.prefix_refl _, fun _ _ _ => rfl, w.cur, w.emp, Or.inl rfl, fun _ => id⟩

theorem Stp.trans (h : Stp S st st') (h' : Stp S' st' st'') :
    Stp (fun b => S b ∨ S' b) st st'' := by
  refine ⟨h.nb.trans h'.nb, fun b => (h.pre b).trans (h'.pre b), ?_, h'.lt, h'.emp, ?_,
    fun k hk => h'.sub k (h.sub k hk)⟩
  · intro b hb hs
    rw [h'.oth b (lt_of_lt_of_le hb h.nb) fun x => hs (Or.inr x), h.oth b hb fun x => hs (Or.inl x)]
  · rcases h'.cur with e | e
    · exact Or.inl (Or.inr e)
    · exact Or.inr (h.nb.trans e)

theorem Stp.weaken (h : Stp S st st') (hs : ∀ b, S b → S' b ∨ st.nb ≤ b) : Stp S' st st' := by
  refine ⟨h.nb, h.pre, ?_, h.lt, h.emp, ?_, h.sub⟩
  · intro b hb hn
    refine h.oth b hb fun x => ?_
    rcases hs b x with y | y
    · exact hn y
    · omega
  · rcases h.cur with e | e
    · exact hs _ e
    · exact Or.inr e

theorem Stp.of (w : Wf Γ st) (h : BExt st st') (hs : ∀ k, live st k → live st' k) :
    Stp (· = st.cur) st st' :=
  ⟨h.nb, h.pre, h.oth, h.lt w.cur, h.emp w.cur w.emp, h.cur, hs⟩

theorem Stp.emit (w : Wf Γ st) (x) : Stp (· = st.cur) st (Lin.emit st x) :=
  .of w (.emit _ _) fun k hk => (live_emit _ _ _).2 hk

theorem Stp.bump (w : Wf Γ st) (n : Nat) : Stp (· = st.cur) st { st with nb := st.nb + n } := by
  refine ⟨Nat.le_add_right _ _, fun _ => List.prefix_refl _, fun _ _ _ => rfl, ?_, ?_, Or.inl rfl,
    fun k hk => (live_nb _ _ _).2 hk⟩
  · exact lt_of_lt_of_le w.cur (Nat.le_add_right _ _)
  · intro b hb
    have hb : st.nb + n ≤ b := hb
    exact w.emp b (by omega)

/-- Another block becomes the current one. -/
def go {F O : Type} (st : St F O) (b : Nat) : St F O := { st with cur := b }

theorem Stp.go (w : Wf Γ st) {b : Nat} (hb : b < st.nb) : Stp (· = b) st (go st b) :=
  ⟨le_refl _, fun _ => List.prefix_refl _, fun _ _ _ => rfl, hb, w.emp, Or.inl rfl,
    fun k hk => (live_cur _ _ _).2 hk⟩

theorem Stp.freeP {q : Ps P.F P.O} (h : Stp S st st') (hq : ∀ k, fk q = some k → ¬ live st k) :
    Stp S st (freeP st' q) := by
  obtain ⟨e1, e2, e3⟩ := freeP_blocks st' q
  refine ⟨e2 ▸ h.nb, fun b => e1 ▸ h.pre b, fun b hb hs => e1 ▸ h.oth b hb hs, ?_, ?_, e3 ▸ h.cur, ?_⟩
  · rw [e2, e3]; exact h.lt
  · rw [e1, e2]; exact h.emp
  · exact fun k hk => (live_freeP _ _ _).2 ⟨h.sub k hk, fun e => hq k e hk⟩

/-! ## Terminated blocks -/

theorem emit_blocks {x : Ins P.F P.O} {i : Nat} (h : i ≠ st.cur) :
    (emit st x).blocks i = st.blocks i := by simp [emit, Lin.set, h]

/-- The last instruction of the current block is not a jump. -/
def Open (st : St P.F P.O) : Prop := terminated st = false

theorem open_emit {x : Ins P.F P.O} (h : x.jump = false) : Open (emit st x) := by
  unfold Open terminated
  simp only [emit, Lin.set, if_true, List.getLast?_append, List.getLast?_singleton]
  cases x <;> first | rfl | cases h

theorem term_emit {x : Ins P.F P.O} (h : x.jump = true) : terminated (emit st x) = true := by
  unfold terminated
  simp only [emit, Lin.set, if_true, List.getLast?_append, List.getLast?_singleton]
  cases x <;> first | rfl | cases h

theorem term_same (h : st'.blocks = st.blocks) (h' : st'.cur = st.cur) :
    terminated st' = terminated st := by
  unfold terminated
  rw [h, h']

theorem open_empty (h : st.blocks st.cur = []) : Open st := by
  unfold Open terminated
  rw [h]; rfl

theorem startBlock_open (h : Open st) (b) : startBlock st b = go (emit st (.br b)) b := by
  unfold Open at h
  simp [startBlock, h, go]

theorem startBlock_term (h : terminated st = true) (b) : startBlock st b = go st b := by
  simp [startBlock, h, go]

theorem instBr_open (h : Open st) (b) : instBr st b = emit st (.br b) := by
  unfold Open at h
  simp [instBr, h]

theorem startBlock_stp (w : Wf Γ st) {b : Nat} (hb : b < st.nb) :
    Stp (fun i => i = st.cur ∨ i = b) st (startBlock st b) := by
  unfold startBlock
  split
  · exact (Stp.go w hb).weaken fun i hi => Or.inl (Or.inr hi)
  · have h1 := Stp.emit w (.br b)
    exact h1.trans (Stp.go (h1.wf w) hb)

theorem startBlock_cur (st : St P.F P.O) (b) : (startBlock st b).cur = b := rfl

theorem startBlock_nb (st : St P.F P.O) (b) : (startBlock st b).nb = st.nb := by
  unfold startBlock
  split <;> rfl

theorem startBlock_blocks {b i : Nat} (h : i ≠ st.cur) : (startBlock st b).blocks i = st.blocks i := by
  unfold startBlock
  split
  · rfl
  · simp [emit, Lin.set, h]

theorem startBlock_live (st : St P.F P.O) (b) (k) : live (startBlock st b) k ↔ live st k := by
  unfold startBlock
  split <;> simp

/-- A state in which statements are compiled. -/
structure Good (Γ : Nat → LV) (st : St P.F P.O) : Prop where
  wf : Wf Γ st
  opn : Open st

theorem Good.start (w : Wf Γ st) {b : Nat} (hb : b < st.nb) (hc : b ≠ st.cur)
    (he : st.blocks b = []) : Good Γ (startBlock st b) :=
  ⟨(startBlock_stp w hb).wf w, open_empty (by rw [startBlock_cur, startBlock_blocks hc, he])⟩

/-! ## Expressions -/

theorem operand_open {n : Pn P.F P.O} {q} (h : operand st n = .ok (q, st')) (ho : Open st) :
    Open st' := by
  rcases n with p | ⟨c, k⟩
  · simp only [operand, Res.ok.injEq, Prod.mk.injEq] at h
    exact h.2 ▸ ho
  · simp only [operand, load, Res.bind_eq_ok] at h
    obtain ⟨⟨t, s1⟩, _, h2⟩ := h
    simp only [Res.ok.injEq, Prod.mk.injEq] at h2
    rw [← h2.2]
    exact open_emit rfl

theorem lin_open {ρ : Nat → P.V} (hρ : ∀ x, HasTy (Γ x).ty (ρ x)) :
    ∀ (e : Exp P.F P.O) {st n st'}, lin Γ e st = .ok (n, st') → Good Γ st → Open st' := by
  have allT : ∀ {st : St P.F P.O} {t q st'}, allocT st t = .ok (q, st') → Wf Γ st →
      Stp (· = st.cur) st st' := by
    intro st t q st' h w
    obtain ⟨_, ⟨k, _, _, hl⟩, hb⟩ := allocT_ok h
    exact .of w (.same hb) fun k' hk => (hl k').2 (Or.inl hk)
  have bool : ∀ {a b : Exp P.F P.O} {st s0 s1 s2 s3 s4 : St P.F P.O} {t n q m p} {x : Ins P.F P.O},
      Wf Γ st → allocT { st with nb := st.nb + 2 } .any = .ok (t, s0) →
      lin Γ a s0 = .ok (n, s1) → operand s1 n = .ok (q, s2) →
      lin Γ b { emit (freeN (tofree (emit s2 (.mov q t)) n q) n) x with cur := st.nb }
        = .ok (m, s3) → operand s3 m = .ok (p, s4) →
      s4.blocks (st.nb + 1) = [] ∧ s4.cur ≠ st.nb + 1 := by
    intro a b st s0 s1 s2 s3 s4 t n q m p x w h0 h1 h2 h3 h4
    have a0 := Stp.bump w 2
    have w0 := a0.wf w
    have a1 := allT h0 w0
    have w1 := a1.wf w0
    obtain ⟨_, ⟨κ, hκ, hl, hl'⟩, hb⟩ := allocT_ok h0
    have A := lin_sim hρ a _ _ _ h1 w1
    have w2 := w1.ext A.ext A.sub
    obtain ⟨o1, o2, o3, o4, o5, o6⟩ := operand_st h2 A.ok
    have hs : ∀ k, live s0 k → live s2 k := fun k hk =>
      o2 k ((live_freeN _ _ _).2 ⟨A.sub k hk, fun h => A.new k h hk⟩)
    have a2 : Stp (· = s0.cur) s0 s2 := .of w1 (A.ext.trans o1) hs
    have w3 := a2.wf w1
    have hf : ∀ k, live s0 k → live (freeN (tofree (emit s2 (.mov q t)) n q) n) k := by
      intro k hk
      refine (live_freeN _ _ _).2 ⟨live_tofree ((live_emit _ _ _).2 (hs k hk)) ?_, ?_⟩
      · intro e
        refine o4 k e ((live_freeN _ _ _).2 ⟨A.sub k hk, fun h => A.new k h hk⟩)
      · exact fun h => A.new k h hk
    have e1 := tofree_blocks (emit s2 (.mov q t)) n q
    have e2 := freeN_blocks (tofree (emit s2 (.mov q t)) n q) n
    have a3 : Stp (· = s0.cur) s0 (emit (freeN (tofree (emit s2 (.mov q t)) n q) n) x) := by
      refine .of w1 ?_ fun k hk => (live_emit _ _ _).2 (hf k hk)
      exact ((((A.ext.trans o1).trans (.emit _ _)).trans (.same e1)).trans (.same e2)).trans (.emit _ _)
    have hc0 : s0.cur = st.cur := hb.2.2
    have hn0 : s0.nb = st.nb + 2 := hb.2.1
    have hcur := w.cur
    have w4 := a3.wf w1
    have a4 := Stp.go w4 (b := st.nb) (by have := a3.nb; omega)
    have w5 := a4.wf w4
    have B := lin_sim hρ b _ _ _ h3 w5
    obtain ⟨p1, _⟩ := operand_st h4 B.ok
    have b1 := (B.ext.trans p1)
    refine ⟨?_, ?_⟩
    · rw [b1.oth (st.nb + 1) ?_ ?_]
      · show (emit (freeN (tofree (emit s2 (.mov q t)) n q) n) x).blocks (st.nb + 1) = []
        rw [a3.oth (st.nb + 1) (by omega) (by show st.nb + 1 ≠ s0.cur; omega), hb.1]
        exact w.emp _ (by omega)
      · have := a3.nb
        show st.nb + 1 < (emit (freeN (tofree (emit s2 (.mov q t)) n q) n) x).nb
        omega
      · show st.nb + 1 ≠ st.nb
        omega
    · rcases b1.cur with e | e
      · rw [e]; show st.nb ≠ st.nb + 1; omega
      · have := a3.nb
        have e : (emit (freeN (tofree (emit s2 (.mov q t)) n q) n) x).nb ≤ s4.cur := e
        omega
  intro e
  induction e with
  | lit v =>
    intro st n st' h g
    simp only [lin, Res.ok.injEq, Prod.mk.injEq] at h
    exact h.2 ▸ g.opn
  | loc x =>
    intro st n st' h g
    simp only [lin, Res.ok.injEq, Prod.mk.injEq] at h
    exact h.2 ▸ g.opn
  | idx e k ihe ihk =>
    intro st n st' h g
    simp only [lin, Res.bind_eq_ok] at h
    obtain ⟨⟨n1, s1⟩, h1, ⟨c, s2⟩, h2, ⟨n2, s3⟩, h3, ⟨q, s4⟩, h4, h5⟩ := h
    simp only [Res.ok.injEq, Prod.mk.injEq] at h5
    rw [← h5.2]
    have A := lin_sim hρ e _ _ _ h1 g.wf
    obtain ⟨o1, o2, _⟩ := operand_st h2 A.ok
    refine operand_open h4 (ihk h3 ⟨?_, operand_open h2 (ihe h1 g)⟩)
    exact g.wf.ext (A.ext.trans o1) fun k hk =>
      o2 k ((live_freeN _ _ _).2 ⟨A.sub k hk, fun h => A.new k h hk⟩)
  | bin o a b iha ihb =>
    intro st n st' h g
    simp only [lin, Res.bind_eq_ok] at h
    obtain ⟨⟨nt, s0⟩, _, ⟨t, s1⟩, _, ⟨n1, s2⟩, _, ⟨n2, s3⟩, _, ⟨q1, s4⟩, _, ⟨q2, s5⟩, _, h⟩ := h
    dsimp only at h
    split at h
    · simp only [Res.ok.injEq, Prod.mk.injEq] at h
      rw [← h.2]
      exact open_emit rfl
    · simp only [Res.ok.injEq, Prod.mk.injEq] at h
      rw [← h.2]
      unfold Open
      rw [term_same (freeN_blocks _ _).1 (freeN_blocks _ _).2.2,
        term_same (freeN_blocks _ _).1 (freeN_blocks _ _).2.2,
        term_same (tofree_blocks _ _ _).1 (tofree_blocks _ _ _).2.2,
        term_same (tofree_blocks _ _ _).1 (tofree_blocks _ _ _).2.2]
      exact open_emit rfl
  | and a b iha ihb =>
    intro st n st' h g
    simp only [lin, Res.bind_eq_ok] at h
    obtain ⟨⟨t, s0⟩, h0, ⟨n1, s1⟩, h1, ⟨q, s2⟩, h2, ⟨n2, s3⟩, h3, ⟨p, s4⟩, h4, h5⟩ := h
    simp only [Res.ok.injEq, Prod.mk.injEq] at h5
    obtain ⟨b1, b2⟩ := bool g.wf h0 h1 h2 h3 h4
    rw [← h5.2]
    refine open_empty ?_
    have e1 := tofree_blocks (emit s4 (.mov p t)) n2 p
    have e2 := freeN_blocks (tofree (emit s4 (.mov p t)) n2 p) n2
    have hc : (freeN (tofree (emit s4 (.mov p t)) n2 p) n2).cur = s4.cur := by
      rw [e2.2.2, e1.2.2]; rfl
    have hb : (freeN (tofree (emit s4 (.mov p t)) n2 p) n2).blocks (st.nb + 1) = [] := by
      rw [e2.1, e1.1, emit_blocks b2.symm, b1]
    exact (emit_blocks (by rw [hc]; exact b2.symm)).trans hb
  | or a b iha ihb =>
    intro st n st' h g
    simp only [lin, Res.bind_eq_ok] at h
    obtain ⟨⟨t, s0⟩, h0, ⟨n1, s1⟩, h1, ⟨q, s2⟩, h2, ⟨n2, s3⟩, h3, ⟨p, s4⟩, h4, h5⟩ := h
    simp only [Res.ok.injEq, Prod.mk.injEq] at h5
    obtain ⟨b1, b2⟩ := bool g.wf h0 h1 h2 h3 h4
    rw [← h5.2]
    refine open_empty ?_
    have e1 := tofree_blocks (emit s4 (.mov p t)) n2 p
    have e2 := freeN_blocks (tofree (emit s4 (.mov p t)) n2 p) n2
    have hc : (freeN (tofree (emit s4 (.mov p t)) n2 p) n2).cur = s4.cur := by
      rw [e2.2.2, e1.2.2]; rfl
    have hb : (freeN (tofree (emit s4 (.mov p t)) n2 p) n2).blocks (st.nb + 1) = [] := by
      rw [e2.1, e1.1, emit_blocks b2.symm, b1]
    exact (emit_blocks (by rw [hc]; exact b2.symm)).trans hb
  | not a ih =>
    intro st n st' h g
    simp only [lin, Res.bind_eq_ok] at h
    obtain ⟨⟨t, s0⟩, _, ⟨n1, s1⟩, _, ⟨q, s2⟩, _, h5⟩ := h
    simp only [Res.ok.injEq, Prod.mk.injEq] at h5
    rw [← h5.2]
    unfold Open
    rw [term_same (tofree_blocks _ _ _).1 (tofree_blocks _ _ _).2.2]
    exact open_emit rfl
  | neg a ih =>
    intro st n st' h g
    simp only [lin, Res.bind_eq_ok] at h
    obtain ⟨⟨t, s0⟩, _, ⟨n1, s1⟩, _, ⟨q, s2⟩, _, h5⟩ := h
    simp only [Res.ok.injEq, Prod.mk.injEq] at h5
    rw [← h5.2]
    unfold Open
    rw [term_same (tofree_blocks _ _ _).1 (tofree_blocks _ _ _).2.2]
    exact open_emit rfl

end Verif.LinStmt
