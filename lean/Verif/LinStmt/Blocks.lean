import Verif.LinStmt.For

/-!
# Which blocks the code of a statement touches
-/
namespace Verif.LinStmt
open Verif.Lin

/-! ## Which statements -/

section
variable {F O : Type}

def Exp.isLit : Exp F O → Bool
  | .lit _ => true
  | _ => false

/-- A condition that the code generator accepts: not of a number type, unless it is a literal. -/
def condOk (Γ : Nat → LV) (c : Exp F O) : Bool :=
  Plain Γ c && (Exp.isLit c || (typ Γ c != .int && typ Γ c != .flt))

/-- What may follow the first block of an `if`. -/
def Stm.isRest : Stm F O → Bool
  | .ite _ _ _ | .els _ | .fin => true
  | _ => false

/-- The statements considered: the parts of assignments and conditions are in the fragments of
C91 and C92; conditions can be tested; what follows the first block of an `if` is a chain. -/
def PlainS (Γ : Nat → LV) : Stm F O → Bool
  | .skip | .brk | .fin => true
  | .seq a b => PlainS Γ a && PlainS Γ b
  | .assign ts es => ts.all (PlainT Γ) && es.all (Plain Γ) && Fine Γ ts es
  | .whl c b => condOk Γ c && PlainS Γ b
  | .rep b c => condOk Γ c && PlainS Γ b
  | .forn x e1 e2 e3 b => Plain Γ e1 && Plain Γ e2 && (match e3 with | none => true | some e => Plain Γ e) &&
      ((Γ x).ty == .any || (Γ x).ty == .int) && PlainS Γ b
  | .ite c b r => condOk Γ c && PlainS Γ b && PlainS Γ r && r.isRest
  | .els b => PlainS Γ b

end

variable {P : Par} {Γ : Nat → LV} {ρ : Nat → P.V} {st st' : St P.F P.O}

/-- The number of blocks of the bodies of a chain. -/
def Stm.blks {F O : Type} (a : Stm F O) : Nat := a.len + if a.hasElse then 1 else 0

theorem linS_ite {c : Exp P.F P.O} {b r : Stm P.F P.O} {bt}
    (h : linS Γ (.ite c b r) bt st = .ok st') :
    ∃ s1 s2, linConds Γ (.ite c b r) st.nb (st.nb + (r.len + 1)) (st.nb + 2 * (r.len + 1))
        { st with nb := st.nb + 2 * (r.len + 1) + (if r.hasElse then 1 else 0) + 1 } = .ok s1 ∧
      linBodies Γ (.ite c b r) bt (st.nb + (r.len + 1))
        (st.nb + 2 * (r.len + 1) + (if r.hasElse then 1 else 0)) s1 = .ok s2 ∧
      st' = startBlock s2 (st.nb + 2 * (r.len + 1) + (if r.hasElse then 1 else 0)) := by
  simp only [linS, Res.bind_eq_ok] at h
  obtain ⟨s1, h1, s2, h2, s3, h3, h4⟩ := h
  refine ⟨s1, s3, h1, ?_, (Res.ok.inj h4).symm⟩
  simp only [linBodies, Res.bind_eq_ok]
  exact ⟨s2, h2, h3⟩

theorem conds_stp (hρ : ∀ x, HasTy (Γ x).ty (ρ x)) :
    ∀ {a : Stm P.F P.O} {blk tru e} {st st' : St P.F P.O}, linConds Γ a blk tru e st = .ok st' →
      Wf Γ st → (∀ i, blk ≤ i → i < blk + a.len → i < st.nb ∧ i ≠ st.cur ∧ st.blocks i = []) →
      Stp (fun i => i = st.cur ∨ (blk ≤ i ∧ i < blk + a.len)) st st' ∧
        (0 < a.len → terminated st' = true) := by
  intro a
  induction a with
  | ite c b r _ ihr =>
    intro blk tru e st st' h w hb
    simp only [linConds, Res.bind_eq_ok] at h
    obtain ⟨s1, h1, h2⟩ := h
    simp only [Stm.len] at hb ⊢
    obtain ⟨b1, b2, b3⟩ := hb blk le_rfl (by omega)
    have a1 := startBlock_stp w b1
    have w1 := a1.wf w
    obtain ⟨a2, t2⟩ := cond_stp hρ h1 w1
    have w2 := a2.wf w1
    have hn := a2.nb
    rw [startBlock_nb] at hn
    have key : ∀ i, blk + 1 ≤ i → i < blk + 1 + r.len →
        i < s1.nb ∧ i ≠ s1.cur ∧ s1.blocks i = [] := by
      intro i hi hi'
      obtain ⟨c1, c2, c3⟩ := hb i (by omega) (by omega)
      refine ⟨by omega, ?_, ?_⟩
      · rcases a2.cur with e | e
        · rw [e, startBlock_cur]; omega
        · rw [startBlock_nb] at e; omega
      · rw [a2.oth i (by rw [startBlock_nb]; omega) (by rw [startBlock_cur]; omega),
          startBlock_blocks c2, c3]
    obtain ⟨a3, t3⟩ := ihr h2 w2 key
    refine ⟨((a1.trans a2).trans a3).weaken ?_, ?_⟩
    · rintro i ((( hi | hi) | hi) | hi | hi)
      · exact Or.inl (Or.inl hi)
      · exact Or.inl (Or.inr (by omega))
      · rw [startBlock_cur] at hi; exact Or.inl (Or.inr (by omega))
      · rcases a2.cur with e | e
        · rw [startBlock_cur] at e; exact Or.inl (Or.inr (by omega))
        · rw [startBlock_nb] at e; exact Or.inr (by omega)
      · exact Or.inl (Or.inr (by omega))
    · intro _
      by_cases hr : 0 < r.len
      · exact t3 hr
      · cases r <;> first | (simp only [Stm.len] at hr; omega) | skip
        all_goals
          simp only [linConds, Res.ok.injEq] at h2
          rw [← h2]; exact t2
  | _ =>
    intro blk tru e st st' h w _
    simp only [linConds, Res.ok.injEq] at h
    subst h
    exact ⟨(Stp.refl w).weaken fun i hi => Or.inl (Or.inl hi), fun h => absurd h (lt_irrefl 0)⟩

/-- A statement in a block of its own that ends with a jump. -/
theorem block_stp {b : Stm P.F P.O} {bt tru e} {s : St P.F P.O}
    (ih : ∀ {bt} {st st' : St P.F P.O}, linS Γ b bt st = .ok st' → PlainS Γ b = true →
      Good Γ st → Stp (· = st.cur) st st' ∧ Open st')
    (h : linS Γ b bt (startBlock st tru) = .ok s) (hp : PlainS Γ b = true) (w : Wf Γ st)
    (hn : tru < st.nb) (hc : tru ≠ st.cur) (he : st.blocks tru = []) :
    (if terminated s then s else emit s (.br e)) = emit s (.br e) ∧
    Stp (fun i => i = st.cur ∨ i = tru) st (emit s (.br e)) ∧
    Stp (fun i => i = tru) (startBlock st tru) s ∧ Open s ∧ Good Γ (startBlock st tru) := by
  have g := Good.start w hn hc he
  obtain ⟨a1, o1⟩ := ih h hp g
  have w1 := a1.wf g.wf
  refine ⟨?_, ?_, a1, o1, g⟩
  · unfold Open at o1
    simp [o1]
  · refine (((startBlock_stp w hn).trans a1).trans (.emit w1 _)).weaken ?_
    rintro i ((hi | hi) | hi)
    · exact Or.inl hi
    · rw [startBlock_cur] at hi; exact Or.inl (Or.inr hi)
    · rcases a1.cur with e | e
      · rw [startBlock_cur] at e; exact Or.inl (Or.inr (by omega))
      · rw [startBlock_nb] at e; exact Or.inr (by omega)

theorem Stp.instBr (w : Wf Γ st) (o : Open st) (b) : Stp (· = st.cur) st (instBr st b) := by
  rw [instBr_open o]
  exact .emit w _

/-- The condition of a `repeat`. -/
theorem linRep {b : Stm P.F P.O} {c bt} (h : linS Γ (.rep b c) bt st = .ok st') :
    ∃ d s1 n s2 q s3 s4, allocT (startBlock (instBr { st with nb := st.nb + 3 } (st.nb + 1)) st.nb)
        .bool = .ok (d, s1) ∧ lin Γ c s1 = .ok (n, s2) ∧ operand s2 n = .ok (q, s3) ∧
      (∀ r l, q ≠ .ti r l) ∧ (∀ r l, q ≠ .tf r l) ∧
      linS Γ b (some (st.nb + 2)) (startBlock (freeP (emit (tofree (emit (freeN s3 n)
        (.not q d)) n q) (.cbr d (st.nb + 1) (st.nb + 2))) d) (st.nb + 1)) = .ok s4 ∧
      st' = startBlock (instBr s4 st.nb) (st.nb + 2) := by
  simp only [linS, Res.bind_eq_ok] at h
  obtain ⟨⟨d, s1⟩, h1, ⟨n, s2⟩, h2, ⟨q, s3⟩, h3, h4⟩ := h
  dsimp only at h2 h3 h4
  refine ⟨d, s1, n, s2, q, s3, ?_⟩
  cases q with
  | ti r l => simp [assertion] at h4
  | tf r l => simp [assertion] at h4
  | _ =>
    simp only [Res.bind_eq_ok] at h4
    obtain ⟨s4, h4, h5⟩ := h4
    exact ⟨s4, h1, h2, h3, fun _ _ e => (nomatch e), fun _ _ e => (nomatch e), h4,
      (Res.ok.inj h5).symm⟩

theorem allocT_stp {t q} (h : allocT st t = .ok (q, st')) (w : Wf Γ st) :
    Stp (· = st.cur) st st' := by
  obtain ⟨_, ⟨k, _, _, hl⟩, hb⟩ := allocT_ok h
  exact .of w (.same hb) fun k' hk => (hl k').2 (Or.inl hk)

theorem repCond_stp (hρ : ∀ x, HasTy (Γ x).ty (ρ x)) {c : Exp P.F P.O} {s1 s2 s3 : St P.F P.O}
    {d n q t f} (w : Wf Γ st) (h1 : allocT st .bool = .ok (d, s1)) (h2 : lin Γ c s1 = .ok (n, s2))
    (h3 : operand s2 n = .ok (q, s3)) :
    Stp (· = st.cur) st (freeP (emit (tofree (emit (freeN s3 n) (.not q d)) n q) (.cbr d t f)) d) ∧
    terminated (freeP (emit (tofree (emit (freeN s3 n) (.not q d)) n q) (.cbr d t f)) d)
      = true := by
  have a1 := allocT_stp h1 w
  have w1 := a1.wf w
  have a2 := (use_stp hρ (x := .not q d) h2 h3 w1).2
  have w2 := a2.wf w1
  obtain ⟨_, ⟨k, hk, hl, _⟩, hb⟩ := allocT_ok h1
  have a3 := Stp.emit w2 (Ins.cbr d t f)
  refine ⟨Stp.freeP (((a1.trans a2).trans a3).weaken ?_) ?_, ?_⟩
  · have e1 : s1.cur = st.cur := hb.2.2
    have hn := a1.nb
    have hc := a2.cur
    intro i hi
    by_cases h' : i = st.cur
    · exact Or.inl h'
    · exact Or.inr (by omega)
  · intro k' hk' h
    rw [hk] at hk'
    cases hk'
    exact hl h
  · rw [term_same (freeP_blocks _ d).1 (freeP_blocks _ d).2.2]
    exact term_emit rfl

/-- The body of a loop, from the end of the test. -/
theorem loop_stp {b : Stm P.F P.O} {s0 s1 sb s2 : St P.F P.O} {k e t}
    (ih : ∀ {bt} {st st' : St P.F P.O}, linS Γ b bt st = .ok st' → PlainS Γ b = true →
      Good Γ st → Stp (· = st.cur) st st' ∧ Open st')
    (hp : PlainS Γ b = true)
    (hb : Good Γ (startBlock s1 k) → Stp (· = k) (startBlock s1 k) sb ∧ Open sb)
    (h : linS Γ b (some e) sb = .ok s2)
    (w : Wf Γ s1) (a : Stp (fun i => i = st.cur ∨ st.nb ≤ i ∧ i < k) s0 s1)
    (hn : s0.nb = e + 1) (hk : k < e) (hk' : st.nb ≤ k) (hcur : st.cur < st.nb)
    (he : s0.blocks k = [] ∧ s0.blocks e = []) :
    Stp (fun i => i = st.cur ∨ st.nb ≤ i) s0 (startBlock (instBr s2 t) e) ∧
    Open (startBlock (instBr s2 t) e) ∧ Good Γ (startBlock s1 k) ∧
    Stp (· = k) (startBlock s1 k) s2 ∧ Open s2 ∧
    Stp (fun i => i = s2.cur ∨ i = e) s2 (startBlock (instBr s2 t) e) ∧
    (instBr s2 t).blocks e = [] ∧ e ≠ s2.cur ∧ e ≠ s1.cur ∧ s1.blocks e = [] ∧
    e < s1.nb ∧ Good Γ sb ∧ Stp (· = sb.cur) sb s2 ∧ s1.blocks k = [] ∧ k ≠ s1.cur := by
  have hn1 := a.nb
  have hc1 := a.cur
  have e1 : s1.blocks k = [] ∧ s1.blocks e = [] := by
    rw [a.oth k (by omega) (by omega), a.oth e (by omega) (by omega)]
    exact he
  have g3 := Good.start w (b := k) (by omega) (by omega) e1.1
  have a3 := startBlock_stp w (b := k) (by omega)
  have hn3 := startBlock_nb s1 k
  have hc3 := startBlock_cur s1 k
  obtain ⟨b3, ob⟩ := hb g3
  have gb : Good Γ sb := ⟨b3.wf g3.wf, ob⟩
  have hnb := b3.nb
  have hcb := b3.cur
  obtain ⟨b4, o4⟩ := ih h hp gb
  have a4 : Stp (· = k) (startBlock s1 k) s2 := (b3.trans b4).weaken (by
    intro i hi
    by_cases h' : i = k
    · exact Or.inl h'
    · exact Or.inr (by omega))
  have w4 := a4.wf g3.wf
  have a5 := Stp.instBr w4 o4 t
  have w5 := a5.wf w4
  have hn4 := a4.nb
  have hn5 := a5.nb
  have hc4 := a4.cur
  have hc5 : (instBr s2 t).cur = s2.cur := by rw [instBr_open o4]; rfl
  have a6 := startBlock_stp w5 (b := e) (by omega)
  have e2 : (instBr s2 t).blocks e = [] := by
    rw [a5.oth _ (by omega) (by omega), a4.oth _ (by omega) (by omega),
      startBlock_blocks (by omega)]
    exact e1.2
  refine ⟨((((a.trans a3).trans a4).trans a5).trans a6).weaken ?_,
    (Good.start w5 (by omega) (by omega) e2).opn, g3, a4, o4, (a5.trans a6).weaken ?_, e2,
    by omega, by omega, e1.2, by omega, gb, b4, e1.1, by omega⟩
  · intro i hi
    by_cases h' : i = st.cur
    · exact Or.inl (Or.inl h')
    · exact Or.inl (Or.inr (by omega))
  · intro i hi
    rw [hc5] at hi
    rcases hi with hi | hi | hi
    · exact Or.inl (Or.inl hi)
    · exact Or.inl (Or.inl hi)
    · exact Or.inl (Or.inr hi)

theorem linS_stp (hρ : ∀ x, HasTy (Γ x).ty (ρ x)) : ∀ (a : Stm P.F P.O),
    (∀ {bt} {st st' : St P.F P.O}, linS Γ a bt st = .ok st' → PlainS Γ a = true → Good Γ st →
      Stp (· = st.cur) st st' ∧ Open st') ∧
    (∀ {bt tru e} {st st' : St P.F P.O}, linBodies Γ a bt tru e st = .ok st' →
      PlainS Γ a = true → Wf Γ st → terminated st = true →
      (∀ i, tru ≤ i → i < tru + a.blks → i < st.nb ∧ i ≠ st.cur ∧ st.blocks i = []) →
      Stp (fun i => i = st.cur ∨ (tru ≤ i ∧ i < tru + a.blks)) st st' ∧ terminated st' = true) := by
  intro a
  have triv : ∀ {a : Stm P.F P.O} {tru} {st st' : St P.F P.O}, Res.ok st = .ok st' → Wf Γ st →
      terminated st = true →
      Stp (fun i => i = st.cur ∨ (tru ≤ i ∧ i < tru + a.blks)) st st' ∧ terminated st' = true := by
    intro a tru st st' h w ht
    cases h
    exact ⟨(Stp.refl w).weaken fun i hi => Or.inl (Or.inl hi), ht⟩
  induction a with
  | skip =>
    refine ⟨?_, fun h _ w ht _ => triv h w ht⟩
    intro bt st st' h _ g
    simp only [linS, Res.ok.injEq] at h
    subst h
    exact ⟨.refl g.wf, g.opn⟩
  | seq a b iha ihb =>
    refine ⟨?_, fun h _ w ht _ => triv h w ht⟩
    intro bt st st' h hp g
    simp only [linS, Res.bind_eq_ok] at h
    obtain ⟨s1, h1, h2⟩ := h
    simp only [PlainS, Bool.and_eq_true] at hp
    obtain ⟨a1, o1⟩ := iha.1 h1 hp.1 g
    obtain ⟨a2, o2⟩ := ihb.1 h2 hp.2 ⟨a1.wf g.wf, o1⟩
    refine ⟨(a1.trans a2).weaken ?_, o2⟩
    rintro i (hi | hi)
    · exact Or.inl hi
    · exact hi ▸ a1.cur
  | assign ts es =>
    refine ⟨?_, fun h _ w ht _ => triv h w ht⟩
    intro bt st st' h hp g
    simp only [PlainS, Bool.and_eq_true, List.all_eq_true] at hp
    exact assign_stp hρ h hp.1.1 hp.1.2 g
  | brk =>
    refine ⟨?_, fun h _ w ht _ => triv h w ht⟩
    intro bt st st' h hp g
    cases bt with
    | none => simp [linS] at h
    | some t =>
      simp only [linS, Res.ok.injEq] at h
      rw [instBr_open g.opn] at h
      have a1 := Stp.emit g.wf (Ins.br t)
      have w1 := a1.wf g.wf
      have a2 := Stp.bump w1 1
      have w2 := a2.wf w1
      have hl : (emit st (.br t)).nb < { emit st (Ins.br t) with nb := (emit st (Ins.br t)).nb + 1 }.nb :=
        Nat.lt_succ_self _
      have hcur := w1.cur
      subst h
      refine ⟨((a1.trans a2).trans (startBlock_stp w2 hl)).weaken ?_, ?_⟩
      · rintro i ((hi | hi) | hi | hi)
        · exact Or.inl hi
        · exact Or.inl hi
        · exact Or.inl hi
        · exact Or.inr (le_of_eq hi.symm)
      · exact (Good.start w2 hl (Nat.ne_of_gt hcur) (w1.emp _ le_rfl)).opn
  | whl c b ih =>
    refine ⟨?_, fun h _ w ht _ => triv h w ht⟩
    intro bt st st' h hp g
    simp only [linS, Res.bind_eq_ok] at h
    obtain ⟨s1, h1, s2, h2, h3⟩ := h
    simp only [PlainS, Bool.and_eq_true] at hp
    have hcur := g.wf.cur
    have a0 := Stp.bump g.wf 3
    have w0 := a0.wf g.wf
    have a1 := startBlock_stp w0 (b := st.nb) (by show st.nb < st.nb + 3; omega)
    have w1 := a1.wf w0
    obtain ⟨a2, t2⟩ := cond_stp hρ h1 w1
    have w2 := a2.wf w1
    have hn1 := startBlock_nb { st with nb := st.nb + 3 } st.nb
    have hc1 := startBlock_cur { st with nb := st.nb + 3 } st.nb
    dsimp only at hn1
    obtain ⟨k1, k2, _⟩ := loop_stp (t := st.nb) ih.1 hp.2 (fun g => ⟨.refl g.wf, g.opn⟩) h2 w2
      ((a1.trans a2).weaken (S' := fun i => i = st.cur ∨ st.nb ≤ i ∧ i < st.nb + 1) (by
        rintro i ((hi | hi) | hi)
        · exact Or.inl (Or.inl hi)
        · exact Or.inl (Or.inr (by omega))
        · exact Or.inl (Or.inr (by omega)))) rfl (by omega) (by omega) hcur
      ⟨g.wf.emp _ (by omega), g.wf.emp _ (by omega)⟩
    rw [← Res.ok.inj h3]
    refine ⟨(a0.trans k1).weaken ?_, k2⟩
    rintro i (hi | hi | hi)
    · exact Or.inl hi
    · exact Or.inl hi
    · exact Or.inr hi
  | rep b c ih =>
    refine ⟨?_, fun h _ w ht _ => triv h w ht⟩
    intro bt st st' h hp g
    obtain ⟨d, s1, n, s2, q, s3, s4, h1, h2, h3, _, _, h4, h5⟩ := linRep h
    simp only [PlainS, Bool.and_eq_true] at hp
    have hcur := g.wf.cur
    have a0 := Stp.bump g.wf 3
    have w0 := a0.wf g.wf
    have a1 := Stp.instBr w0 g.opn (st.nb + 1)
    have w1 := a1.wf w0
    have hc1 : (instBr { st with nb := st.nb + 3 } (st.nb + 1)).cur = st.cur := by
      rw [instBr_open (st := { st with nb := st.nb + 3 }) g.opn]; rfl
    have hn1 : (instBr { st with nb := st.nb + 3 } (st.nb + 1)).nb = st.nb + 3 := by
      rw [instBr_open (st := { st with nb := st.nb + 3 }) g.opn]; rfl
    have a2 := startBlock_stp w1 (b := st.nb) (by omega)
    have w2 := a2.wf w1
    obtain ⟨a3, t3⟩ := repCond_stp hρ (t := st.nb + 1) (f := st.nb + 2) w2 h1 h2 h3
    have w3 := a3.wf w2
    have hc2 := startBlock_cur (instBr { st with nb := st.nb + 3 } (st.nb + 1)) st.nb
    obtain ⟨k1, k2, _⟩ := loop_stp (t := st.nb) ih.1 hp.2 (fun g => ⟨.refl g.wf, g.opn⟩) h4 w3
      (((a1.trans a2).trans a3).weaken (S' := fun i => i = st.cur ∨ st.nb ≤ i ∧ i < st.nb + 1) (by
        rintro i ((hi | hi | hi) | hi)
        · exact Or.inl (Or.inl hi)
        · exact Or.inl (Or.inl (by omega))
        · exact Or.inl (Or.inr (by omega))
        · exact Or.inl (Or.inr (by omega)))) rfl (by omega) (by omega) hcur
      ⟨g.wf.emp _ (by omega), g.wf.emp _ (by omega)⟩
    rw [h5]
    refine ⟨(a0.trans k1).weaken ?_, k2⟩
    rintro i (hi | hi | hi)
    · exact Or.inl hi
    · exact Or.inl hi
    · exact Or.inr hi
  | forn x e1 e2 e3 b ih =>
    refine ⟨?_, fun h _ w ht _ => triv h w ht⟩
    intro bt st st' h hp g
    obtain ⟨_, ri, rl, rs, rt, rp, ps, N, s4, s5, s6, s7, s8, sT, s13, F⟩ := linFor h
    simp only [PlainS, Bool.and_eq_true] at hp
    obtain ⟨w4, _, _, _, _, a8, o8, w8, aT, wT⟩ := F.stp hρ g.wf
    have hN : N = 2 ∨ N = 3 := by
      rcases F.var with ⟨_, h, _⟩ | ⟨_, _, _, _, _, _, h, _⟩
      · exact Or.inl h
      · exact Or.inr h
    have hcur := w8.cur
    obtain ⟨k1, k2, _⟩ := loop_stp (t := s8.nb) ih.1 hp.2
      (fun g => ⟨.emit g.wf _, open_emit rfl⟩) F.body wT aT rfl (by omega) (by omega) hcur
      ⟨w8.emp _ (by omega), w8.emp _ (by omega)⟩
    have a9 : Stp (· = s8.cur) s8 (startBlock (instBr s13 s8.nb) (s8.nb + N + 1)) := by
      refine ((Stp.bump w8 (N + 2)).trans k1).weaken ?_
      rintro i (hi | hi | hi)
      · exact Or.inl hi
      · exact Or.inl hi
      · exact Or.inr hi
    rw [F.fin]
    refine ⟨Stp.frees ps (a8.andThen a9) F.nps, ?_⟩
    unfold Open
    have := foldl_free (P := P) freeP freeP_blocks ps (startBlock (instBr s13 s8.nb) (s8.nb + N + 1))
    rw [term_same this.1 this.2.2]
    exact k2
  | els b ih =>
    refine ⟨fun h => by simp [linS] at h, ?_⟩
    intro bt tru e st st' h hp w ht hb
    by_cases hs : b = .skip
    · subst hs
      exact triv h w ht
    · have hE : (Stm.els b).blks = 1 := by
        cases b <;> first | rfl | exact absurd rfl hs
      have h : (do
          let st ← linS Γ b bt (startBlock st tru)
          .ok (if terminated st then st else emit st (.br e))) = Res.ok st' := by
        cases b <;> first | exact h | exact absurd rfl hs
      simp only [Res.bind_eq_ok] at h
      obtain ⟨s1, h1, h2⟩ := h
      simp only [PlainS] at hp
      rw [hE] at hb ⊢
      obtain ⟨b1, b2, b3⟩ := hb tru le_rfl (by omega)
      obtain ⟨k1, k2, _⟩ := block_stp (e := e) ih.1 h1 hp w b1 b2 b3
      rw [k1] at h2
      rw [← Res.ok.inj h2]
      refine ⟨k2.weaken ?_, term_emit rfl⟩
      rintro i (hi | hi)
      · exact Or.inl (Or.inl hi)
      · exact Or.inl (Or.inr (by omega))
  | fin => exact ⟨fun h => by simp [linS] at h, fun h _ w ht _ => triv h w ht⟩
  | ite c b r ihb ihr =>
    have bodies : (∀ {bt tru e} {st st' : St P.F P.O}, linBodies Γ (.ite c b r) bt tru e st = .ok st' →
      PlainS Γ (.ite c b r) = true → Wf Γ st → terminated st = true →
      (∀ i, tru ≤ i → i < tru + (Stm.ite c b r).blks → i < st.nb ∧ i ≠ st.cur ∧ st.blocks i = []) →
      Stp (fun i => i = st.cur ∨ (tru ≤ i ∧ i < tru + (Stm.ite c b r).blks)) st st' ∧
        terminated st' = true) := by
      intro bt tru e st st' h hp w ht hb
      have hl : (Stm.ite c b r).blks = r.blks + 1 := by
        unfold Stm.blks
        show r.len + 1 + (if r.hasElse then 1 else 0) = _
        omega
      rw [hl] at hb ⊢
      simp only [linBodies, Res.bind_eq_ok] at h
      obtain ⟨s1, h1, h2⟩ := h
      simp only [PlainS, Bool.and_eq_true] at hp
      obtain ⟨b1, b2, b3⟩ := hb tru le_rfl (by omega)
      obtain ⟨k1, k2, _⟩ := block_stp (e := e) ihb.1 h1 hp.1.1.2 w b1 b2 b3
      rw [k1] at h2
      have hn2 := k2.nb
      have hc2 := k2.cur
      obtain ⟨k3, k4⟩ := ihr.2 h2 hp.1.2 (k2.wf w) (term_emit rfl) (by
        intro i hi hi'
        obtain ⟨c1, c2, c3⟩ := hb i (by omega) (by omega)
        exact ⟨by omega, by omega, by rw [k2.oth i c1 (by omega), c3]⟩)
      refine ⟨(k2.trans k3).weaken ?_, k4⟩
      intro i hi
      by_cases h' : i = st.cur ∨ tru ≤ i ∧ i < tru + (r.blks + 1)
      · exact Or.inl h'
      · exact Or.inr (by omega)
    refine ⟨?_, bodies⟩
    intro bt st st' h hp g
    obtain ⟨s1, s2, h1, h2, h3⟩ := linS_ite h
    have hcur := g.wf.cur
    have hl : (Stm.ite c b r).blks = r.len + 1 + (if r.hasElse then 1 else 0) := rfl
    have hl' : (Stm.ite c b r).len = r.len + 1 := rfl
    generalize hx : (if r.hasElse = true then 1 else 0) = x at *
    have a0 := Stp.bump g.wf (2 * (r.len + 1) + x + 1)
    have w0 := a0.wf g.wf
    rw [← Nat.add_assoc, ← Nat.add_assoc] at a0 w0
    obtain ⟨a1, t1⟩ := conds_stp hρ h1 w0 (by
      intro i hi hi'
      exact ⟨by show i < st.nb + 2 * (r.len + 1) + x + 1; omega, by show i ≠ st.cur; omega,
        g.wf.emp i hi⟩)
    have t1 := t1 (by omega)
    have w1 := a1.wf w0
    have hn1 := a1.nb
    have hc1 := a1.cur
    dsimp only at hn1 hc1
    have e1 : ∀ i, st.nb + (r.len + 1) ≤ i → i < st.nb + 2 * (r.len + 1) + x + 1 →
        s1.blocks i = [] := by
      intro i hi hi'
      rw [a1.oth i (by show i < st.nb + 2 * (r.len + 1) + x + 1; omega)
        (by show ¬ (i = st.cur ∨ _); omega)]
      exact g.wf.emp i (by omega)
    obtain ⟨a2, t2⟩ := bodies h2 hp w1 t1 (by
      intro i hi hi'
      exact ⟨by omega, by omega, e1 i hi (by omega)⟩)
    have w2 := a2.wf w1
    have hn2 := a2.nb
    have hc2 := a2.cur
    have a3 := startBlock_stp w2 (b := st.nb + 2 * (r.len + 1) + x) (by omega)
    rw [h3]
    refine ⟨(((a0.trans a1).trans a2).trans a3).weaken ?_,
      (Good.start w2 (by omega) (by omega) ?_).opn⟩
    · intro i hi
      dsimp only at hi
      by_cases h' : i = st.cur
      · exact Or.inl h'
      · exact Or.inr (by omega)
    · rw [a2.oth _ (by omega) (by omega)]
      exact e1 _ (by omega) (by omega)

end Verif.LinStmt
