import Verif.LinStmt.Ext

/-!
# The numeric `for`: registers, blocks and tests
-/
namespace Verif.LinStmt
open Verif.Lin

variable {P : Par} {Γ : Nat → LV} {ρ : Nat → P.V} {st st' : St P.F P.O}

/-! ## Registers -/

theorem allocL_ok {u r u'} (h : allocL u = .ok (r, u')) : r ∉ u ∧ u' = r :: u := by
  unfold allocL at h
  split at h
  · rename_i r' hf
    simp only [Res.ok.injEq, Prod.mk.injEq] at h
    obtain ⟨rfl, rfl⟩ := h
    have := List.find?_some hf
    simp only [Bool.not_eq_true', List.contains_eq_mem, decide_eq_false_iff_not] at this
    exact ⟨this, rfl⟩
  · cases h

theorem allocI_ok {q} (h : allocI st = .ok (q, st')) :
    ∃ r, q = .ti r false ∧ ¬ live st (.i, r) ∧ (∀ k, live st' k ↔ live st k ∨ k = (.i, r)) ∧
      st'.blocks = st.blocks ∧ st'.nb = st.nb ∧ st'.cur = st.cur := by
  simp only [allocI, Res.bind_eq_ok] at h
  obtain ⟨⟨r, u⟩, h1, h2⟩ := h
  simp only [Res.ok.injEq, Prod.mk.injEq] at h2
  obtain ⟨rfl, rfl⟩ := h2
  obtain ⟨h3, rfl⟩ := allocL_ok h1
  refine ⟨r, rfl, h3, ?_, rfl, rfl, rfl⟩
  rintro ⟨κ, r'⟩
  cases κ <;> simp [live, pool, or_comm]

theorem allocB_ok {q} (h : allocB st = .ok (q, st')) :
    ∃ r, q = .tb r ∧ ¬ live st (.i, r) ∧ (∀ k, live st' k ↔ live st k ∨ k = (.i, r)) ∧
      st'.blocks = st.blocks ∧ st'.nb = st.nb ∧ st'.cur = st.cur := by
  simp only [allocB, Res.bind_eq_ok] at h
  obtain ⟨⟨r, u⟩, h1, h2⟩ := h
  simp only [Res.ok.injEq, Prod.mk.injEq] at h2
  obtain ⟨rfl, rfl⟩ := h2
  obtain ⟨h3, rfl⟩ := allocL_ok h1
  refine ⟨r, rfl, h3, ?_, rfl, rfl, rfl⟩
  rintro ⟨κ, r'⟩
  cases κ <;> simp [live, pool, or_comm]

/-! ## Blocks -/

theorem Stp.andThen {st'' : St P.F P.O} (a : Stp (· = st.cur) st st')
    (b : Stp (· = st'.cur) st' st'') : Stp (· = st.cur) st st'' :=
  (a.trans b).weaken (by
    have := a.cur
    rintro i (hi | hi)
    · exact Or.inl hi
    · rw [hi]; exact this)

theorem front_stp (hρ : ∀ x, HasTy (Γ x).ty (ρ x)) {e1 e2 : Exp P.F P.O} {e3}
    {s4 s5 s6 s7 : St P.F P.O} {a b c} (h1 : linTo Γ e1 a s4 = .ok s5)
    (h2 : linTo Γ e2 b s5 = .ok s6) (h3 : linStep Γ e3 c s6 = .ok s7) (w : Wf Γ s4) :
    Stp (· = s4.cur) s4 s5 ∧ Stp (· = s5.cur) s5 s6 ∧ Stp (· = s6.cur) s6 s7 ∧ Open s7 := by
  obtain ⟨a1, _⟩ := linTo_stp hρ h1 w
  have w1 := a1.wf w
  obtain ⟨a2, _⟩ := linTo_stp hρ h2 w1
  obtain ⟨a3, o3⟩ := linStep_stp hρ h3 (a2.wf w1)
  exact ⟨a1, a2, a3, o3⟩

/-- The value of the loop gets the step added, in a block of its own. -/
def head {F O : Type} (n : Nat) (iv stp : Ps F O) (st : St F O) : St F O :=
  emit (startBlock { st with nb := st.nb + n } st.nb) (.bin (.ar .add .ii) iv stp iv)

theorem head_stp {n : Nat} {iv stp : Ps P.F P.O} (w : Wf Γ st) (hn : 0 < n) :
    Stp (fun i => i = st.cur ∨ i = st.nb) { st with nb := st.nb + n } (head n iv stp st) ∧
    Open (head n iv stp st) ∧ (head n iv stp st).cur = st.nb ∧
    (head n iv stp st).nb = st.nb + n := by
  have w0 := (Stp.bump w n).wf w
  have a1 := startBlock_stp w0 (b := st.nb) (by show st.nb < st.nb + n; omega)
  have a2 := Stp.emit (a1.wf w0) (.bin (.ar .add .ii) iv stp iv)
  have hc := startBlock_cur { st with nb := st.nb + n } st.nb
  refine ⟨(a1.trans a2).weaken ?_, open_emit rfl, rfl, startBlock_nb _ _⟩
  rintro i (hi | hi)
  · exact Or.inl hi
  · exact Or.inl (Or.inr (hi.trans hc))

theorem linTest_stp {a b stop : Ps P.F P.O} {e k} (w : Wf Γ st) :
    Stp (· = st.cur) st (linTest a b stop e k st) ∧ terminated (linTest a b stop e k st) = true ∧
    (linTest a b stop e k st).cur = st.cur ∧ (linTest a b stop e k st).nb = st.nb := by
  have a1 := Stp.emit w (.bin (.cm .lt .ii) a b stop)
  exact ⟨a1.andThen (.emit (a1.wf w) _), term_emit rfl, rfl, rfl⟩

/-- All of the test if the step is known to be positive. -/
def headP {F O : Type} (iv lim stp stop : Ps F O) (st : St F O) : St F O :=
  linTest lim iv stop (st.nb + 3) (st.nb + 2)
    (startBlock (instBr (head 4 iv stp st) (st.nb + 1)) (st.nb + 1))

/-- All of the test otherwise. -/
def headN {F O : Type} (iv lim stp pos stop : Ps F O) (st : St F O) : St F O :=
  linTest iv lim stop (st.nb + 4) (st.nb + 3) (startBlock
    (linTest lim iv stop (st.nb + 4) (st.nb + 3)
      (startBlock (emit (head 5 iv stp st) (.cbr pos (st.nb + 1) (st.nb + 2))) (st.nb + 1)))
    (st.nb + 2))

theorem headP_stp {iv lim stp stop : Ps P.F P.O} (w : Wf Γ st) :
    Stp (fun i => i = st.cur ∨ st.nb ≤ i ∧ i < st.nb + 2) { st with nb := st.nb + 4 }
      (headP iv lim stp stop st) ∧ Wf Γ (headP iv lim stp stop st) := by
  have w0 := (Stp.bump w 4).wf w
  obtain ⟨a1, o1, c1, n1⟩ := head_stp (iv := iv) (stp := stp) w (n := 4) (by omega)
  have w1 := a1.wf w0
  have a2 := Stp.emit w1 (.br (st.nb + 1))
  rw [← instBr_open o1] at a2
  have w2 := a2.wf w1
  have hc2 : (instBr (head 4 iv stp st) (st.nb + 1)).cur = st.nb := by rw [instBr_open o1]; exact c1
  have hn2 : (instBr (head 4 iv stp st) (st.nb + 1)).nb = st.nb + 4 := by
    rw [instBr_open o1]; exact n1
  have a3 := startBlock_stp w2 (b := st.nb + 1) (by omega)
  have w3 := a3.wf w2
  obtain ⟨a4, _⟩ := linTest_stp (a := lim) (b := iv) (stop := stop) (e := st.nb + 3) (k := st.nb + 2) w3
  have a := ((a1.trans a2).trans a3).trans a4
  refine ⟨a.weaken ?_, a.wf w0⟩
  have hc3 := startBlock_cur (instBr (head 4 iv stp st) (st.nb + 1)) (st.nb + 1)
  intro i hi
  refine Or.inl ?_
  omega

theorem headN_stp {iv lim stp pos stop : Ps P.F P.O} (w : Wf Γ st) :
    Stp (fun i => i = st.cur ∨ st.nb ≤ i ∧ i < st.nb + 3) { st with nb := st.nb + 5 }
      (headN iv lim stp pos stop st) ∧ Wf Γ (headN iv lim stp pos stop st) := by
  have w0 := (Stp.bump w 5).wf w
  obtain ⟨a1, o1, c1, n1⟩ := head_stp (iv := iv) (stp := stp) w (n := 5) (by omega)
  have w1 := a1.wf w0
  have a2 := Stp.emit w1 (.cbr pos (st.nb + 1) (st.nb + 2))
  have w2 := a2.wf w1
  have hc2 : (emit (head 5 iv stp st) (.cbr pos (st.nb + 1) (st.nb + 2))).cur = st.nb := c1
  have hn2 : (emit (head 5 iv stp st) (.cbr pos (st.nb + 1) (st.nb + 2))).nb = st.nb + 5 := n1
  have a3 := startBlock_stp w2 (b := st.nb + 1) (by omega)
  have w3 := a3.wf w2
  have hc3 := startBlock_cur (emit (head 5 iv stp st) (.cbr pos (st.nb + 1) (st.nb + 2))) (st.nb + 1)
  have hn3 := startBlock_nb (emit (head 5 iv stp st) (.cbr pos (st.nb + 1) (st.nb + 2))) (st.nb + 1)
  obtain ⟨a4, _, c4, n4⟩ := linTest_stp (a := lim) (b := iv) (stop := stop) (e := st.nb + 4) (k := st.nb + 3) w3
  have w4 := a4.wf w3
  have a5 := startBlock_stp w4 (b := st.nb + 2) (by omega)
  have w5 := a5.wf w4
  have hc5 := startBlock_cur (linTest lim iv stop (st.nb + 4) (st.nb + 3)
      (startBlock (emit (head 5 iv stp st) (.cbr pos (st.nb + 1) (st.nb + 2))) (st.nb + 1))) (st.nb + 2)
  obtain ⟨a6, _⟩ := linTest_stp (a := iv) (b := lim) (stop := stop) (e := st.nb + 4) (k := st.nb + 3) w5
  have a := ((((a1.trans a2).trans a3).trans a4).trans a5).trans a6
  refine ⟨a.weaken ?_, a.wf w0⟩
  intro i hi
  refine Or.inl ?_
  omega

theorem startBlock_freeP (st : St P.F P.O) (q : Ps P.F P.O) (b : Nat) :
    startBlock (freeP st q) b = freeP (startBlock st b) q := by
  unfold startBlock
  rw [term_same (freeP_blocks st q).1 (freeP_blocks st q).2.2]
  by_cases h : terminated st = true
  · simp only [h, if_true]
    rcases q with _ | ⟨s, _ | _⟩ | ⟨s, _ | _⟩ | s | s | _ <;> rfl
  · simp only [h, Bool.false_eq_true, if_false]
    rcases q with _ | ⟨s, _ | _⟩ | ⟨s, _ | _⟩ | s | s | _ <;> rfl

theorem startBlock_frees (b : Nat) : ∀ (ps : List (Ps P.F P.O)) (st : St P.F P.O),
    startBlock (ps.foldl freeP st) b = ps.foldl freeP (startBlock st b)
  | [], _ => rfl
  | q :: ps, st => by
    rw [List.foldl_cons, startBlock_frees b ps, startBlock_freeP]
    rfl

theorem Stp.frees {S : Nat → Prop} : ∀ (ps : List (Ps P.F P.O)) {st' : St P.F P.O},
    Stp S st st' → (∀ q ∈ ps, ∀ k, fk q = some k → ¬ live st k) → Stp S st (ps.foldl Lin.freeP st')
  | [], _, h, _ => h
  | q :: ps, st', h, hq => Stp.frees ps (h.freeP (hq q (List.mem_cons_self ..)))
      fun q' hq' => hq q' (List.mem_cons_of_mem _ hq')

/-- The code of a numeric `for`: `ri`, `rl`, `rs` are the registers of value, limit and step, `rt`
and `rp` of the truth values; its blocks are `s8.nb` to `s8.nb + N + 1`, the last two for the body
and the end. -/
structure ForS (Γ : Nat → LV) (x : Nat) (e1 e2 : Exp P.F P.O) (e3 : Option (Exp P.F P.O))
    (b : Stm P.F P.O) (st st' : St P.F P.O) (ri rl rs rt rp : Nat) (ps : List (Ps P.F P.O))
    (N : Nat) (s4 s5 s6 s7 s8 sT s13 : St P.F P.O) : Prop where
  new : ¬ live st (.i, ri) ∧ ¬ live st (.i, rl) ∧ ¬ live st (.i, rs) ∧ ¬ live st (.i, rt)
  ne : ri ≠ rl ∧ ri ≠ rs ∧ rl ≠ rs ∧ rt ≠ ri ∧ rt ≠ rl ∧ rt ≠ rs
  nps : ∀ q ∈ ps, ∀ k, fk q = some k → ¬ live st k
  liv : live s4 (.i, ri) ∧ live s4 (.i, rl) ∧ live s4 (.i, rs)
  sub : ∀ k, live st k → live s4 k
  same : s4.blocks = st.blocks ∧ s4.nb = st.nb ∧ s4.cur = st.cur
  h5 : linTo Γ e1 (.ti ri false) s4 = .ok s5
  h6 : linTo Γ e2 (.ti rl false) s5 = .ok s6
  h7 : linStep Γ e3 (.ti rs false) s6 = .ok s7
  var : (posStep e3 = true ∧ N = 2 ∧
      s8 = emit s7 (.bin (.ar .sub .ii) (.ti ri false) (.ti rs false) (.ti ri false)) ∧
      sT = headP (.ti ri false) (.ti rl false) (.ti rs false) (.tb rt) s8) ∨
    (¬ live st (.i, rp) ∧ live s4 (.i, rp) ∧ rp ≠ ri ∧ rp ≠ rl ∧ rp ≠ rs ∧ rp ≠ rt ∧ N = 3 ∧
      s8 = emit (emit s7 (.bin (.cm .lt .ii) (.kc (.int 0)) (.ti rs false) (.tb rp)))
        (.bin (.ar .sub .ii) (.ti ri false) (.ti rs false) (.ti ri false)) ∧
      sT = headN (.ti ri false) (.ti rl false) (.ti rs false) (.tb rp) (.tb rt) s8)
  body : linS Γ b (some (s8.nb + N + 1))
    (emit (startBlock sT (s8.nb + N)) (.mov (.ti ri false) (Γ x).ps)) = .ok s13
  fin : st' = ps.foldl freeP (startBlock (instBr s13 s8.nb) (s8.nb + N + 1))

theorem linFor {x : Nat} {e1 e2 : Exp P.F P.O} {e3 b bt}
    (h : linS Γ (.forn x e1 e2 e3 b) bt st = .ok st') : forInt Γ e1 e2 e3 = true ∧
    ∃ ri rl rs rt rp ps N s4 s5 s6 s7 s8 sT s13,
      ForS Γ x e1 e2 e3 b st st' ri rl rs rt rp ps N s4 s5 s6 s7 s8 sT s13 := by
  simp only [linS] at h
  split at h
  swap
  · cases h
  rename_i hi
  refine ⟨hi, ?_⟩
  split at h
  · rename_i hp
    simp only [Res.bind_eq_ok] at h
    obtain ⟨⟨iv, s1⟩, h1, ⟨lim, s2⟩, h2, ⟨stp, s3⟩, h3, ⟨stop, s4⟩, h4, s5, h5, s6, h6, s7, h7,
      s13, h8, h9⟩ := h
    dsimp only at h2 h3 h4 h5 h6 h7 h8 h9
    obtain ⟨ri, rfl, n1, l1, b1⟩ := allocI_ok h1
    obtain ⟨rl, rfl, n2, l2, b2⟩ := allocI_ok h2
    obtain ⟨rs, rfl, n3, l3, b3⟩ := allocI_ok h3
    obtain ⟨rt, rfl, n4, l4, b4⟩ := allocB_ok h4
    simp only [l1, l2, l3, l4, not_or, Prod.mk.injEq, true_and] at n2 n3 n4
    refine ⟨ri, rl, rs, rt, 0, [.tb rt, .ti rs false, .ti rl false, .ti ri false], 2, s4, s5, s6, s7, _,
      _, s13, ⟨n1, n2.1, n3.1.1, n4.1.1.1⟩, by omega, ?_, ?_, ?_, ?_, h5, h6, h7,
      Or.inl ⟨hp, rfl, rfl, rfl⟩, h8, ?_⟩
    · simp only [List.mem_cons, List.not_mem_nil, or_false]
      rintro q (rfl | rfl | rfl | rfl) k hk <;> cases hk
      · exact n4.1.1.1
      · exact n3.1.1
      · exact n2.1
      · exact n1
    · simp only [l1, l2, l3, l4]; simp
    · intro k hk; simp only [l1, l2, l3, l4]; simp [hk]
    · rw [b4.1, b4.2.1, b4.2.2, b3.1, b3.2.1, b3.2.2, b2.1, b2.2.1, b2.2.2, b1.1, b1.2.1, b1.2.2]
      exact ⟨rfl, rfl, rfl⟩
    · rw [← startBlock_frees]
      exact (Res.ok.inj h9).symm
  · simp only [Res.bind_eq_ok] at h
    obtain ⟨⟨iv, s1⟩, h1, ⟨lim, s2⟩, h2, ⟨stp, s3⟩, h3, ⟨pos, s3'⟩, h4', ⟨stop, s4⟩, h4, s5, h5,
      s6, h6, s7, h7, s13, h8, h9⟩ := h
    dsimp only at h2 h3 h4' h4 h5 h6 h7 h8 h9
    obtain ⟨ri, rfl, n1, l1, b1⟩ := allocI_ok h1
    obtain ⟨rl, rfl, n2, l2, b2⟩ := allocI_ok h2
    obtain ⟨rs, rfl, n3, l3, b3⟩ := allocI_ok h3
    obtain ⟨rp, rfl, n5, l5, b5⟩ := allocB_ok h4'
    obtain ⟨rt, rfl, n4, l4, b4⟩ := allocB_ok h4
    simp only [l1, l2, l3, l4, l5, not_or, Prod.mk.injEq, true_and] at n2 n3 n4 n5
    refine ⟨ri, rl, rs, rt, rp, [.tb rt, .tb rp, .ti rs false, .ti rl false, .ti ri false], 3, s4, s5,
      s6, s7, _, _, s13, ⟨n1, n2.1, n3.1.1, n4.1.1.1.1⟩, by omega, ?_, ?_, ?_, ?_, h5, h6, h7,
      Or.inr ⟨n5.1.1.1, ?_, by omega, by omega, by omega, by omega, rfl, rfl, rfl⟩, h8, ?_⟩
    · simp only [List.mem_cons, List.not_mem_nil, or_false]
      rintro q (rfl | rfl | rfl | rfl | rfl) k hk <;> cases hk
      · exact n4.1.1.1.1
      · exact n5.1.1.1
      · exact n3.1.1
      · exact n2.1
      · exact n1
    · simp only [l1, l2, l3, l4, l5]; simp
    · intro k hk; simp only [l1, l2, l3, l4, l5]; simp [hk]
    · rw [b4.1, b4.2.1, b4.2.2, b5.1, b5.2.1, b5.2.2, b3.1, b3.2.1, b3.2.2, b2.1, b2.2.1, b2.2.2,
        b1.1, b1.2.1, b1.2.2]
      exact ⟨rfl, rfl, rfl⟩
    · simp only [l1, l2, l3, l4, l5]; simp
    · rw [← startBlock_frees]
      exact (Res.ok.inj h9).symm

/-- Blocks of the code before the body. -/
theorem ForS.stp (hρ : ∀ x, HasTy (Γ x).ty (ρ x)) {x : Nat} {e1 e2 : Exp P.F P.O} {e3 b ri rl rs rt rp ps N}
    {s4 s5 s6 s7 s8 sT s13 : St P.F P.O}
    (h : ForS Γ x e1 e2 e3 b st st' ri rl rs rt rp ps N s4 s5 s6 s7 s8 sT s13) (w : Wf Γ st) :
    Wf Γ s4 ∧ Stp (· = s4.cur) s4 s5 ∧ Stp (· = s5.cur) s5 s6 ∧ Stp (· = s6.cur) s6 s7 ∧
    Stp (· = s7.cur) s7 s8 ∧ Stp (· = st.cur) st s8 ∧ Open s8 ∧ Wf Γ s8 ∧
    Stp (fun i => i = s8.cur ∨ s8.nb ≤ i ∧ i < s8.nb + N) { s8 with nb := s8.nb + N + 2 } sT ∧
    Wf Γ sT := by
  have a0 : Stp (· = st.cur) st s4 := .of w (.same h.same) h.sub
  have w4 := a0.wf w
  obtain ⟨a1, a2, a3, o3⟩ := front_stp hρ h.h5 h.h6 h.h7 w4
  have a47 := (a0.andThen a1).andThen (a2.andThen a3)
  have w7 := a47.wf w
  rcases h.var with ⟨_, rfl, rfl, rfl⟩ | ⟨_, _, _, _, _, _, rfl, rfl, rfl⟩
  · have a4 := Stp.emit w7 (.bin (.ar .sub .ii) (.ti ri false) (.ti rs false) (.ti ri false))
    have w8 := a4.wf w7
    obtain ⟨a5, w5⟩ := headP_stp (iv := .ti ri false) (lim := .ti rl false) (stp := .ti rs false)
      (stop := .tb rt) w8
    exact ⟨w4, a1, a2, a3, a4, a47.andThen a4, open_emit rfl, w8, a5, w5⟩
  · have a4' := Stp.emit w7 (.bin (.cm .lt .ii) (.kc (.int 0)) (.ti rs false) (.tb rp))
    have w8' := a4'.wf w7
    have a4 := Stp.emit w8' (.bin (.ar .sub .ii) (.ti ri false) (.ti rs false) (.ti ri false))
    have w8 := a4.wf w8'
    obtain ⟨a5, w5⟩ := headN_stp (iv := .ti ri false) (lim := .ti rl false) (stp := .ti rs false)
      (pos := .tb rp) (stop := .tb rt) w8
    exact ⟨w4, a1, a2, a3, a4'.andThen a4, a47.andThen (a4'.andThen a4), open_emit rfl, w8, a5, w5⟩

end Verif.LinStmt
