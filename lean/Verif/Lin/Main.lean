import Verif.Lin.Sim

/-!
# The simulation
-/
namespace Verif.Lin

variable {P : Par}

/-- The register belongs to a local variable. -/
def IsLoc (P : Par) (Γ : Nat → LV) (k : K × Nat) : Prop :=
  ∃ x, use (F := P.F) (O := P.O) (Γ x).ps = some k

/-- A state of the linearizer in the middle of a function: the registers of the variables are in
use, blocks not yet created are empty. -/
structure Wf (Γ : Nat → LV) (st : St P.F P.O) : Prop where
  loc : ∀ k, IsLoc P Γ k → live st k
  cur : st.cur < st.nb
  emp : ∀ b, st.nb ≤ b → st.blocks b = []

theorem Wf.ext {Γ : Nat → LV} {st st' : St P.F P.O} (h : Wf Γ st) (e : BExt st st')
    (hl : ∀ k, live st k → live st' k) : Wf Γ st' :=
  ⟨fun k hk => hl k (h.loc k hk), e.lt h.cur, e.emp h.cur h.emp⟩

/-- The variables have the values that `ρ` says. -/
def Locals (Γ : Nat → LV) (ρ : Nat → P.V) (M : Mach P) : Prop := ∀ x, rd P M (Γ x).ps = ρ x

theorem Locals.frame {Γ : Nat → LV} {ρ : Nat → P.V} {st : St P.F P.O} {M M' : Mach P}
    (h : Locals Γ ρ M) (hw : Wf Γ st) (hf : Frame st M M') : Locals Γ ρ M' :=
  fun x => (hf _ fun k hk => hw.loc k ⟨x, hk⟩).trans (h x)

/-- What holds of the code of an expression. -/
structure Sim (Γ : Nat → LV) (ρ : Nat → P.V) (e : Exp P.F P.O) (st : St P.F P.O)
    (n : Pn P.F P.O) (st' : St P.F P.O) : Prop where
  ext : BExt st st'
  sub : ∀ k, live st k → live st' k
  ok : OkN st' n
  new : ∀ k, k ∈ fks n → ¬ live st k
  loc : ∀ k, k ∈ uses n → k ∈ fks n ∨ IsLoc P Γ k
  ty : NTy (typ Γ e) n
  exe : ∀ (g : Prog P) (M : Mach P), Covers g st' → Locals Γ ρ M →
    Exe g (here st M) st' (evalC Γ ρ e M.s) (fun y M' => pnv M' n = y.1 ∧ M'.s = y.2 ∧
      Frame st M M')

theorem operand_rdable {t : Ty} {st : St P.F P.O} {n q st'} (h : operand st n = .ok (q, st'))
    (hn : NTy t n) : Rdable t q := by
  rcases n with p | ⟨c, k⟩
  · simp only [operand, Res.ok.injEq, Prod.mk.injEq] at h
    obtain ⟨rfl, rfl⟩ := h
    exact hn
  · exact Rdable.triv hn.1 hn.2

theorem live_tofree {F O : Type} {st : St F O} {n : Pn F O} {q : Ps F O} {k} (h : live st k)
    (hq : fk q ≠ some k) : live (tofree st n q) k := by
  rcases n with _ | _
  · exact h
  · exact (live_freeP _ _ _).2 ⟨h, hq⟩

theorem here_same {st st' : St P.F P.O} (h1 : st'.blocks = st.blocks) (h2 : st'.cur = st.cur)
    (M : Mach P) : here st' M = here st M := by simp only [here, h1, h2]

/-- An operand is evaluated and used by one instruction that writes `t`. -/
theorem unary {Γ : Nat → LV} {ρ : Nat → P.V} (hρ : ∀ x, HasTy (Γ x).ty (ρ x)) {a : Exp P.F P.O}
    {s0 s1 s2 S : St P.F P.O} {n q t x} {f : P.V → P.S → Res (P.V × P.S)}
    (hwf : Wf Γ s0) (A : Sim Γ ρ a s0 n s1) (hq : operand s1 n = .ok (q, s2))
    (hb : S.blocks = (emit s2 x).blocks ∧ S.nb = (emit s2 x).nb ∧ S.cur = (emit s2 x).cur)
    (hl : ∀ k, live s2 k → k ∉ fks n → fk q ≠ some k → live S k)
    (hj : x.jump = false)
    (hx : ∀ M : Mach P, HasTy (typ Γ a) (rd P M q) → Wr M t (f (rd P M q) M.s) (exIns P M x)) :
    BExt s0 S ∧ (∀ k, live s0 k → live S k) ∧
    ∀ (g : Prog P) (M : Mach P), Covers g S → Locals Γ ρ M →
      Exe g (here s0 M) S (do
        let (w, s) ← evalC Γ ρ a M.s
        let (v, s) ← force w s
        f v s) (fun y M' => rd P M' t = y.1 ∧ M'.s = y.2 ∧
          ∀ q', Ok s0 q' → use q' ≠ use t → rd P M' q' = rd P M q') := by
  obtain ⟨o1, o2, o3, o4, o5, _⟩ := operand_st hq A.ok
  have e2 : BExt s2 S := (BExt.emit s2 x).trans (BExt.same hb)
  have hfree : ∀ k, live s0 k → live (freeN s1 n) k := fun k hk =>
    (live_freeN _ _ _).2 ⟨A.sub k hk, fun h => A.new k h hk⟩
  have hsub2 : ∀ k, live s0 k → live s2 k := fun k hk => o2 k (hfree k hk)
  refine ⟨(A.ext.trans o1).trans e2, ?_, ?_⟩
  · intro k hk
    exact hl k (hsub2 k hk) (fun h => A.new k h hk) (fun h => o4 k h (hfree k hk))
  · intro g M hc hL
    have hc' : Covers g (emit s2 x) := fun b => by rw [← hb.1]; exact hc b
    have hc2 : Covers g s2 := hc.mono e2
    refine Exe.bind (A.exe g M (hc2.mono o1) hL) ?_
    rintro ⟨w, s⟩ M1 hw ⟨p1, p2, p3⟩
    dsimp only at p1 p2
    subst p1; subst p2
    dsimp only
    refine Exe.bind (operand_exe hq A.ok hc2 M1) ?_
    rintro ⟨v, s⟩ M2 hv ⟨r1, r2, r3⟩
    dsimp only at r1 r2
    subst r1; subst r2
    dsimp only
    have hty := force_ty (evalC_ty hρ _ _ _ _ hw) hv
    refine Exe.same hb ((exe_ins hc' hj (hx M2 hty)).imp ?_)
    rintro ⟨v, s⟩ M3 _ ⟨u1, u2, u3⟩
    refine ⟨u1, u2, ?_⟩
    intro q' hq' hne
    rw [u3 q' hne, r3 q' fun k hk => hfree k (hq' k hk), p3 q' hq']

/-- Two operands are used by one instruction that writes `t`. -/
theorem binary {s2 s3 s4 S : St P.F P.O} {m1 m2 q1 q2 t x} {f : P.V → P.V → P.S → Res (P.V × P.S)}
    {t1 t2 : Ty} (h1 : OkN s2 m1) (h2 : OkN s2 m2)
    (d12 : ∀ k, k ∈ uses m1 → k ∉ fks m2) (d21 : ∀ k, k ∈ uses m2 → k ∉ fks m1)
    (hq1 : operand s2 m1 = .ok (q1, s3)) (hq2 : operand s3 m2 = .ok (q2, s4))
    (hb : S.blocks = (emit s4 x).blocks ∧ S.nb = (emit s4 x).nb ∧ S.cur = (emit s4 x).cur)
    (hl : ∀ k, live s4 k → k ∉ fks m1 → k ∉ fks m2 → fk q1 ≠ some k → fk q2 ≠ some k → live S k)
    (hj : x.jump = false)
    (hx : ∀ M : Mach P, HasTy t1 (rd P M q1) → HasTy t2 (rd P M q2) →
      Wr M t (f (rd P M q1) (rd P M q2) M.s) (exIns P M x)) :
    BExt s2 S ∧ (∀ k, live s2 k → k ∉ fks m1 → k ∉ fks m2 → live S k) ∧
    ∀ (g : Prog P) (M : Mach P), Covers g S → WTy t1 (pnv M m1) → WTy t2 (pnv M m2) →
      Exe g (here s2 M) S (do
        let (v, s) ← force (pnv M m1) M.s
        let (w, s) ← force (pnv M m2) s
        f v w s) (fun y M' => rd P M' t = y.1 ∧ M'.s = y.2 ∧
          ∀ q', Ok s2 q' → (∀ k, use q' = some k → k ∉ fks m1 ∧ k ∉ fks m2) → use q' ≠ use t →
            rd P M' q' = rd P M q') := by
  obtain ⟨o1, o2, o3, o4, o5, _⟩ := operand_st hq1 h1
  have h2' : OkN (freeN s2 m1) m2 := fun k hk => (live_freeN _ _ _).2 ⟨h2 k hk, d21 k hk⟩
  have h2'' : OkN s3 m2 := fun k hk => o2 k (h2' k hk)
  obtain ⟨p1, p2, p3, p4, p5, _⟩ := operand_st hq2 h2''
  have e2 : BExt s4 S := (BExt.emit s4 x).trans (BExt.same hb)
  have f3 : ∀ k, live s2 k → k ∉ fks m1 → live (freeN s2 m1) k := fun k hk h =>
    (live_freeN _ _ _).2 ⟨hk, h⟩
  have f4 : ∀ k, live s2 k → k ∉ fks m1 → k ∉ fks m2 → live (freeN s3 m2) k := fun k hk h h' =>
    (live_freeN _ _ _).2 ⟨o2 k (f3 k hk h), h'⟩
  -- the first operand survives the load of the second
  have okq1 : Ok (freeN s3 m2) q1 := by
    intro k hk
    refine (live_freeN _ _ _).2 ⟨o3 k hk, ?_⟩
    rcases o5 k hk with h | h
    · exact d12 k h
    · intro h'
      exact o4 k h (h2' k (fks_uses h'))
  refine ⟨(o1.trans p1).trans e2, ?_, ?_⟩
  · intro k hk k1 k2
    refine hl k (p2 k (f4 k hk k1 k2)) k1 k2 (fun h => o4 k h (f3 k hk k1)) (fun h => p4 k h (f4 k hk k1 k2))
  · intro g M hc w1 w2
    have hc' : Covers g (emit s4 x) := fun b => by rw [← hb.1]; exact hc b
    have hc4 : Covers g s4 := hc.mono e2
    refine Exe.bind (operand_exe hq1 h1 (hc4.mono p1) M) ?_
    rintro ⟨v, s⟩ M2 hv ⟨r1, r2, r3⟩
    dsimp only at r1 r2
    subst r1; subst r2
    dsimp only
    rw [← r3.pnv h2']
    refine Exe.bind (operand_exe hq2 h2'' hc4 M2) ?_
    rintro ⟨w, s⟩ M3 hw ⟨z1, z2, z3⟩
    dsimp only at z1 z2
    subst z1; subst z2
    dsimp only
    have ty1 := force_ty w1 hv
    have ty2 : HasTy t2 (rd P M3 q2) := force_ty (by rw [r3.pnv h2']; exact w2) hw
    rw [← z3 q1 okq1] at ty1 ⊢
    refine Exe.same hb ((exe_ins hc' hj (hx M3 ty1 ty2)).imp ?_)
    rintro ⟨v, s⟩ M4 _ ⟨u1, u2, u3⟩
    refine ⟨u1, u2, ?_⟩
    intro q' hq' hnk hne
    rw [u3 q' hne, z3 q' fun k hk => f4 k (hq' k hk) (hnk k hk).1 (hnk k hk).2,
      r3 q' fun k hk => f3 k (hq' k hk) (hnk k hk).1]

theorem sim_leaf {Γ : Nat → LV} {ρ : Nat → P.V} {e : Exp P.F P.O} {st : St P.F P.O} {q}
    (hok : Ok st q) (hfk : fk q = none) (hloc : ∀ k, use q = some k → IsLoc P Γ k)
    (hty : Rdable (typ Γ e) q)
    (hv : ∀ M : Mach P, Locals Γ ρ M → evalC Γ ρ e M.s = .ok (.v (rd P M q), M.s)) :
    Sim Γ ρ e st (.p q) st := by
  refine ⟨.refl _, fun _ => id, ?_, ?_, ?_, hty, ?_⟩
  · intro k hk; exact hok k (by simpa [uses] using hk)
  · intro k hk; simp [fks, hfk] at hk
  · intro k hk; exact Or.inr (hloc k (by simpa [uses] using hk))
  · intro g M _ hL
    rw [hv M hL]
    exact Exe.ok ⟨rfl, rfl, .refl _ _⟩

theorem sim_idx {Γ : Nat → LV} {ρ : Nat → P.V} {e k : Exp P.F P.O} {st s1 s2 s3 s4 : St P.F P.O}
    {n m c d} (hwf : Wf Γ st) (A : Sim Γ ρ e st n s1) (hc : operand s1 n = .ok (c, s2))
    (B : Wf Γ s2 → Sim Γ ρ k s2 m s3) (hd : operand s3 m = .ok (d, s4)) :
    Sim Γ ρ (.idx e k) st (.idx c d) s4 := by
  obtain ⟨o1, o2, o3, o4, _, o6⟩ := operand_st hc A.ok
  have hfree : ∀ k, live st k → live (freeN s1 n) k := fun k hk =>
    (live_freeN _ _ _).2 ⟨A.sub k hk, fun h => A.new k h hk⟩
  have sub2 : ∀ k, live st k → live s2 k := fun k hk => o2 k (hfree k hk)
  have B := B (hwf.ext (A.ext.trans o1) sub2)
  obtain ⟨p1, p2, p3, p4, _, p6⟩ := operand_st hd B.ok
  have hfree3 : ∀ k, live s2 k → live (freeN s3 m) k := fun k hk =>
    (live_freeN _ _ _).2 ⟨B.sub k hk, fun h => B.new k h hk⟩
  have okc : Ok (freeN s3 m) c := fun k hk => hfree3 k (o3 k hk)
  refine ⟨((A.ext.trans o1).trans B.ext).trans p1, fun k hk => p2 k (hfree3 k (sub2 k hk)), ?_, ?_,
    ?_, ⟨by simp [typ], by simp [typ]⟩, ?_⟩
  · intro x hx
    simp only [uses, List.mem_append, Option.mem_toList] at hx
    rcases hx with hx | hx
    · exact p2 x (okc x hx)
    · exact p3 x hx
  · intro x hx hl
    simp only [fks, List.mem_append, Option.mem_toList] at hx
    rcases hx with hx | hx
    · exact o4 x hx (hfree x hl)
    · exact p4 x hx (hfree3 x (sub2 x hl))
  · have aux : ∀ {q : Ps P.F P.O} {n : Pn P.F P.O} {x}, (n = .p q ∨ ∃ r, q = .ta r) →
        (∀ k, k ∈ uses n → k ∈ fks n ∨ IsLoc P Γ k) → use q = some x →
        fk q = some x ∨ IsLoc P Γ x := by
      rintro q n x (rfl | ⟨r, rfl⟩) h hx
      · exact (h x (by simp [uses, hx])).imp (fun h => by simpa [fks] using h) id
      · exact Or.inl hx
    intro x hx
    simp only [uses, List.mem_append, Option.mem_toList] at hx
    simp only [fks, List.mem_append, Option.mem_toList]
    rcases hx with hx | hx
    · exact (aux o6 A.loc hx).imp Or.inl id
    · exact (aux p6 B.loc hx).imp Or.inr id
  · intro g M hcov hL
    have c3 : Covers g s3 := hcov.mono p1
    have c2 : Covers g s2 := c3.mono B.ext
    simp only [evalC]
    refine Exe.bind (A.exe g M (c2.mono o1) hL) ?_
    rintro ⟨w, s⟩ M1 _ ⟨a1, a2, a3⟩
    dsimp only at a1 a2
    subst a1; subst a2
    dsimp only
    refine Exe.bind (operand_exe hc A.ok c2 M1) ?_
    rintro ⟨v, s⟩ M2 _ ⟨b1, b2, b3⟩
    dsimp only at b1 b2
    subst b1; subst b2
    dsimp only
    have fr2 : Frame st M M2 := a3.trans b3 hfree
    refine Exe.bind (B.exe g M2 c3 (hL.frame hwf fr2)) ?_
    rintro ⟨w, s⟩ M3 _ ⟨e1, e2, e3⟩
    dsimp only at e1 e2
    subst e1; subst e2
    dsimp only
    refine Exe.bind (operand_exe hd B.ok hcov M3) ?_
    rintro ⟨w, s⟩ M4 _ ⟨f1, f2, f3⟩
    dsimp only at f1 f2
    subst f1; subst f2
    refine Exe.ok ⟨?_, rfl, (fr2.trans e3 sub2).trans f3 fun k hk => hfree3 k (sub2 k hk)⟩
    simp only [pnv]
    rw [f3 c okc, e3 c o3]

theorem sim_temp {Γ : Nat → LV} {ρ : Nat → P.V} {e : Exp P.F P.O} {st st' : St P.F P.O} {t κ}
    (hk : Rdable (typ Γ e) t) (hκ : fk t = some κ) (hn : ¬ live st κ) (hl : live st' κ)
    (hext : BExt st st') (hsub : ∀ k, live st k → live st' k)
    (hexe : ∀ (g : Prog P) (M : Mach P), Covers g st' → Locals Γ ρ M →
      Exe g (here st M) st' (evalC Γ ρ e M.s) (fun y M' => Lin.W.v (rd P M' t) = y.1 ∧ M'.s = y.2 ∧
        Frame st M M')) :
    Sim Γ ρ e st (.p t) st' := by
  refine ⟨hext, hsub, ?_, ?_, ?_, hk, hexe⟩
  · intro k hk
    simp only [uses, Option.mem_toList, Option.mem_def, fk_use hκ, Option.some.injEq] at hk
    exact hk ▸ hl
  · intro k hk
    simp only [fks, Option.mem_toList, Option.mem_def, hκ, Option.some.injEq] at hk
    exact hk ▸ hn
  · intro k hk
    simp only [uses, Option.mem_toList, Option.mem_def, fk_use hκ, Option.some.injEq] at hk
    exact Or.inl (by simp [fks, hκ, hk])

/-- Bringing `evalC` into the form in which an operand is used once. -/
theorem sim_unary {Γ : Nat → LV} {ρ : Nat → P.V} (hρ : ∀ x, HasTy (Γ x).ty (ρ x))
    {e a : Exp P.F P.O} {st s0 s1 s2 S : St P.F P.O} {n q t x ty} {f : P.V → P.S → Res (P.V × P.S)}
    (hwf : Wf Γ st) (ht : allocT st ty = .ok (t, s0)) (hke : Rdable (typ Γ e) t)
    (A : Wf Γ s0 → Sim Γ ρ a s0 n s1) (hq : operand s1 n = .ok (q, s2))
    (hb : S.blocks = (emit s2 x).blocks ∧ S.nb = (emit s2 x).nb ∧ S.cur = (emit s2 x).cur)
    (hl : ∀ k, live s2 k → k ∉ fks n → fk q ≠ some k → live S k)
    (hj : x.jump = false)
    (hx : ∀ M : Mach P, HasTy (typ Γ a) (rd P M q) → Wr M t (f (rd P M q) M.s) (exIns P M x))
    (he : ∀ s, evalC Γ ρ e s = do
        let (w, s) ← evalC Γ ρ a s
        let (v, s) ← force w s
        let (r, s) ← f v s
        .ok (.v r, s)) :
    Sim Γ ρ e st (.p t) S := by
  obtain ⟨_, ⟨κ, hκ, hnl, hl0⟩, hb0⟩ := allocT_ok ht
  have e0 : BExt st s0 := BExt.same hb0
  have sub0 : ∀ k, live st k → live s0 k := fun k hk => (hl0 k).2 (Or.inl hk)
  have hwf0 := hwf.ext e0 sub0
  obtain ⟨u1, u2, u3⟩ := unary hρ hwf0 (A hwf0) hq hb hl hj hx
  refine sim_temp hke hκ hnl (u2 κ ((hl0 κ).2 (Or.inr rfl))) (e0.trans u1)
    (fun k hk => u2 k (sub0 k hk)) ?_
  intro g M hc hL
  have := u3 g M hc hL
  rw [← here_same hb0.1 hb0.2.2, he]
  have key := Exe.bind (st2 := S) (f := fun (y : P.V × P.S) => (Res.ok (W.v y.1, y.2) : Res (W P × P.S)))
    (Q' := fun y M' => W.v (rd P M' t) = y.1 ∧ M'.s = y.2 ∧ Frame st M M') this ?_
  · convert key using 1
    cases evalC Γ ρ a M.s with
    | ok y =>
      simp only [Res.bind_ok]
      cases force y.1 y.2 <;> rfl
    | err m => rfl
    | ub => rfl
  · rintro ⟨v, s⟩ M1 _ ⟨a1, a2, a3⟩
    refine Exe.ok ⟨by dsimp only at a1; rw [a1], a2, ?_⟩
    intro q' hq'
    refine a3 q' (fun k hk => sub0 k (hq' k hk)) ?_
    intro e
    rw [fk_use hκ] at e
    exact hnl (hq' κ e)

theorem swap_ops {o : Bin} {t1 t2 : Ty} :
    ¬ ((o = .ar .add ∨ o = .ar .mul) ∧ (if swap o t1 t2 then t2 else t1) = .int ∧
      (if swap o t1 t2 then t1 else t2) = .flt) := by
  rintro ⟨rfl | rfl, h1, h2⟩ <;> cases t1 <;> cases t2 <;> simp [swap] at h1 h2

theorem sim_bin {Γ : Nat → LV} {ρ : Nat → P.V} (hρ : ∀ x, HasTy (Γ x).ty (ρ x)) {o : Bin}
    {a b : Exp P.F P.O} {st sA sT s1 s2 s3 s4 : St P.F P.O} {nt t n1 n2 q1 q2}
    (hwf : Wf Γ st)
    (hA : allocNe st o (typ Γ (.bin o a b)) = .ok (nt, sA))
    (hT : allocT sA (typ Γ (.bin o a b)) = .ok (t, sT))
    (A : Wf Γ sT → Sim Γ ρ a sT n1 s1) (B : Wf Γ s1 → Sim Γ ρ b s1 n2 s2)
    (m1 m2 : Pn P.F P.O) (t1 t2 : Ty)
    (hm1 : m1 = if swap o (typ Γ a) (typ Γ b) then n2 else n1)
    (hm2 : m2 = if swap o (typ Γ a) (typ Γ b) then n1 else n2)
    (ht1 : t1 = if swap o (typ Γ a) (typ Γ b) then typ Γ b else typ Γ a)
    (ht2 : t2 = if swap o (typ Γ a) (typ Γ b) then typ Γ a else typ Γ b)
    (h1 : operand s2 m1 = .ok (q1, s3)) (h2 : operand s3 m2 = .ok (q2, s4))
    (S : St P.F P.O)
    (hS : S = freeN (freeN (tofree (tofree (emit s4 (.bin (sel o t1 t2) q1 q2 t)) m1 q1) m2 q2) m1) m2) :
    (o ≠ .cm .ne → Sim Γ ρ (.bin o a b) st (.p t) S) ∧
    (o = .cm .ne → Sim Γ ρ (.bin o a b) st (.p nt) (emit (freeP S t) (.not t nt))) := by
  unfold allocNe at hA
  have hT' := allocT_ok hT
  obtain ⟨kt, ⟨κ, hκ, hnl, hlT⟩, hbT⟩ := hT'
  have hA' : BExt st sA ∧ (∀ k, live st k → live sA k) ∧ (∀ M : Mach P, here sA M = here st M) ∧
      (o = .cm .ne → kindOf nt (typ Γ (.bin o a b)) ∧
        ∃ κ', fk nt = some κ' ∧ ¬ live st κ' ∧ live sA κ') := by
    by_cases ho : o = .cm .ne
    · simp only [ho, if_true] at hA
      obtain ⟨k1, ⟨κ', c1, c2, c3⟩, c4⟩ := allocT_ok hA
      exact ⟨.same c4, fun k hk => (c3 k).2 (Or.inl hk), fun M => here_same c4.1 c4.2.2 M,
        fun _ => ⟨by rw [ho]; exact k1, κ', c1, c2, (c3 κ').2 (Or.inr rfl)⟩⟩
    · simp only [ho, if_false, Res.ok.injEq, Prod.mk.injEq] at hA
      obtain ⟨_, rfl⟩ := hA
      exact ⟨.refl _, fun _ => id, fun _ => rfl, fun h => absurd h ho⟩
  obtain ⟨eA, subA, hereA, hne⟩ := hA'
  have eT : BExt sA sT := .same hbT
  have subT : ∀ k, live sA k → live sT k := fun k hk => (hlT k).2 (Or.inl hk)
  have tT : live sT κ := (hlT κ).2 (Or.inr rfl)
  have hwfT := (hwf.ext eA subA).ext eT subT
  have A := A hwfT
  have hwf1 := hwfT.ext A.ext A.sub
  have B := B hwf1
  -- the two operands do not share registers that are given back
  have d12 : ∀ k, k ∈ uses n1 → k ∉ fks n2 := fun k hk h => B.new k h (A.ok k hk)
  have d21 : ∀ k, k ∈ uses n2 → k ∉ fks n1 := by
    intro k hk h
    rcases B.loc k hk with h' | h'
    · exact B.new k h' (A.ok k (fks_uses h))
    · exact A.new k h (hwfT.loc k h')
  have ok1 : OkN s2 n1 := fun k hk => B.sub k (A.ok k hk)
  have keepT : ∀ k, live sT k → k ∉ fks n1 ∧ k ∉ fks n2 := fun k hk =>
    ⟨fun h => A.new k h hk, fun h => B.new k h (A.sub k hk)⟩
  have hd : kindOf t (binTy o t1 t2) := by
    rw [typ_bin] at kt
    subst ht1; subst ht2
    by_cases hsw : swap o (typ Γ a) (typ Γ b) = true
    · simp only [hsw, if_true]; rw [binTy_comm]; exact kt
    · simp only [hsw, if_false, Bool.false_eq_true]; exact kt
  have hm : OkN s2 m1 ∧ OkN s2 m2 ∧ (∀ k, k ∈ uses m1 → k ∉ fks m2) ∧
      (∀ k, k ∈ uses m2 → k ∉ fks m1) ∧ NTy t1 m1 ∧ NTy t2 m2 ∧
      (∀ k, live sT k → k ∉ fks m1 ∧ k ∉ fks m2) := by
    subst hm1; subst hm2; subst ht1; subst ht2
    by_cases hsw : swap o (typ Γ a) (typ Γ b) = true
    · simp only [hsw, if_true]
      exact ⟨B.ok, ok1, d21, d12, B.ty, A.ty, fun k hk => (keepT k hk).symm⟩
    · simp only [hsw, if_false, Bool.false_eq_true]
      exact ⟨ok1, B.ok, d12, d21, A.ty, B.ty, keepT⟩
  obtain ⟨okm1, okm2, e12, e21, ty1, ty2, keepM⟩ := hm
  have hnot : ¬ ((o = .ar .add ∨ o = .ar .mul) ∧ t1 = .int ∧ t2 = .flt) := by
    rw [ht1, ht2]; exact swap_ops
  have hbS : S.blocks = (emit s4 (.bin (sel o t1 t2) q1 q2 t)).blocks ∧
      S.nb = (emit s4 (.bin (sel o t1 t2) q1 q2 t)).nb ∧
      S.cur = (emit s4 (.bin (sel o t1 t2) q1 q2 t)).cur := by
    subst hS
    have x1 := freeN_blocks (freeN (tofree (tofree (emit s4 (.bin (sel o t1 t2) q1 q2 t)) m1 q1) m2 q2) m1) m2
    have x2 := freeN_blocks (tofree (tofree (emit s4 (.bin (sel o t1 t2) q1 q2 t)) m1 q1) m2 q2) m1
    have x3 := tofree_blocks (tofree (emit s4 (.bin (sel o t1 t2) q1 q2 t)) m1 q1) m2 q2
    have x4 := tofree_blocks (emit s4 (.bin (sel o t1 t2) q1 q2 t)) m1 q1
    exact ⟨x1.1.trans (x2.1.trans (x3.1.trans x4.1)),
      x1.2.1.trans (x2.2.1.trans (x3.2.1.trans x4.2.1)),
      x1.2.2.trans (x2.2.2.trans (x3.2.2.trans x4.2.2))⟩
  obtain ⟨u1, u2, u3⟩ := binary (t := t) (x := .bin (sel o t1 t2) q1 q2 t)
    (f := fun v w s => opC (sel o t1 t2) v w s) okm1 okm2 e12 e21 h1 h2 hbS
    (by
      intro k k1 k2 k3 k4 k5
      subst hS
      refine (live_freeN _ _ _).2 ⟨(live_freeN _ _ _).2 ⟨live_tofree (live_tofree ?_ k4) k5, k2⟩, k3⟩
      exact (live_emit _ _ _).2 k1) rfl
    (fun M v1 v2 => exBin_ok (operand_rdable h1 ty1) (operand_rdable h2 ty2) v1 v2 hd hnot)
  have subS : ∀ k, live sT k → live S k := fun k hk =>
    u2 k (B.sub k (A.sub k hk)) (keepM k hk).1 (keepM k hk).2
  have extS : BExt st S := ((((eA.trans eT).trans A.ext).trans B.ext).trans u1)
  -- the common part of the run
  have run : ∀ (g : Prog P) (M : Mach P), Covers g S → Locals Γ ρ M →
      Exe g (here st M) S (do
        let (w1, s) ← evalC Γ ρ a M.s
        let (w2, s) ← evalC Γ ρ b s
        let (x, s) ← force (if swap o (typ Γ a) (typ Γ b) then w2 else w1) s
        let (y, s) ← force (if swap o (typ Γ a) (typ Γ b) then w1 else w2) s
        opC (sel o t1 t2) x y s)
        (fun y M' => rd P M' t = y.1 ∧ M'.s = y.2 ∧ Frame sA M M') := by
    intro g M hc hL
    rw [← hereA, ← here_same hbT.1 hbT.2.2]
    have c2 : Covers g s2 := hc.mono u1
    refine Exe.bind (A.exe g M (c2.mono B.ext) hL) ?_
    rintro ⟨w1, s⟩ M1 hw1 ⟨a1, a2, a3⟩
    dsimp only at a1 a2
    subst a2
    dsimp only
    refine Exe.bind (B.exe g M1 c2 (hL.frame hwfT a3)) ?_
    rintro ⟨w2, s⟩ M2 hw2 ⟨b1, b2, b3⟩
    dsimp only at b1 b2
    subst b2
    dsimp only
    have a1' : pnv M2 n1 = w1 := (b3.pnv A.ok).trans a1
    have e1 : (if swap o (typ Γ a) (typ Γ b) then w2 else w1) = pnv M2 m1 := by
      rw [hm1, ← b1, ← a1']; split <;> rfl
    have e2 : (if swap o (typ Γ a) (typ Γ b) then w1 else w2) = pnv M2 m2 := by
      rw [hm2, ← b1, ← a1']; split <;> rfl
    have y1 : WTy t1 (pnv M2 m1) := by
      rw [← e1, ht1]
      split
      · exact evalC_ty hρ _ _ _ _ hw2
      · exact evalC_ty hρ _ _ _ _ hw1
    have y2 : WTy t2 (pnv M2 m2) := by
      rw [← e2, ht2]
      split
      · exact evalC_ty hρ _ _ _ _ hw1
      · exact evalC_ty hρ _ _ _ _ hw2
    rw [e1, e2]
    refine (u3 g M2 hc y1 y2).imp ?_
    rintro ⟨v, s⟩ M3 _ ⟨f1, f2, f3⟩
    refine ⟨f1, f2, ?_⟩
    intro q' hq'
    have okT : Ok sT q' := fun k hk => subT k (hq' k hk)
    have ok1' : Ok s1 q' := fun k hk => A.sub k (okT k hk)
    rw [f3 q' (fun k hk => B.sub k (ok1' k hk)) (fun k hk => keepM k (okT k hk)) ?_, b3 q' ok1',
      a3 q' okT]
    intro e
    rw [fk_use hκ] at e
    exact hnl (hq' κ e)
  have hev : ∀ s, evalC Γ ρ (.bin o a b) s = ((do
        let (w1, s) ← evalC Γ ρ a s
        let (w2, s) ← evalC Γ ρ b s
        let (x, s) ← force (if swap o (typ Γ a) (typ Γ b) then w2 else w1) s
        let (y, s) ← force (if swap o (typ Γ a) (typ Γ b) then w1 else w2) s
        opC (sel o t1 t2) x y s) >>= fun (y : P.V × P.S) =>
          .ok (.v (if o = .cm .ne then .bool (isFalse y.1) else y.1), y.2)) := by
    intro s
    rw [ht1, ht2]
    simp only [evalC]
    rcases evalC Γ ρ a s with ⟨w1, s1⟩ | m | _
    · simp only [Res.bind_ok]
      rcases evalC Γ ρ b s1 with ⟨w2, s2⟩ | m | _
      · simp only [Res.bind_ok]
        rcases force (if swap o (typ Γ a) (typ Γ b) then w2 else w1) s2 with ⟨x, s3⟩ | m | _
        · simp only [Res.bind_ok]
          rcases force (if swap o (typ Γ a) (typ Γ b) then w1 else w2) s3 with ⟨y, s4⟩ | m | _ <;> rfl
        · rfl
        · rfl
      · rfl
      · rfl
    · rfl
    · rfl
  constructor
  · intro ho
    refine sim_temp (.kind kt) hκ (fun h => hnl (subA κ h)) (subS κ tT) extS
      (fun k hk => subS k (subT k (subA k hk))) ?_
    intro g M hc hL
    rw [hev]
    refine Exe.bind (run g M hc hL) ?_
    rintro ⟨v, s⟩ M1 _ ⟨f1, f2, f3⟩
    dsimp only at f1 f2
    simp only [ho, if_false]
    exact Exe.ok ⟨by rw [f1], f2, f3.sub subA⟩
  · intro ho
    obtain ⟨knt, κ', hκ', hnl', hl'⟩ := hne ho
    have hfree : ∀ k, live sA k → live (freeP S t) k := by
      intro k hk
      refine (live_freeP _ _ _).2 ⟨subS k (subT k hk), ?_⟩
      rw [hκ]
      intro e
      exact hnl ((Option.some.inj e) ▸ hk)
    have e3 : BExt S (freeP S t) := .same (freeP_blocks S t)
    refine sim_temp (.kind knt) hκ' hnl' ((live_emit _ _ _).2 (hfree κ' hl'))
      ((extS.trans e3).trans (.emit _ _))
      (fun k hk => (live_emit _ _ _).2 (hfree k (subA k hk))) ?_
    intro g M hc hL
    rw [hev]
    have hcS : Covers g S := (hc.mono (.emit _ _)).mono e3
    refine Exe.bind (run g M hcS hL) ?_
    rintro ⟨v, s⟩ M1 _ ⟨f1, f2, f3⟩
    dsimp only at f1 f2
    subst f1; subst f2
    simp only [ho, if_true]
    have hknt : kindOf nt .bool ∨ kindOf nt .any := by
      rw [typ_bin, ho] at knt
      unfold binTy cmTy at knt
      dsimp only at knt
      split at knt
      · exact Or.inl knt
      · exact Or.inr knt
    have hw : Wr M1 nt (.ok (.bool (isFalse (rd P M1 t)), M1.s)) (exIns P M1 (.not t nt)) := by
      have := wrB_kind (M := M1) (d := nt) (b := isFalse (rd P M1 t)) (s := M1.s) hknt
      exact this
    rw [← here_same (freeP_blocks S t).1 (freeP_blocks S t).2.2]
    have hx := exe_ins (x := .not t nt) hc rfl hw
    obtain ⟨M2, r1, r2, r3, r4⟩ := hx
    refine ⟨M2, r1, by rw [r2], r3, ?_⟩
    intro q' hq'
    rw [r4 q' ?_, f3 q' (fun k hk => subA k (hq' k hk))]
    intro e
    rw [fk_use hκ'] at e
    exact hnl' (hq' κ' e)

/-- A new block is started. -/
theorem BExt.jump {F O : Type} {s0 s1 s2 : St F O} {l : Nat} (h : BExt s0 s1) (hl : s0.nb ≤ l)
    (hl' : l < s1.nb) (h' : BExt { s1 with cur := l } s2) : BExt s0 s2 := by
  refine ⟨h.nb.trans h'.nb, fun b => (h.pre b).trans (h'.pre b), ?_, ?_, fun _ => h'.lt hl',
    fun x y => h'.emp hl' (h.emp x y)⟩
  · intro b hb hc
    rw [h'.oth b (lt_of_lt_of_le hb h.nb) (fun e => by have e : b = l := e; omega), ← h.oth b hb hc]
  · rcases h'.cur with e | e
    · right; rw [e]; exact hl
    · right; exact h.nb.trans e

theorem BExt.two {F O : Type} (st : St F O) : BExt st { st with nb := st.nb + 2 } :=
  ⟨Nat.le_add_right _ _, fun _ => List.prefix_refl _, fun _ _ _ => rfl, Or.inl rfl,
    fun h => lt_of_lt_of_le h (Nat.le_add_right _ _),
    fun _ h b hb => h b ((Nat.le_add_right _ _).trans hb)⟩

theorem mov_ok {M : Mach P} {q r} :
    Wr M (.ta r) (.ok (rd P M q, M.s)) (exIns P M (.mov q (.ta r))) := by
  have := wrT_ta (M := M) (r := r) (v := rd P M q) (s := M.s)
  exact this

/-- `and` and `or`; `c` tells which. -/
theorem sim_bool {Γ : Nat → LV} {ρ : Nat → P.V} (hρ : ∀ x, HasTy (Γ x).ty (ρ x)) (c : Bool)
    {e a b : Exp P.F P.O} {st s0 s1 s2 s3 s4 : St P.F P.O} {t n q m p}
    (hwf : Wf Γ st)
    (ht : allocT { st with nb := st.nb + 2 } .any = .ok (t, s0))
    (A : Wf Γ s0 → Sim Γ ρ a s0 n s1) (hq : operand s1 n = .ok (q, s2))
    (S1 S1c : St P.F P.O) (hS1 : S1 = freeN (tofree (emit s2 (.mov q t)) n q) n)
    (hS1c : S1c = emit S1 (if c then .cbr t st.nb (st.nb + 1) else .cbr t (st.nb + 1) st.nb))
    (B : Wf Γ { S1c with cur := st.nb } → Sim Γ ρ b { S1c with cur := st.nb } m s3)
    (hp : operand s3 m = .ok (p, s4))
    (S2 : St P.F P.O) (hS2 : S2 = freeN (tofree (emit s4 (.mov p t)) m p) m)
    (hty : typ Γ e = .any)
    (he : ∀ s, evalC Γ ρ e s = (do
        let (w, s) ← evalC Γ ρ a s
        let (x, s) ← force w s
        .ok (x, s)) >>= fun (y : P.V × P.S) =>
          if isFalse y.1 = c then .ok (.v y.1, y.2) else (do
            let (w, s) ← evalC Γ ρ b y.2
            let (x, s) ← force w s
            .ok (x, s)) >>= fun (z : P.V × P.S) => .ok (.v z.1, z.2)) :
    Sim Γ ρ e st (.p t) { (emit S2 (.br (st.nb + 1))) with cur := st.nb + 1 } := by
  have fb : ∀ (s : St P.F P.O) (n : Pn P.F P.O) (q x), (freeN (tofree (emit s x) n q) n).blocks = (emit s x).blocks ∧
      (freeN (tofree (emit s x) n q) n).nb = (emit s x).nb ∧
      (freeN (tofree (emit s x) n q) n).cur = (emit s x).cur := by
    intro s n q x
    have x1 := freeN_blocks (tofree (emit s x) n q) n
    have x2 := tofree_blocks (emit s x) n q
    exact ⟨x1.1.trans x2.1, x1.2.1.trans x2.2.1, x1.2.2.trans x2.2.2⟩
  have fl : ∀ (s : St P.F P.O) (n : Pn P.F P.O) (q x) k, live s k → k ∉ fks n → fk q ≠ some k →
      live (freeN (tofree (emit s x) n q) n) k := fun s n q x k h1 h2 h3 =>
    (live_freeN _ _ _).2 ⟨live_tofree ((live_emit _ _ _).2 h1) h3, h2⟩
  obtain ⟨⟨r, rfl⟩, ⟨κ, hκ, hnl, hl0⟩, hb0⟩ := allocT_ok ht
  have hnl : ¬ live st κ := fun h => hnl ((live_nb _ _ _).2 h)
  have e0 : BExt st s0 := (BExt.two st).trans (.same hb0)
  have sub0 : ∀ k, live st k → live s0 k := fun k hk => (hl0 k).2 (Or.inl ((live_nb _ _ _).2 hk))
  have t0 : live s0 κ := (hl0 κ).2 (Or.inr rfl)
  have hwf0 := hwf.ext e0 sub0
  have nb0 : s0.nb = st.nb + 2 := hb0.2.1
  obtain ⟨u1, u2, u3⟩ := unary hρ (t := .ta r) (x := .mov q (.ta r)) (f := fun v s => .ok (v, s))
    (S := S1) hwf0 (A hwf0) hq (by rw [hS1]; exact fb _ _ _ _) (by rw [hS1]; exact fl _ _ _ _) rfl
    (fun M _ => mov_ok)
  have e1 : BExt S1 S1c := by rw [hS1c]; exact .emit _ _
  have E1 : BExt st S1c := (e0.trans u1).trans e1
  have nb1 : st.nb + 2 ≤ S1c.nb := by
    have := u1.nb.trans e1.nb
    omega
  have hlive1 : ∀ k, live s0 k → live { S1c with cur := st.nb } k := by
    intro k hk
    rw [live_cur, hS1c, live_emit]
    exact u2 k hk
  have hwf1 : Wf Γ { S1c with cur := st.nb } :=
    ⟨fun k hk => hlive1 k (hwf0.loc k hk), by show st.nb < S1c.nb; omega,
      fun b hb => E1.emp hwf.cur hwf.emp b hb⟩
  -- the two new blocks are still empty
  have empty1 : ∀ l, st.nb ≤ l → l < st.nb + 2 → S1c.blocks l = [] := by
    intro l hl hl'
    have hcur : s0.cur = st.cur := hb0.2.2
    rw [(u1.trans e1).oth l (by omega) (by have := hwf.cur; omega), hb0.1]
    exact hwf.emp l hl
  obtain ⟨v1, v2, v3⟩ := unary hρ (t := .ta r) (x := .mov p (.ta r)) (f := fun v s => .ok (v, s))
    (S := S2) hwf1 (B hwf1) hp (by rw [hS2]; exact fb _ _ _ _) (by rw [hS2]; exact fl _ _ _ _) rfl
    (fun M _ => mov_ok)
  have e2 : BExt S2 (emit S2 (.br (st.nb + 1))) := .emit _ _
  have E2 : BExt st (emit S2 (.br (st.nb + 1))) :=
    BExt.jump E1 (le_refl _) (by omega) (v1.trans e2)
  have hnb2 : S1c.nb ≤ (emit S2 (.br (st.nb + 1))).nb := v1.nb.trans e2.nb
  have E3 : BExt st { (emit S2 (.br (st.nb + 1))) with cur := st.nb + 1 } :=
    BExt.jump (l := st.nb + 1) E2 (by omega) (by omega) (.refl _)
  have empty2 : (emit S2 (.br (st.nb + 1))).blocks (st.nb + 1) = [] := by
    rw [(v1.trans e2).oth (st.nb + 1) (by show _ < S1c.nb; omega) (by show _ ≠ st.nb; omega)]
    exact empty1 _ (by omega) (by omega)
  refine sim_temp (by rw [hty]; exact .kind ⟨r, rfl⟩) hκ hnl ?_ E3 ?_ ?_
  · rw [live_cur, live_emit]; exact v2 κ (hlive1 κ t0)
  · intro k hk
    rw [live_cur, live_emit]; exact v2 k (hlive1 k (sub0 k hk))
  · intro g M hc hL
    have cov2 : Covers g (emit S2 (.br (st.nb + 1))) := fun b => hc b
    have covS2 : Covers g S2 := cov2.mono e2
    have cov1 : Covers g S1c := fun b => (covS2.mono v1) b
    have covS1 : Covers g S1 := cov1.mono e1
    have hh : here st M = here s0 M := (here_same (st := st) (st' := s0) hb0.1 hb0.2.2 M).symm
    rw [hh, he]
    have R1 := u3 g M covS1 hL
    rcases h1 : (do
        let (w, s) ← evalC Γ ρ a M.s
        let (x, s) ← force w s
        (Res.ok (x, s) : Res (P.V × P.S))) with ⟨x, s⟩ | msg | _
    · rw [h1] at R1
      obtain ⟨M1, r1, a1, a2, a3⟩ := R1
      dsimp only at a1 a2
      rw [h1, Res.bind_ok]
      subst a1; subst a2
      dsimp only
      have fr1 : Frame st M M1 := by
        intro q' hq'
        refine a3 q' (fun k hk => sub0 k (hq' k hk)) ?_
        intro e
        rw [fk_use hκ] at e
        exact hnl (hq' κ e)
      -- the conditional jump
      have hstep : step P g (here S1 M1) = some (.ok
          ⟨if isFalse (rd P M1 (.ta r)) = c then st.nb + 1 else st.nb, 0, M1⟩) := by
        have hf : (g S1.cur)[(S1.blocks S1.cur).length]? = _ := fetch (by rw [← hS1c]; exact cov1)
        simp only [step, here, hf]
        cases c <;> cases hb : isFalse (rd P M1 (.ta r)) <;>
          simp_all [exCbr, rd]
      have hjump : ∀ (s : St P.F P.O) (l : Nat), s.blocks l = [] →
          (⟨l, 0, M1⟩ : Cfg P) = here { s with cur := l } M1 := by
        intro s l h; simp [here, h]
      by_cases hb : isFalse (rd P M1 (.ta r)) = c
      · rw [if_pos hb]
        simp only [hb, if_true] at hstep
        refine ⟨M1, r1.trans (.step _ _ _ hstep ?_), rfl, rfl, fr1⟩
        rw [hjump _ _ empty2]
        exact .here _
      · rw [if_neg hb]
        simp only [hb, if_false] at hstep
        rw [hjump _ _ (empty1 st.nb (le_refl _) (by omega))] at hstep
        refine Exe.pre (r1.trans (.step _ _ _ hstep (.here _))) ?_
        refine Exe.bind (st1 := S2) (v3 g M1 covS2 (hL.frame hwf fr1)) ?_
        rintro ⟨y, s⟩ M2 _ ⟨b1, b2, b3⟩
        dsimp only at b1 b2
        have hstep2 : step P g (here S2 M2) = some (.ok ⟨st.nb + 1, 0, M2⟩) := by
          have hf : (g S2.cur)[(S2.blocks S2.cur).length]? = _ := fetch cov2
          simp only [step, here, hf]
        have hj2 : (⟨st.nb + 1, 0, M2⟩ : Cfg P) =
            here { (emit S2 (.br (st.nb + 1))) with cur := st.nb + 1 } M2 := by
          simp [here, empty2]
        rw [hj2] at hstep2
        refine ⟨M2, .step _ _ _ hstep2 (.here _), by rw [b1], b2, ?_⟩
        intro q' hq'
        rw [b3 q' (fun k hk => hlive1 k (sub0 k (hq' k hk))) ?_, fr1 q' hq']
        intro e
        rw [fk_use hκ] at e
        exact hnl (hq' κ e)
    · rw [h1] at R1 ⊢
      exact R1
    · rw [h1] at R1 ⊢
      exact R1

theorem neg_ok {t : Ty} {M : Mach P} {q d} (hd : kindOf d t) (hq : HasTy t (rd P M q)) :
    Wr M d (negC t (rd P M q) M.s) (exIns P M (.unm t q d)) := by
  cases t
  · obtain ⟨r, rfl⟩ := hd
    simp only [negC, exIns]
    exact Wr.bind' fun ⟨v, s⟩ _ => wrT_ta
  · obtain ⟨r, rfl⟩ := hd
    obtain ⟨i, hi⟩ := hq
    simp only [negC, exIns, hi, rawI, Res.bind_ok]
    split
    · exact rfl
    · exact wrI_ti rfl
  · obtain ⟨r, rfl⟩ := hd
    obtain ⟨i, hi⟩ := hq
    simp only [negC, exIns, hi, rawF, Res.bind_ok]
    exact wrF_tf rfl
  · obtain ⟨r, rfl⟩ := hd
    simp only [negC, exIns]
    exact Wr.bind fun _ _ => rfl
  · obtain ⟨r, rfl⟩ := hd
    simp only [negC, exIns]
    exact Wr.bind' fun ⟨v, s⟩ _ => wrT_ta

/-- The code of an expression computes what `evalC` says. -/
theorem lin_sim {Γ : Nat → LV} {ρ : Nat → P.V} (hρ : ∀ x, HasTy (Γ x).ty (ρ x)) :
    ∀ (e : Exp P.F P.O) (st : St P.F P.O) (n : Pn P.F P.O) (st' : St P.F P.O),
      lin Γ e st = .ok (n, st') → Wf Γ st → Sim Γ ρ e st n st' := by
  have fb : ∀ (s : St P.F P.O) (n : Pn P.F P.O) (q x), (tofree (emit (freeN s n) x) n q).blocks = (emit s x).blocks ∧
      (tofree (emit (freeN s n) x) n q).nb = (emit s x).nb ∧
      (tofree (emit (freeN s n) x) n q).cur = (emit s x).cur := by
    intro s n q x
    have x1 := tofree_blocks (emit (freeN s n) x) n q
    have x2 := freeN_blocks s n
    refine ⟨x1.1.trans ?_, x1.2.1.trans x2.2.1, x1.2.2.trans x2.2.2⟩
    simp only [emit, x2.1, x2.2.2]
  have fl : ∀ (s : St P.F P.O) (n : Pn P.F P.O) (q x) k, live s k → k ∉ fks n → fk q ≠ some k →
      live (tofree (emit (freeN s n) x) n q) k := fun s n q x k h1 h2 h3 =>
    live_tofree ((live_emit _ _ _).2 ((live_freeN _ _ _).2 ⟨h1, h2⟩)) h3
  intro e
  induction e with
  | lit v =>
    intro st n st' h hwf
    simp only [lin, Res.ok.injEq, Prod.mk.injEq] at h
    obtain ⟨rfl, rfl⟩ := h
    refine sim_leaf (fun k hk => by cases hk) rfl (fun k hk => by cases hk) ?_ (fun M _ => rfl)
    intro M
    cases v <;> simp [typ, rd, rdI, rdF]
  | loc x =>
    intro st n st' h hwf
    simp only [lin, Res.ok.injEq, Prod.mk.injEq] at h
    obtain ⟨rfl, rfl⟩ := h
    refine sim_leaf (fun k hk => hwf.loc k ⟨x, hk⟩) ?_ (fun k hk => ⟨x, hk⟩) (Rdable.lv _)
      (fun M hL => by simp only [evalC]; rw [hL x])
    cases Γ x <;> rfl
  | idx e k ihe ihk =>
    intro st n st' h hwf
    simp only [lin, Res.bind_eq_ok] at h
    obtain ⟨⟨n1, s1⟩, h1, ⟨c, s2⟩, h2, ⟨n2, s3⟩, h3, ⟨d, s4⟩, h4, h⟩ := h
    simp only [Res.ok.injEq, Prod.mk.injEq] at h
    obtain ⟨rfl, rfl⟩ := h
    exact sim_idx hwf (ihe _ _ _ h1 hwf) h2 (ihk _ _ _ h3) h4
  | bin o a b iha ihb =>
    intro st n st' h hwf
    simp only [lin, Res.bind_eq_ok] at h
    obtain ⟨⟨nt, sA⟩, hA, ⟨t, sT⟩, hT, ⟨n1, s1⟩, h1, ⟨n2, s2⟩, h2, ⟨q1, s3⟩, h3, ⟨q2, s4⟩, h4, h⟩ := h
    dsimp only at h1 h2 h3 h4 h hT
    have key := sim_bin hρ hwf hA hT (iha _ _ _ h1) (ihb _ _ _ h2)
      (if swap o (typ Γ a) (typ Γ b) then n2 else n1) (if swap o (typ Γ a) (typ Γ b) then n1 else n2)
      (if swap o (typ Γ a) (typ Γ b) then typ Γ b else typ Γ a)
      (if swap o (typ Γ a) (typ Γ b) then typ Γ a else typ Γ b) rfl rfl rfl rfl
      (q1 := q1) (s3 := s3) (q2 := q2) (s4 := s4)
      (by by_cases hs : swap o (typ Γ a) (typ Γ b) = true
          · simp only [hs, if_true] at h3 ⊢; exact h3
          · simp only [hs, if_false, Bool.false_eq_true] at h3 ⊢; exact h3)
      (by by_cases hs : swap o (typ Γ a) (typ Γ b) = true
          · simp only [hs, if_true] at h4 ⊢; exact h4
          · simp only [hs, if_false, Bool.false_eq_true] at h4 ⊢; exact h4) _ rfl
    by_cases ho : o = .cm .ne
    · simp only [ho, if_true, Res.ok.injEq, Prod.mk.injEq] at h
      obtain ⟨rfl, rfl⟩ := h
      have := key.2 ho
      subst ho
      exact this
    · simp only [ho, if_false, Res.ok.injEq, Prod.mk.injEq] at h
      obtain ⟨rfl, rfl⟩ := h
      have := key.1 ho
      by_cases hs : swap o (typ Γ a) (typ Γ b) = true
      · simp only [hs, if_true] at this ⊢; exact this
      · simp only [hs, if_false, Bool.false_eq_true] at this ⊢; exact this
  | and a b iha ihb =>
    intro st n st' h hwf
    simp only [lin, Res.bind_eq_ok] at h
    obtain ⟨⟨t, s0⟩, h0, ⟨n1, s1⟩, h1, ⟨q1, s2⟩, h2, ⟨n2, s3⟩, h3, ⟨q2, s4⟩, h4, h⟩ := h
    simp only [Res.ok.injEq, Prod.mk.injEq] at h
    obtain ⟨rfl, rfl⟩ := h
    refine sim_bool hρ true hwf h0 (iha _ _ _ h1) h2 _ _ rfl rfl (ihb _ _ _ h3) h4 _ rfl rfl ?_
    intro s
    simp only [evalC]
    rcases evalC Γ ρ a s with ⟨w1, s1⟩ | m | _
    · simp only [Res.bind_ok]
      rcases force w1 s1 with ⟨x, s2⟩ | m | _
      · simp only [Res.bind_ok]
        by_cases hf : isFalse x = true
        · simp [hf]
        · simp only [hf, Bool.false_eq_true, if_false]
          rcases evalC Γ ρ b s2 with ⟨w2, s3⟩ | m | _
          · simp only [Res.bind_ok]
            rcases force w2 s3 with ⟨x, s2⟩ | m | _ <;> rfl
          · rfl
          · rfl
      · rfl
      · rfl
    · rfl
    · rfl
  | or a b iha ihb =>
    intro st n st' h hwf
    simp only [lin, Res.bind_eq_ok] at h
    obtain ⟨⟨t, s0⟩, h0, ⟨n1, s1⟩, h1, ⟨q1, s2⟩, h2, ⟨n2, s3⟩, h3, ⟨q2, s4⟩, h4, h⟩ := h
    simp only [Res.ok.injEq, Prod.mk.injEq] at h
    obtain ⟨rfl, rfl⟩ := h
    refine sim_bool hρ false hwf h0 (iha _ _ _ h1) h2 _ _ rfl rfl (ihb _ _ _ h3) h4 _ rfl rfl ?_
    intro s
    simp only [evalC]
    rcases evalC Γ ρ a s with ⟨w1, s1⟩ | m | _
    · simp only [Res.bind_ok]
      rcases force w1 s1 with ⟨x, s2⟩ | m | _
      · simp only [Res.bind_ok]
        by_cases hf : isFalse x = true
        · simp only [hf, if_true, Bool.true_eq_false, if_false]
          rcases evalC Γ ρ b s2 with ⟨w2, s3⟩ | m | _
          · simp only [Res.bind_ok]
            rcases force w2 s3 with ⟨x, s2⟩ | m | _ <;> rfl
          · rfl
          · rfl
        · simp [hf]
      · rfl
      · rfl
    · rfl
    · rfl
  | not a ih =>
    intro st n st' h hwf
    simp only [lin, Res.bind_eq_ok] at h
    obtain ⟨⟨t, s0⟩, h0, ⟨n1, s1⟩, h1, ⟨q1, s2⟩, h2, h⟩ := h
    simp only [Res.ok.injEq, Prod.mk.injEq] at h
    obtain ⟨rfl, rfl⟩ := h
    obtain ⟨r, rfl⟩ := (allocT_ok h0).1
    refine sim_unary hρ hwf h0 (.kind ⟨r, rfl⟩) (ih _ _ _ h1) h2 (fb _ _ _ _) (fl _ _ _ _) rfl
      (f := fun v s => .ok (.bool (isFalse v), s)) (fun M _ => ?_) ?_
    · have := wrB_kind (M := M) (d := .ta r) (b := isFalse (rd P M q1)) (s := M.s) (Or.inr ⟨r, rfl⟩)
      exact this
    · intro s; simp only [evalC, Res.bind_ok]
  | neg a ih =>
    intro st n st' h hwf
    simp only [lin, Res.bind_eq_ok] at h
    obtain ⟨⟨t, s0⟩, h0, ⟨n1, s1⟩, h1, ⟨q1, s2⟩, h2, h⟩ := h
    simp only [Res.ok.injEq, Prod.mk.injEq] at h
    obtain ⟨rfl, rfl⟩ := h
    have hk := (allocT_ok h0).1
    refine sim_unary hρ hwf h0 ?_ (ih _ _ _ h1) h2 (fb _ _ _ _) (fl _ _ _ _) rfl
      (f := negC (typ Γ a)) (fun M hq => neg_ok hk hq) (fun s => by simp only [evalC])
    simp only [typ]
    cases hty : typ Γ a <;> rw [hty] at hk <;>
      first | exact .kind hk | exact .triv (by simp) (by simp)

end Verif.Lin
