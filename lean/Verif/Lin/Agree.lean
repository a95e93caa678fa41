import Verif.Lin.Main

/-!
# `evalC` and the language
-/
namespace Verif.Lin

variable {P : Par}

/-- Does C's signed arithmetic overflow in the code for this operator?  `t1`, `t2` are the static
types of the operands. -/
def ovf (o : Bin) (t1 t2 : Ty) (x y : P.V) : Bool :=
  match o, x, y with
  | .ar .add, .int x, .int y => x.saddOverflow y
  | .ar .sub, .int x, .int y => x.ssubOverflow y
  | .ar .mul, .int x, .int y => x.smulOverflow y
  | .ar .shr, .int _, .int y => t1 == .int && t2 == .int && y.negOverflow
  | _, _, _ => false

def negOvf (t : Ty) (x : P.V) : Bool :=
  match x with
  | .int x => t == .int && x.negOverflow
  | _ => false

/-- The language, with undefined behaviour where an integer operation overflows. -/
def evalS (Γ : Nat → LV) (ρ : Nat → P.V) : Exp P.F P.O → P.S → Res (P.V × P.S)
  | .lit v, s => .ok (v, s)
  | .loc x, s => .ok (ρ x, s)
  | .idx e k, s => do
    let (c, s) ← evalS Γ ρ e s
    let (k, s) ← evalS Γ ρ k s
    ofOpt (P.get c k s)
  | .bin o a b, s => do
    let (x, s) ← evalS Γ ρ a s
    let (y, s) ← evalS Γ ρ b s
    if ovf o (typ Γ a) (typ Γ b) x y then .ub else binSem P o x y s
  | .and a b, s => do
    let (x, s) ← evalS Γ ρ a s
    if isFalse x then .ok (x, s) else evalS Γ ρ b s
  | .or a b, s => do
    let (x, s) ← evalS Γ ρ a s
    if isFalse x then evalS Γ ρ b s else .ok (x, s)
  | .not a, s => do
    let (x, s) ← evalS Γ ρ a s
    .ok (.bool (isFalse x), s)
  | .neg a, s => do
    let (x, s) ← evalS Γ ρ a s
    if negOvf (typ Γ a) x then .ub else negSem P x s

/-- A literal or a variable. -/
def Exp.leaf {F O : Type} : Exp F O → Bool
  | .lit _ | .loc _ => true
  | _ => false

def Exp.isIdx {F O : Type} : Exp F O → Bool
  | .idx _ _ => true
  | _ => false

/-- Indexing that needs no code before the load itself. -/
def Exp.flat {F O : Type} : Exp F O → Bool
  | .idx e k => e.leaf && k.leaf
  | _ => false

/-- The operators have operands whose evaluation order the linearizer keeps: a left operand that
is an indexed load is followed by a literal, a variable, or - if the operands are not exchanged -
an indexed load that is ready; `/` is not applied to two integers; `-` is not applied to a
boolean. -/
def Plain {F O : Type} (Γ : Nat → LV) : Exp F O → Bool
  | .lit _ | .loc _ => true
  | .idx e k => Plain Γ e && Plain Γ k
  | .bin o a b => Plain Γ a && Plain Γ b &&
      !(o == .ar .div && typ Γ a == .int && typ Γ b == .int) &&
      (!a.isIdx || b.leaf || (b.flat && !swap o (typ Γ a) (typ Γ b)))
  | .and a b | .or a b => Plain Γ a && Plain Γ b
  | .not a => Plain Γ a
  | .neg a => Plain Γ a && typ Γ a != .bool

/-- The value of an expression when it is used. -/
def evalV (Γ : Nat → LV) (ρ : Nat → P.V) (e : Exp P.F P.O) (s : P.S) : Res (P.V × P.S) := do
  let (w, s) ← evalC Γ ρ e s
  force w s

theorem cOp_eq {o : Op} {t1 t2 : Ty} {x y : I64} {s : P.S} (h1 : t1 = .int) (h2 : t2 = .int)
    (ho : o = .add ∨ o = .sub ∨ o = .mul ∨ o = .band ∨ o = .bor ∨ o = .bxor ∨ o = .shl ∨ o = .shr) :
    (do let r ← cOp P o x y; (Res.ok (Val.int r, s) : Res (P.V × P.S))) =
      if ovf (P := P) (.ar o) t1 t2 (.int x) (.int y) then .ub else arSem P o (.int x) (.int y) s := by
  subst h1; subst h2
  rcases ho with rfl | rfl | rfl | rfl | rfl | rfl | rfl | rfl <;>
    simp only [cOp, ovf, arSem, Res.bind_ok, Bool.false_eq_true, if_false, beq_self_eq_true,
      Bool.true_and]
  all_goals split <;> rename_i h <;> simp [h]

theorem genAr_eq {o : Op} {t1 t2 : Ty} {x y : P.V} {s : P.S} (h : ¬ (t1 = .int ∧ t2 = .int)) :
    genAr P o x y s = if ovf (.ar o) t1 t2 x y then .ub else arSem P o x y s := by
  have hb : (t1 == Ty.int && t2 == Ty.int) = false := by
    cases t1 <;> cases t2 <;> simp_all
  cases o <;> cases x <;> cases y <;>
    simp only [genAr, ovf, hb, Bool.false_and, Bool.false_eq_true, if_false]
  all_goals
    simp only [cOp, arSem]
    split <;> rename_i h <;> simp [h]

theorem cmp_ii {c : Cb} {x y : I64} {s : P.S} :
    cbSem P c (.int x) (.int y) s = .ok (cmpI c x y, s) := by cases c <;> rfl

theorem cmp_ff {c : Cb} {x y : P.F} {s : P.S} :
    cbSem P c (.flt x) (.flt y) s = .ok (cmpF P c x y, s) := by cases c <;> rfl

/-- The relation instruction chosen computes the relation. -/
theorem opC_cm {c : Cb} {t1 t2 : Ty} {x y : P.V} {s : P.S} (hx : HasTy t1 x) (hy : HasTy t2 y) :
    opC (.cm c (if t1 = .int ∧ t2 = .int then .ii else if t1 = .flt ∧ t2 = .flt then .ff else .gen))
      x y s = cbSem P c x y s >>= fun z => .ok (.bool z.1, z.2) := by
  by_cases hi : t1 = .int ∧ t2 = .int
  · obtain ⟨rfl, rfl⟩ := hi
    obtain ⟨x, rfl⟩ := hx
    obtain ⟨y, rfl⟩ := hy
    simp only [and_self, if_true, opC, cmp_ii, Res.bind_ok]
  · by_cases hf : t1 = .flt ∧ t2 = .flt
    · obtain ⟨rfl, rfl⟩ := hf
      obtain ⟨x, rfl⟩ := hx
      obtain ⟨y, rfl⟩ := hy
      simp only [and_self, if_true, if_false, reduceCtorEq, opC, cmp_ff, Res.bind_ok]
    · simp only [hi, hf, if_false, opC]

/-- The instruction chosen for an operator computes what the language says, unless an integer
operation overflows; integer by integer division is the exception. -/
theorem opC_eq {o : Bin} {t1 t2 : Ty} {x y : P.V} {s : P.S} (hx : HasTy t1 x) (hy : HasTy t2 y)
    (hdiv : ¬ (o = .ar .div ∧ t1 = .int ∧ t2 = .int)) :
    (do
      let (r, s) ← opC (sel o (if swap o t1 t2 then t2 else t1) (if swap o t1 t2 then t1 else t2))
        (if swap o t1 t2 then y else x) (if swap o t1 t2 then x else y) s
      (Res.ok (if o = .cm .ne then Val.bool (isFalse r) else r, s) : Res (P.V × P.S))) =
      if ovf o t1 t2 x y then .ub else binSem P o x y s := by
  have bo : ∀ r : Res (P.V × P.S), (r >>= fun z => (Res.ok (z.1, z.2) : Res (P.V × P.S))) = r := by
    intro r; cases r <;> rfl
  rcases o with o | c
  · simp only [reduceCtorEq, if_false, binSem]
    by_cases hn : (t1 = .int ∨ t1 = .flt) ∧ (t2 = .int ∨ t2 = .flt)
    · rcases hn with ⟨rfl | rfl, rfl | rfl⟩ <;> obtain ⟨x, rfl⟩ := hx <;> obtain ⟨y, rfl⟩ := hy
      · -- integers
        rw [bo]
        cases o <;> first
          | (simp [swap, sel, opC, genAr, ovf]; done)
          | exact absurd ⟨rfl, rfl, rfl⟩ hdiv
          | (rw [← cOp_eq rfl rfl (by simp)]; simp [swap, sel, opC])
      · rw [bo]
        cases o <;> simp [swap, sel, opC, genAr, ovf, fOp, arSem, tonum, P.fadd_comm (P.ofInt x),
          P.fmul_comm (P.ofInt x)]
      · rw [bo]
        cases o <;> simp [swap, sel, opC, genAr, ovf, fOp, arSem, tonum]
      · rw [bo]
        cases o <;> simp [swap, sel, opC, genAr, ovf, fOp, arSem, tonum]
    · have hsel : sel (.ar o) t1 t2 = .ar o .gen ∧ swap (.ar o) t1 t2 = false ∧
          ¬ (t1 = .int ∧ t2 = .int) := by
        cases o <;> cases t1 <;> cases t2 <;>
          first | (exfalso; apply hn; simp; done) | (refine ⟨rfl, rfl, ?_⟩; simp)
      rw [hsel.2.1, bo]
      simp only [Bool.false_eq_true, if_false]
      rw [hsel.1]
      exact genAr_eq hsel.2.2
  · have hov : ovf (.cm c) t1 t2 x y = false := rfl
    rw [hov]
    simp only [Bool.false_eq_true, if_false, binSem]
    cases c <;> simp only [swap, sel, Bool.false_eq_true, if_false, if_true, cmSem]
    · rw [opC_cm hx hy]
      cases cbSem P .eq x y s <;> rfl
    · rw [opC_cm hx hy]
      rcases cbSem P .eq x y s with ⟨r, s⟩ | m | _
      · cases r <;> rfl
      · rfl
      · rfl
    · rw [opC_cm hx hy]
      cases cbSem P .lt x y s <;> rfl
    · rw [opC_cm hx hy]
      cases cbSem P .le x y s <;> rfl
    · rw [opC_cm hy hx]
      cases cbSem P .lt y x s <;> rfl
    · rw [opC_cm hy hx]
      cases cbSem P .le y x s <;> rfl

theorem negC_eq {t : Ty} {x : P.V} {s : P.S} (hx : HasTy t x) (hb : t ≠ .bool) :
    negC t x s = if negOvf t x then .ub else negSem P x s := by
  cases t
  · cases x <;> rfl
  · obtain ⟨i, rfl⟩ := hx
    simp only [negC, negOvf, negSem, beq_self_eq_true, Bool.true_and]
    split <;> simp
  · obtain ⟨i, rfl⟩ := hx
    rfl
  · exact absurd rfl hb
  · cases x <;> rfl

theorem evalC_val {Γ : Nat → LV} {ρ : Nat → P.V} {e : Exp P.F P.O} (h : e.isIdx = false) {s w s'}
    (he : evalC Γ ρ e s = .ok (w, s')) : ∃ v, w = .v v := by
  cases e <;> simp only [Exp.isIdx, Bool.true_eq_false] at h <;>
    simp only [evalC, Res.bind_eq_ok] at he
  · simp only [Res.ok.injEq, Prod.mk.injEq] at he
    exact ⟨_, he.1.symm⟩
  · simp only [Res.ok.injEq, Prod.mk.injEq] at he
    exact ⟨_, he.1.symm⟩
  · obtain ⟨_, _, _, _, _, _, _, _, _, _, he⟩ := he
    simp only [Res.ok.injEq, Prod.mk.injEq] at he
    exact ⟨_, he.1.symm⟩
  · obtain ⟨_, _, _, _, he⟩ := he
    split at he
    · simp only [Res.ok.injEq, Prod.mk.injEq] at he
      exact ⟨_, he.1.symm⟩
    · simp only [Res.bind_eq_ok] at he
      obtain ⟨_, _, _, _, he⟩ := he
      simp only [Res.ok.injEq, Prod.mk.injEq] at he
      exact ⟨_, he.1.symm⟩
  · obtain ⟨_, _, _, _, he⟩ := he
    split at he
    · simp only [Res.bind_eq_ok] at he
      obtain ⟨_, _, _, _, he⟩ := he
      simp only [Res.ok.injEq, Prod.mk.injEq] at he
      exact ⟨_, he.1.symm⟩
    · simp only [Res.ok.injEq, Prod.mk.injEq] at he
      exact ⟨_, he.1.symm⟩
  · obtain ⟨_, _, _, _, he⟩ := he
    simp only [Res.ok.injEq, Prod.mk.injEq] at he
    exact ⟨_, he.1.symm⟩
  · obtain ⟨_, _, _, _, _, _, he⟩ := he
    simp only [Res.ok.injEq, Prod.mk.injEq] at he
    exact ⟨_, he.1.symm⟩

theorem bind_congr {α β : Type} {r : Res α} {f f' : α → Res β} (h : ∀ x, r = .ok x → f x = f' x) :
    (r >>= f) = (r >>= f') := by
  cases r with
  | ok x => exact h x rfl
  | err m => rfl
  | ub => rfl

theorem bind_assoc {α β γ : Type} {r : Res α} {f : α → Res β} {f' : β → Res γ} :
    ((r >>= f) >>= f') = (r >>= fun x => f x >>= f') := by
  cases r <;> rfl

/-- Expressions that satisfy `Plain` have the value that the language says, in C's integer
arithmetic. -/
theorem evalV_eq {Γ : Nat → LV} {ρ : Nat → P.V} (hρ : ∀ x, HasTy (Γ x).ty (ρ x)) :
    ∀ (e : Exp P.F P.O) (s : P.S), Plain Γ e = true → evalV Γ ρ e s = evalS Γ ρ e s := by
  intro e
  induction e with
  | lit v => intro s _; rfl
  | loc x => intro s _; rfl
  | idx e k ihe ihk =>
    intro s h
    simp only [Plain, Bool.and_eq_true] at h
    simp only [evalS, ← ihe _ h.1, evalV, evalC, bind_assoc]
    refine bind_congr fun ⟨w, s1⟩ _ => bind_congr fun ⟨c, s2⟩ _ => ?_
    dsimp only
    rw [← ihk _ h.2]
    simp only [evalV, bind_assoc]
    refine bind_congr fun ⟨w, s1⟩ _ => bind_congr fun ⟨c, s2⟩ _ => rfl
  | bin o a b iha ihb =>
    intro s h
    simp only [Plain, Bool.and_eq_true, Bool.not_eq_true', Bool.and_eq_false_iff,
      beq_eq_false_iff_ne] at h
    obtain ⟨⟨⟨ha, hb⟩, hdiv⟩, hord⟩ := h
    have hdiv' : ¬ (o = .ar .div ∧ typ Γ a = .int ∧ typ Γ b = .int) := by
      rintro ⟨rfl, h1, h2⟩
      rcases hdiv with (h | h) | h
      · exact h rfl
      · exact h h1
      · exact h h2
    have fin : ∀ {x y : P.V} {s : P.S}, HasTy (typ Γ a) x → HasTy (typ Γ b) y →
        (opC (sel o (if swap o (typ Γ a) (typ Γ b) then typ Γ b else typ Γ a)
            (if swap o (typ Γ a) (typ Γ b) then typ Γ a else typ Γ b))
          (if swap o (typ Γ a) (typ Γ b) then y else x)
          (if swap o (typ Γ a) (typ Γ b) then x else y) s >>= fun z =>
          force (W.v (if o = .cm .ne then .bool (isFalse z.1) else z.1)) z.2) =
        if ovf o (typ Γ a) (typ Γ b) x y then .ub else binSem P o x y s := by
      intro x y s hx hy
      rw [← opC_eq hx hy hdiv']
      rfl
    have leafC : ∀ {e : Exp P.F P.O}, e.leaf = true → ∃ y, (∀ s, evalC Γ ρ e s = .ok (.v y, s)) ∧
        ∀ s, evalS Γ ρ e s = .ok (y, s) := by
      intro e he
      cases e <;> simp only [Exp.leaf, Bool.false_eq_true] at he
      · exact ⟨_, fun _ => rfl, fun _ => rfl⟩
      · exact ⟨_, fun _ => rfl, fun _ => rfl⟩
    simp only [evalS, ← iha _ ha]
    simp only [evalV, evalC, bind_assoc]
    refine bind_congr fun ⟨w1, s1⟩ h1 => ?_
    have ty1 := evalC_ty hρ _ _ _ _ h1
    dsimp only
    by_cases hidx : a.isIdx = false
    · obtain ⟨x, rfl⟩ := evalC_val hidx h1
      have e1 : force (W.v x) s1 = .ok (x, s1) := rfl
      rw [e1, Res.bind_ok]
      dsimp only
      rw [← ihb _ hb]
      simp only [evalV, bind_assoc]
      refine bind_congr fun ⟨w2, s2⟩ h2 => ?_
      have ty2 := evalC_ty hρ _ _ _ _ h2
      dsimp only
      by_cases hsw : swap o (typ Γ a) (typ Γ b) = true
      · simp only [hsw, if_true] at fin ⊢
        refine bind_congr fun ⟨y, s3⟩ h3 => ?_
        exact fin ty1 (force_ty ty2 h3)
      · simp only [hsw, if_false, Bool.false_eq_true] at fin ⊢
        have e2 : force (W.v x) s2 = .ok (x, s2) := rfl
        rw [e2, Res.bind_ok]
        refine bind_congr fun ⟨y, s3⟩ h3 => ?_
        exact fin ty1 (force_ty ty2 h3)
    · by_cases hleaf : b.leaf = true
      · obtain ⟨y, c1, c2⟩ := leafC hleaf
        have ty2 := evalC_ty hρ _ _ _ _ (c1 s1)
        simp only [c1, c2, Res.bind_ok]
        by_cases hsw : swap o (typ Γ a) (typ Γ b) = true
        · simp only [hsw, if_true] at fin ⊢
          have e2 : ∀ s, force (W.v y) s = .ok (y, s) := fun _ => rfl
          simp only [e2, Res.bind_ok]
          refine bind_congr fun ⟨x, s3⟩ h3 => ?_
          exact fin (force_ty ty1 h3) ty2
        · simp only [hsw, if_false, Bool.false_eq_true] at fin ⊢
          have e2 : ∀ s, force (W.v y) s = .ok (y, s) := fun _ => rfl
          simp only [e2, Res.bind_ok]
          refine bind_congr fun ⟨x, s3⟩ h3 => ?_
          exact fin (force_ty ty1 h3) ty2
      · have hb' : b.flat = true ∧ swap o (typ Γ a) (typ Γ b) = false := by
          simpa [hidx, hleaf] using hord
        obtain ⟨hfl, hsw⟩ := hb'
        cases b <;> simp only [Exp.flat, Bool.false_eq_true, Bool.and_eq_true] at hfl
        rename_i c k
        obtain ⟨c', c1, c2⟩ := leafC hfl.1
        obtain ⟨k', k1, k2⟩ := leafC hfl.2
        have e2 : ∀ (y : P.V) s, force (W.v y) s = .ok (y, s) := fun _ _ => rfl
        simp only [hsw, if_false, Bool.false_eq_true] at fin ⊢
        simp only [evalC, evalS, c1, c2, k1, k2, e2, Res.bind_ok]
        refine bind_congr fun ⟨x, s3⟩ h3 => bind_congr fun ⟨y, s4⟩ h4 => ?_
        exact fin (force_ty ty1 h3) trivial
  | and a b iha ihb =>
    intro s h
    simp only [Plain, Bool.and_eq_true] at h
    simp only [evalS, ← iha _ h.1, evalV, evalC, bind_assoc]
    refine bind_congr fun ⟨w, s1⟩ _ => bind_congr fun ⟨x, s2⟩ _ => ?_
    dsimp only
    by_cases hf : isFalse x = true
    · simp only [hf, if_true]; rfl
    · simp only [hf, if_false, Bool.false_eq_true]
      rw [← ihb _ h.2]
      simp only [evalV, bind_assoc]
      refine bind_congr fun ⟨w, s1⟩ _ => ?_
      dsimp only
      cases force w s1 <;> rfl
  | or a b iha ihb =>
    intro s h
    simp only [Plain, Bool.and_eq_true] at h
    simp only [evalS, ← iha _ h.1, evalV, evalC, bind_assoc]
    refine bind_congr fun ⟨w, s1⟩ _ => bind_congr fun ⟨x, s2⟩ _ => ?_
    dsimp only
    by_cases hf : isFalse x = true
    · simp only [hf, if_true]
      rw [← ihb _ h.2]
      simp only [evalV, bind_assoc]
      refine bind_congr fun ⟨w, s1⟩ _ => ?_
      dsimp only
      cases force w s1 <;> rfl
    · simp only [hf, if_false, Bool.false_eq_true]; rfl
  | not a ih =>
    intro s h
    simp only [Plain] at h
    simp only [evalS, ← ih _ h, evalV, evalC, bind_assoc]
    refine bind_congr fun ⟨w, s1⟩ _ => bind_congr fun ⟨x, s2⟩ _ => rfl
  | neg a ih =>
    intro s h
    simp only [Plain, Bool.and_eq_true, bne_iff_ne] at h
    simp only [evalS, ← ih _ h.1, evalV, evalC, bind_assoc]
    refine bind_congr fun ⟨w, s1⟩ h1 => bind_congr fun ⟨x, s2⟩ h2 => ?_
    dsimp only
    rw [← negC_eq (force_ty (evalC_ty hρ _ _ _ _ h1) h2) h.2]
    cases negC (typ Γ a) x s2 <;> rfl

end Verif.Lin
