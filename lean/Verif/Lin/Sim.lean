import Verif.Lin.Lemmas

/-!
# The code of an expression computes `evalC`

`evalC` is the meaning of an expression with the choices of the linearizer made explicit:
indexed loads wait until their value is needed, operands may be exchanged, operators are chosen by
static types and use the arithmetic of C.
-/
namespace Verif.Lin

variable {P : Par}

/-- A value, or a pending load. -/
inductive W (P : Par) | v (x : P.V) | idx (c k : P.V)

def force (w : W P) (s : P.S) : Res (P.V × P.S) :=
  match w with
  | .v x => .ok (x, s)
  | .idx c k => ofOpt (P.get c k s)

/-- What the instruction `o` computes. -/
def opC (o : TOp) (a b : P.V) (s : P.S) : Res (P.V × P.S) :=
  match o with
  | .ar o .gen => genAr P o a b s
  | .ar o .ii =>
    match a, b with
    | .int x, .int y => do
      let r ← cOp P o x y
      .ok (if o = .div then .flt (P.ofInt r) else .int r, s)
    | _, _ => .ub
  | .ar o .ff =>
    match a, b with
    | .flt x, .flt y => do let r ← fOp P o x y; .ok (.flt r, s)
    | _, _ => .ub
  | .ar o .fi =>
    match a, b with
    | .flt x, .int y => do let r ← fOp P o x (P.ofInt y); .ok (.flt r, s)
    | _, _ => .ub
  | .ar o .if' =>
    match a, b with
    | .int x, .flt y => do let r ← fOp P o (P.ofInt x) y; .ok (.flt r, s)
    | _, _ => .ub
  | .cm c .ii =>
    match a, b with
    | .int x, .int y => .ok (.bool (cmpI c x y), s)
    | _, _ => .ub
  | .cm c .ff =>
    match a, b with
    | .flt x, .flt y => .ok (.bool (cmpF P c x y), s)
    | _, _ => .ub
  | .cm c _ => do let (r, s) ← cbSem P c a b s; .ok (.bool r, s)

def negC (t : Ty) (a : P.V) (s : P.S) : Res (P.V × P.S) :=
  match t with
  | .int =>
    match a with
    | .int x => if x.negOverflow then .ub else .ok (.int (-x), s)
    | _ => .ub
  | .flt =>
    match a with
    | .flt x => .ok (.flt (P.fneg x), s)
    | _ => .ub
  | .bool => do let _ ← negSem P a s; reject
  | _ => negSem P a s

def evalC (Γ : Nat → LV) (ρ : Nat → P.V) : Exp P.F P.O → P.S → Res (W P × P.S)
  | .lit v, s => .ok (.v v, s)
  | .loc x, s => .ok (.v (ρ x), s)
  | .idx e k, s => do
    let (w, s) ← evalC Γ ρ e s
    let (c, s) ← force w s
    let (w, s) ← evalC Γ ρ k s
    let (k, s) ← force w s
    .ok (.idx c k, s)
  | .bin o a b, s => do
    let (w1, s) ← evalC Γ ρ a s
    let (w2, s) ← evalC Γ ρ b s
    let sw := swap o (typ Γ a) (typ Γ b)
    let (x, s) ← force (if sw then w2 else w1) s
    let (y, s) ← force (if sw then w1 else w2) s
    let (r, s) ← opC (sel o (if sw then typ Γ b else typ Γ a) (if sw then typ Γ a else typ Γ b)) x y s
    .ok (.v (if o = .cm .ne then .bool (isFalse r) else r), s)
  | .and a b, s => do
    let (w, s) ← evalC Γ ρ a s
    let (x, s) ← force w s
    if isFalse x then .ok (.v x, s) else do
      let (w, s) ← evalC Γ ρ b s
      let (y, s) ← force w s
      .ok (.v y, s)
  | .or a b, s => do
    let (w, s) ← evalC Γ ρ a s
    let (x, s) ← force w s
    if isFalse x then do
      let (w, s) ← evalC Γ ρ b s
      let (y, s) ← force w s
      .ok (.v y, s)
    else .ok (.v x, s)
  | .not a, s => do
    let (w, s) ← evalC Γ ρ a s
    let (x, s) ← force w s
    .ok (.v (.bool (isFalse x)), s)
  | .neg a, s => do
    let (w, s) ← evalC Γ ρ a s
    let (x, s) ← force w s
    let (r, s) ← negC (typ Γ a) x s
    .ok (.v r, s)

/-! ## Static types are right -/

/-- A value of static type `t`. -/
def HasTy (t : Ty) (v : P.V) : Prop :=
  match t with
  | .int => ∃ i, v = .int i
  | .flt => ∃ f, v = .flt f
  | _ => True

/-- A pending load is never of a number type. -/
def WTy (t : Ty) : W P → Prop
  | .v x => HasTy t x
  | .idx _ _ => t ≠ .int ∧ t ≠ .flt

theorem force_ty {t} {w : W P} {s x s'} (h : WTy t w) (hf : force w s = .ok (x, s')) :
    HasTy t x := by
  rcases w with v | ⟨c, k⟩
  · simp only [force, Res.ok.injEq, Prod.mk.injEq] at hf
    exact hf.1 ▸ h
  · cases t <;> simp_all [WTy, HasTy]

def binTy : Bin → Ty → Ty → Ty
  | .ar o => arTy o
  | .cm _ => cmTy

theorem typ_bin {F O : Type} (Γ : Nat → LV) (o : Bin) (a b : Exp F O) :
    typ Γ (.bin o a b) = binTy o (typ Γ a) (typ Γ b) := by cases o <;> rfl

theorem binTy_comm (o t1 t2) : binTy o t1 t2 = binTy o t2 t1 := by
  rcases o with o | c
  · cases o <;> cases t1 <;> cases t2 <;> rfl
  · cases t1 <;> cases t2 <;> rfl

theorem ofOpt_ok {α : Type} {x : Option α} {y : α} (h : ofOpt x = .ok y) : x = some y := by
  cases x <;> simp_all [ofOpt, raise]

theorem arTy_any {o t1 t2} (h : ¬ ((t1 = .int ∨ t1 = .flt) ∧ (t2 = .int ∨ t2 = .flt))) :
    arTy o t1 t2 = .any := by
  cases o <;> cases t1 <;> cases t2 <;> first | rfl | exact absurd ⟨by simp, by simp⟩ h

/-- The static type of the result of the instruction chosen for an operator. -/
theorem opC_ty {o : Bin} {t1 t2 : Ty} {a b : P.V} {s v s'}
    (ha : HasTy t1 a) (hb : HasTy t2 b)
    (h : (if swap o t1 t2 then opC (sel o t2 t1) b a s else opC (sel o t1 t2) a b s) = .ok (v, s')) :
    HasTy (binTy o t1 t2) v := by
  rcases o with o | c
  swap
  · show HasTy (cmTy t1 t2) v
    unfold cmTy
    dsimp only
    split <;> exact trivial
  show HasTy (arTy o t1 t2) v
  by_cases hn : (t1 = .int ∨ t1 = .flt) ∧ (t2 = .int ∨ t2 = .flt)
  swap
  · rw [arTy_any hn]; exact trivial
  rcases hn with ⟨rfl | rfl, rfl | rfl⟩ <;> obtain ⟨x, rfl⟩ := ha <;> obtain ⟨y, rfl⟩ := hb <;>
    cases o <;> simp [swap, sel, opC, genAr, arSem, cOp, fOp, tonum] at h
  all_goals first
    | exact ⟨_, h.1.symm⟩
    | exact trivial
    | (simp only [Res.bind_eq_ok] at h
       obtain ⟨r, _, h⟩ := h
       simp at h
       exact ⟨_, h.1.symm⟩)
    | exact P.arith_int _ _ _ _ _ _ (ofOpt_ok h) rfl rfl (by simp [Op.bit]; done)
    | exact P.arith_flt _ _ _ _ _ _ (ofOpt_ok h) rfl rfl (by simp; done)

theorem evalC_ty {Γ : Nat → LV} {ρ : Nat → P.V} (hρ : ∀ x, HasTy (Γ x).ty (ρ x)) :
    ∀ (e : Exp P.F P.O) (s : P.S) (w : W P) (s' : P.S), evalC Γ ρ e s = .ok (w, s') →
      WTy (typ Γ e) w := by
  intro e
  induction e with
  | lit v =>
    intro s w s' h
    simp only [evalC, Res.ok.injEq, Prod.mk.injEq] at h
    obtain ⟨rfl, rfl⟩ := h
    cases v <;> first | exact trivial | exact ⟨_, rfl⟩
  | loc x =>
    intro s w s' h
    simp only [evalC, Res.ok.injEq, Prod.mk.injEq] at h
    obtain ⟨rfl, rfl⟩ := h
    exact hρ x
  | idx e k _ _ =>
    intro s w s' h
    simp only [evalC, Res.bind_eq_ok] at h
    obtain ⟨_, _, _, _, _, _, _, _, h⟩ := h
    simp only [Res.ok.injEq, Prod.mk.injEq] at h
    obtain ⟨rfl, rfl⟩ := h
    exact ⟨by simp [typ], by simp [typ]⟩
  | bin o a b iha ihb =>
    intro s w s' h
    simp only [evalC, Res.bind_eq_ok] at h
    obtain ⟨⟨w1, s1⟩, h1, ⟨w2, s2⟩, h2, ⟨x, s3⟩, h3, ⟨y, s4⟩, h4, ⟨r, s5⟩, h5, h⟩ := h
    simp only [Res.ok.injEq, Prod.mk.injEq] at h
    obtain ⟨rfl, rfl⟩ := h
    have t1 := iha _ _ _ h1
    have t2 := ihb _ _ _ h2
    dsimp only at h3 h4 h5
    by_cases hne : o = .cm .ne
    · subst hne
      show HasTy (cmTy _ _) _
      unfold cmTy
      dsimp only
      split <;> exact trivial
    · simp only [hne, if_false]
      have key : HasTy (binTy o (typ Γ a) (typ Γ b)) r := by
        by_cases hsw : swap o (typ Γ a) (typ Γ b) = true
        · simp only [hsw, if_true] at h3 h4 h5
          exact opC_ty (o := o) (t1 := typ Γ a) (t2 := typ Γ b) (force_ty t1 h4) (force_ty t2 h3) (by simp only [hsw, if_true]; exact h5)
        · simp only [hsw, if_false, Bool.false_eq_true] at h3 h4 h5
          exact opC_ty (o := o) (t1 := typ Γ a) (t2 := typ Γ b) (force_ty t1 h3) (force_ty t2 h4)
            (by simp only [hsw, if_false, Bool.false_eq_true]; exact h5)
      rcases o with o | c
      · exact key
      · exact key
  | and a b _ _ => 
    intro s w s' h
    simp only [evalC, Res.bind_eq_ok] at h
    obtain ⟨_, _, ⟨x, _⟩, _, h⟩ := h
    dsimp only at h
    split at h
    · simp only [Res.ok.injEq, Prod.mk.injEq] at h
      obtain ⟨rfl, rfl⟩ := h
      exact trivial
    · simp only [Res.bind_eq_ok] at h
      obtain ⟨_, _, _, _, h⟩ := h
      simp only [Res.ok.injEq, Prod.mk.injEq] at h
      obtain ⟨rfl, rfl⟩ := h
      exact trivial
  | or a b _ _ => 
    intro s w s' h
    simp only [evalC, Res.bind_eq_ok] at h
    obtain ⟨_, _, ⟨x, _⟩, _, h⟩ := h
    dsimp only at h
    split at h
    · simp only [Res.bind_eq_ok] at h
      obtain ⟨_, _, _, _, h⟩ := h
      simp only [Res.ok.injEq, Prod.mk.injEq] at h
      obtain ⟨rfl, rfl⟩ := h
      exact trivial
    · simp only [Res.ok.injEq, Prod.mk.injEq] at h
      obtain ⟨rfl, rfl⟩ := h
      exact trivial
  | not a _ =>
    intro s w s' h
    simp only [evalC, Res.bind_eq_ok] at h
    obtain ⟨_, _, _, _, h⟩ := h
    simp only [Res.ok.injEq, Prod.mk.injEq] at h
    obtain ⟨rfl, rfl⟩ := h
    exact trivial
  | neg a ih =>
    intro s w s' h
    simp only [evalC, Res.bind_eq_ok] at h
    obtain ⟨⟨w1, s1⟩, h1, ⟨x, s2⟩, h2, ⟨r, s3⟩, h3, h⟩ := h
    simp only [Res.ok.injEq, Prod.mk.injEq] at h
    obtain ⟨rfl, rfl⟩ := h
    have tx := force_ty (ih _ _ _ h1) h2
    dsimp only at h3
    simp only [WTy, typ]
    cases ht : typ Γ a <;> rw [ht] at tx h3 <;> try exact trivial
    · obtain ⟨i, rfl⟩ := tx
      simp only [negC] at h3
      split at h3
      · cases h3
      · simp only [Res.ok.injEq, Prod.mk.injEq] at h3
        exact ⟨_, h3.1.symm⟩
    · obtain ⟨i, rfl⟩ := tx
      simp only [negC, Res.ok.injEq, Prod.mk.injEq] at h3
      exact ⟨_, h3.1.symm⟩

/-! ## Instructions -/

/-- The code generator can read the number in the pseudo. -/
def Rdable (t : Ty) (q : Ps P.F P.O) : Prop :=
  ∀ M : Mach P, (t = .int → ∀ x, rd P M q = .int x → rdI P M q = .ok x) ∧
    (t = .flt → ∀ x, rd P M q = .flt x → rdF P M q = .ok x)

def NTy (t : Ty) : Pn P.F P.O → Prop
  | .p q => Rdable t q
  | .idx _ _ => t ≠ .int ∧ t ≠ .flt

theorem Rdable.triv {t : Ty} {q : Ps P.F P.O} (h1 : t ≠ .int) (h2 : t ≠ .flt) : Rdable t q :=
  fun _ => ⟨fun h => absurd h h1, fun h => absurd h h2⟩

theorem Rdable.kind {t : Ty} {q : Ps P.F P.O} (h : kindOf q t) : Rdable t q := by
  intro M
  cases t <;> obtain ⟨r, rfl⟩ := h <;> simp [rd, rdI, rdF]

theorem Rdable.lv (l : LV) : Rdable (P := P) l.ty l.ps := by
  intro M
  rcases l with ⟨r, t⟩ | r | r
  · cases t <;> simp [LV.ty, LV.ps, rd, rdI, rdF] <;> intro x h <;> rw [h] <;> rfl
  · simp [LV.ty, LV.ps, rd, rdI]
  · simp [LV.ty, LV.ps, rd, rdF]

theorem wrA_kind {M : Mach P} {t : Ty} {d v s} (h : kindOf d t) (hv : HasTy t v)
    (hb : t ≠ .bool) : Wr M d (.ok (v, s)) (wrA P { M with s := s } d v) := by
  cases t
  · obtain ⟨r, rfl⟩ := h; exact wrT_ta
  · obtain ⟨r, rfl⟩ := h; obtain ⟨i, rfl⟩ := hv; exact wrA_ti
  · obtain ⟨r, rfl⟩ := h; obtain ⟨i, rfl⟩ := hv; exact wrA_tf
  · exact absurd rfl hb
  · obtain ⟨r, rfl⟩ := h; exact wrT_ta

theorem arTy_bool (o t1 t2) : arTy o t1 t2 ≠ .bool := by
  cases o <;> simp only [arTy] <;> split <;> simp <;> split <;> simp

theorem Wr.bind' {M : Mach P} {t} {r : Res (P.V × P.S)}
    {f' : P.V × P.S → Res (Mach P)} (h : ∀ x, r = .ok x → Wr M t (.ok x) (f' x)) :
    Wr M t r (r >>= f') := by
  rcases r with x | m | _
  · simpa using h x rfl
  · exact rfl
  · exact rfl

/-- The variant chosen for an arithmetic operator, and what the types then are. -/
theorem sel_cases (o : Op) (t1 t2 : Ty) :
    (∃ sp, sel (.ar o) t1 t2 = .ar o sp ∧
      ((sp = .ii ∧ t1 = .int ∧ t2 = .int ∧ arTy o t1 t2 = (if o = .div then .flt else .int)) ∨
       (sp = .ff ∧ t1 = .flt ∧ t2 = .flt ∧ arTy o t1 t2 = .flt) ∨
       (sp = .fi ∧ t1 = .flt ∧ t2 = .int ∧ arTy o t1 t2 = .flt) ∨
       (sp = .if' ∧ t1 = .int ∧ t2 = .flt ∧ arTy o t1 t2 = .flt) ∨
       (sp = .gen ∧ ((o = .add ∨ o = .sub ∨ o = .mul) → arTy o t1 t2 = .any ∨
          ((o = .add ∨ o = .mul) ∧ t1 = .int ∧ t2 = .flt))))) := by
  cases o <;> cases t1 <;> cases t2 <;> exact ⟨_, rfl, by simp [arTy]⟩

theorem exBin_ok {o : Bin} {t1 t2 : Ty} {M : Mach P} {q1 q2 d : Ps P.F P.O}
    (h1 : Rdable t1 q1) (h2 : Rdable t2 q2) (v1 : HasTy t1 (rd P M q1)) (v2 : HasTy t2 (rd P M q2))
    (hd : kindOf d (binTy o t1 t2))
    (hs : ¬ ((o = .ar .add ∨ o = .ar .mul) ∧ t1 = .int ∧ t2 = .flt)) :
    Wr M d (opC (sel o t1 t2) (rd P M q1) (rd P M q2) M.s) (exBin P M (sel o t1 t2) q1 q2 d) := by
  rcases o with o | c
  · have hty : ∀ v s', opC (sel (.ar o) t1 t2) (rd P M q1) (rd P M q2) M.s = .ok (v, s') →
        HasTy (arTy o t1 t2) v := by
      intro v s' hv
      refine opC_ty (o := .ar o) v1 v2 (s := M.s) (s' := s') ?_
      have : swap (.ar o) t1 t2 = false := by
        cases o <;> simp [swap] at hs ⊢ <;> exact hs
      simp only [this, Bool.false_eq_true, if_false]
      exact hv
    obtain ⟨sp, hsel, hc⟩ := sel_cases o t1 t2
    rw [hsel] at hty ⊢
    change kindOf d (arTy o t1 t2) at hd
    rcases hc with ⟨rfl, rfl, rfl, ht⟩ | ⟨rfl, rfl, rfl, ht⟩ | ⟨rfl, rfl, rfl, ht⟩ |
      ⟨rfl, rfl, rfl, ht⟩ | ⟨rfl, ht⟩
    · obtain ⟨x, hx⟩ := v1
      obtain ⟨y, hy⟩ := v2
      simp only [opC, exBin, hx, hy, (h1 M).1 rfl _ hx, (h2 M).1 rfl _ hy, Res.bind_ok]
      refine Wr.bind fun r _ => ?_
      rw [ht] at hd
      by_cases ho : o = .div
      · simp only [ho, if_true] at hd ⊢
        obtain ⟨k, rfl⟩ := hd
        exact wrI_tf rfl
      · simp only [ho, if_false] at hd ⊢
        obtain ⟨k, rfl⟩ := hd
        exact wrI_ti rfl
    · obtain ⟨x, hx⟩ := v1
      obtain ⟨y, hy⟩ := v2
      simp only [opC, exBin, hx, hy, (h1 M).2 rfl _ hx, (h2 M).2 rfl _ hy, Res.bind_ok]
      refine Wr.bind fun r _ => ?_
      rw [ht] at hd
      obtain ⟨k, rfl⟩ := hd
      exact wrF_tf rfl
    · obtain ⟨x, hx⟩ := v1
      obtain ⟨y, hy⟩ := v2
      simp only [opC, exBin, hx, hy, (h1 M).2 rfl _ hx, (h2 M).1 rfl _ hy, Res.bind_ok]
      refine Wr.bind fun r _ => ?_
      rw [ht] at hd
      obtain ⟨k, rfl⟩ := hd
      exact wrF_tf rfl
    · obtain ⟨x, hx⟩ := v1
      obtain ⟨y, hy⟩ := v2
      simp only [opC, exBin, hx, hy, (h1 M).1 rfl _ hx, (h2 M).2 rfl _ hy, Res.bind_ok]
      refine Wr.bind fun r _ => ?_
      rw [ht] at hd
      obtain ⟨k, rfl⟩ := hd
      exact wrF_tf rfl
    · simp only [opC, exBin] at hty ⊢
      refine Wr.bind' fun ⟨v, s⟩ hv => ?_
      have hv' := hty v s hv
      have hb := arTy_bool o t1 t2
      have hA : Wr M d (.ok (v, s)) (wrA P { M with s := s } d v) := wrA_kind hd hv' hb
      have hT : (o = .add ∨ o = .sub ∨ o = .mul) →
          Wr M d (.ok (v, s)) (wrT P { M with s := s } d v) := by
        intro ho
        rcases ht ho with h | ⟨h, h', h''⟩
        · rw [h] at hd
          obtain ⟨r, rfl⟩ := hd
          exact wrT_ta
        · exact absurd ⟨h.imp (congrArg _) (congrArg _), h', h''⟩ hs
      cases o <;> first | exact hA | exact hT (by simp)
  · have hd' : kindOf d .bool ∨ kindOf d .any := by
      change kindOf d (cmTy t1 t2) at hd
      unfold cmTy at hd
      dsimp only at hd
      split at hd
      · exact Or.inl hd
      · exact Or.inr hd
    simp only [sel]
    by_cases hi : t1 = .int ∧ t2 = .int
    · obtain ⟨rfl, rfl⟩ := hi
      obtain ⟨x, hx⟩ := v1
      obtain ⟨y, hy⟩ := v2
      simp only [and_self, if_true, opC, exBin, hx, hy, (h1 M).1 rfl _ hx, (h2 M).1 rfl _ hy,
        Res.bind_ok]
      exact wrB_kind hd'
    · by_cases hf : t1 = .flt ∧ t2 = .flt
      · obtain ⟨rfl, rfl⟩ := hf
        obtain ⟨x, hx⟩ := v1
        obtain ⟨y, hy⟩ := v2
        simp only [and_self, if_true, if_false, reduceCtorEq, opC, exBin, hx, hy,
          (h1 M).2 rfl _ hx, (h2 M).2 rfl _ hy, Res.bind_ok]
        exact wrB_kind hd'
      · simp only [hi, hf, if_false, opC, exBin]
        exact Wr.bind fun ⟨r, s⟩ _ => wrB_kind hd'

/-! ## Loading pending accesses -/

section
variable {F O : Type}

/-- The registers a pseudo reads are in use. -/
def Ok (st : St F O) (q : Ps F O) : Prop := ∀ k, use q = some k → live st k

def OkN (st : St F O) (n : Pn F O) : Prop := ∀ k, k ∈ uses n → live st k

/-- Loading a pending access, or doing nothing. -/
theorem operand_st {st : St F O} {n q st'} (h : operand st n = .ok (q, st')) (hn : OkN st n) :
    BExt st st' ∧ (∀ k, live (freeN st n) k → live st' k) ∧ Ok st' q ∧
    (∀ k, fk q = some k → ¬ live (freeN st n) k) ∧
    (∀ k, use q = some k → k ∈ uses n ∨ fk q = some k) ∧
    (n = .p q ∨ ∃ r, q = .ta r) := by
  rcases n with p | ⟨c, k⟩
  · simp only [operand, Res.ok.injEq, Prod.mk.injEq] at h
    obtain ⟨rfl, rfl⟩ := h
    refine ⟨.refl _, ?_, ?_, ?_, ?_, Or.inl rfl⟩
    · intro k hk; exact ((live_freeN _ _ _).1 hk).1
    · intro k hk; exact hn k (by simp [uses, hk])
    · intro k hk h
      exact ((live_freeN _ _ _).1 h).2 (by simp [fks, hk])
    · intro k hk; exact Or.inl (by simp [uses, hk])
  · simp only [operand, load, Res.bind_eq_ok] at h
    obtain ⟨⟨t, s1⟩, h1, h2⟩ := h
    simp only [Res.ok.injEq, Prod.mk.injEq] at h2
    obtain ⟨rfl, rfl⟩ := h2
    obtain ⟨⟨r, rfl⟩, ⟨κ, hκ, hl, hl'⟩, hb⟩ := allocT_ok h1
    have hf : ∀ x, live (freeP (freeP st c) k) x ↔ live (freeN st (.idx c k)) x := by
      intro x
      simp only [freeN, live_freeP]
      exact ⟨fun ⟨⟨a, b⟩, c⟩ => ⟨⟨a, c⟩, b⟩, fun ⟨⟨a, b⟩, c⟩ => ⟨⟨a, c⟩, b⟩⟩
    have e1 : BExt st (freeP (freeP st c) k) :=
      (BExt.same (freeP_blocks st c)).trans (BExt.same (freeP_blocks _ k))
    refine ⟨(e1.trans (BExt.same hb)).trans (.emit _ _), ?_, ?_, ?_, ?_, Or.inr ⟨_, rfl⟩⟩
    · intro x hx
      rw [live_emit, hl']
      exact Or.inl ((hf x).2 hx)
    · intro x hx
      rw [live_emit, hl']
      exact Or.inr (by rw [fk_use hκ] at hx; exact (Option.some.inj hx).symm)
    · intro x hx h
      rw [hκ] at hx
      obtain rfl := Option.some.inj hx
      exact hl ((hf _).2 h)
    · intro x hx
      rw [fk_use hκ] at hx
      exact Or.inr (hκ.trans hx)

end

/-- The value or pending load that a pseudo stands for in a state. -/
def pnv (M : Mach P) : Pn P.F P.O → W P
  | .p q => .v (rd P M q)
  | .idx c k => .idx (rd P M c) (rd P M k)

/-- Everything in use keeps its value. -/
def Frame (st : St P.F P.O) (M M' : Mach P) : Prop := ∀ q, Ok st q → rd P M' q = rd P M q

theorem Frame.refl (st : St P.F P.O) (M : Mach P) : Frame st M M := fun _ _ => rfl

theorem Frame.trans {st st' : St P.F P.O} {M M' M'' : Mach P} (h : Frame st M M')
    (h' : Frame st' M' M'') (hs : ∀ k, live st k → live st' k) : Frame st M M'' :=
  fun q hq => (h' q fun k hk => hs k (hq k hk)).trans (h q hq)

theorem Frame.sub {st st' : St P.F P.O} {M M' : Mach P} (h : Frame st' M M')
    (hs : ∀ k, live st k → live st' k) : Frame st M M' :=
  fun q hq => h q fun k hk => hs k (hq k hk)

theorem Frame.pnv {st : St P.F P.O} {M M' : Mach P} (h : Frame st M M') {n} (hn : OkN st n) :
    pnv M' n = pnv M n := by
  rcases n with q | ⟨c, k⟩
  · simp only [Lin.pnv]
    rw [h q fun k hk => hn k (by simp [uses, hk])]
  · simp only [Lin.pnv]
    rw [h c fun x hk => hn x (by simp [uses, hk]), h k fun x hk => hn x (by simp [uses, hk])]

theorem get_ok {M : Mach P} {c k r} :
    Wr M (.ta r) (ofOpt (P.get (rd P M c) (rd P M k) M.s)) (exIns P M (.get c k (.ta r))) := by
  simp only [exIns]
  exact Wr.bind' fun ⟨v, s⟩ _ => wrT_ta

theorem operand_exe {g : Prog P} {st : St P.F P.O} {n q st'} (h : operand st n = .ok (q, st'))
    (hn : OkN st n) (hc : Covers g st') (M : Mach P) :
    Exe g (here st M) st' (force (pnv M n) M.s) (fun y M' => rd P M' q = y.1 ∧ M'.s = y.2 ∧
      Frame (freeN st n) M M') := by
  have hst := operand_st h hn
  rcases n with p | ⟨c, k⟩
  · simp only [operand, Res.ok.injEq, Prod.mk.injEq] at h
    obtain ⟨rfl, rfl⟩ := h
    exact Exe.ok ⟨rfl, rfl, Frame.refl _ _⟩
  · simp only [operand, load, Res.bind_eq_ok] at h
    obtain ⟨⟨t, s1⟩, h1, h2⟩ := h
    simp only [Res.ok.injEq, Prod.mk.injEq] at h2
    obtain ⟨rfl, rfl⟩ := h2
    obtain ⟨⟨r, rfl⟩, ⟨κ, hκ, hl, hl'⟩, hb⟩ := allocT_ok h1
    have e1 := freeP_blocks st c
    have e2 := freeP_blocks (freeP st c) k
    have hh : here st M = here s1 M := by
      simp only [here, hb.1, hb.2.2, e1.1, e1.2.2, e2.1, e2.2.2]
    rw [hh]
    refine (exe_ins hc rfl get_ok).imp ?_
    rintro ⟨v, s⟩ M' _ ⟨a1, a2, a3⟩
    refine ⟨a1, a2, ?_⟩
    intro q hq
    refine a3 q fun e => ?_
    have := hq κ (e.trans (fk_use hκ))
    exact hst.2.2.2.1 κ hκ this

end Verif.Lin
