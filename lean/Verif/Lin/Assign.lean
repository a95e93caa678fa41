import Verif.Lin.Main
import Verif.Lin.Agree

/-!
# Assignments
-/
namespace Verif.Lin

variable {P : Par}

/-! ## The language, with undefined behaviour where the code is known to go wrong -/

def evalTgtsS (Γ : Nat → LV) (ρ : Nat → P.V) : List (Tgt P.F P.O) → P.S →
    Res (List (Place P) × P.S)
  | [], s => .ok ([], s)
  | .loc x :: ts, s => do
    let (r, s) ← evalTgtsS Γ ρ ts s
    .ok (.loc x :: r, s)
  | .idx e k :: ts, s => do
    let (c, s) ← evalS Γ ρ e s
    let (k, s) ← evalS Γ ρ k s
    let (r, s) ← evalTgtsS Γ ρ ts s
    .ok (.idx c k :: r, s)

def evalValsS (Γ : Nat → LV) (ρ : Nat → P.V) : List (Exp P.F P.O) → P.S → Res (List P.V × P.S)
  | [], s => .ok ([], s)
  | e :: es, s => do
    let (v, s) ← evalS Γ ρ e s
    let (r, s) ← evalValsS Γ ρ es s
    .ok (v :: r, s)

/-- A float that is found in an untyped place and assigned to an integer variable. -/
def fromAny (t vt : Ty) (v : P.V) : Bool :=
  match t, vt, v with
  | .int, .int, _ => false
  | .int, .flt, _ => false
  | .int, _, .flt f => (P.toInt f).isSome
  | _, _, _ => false

def convS (t vt : Ty) (v : P.V) : Res P.V := if fromAny t vt v then .ub else conv P t v

def assignS (Γ : Nat → LV) : List (Place P) → List P.V → List (Exp P.F P.O) → (Nat → P.V) →
    P.S → Res ((Nat → P.V) × P.S)
  | [], _, _, ρ, s => .ok (ρ, s)
  | .loc x :: ps, v :: vs, e :: es, ρ, s => do
    let v ← convS (Γ x).ty (typ Γ e) v
    assignS Γ ps vs es (set ρ x v) s
  | .idx c k :: ps, v :: vs, _ :: es, ρ, s => do
    let s ← ofOpt (P.put c k v s)
    assignS Γ ps vs es ρ s
  | .loc x :: ps, _, _, ρ, s => assignS Γ ps [] [] (set ρ x (dflt P (Γ x).ty)) s
  | .idx c k :: ps, _, _, ρ, s => do
    let s ← ofOpt (P.put c k .nil s)
    assignS Γ ps [] [] ρ s

def evalAssignS (Γ : Nat → LV) (ts : List (Tgt P.F P.O)) (es : List (Exp P.F P.O))
    (ρ : Nat → P.V) (s : P.S) : Res ((Nat → P.V) × P.S) := do
  let (ps, s) ← evalTgtsS Γ ρ ts s
  let (vs, s) ← evalValsS Γ ρ es s
  assignS Γ ps vs es ρ s

/-! ## Which assignments -/

def reads {F O : Type} (x : Nat) : Exp F O → Bool
  | .loc y => y == x
  | _ => false

/-- The variable is neither container nor key of the target. -/
def Tgt.apart {F O : Type} (x : Nat) : Tgt F O → Bool
  | .loc _ => true
  | .idx e k => !reads x e && !reads x k

def LV.inC : LV → Bool
  | .sym _ _ => false
  | _ => true

/-- No target is used, in the place where it is, after it has been assigned: not as container or
key of an indexed place further to the right, and - if it is a C variable - not as value further
to the right.  A captured variable of a number type has a value. -/
def Fine {F O : Type} (Γ : Nat → LV) : List (Tgt F O) → List (Exp F O) → Bool
  | [], _ => true
  | .loc x :: ts, es =>
    ((Γ x).ty == .any || (Γ x).ty == .int || (Γ x).ty == .flt) &&
    (!es.isEmpty || (Γ x).inC || (Γ x).ty == .any) &&
    ts.all (Tgt.apart x) &&
    (!(Γ x).inC || es.tail.all (fun e => !reads x e)) &&
    Fine Γ ts es.tail
  | .idx _ _ :: ts, es => Fine Γ ts es.tail

def PlainT {F O : Type} (Γ : Nat → LV) : Tgt F O → Bool
  | .loc _ => true
  | .idx e k => Plain Γ e && Plain Γ k

/-! ## Places -/

section
variable {F O : Type}

/-- Where a pseudo is. -/
def slot : Ps F O → Option (Option K × Nat)
  | .sym r _ => some (none, r)
  | .ti r _ | .tb r => some (some .i, r)
  | .tf r _ => some (some .f, r)
  | .ta r => some (some .a, r)
  | .kc _ => none

theorem slot_use {q : Ps F O} {k} (h : use q = some k) : slot q = some (some k.1, k.2) := by
  cases q <;> simp_all [use, slot] <;> subst h <;> simp

theorem use_slot {q : Ps F O} {κ r} (h : slot q = some (some κ, r)) : use q = some (κ, r) := by
  cases q <;> simp_all [use, slot]

def LV.slot : LV → Option K × Nat
  | .sym r _ => (none, r)
  | .ireg r => (some .i, r)
  | .freg r => (some .f, r)

theorem slot_ps (l : LV) : slot (F := F) (O := O) l.ps = some l.slot := by cases l <;> rfl

/-- No two variables share a place. -/
def Distinct (Γ : Nat → LV) : Prop := ∀ x y, (Γ x).slot = (Γ y).slot → x = y

/-- What the pseudo of an operand can be: the variable, a constant, or a temporary. -/
def Sh (P : Par) (Γ : Nat → LV) (e : Exp P.F P.O) (q : Ps P.F P.O) : Prop :=
  (∃ y, e = .loc y ∧ q = (Γ y).ps) ∨ (∃ v, q = .kc v) ∨ ∃ k, fk q = some k ∧ ¬ IsLoc P Γ k

/-- The pseudo is of a number type only if its static type says so. -/
def Fit (t : Ty) : Ps F O → Prop
  | .ti _ _ => t = .int
  | .tf _ _ => t = .flt
  | .kc (.int _) => t = .int
  | .kc (.flt _) => t = .flt
  | _ => True

theorem Fit.kind {q : Ps F O} {t : Ty} (h : kindOf q t) : Fit t q := by
  cases t <;> obtain ⟨r, rfl⟩ := h <;> simp [Fit]

end

/-- What the result of an expression looks like. -/
theorem lin_shape {Γ : Nat → LV} {e : Exp P.F P.O} {st n st'} (h : lin Γ e st = .ok (n, st')) :
    (∃ y, e = .loc y ∧ n = .p (Γ y).ps) ∨ (∃ v, e = .lit v ∧ n = .p (.kc v)) ∨
    (∃ q k, n = .p q ∧ fk q = some k ∧ Fit (typ Γ e) q) ∨ ∃ c k, n = .idx c k := by
  cases e with
  | lit v =>
    simp only [lin, Res.ok.injEq, Prod.mk.injEq] at h
    exact Or.inr (Or.inl ⟨v, rfl, h.1.symm⟩)
  | loc x =>
    simp only [lin, Res.ok.injEq, Prod.mk.injEq] at h
    exact Or.inl ⟨x, rfl, h.1.symm⟩
  | idx e k =>
    simp only [lin, Res.bind_eq_ok] at h
    obtain ⟨_, _, _, _, _, _, _, _, h⟩ := h
    simp only [Res.ok.injEq, Prod.mk.injEq] at h
    exact Or.inr (Or.inr (Or.inr ⟨_, _, h.1.symm⟩))
  | bin o a b =>
    simp only [lin, Res.bind_eq_ok] at h
    obtain ⟨⟨nt, s1⟩, h0, ⟨t, s2⟩, h1, _, _, _, _, _, _, _, _, h⟩ := h
    dsimp only at h0 h1 h
    obtain ⟨k1, ⟨κ, k2, _⟩, _⟩ := allocT_ok h1
    refine Or.inr (Or.inr (Or.inl ?_))
    split at h
    · rename_i ho
      simp only [allocNe, ho, if_true] at h0
      subst ho
      obtain ⟨k3, ⟨κ', k4, _⟩, _⟩ := allocT_ok h0
      simp only [Res.ok.injEq, Prod.mk.injEq] at h
      exact ⟨_, _, h.1.symm, k4, Fit.kind k3⟩
    · simp only [Res.ok.injEq, Prod.mk.injEq] at h
      exact ⟨_, _, h.1.symm, k2, Fit.kind k1⟩
  | and a b =>
    simp only [lin, Res.bind_eq_ok] at h
    obtain ⟨⟨t, s2⟩, h1, _, _, _, _, _, _, _, _, h⟩ := h
    obtain ⟨k1, ⟨κ, k2, _⟩, _⟩ := allocT_ok h1
    simp only [Res.ok.injEq, Prod.mk.injEq] at h
    exact Or.inr (Or.inr (Or.inl ⟨_, _, h.1.symm, k2, Fit.kind k1⟩))
  | or a b =>
    simp only [lin, Res.bind_eq_ok] at h
    obtain ⟨⟨t, s2⟩, h1, _, _, _, _, _, _, _, _, h⟩ := h
    obtain ⟨k1, ⟨κ, k2, _⟩, _⟩ := allocT_ok h1
    simp only [Res.ok.injEq, Prod.mk.injEq] at h
    exact Or.inr (Or.inr (Or.inl ⟨_, _, h.1.symm, k2, Fit.kind k1⟩))
  | not a =>
    simp only [lin, Res.bind_eq_ok] at h
    obtain ⟨⟨t, s2⟩, h1, _, _, _, _, h⟩ := h
    obtain ⟨k1, ⟨κ, k2, _⟩, _⟩ := allocT_ok h1
    simp only [Res.ok.injEq, Prod.mk.injEq] at h
    exact Or.inr (Or.inr (Or.inl ⟨_, _, h.1.symm, k2, Fit.kind k1⟩))
  | neg a =>
    simp only [lin, Res.bind_eq_ok] at h
    obtain ⟨⟨t, s2⟩, h1, _, _, _, _, h⟩ := h
    obtain ⟨k1, ⟨κ, k2, _⟩, _⟩ := allocT_ok h1
    simp only [Res.ok.injEq, Prod.mk.injEq] at h
    refine Or.inr (Or.inr (Or.inl ⟨_, _, h.1.symm, k2, ?_⟩))
    simp only [typ]
    cases hta : typ Γ a <;> rw [hta] at k1 <;> obtain ⟨r, rfl⟩ := k1 <;> simp [Fit]

/-- An operand of an expression, from its code to its use. -/
structure OpSim (Γ : Nat → LV) (ρ : Nat → P.V) (e : Exp P.F P.O) (st : St P.F P.O)
    (q : Ps P.F P.O) (st' : St P.F P.O) : Prop where
  ext : BExt st st'
  sub : ∀ k, live st k → live st' k
  ok : Ok st' q
  new : ∀ k, fk q = some k → ¬ live st k
  sh : Sh P Γ e q
  fit : Fit (typ Γ e) q
  exe : ∀ (g : Prog P) (M : Mach P), Covers g st' → Locals Γ ρ M →
    Exe g (here st M) st' (evalS Γ ρ e M.s) (fun y M' => rd P M' q = y.1 ∧ M'.s = y.2 ∧
      Frame st M M')

theorem op_sim {Γ : Nat → LV} {ρ : Nat → P.V} (hρ : ∀ x, HasTy (Γ x).ty (ρ x))
    {e : Exp P.F P.O} {st n st1 q st2} (hp : Plain Γ e = true) (h : lin Γ e st = .ok (n, st1))
    (hq : operand st1 n = .ok (q, st2)) (hwf : Wf Γ st) : OpSim Γ ρ e st q st2 := by
  have A := lin_sim hρ e st n st1 h hwf
  obtain ⟨o1, o2, o3, o4, _, o6⟩ := operand_st hq A.ok
  have hs : ∀ k, live st k → live (freeN st1 n) k := fun k hk =>
    (live_freeN _ _ _).2 ⟨A.sub k hk, fun h => A.new k h hk⟩
  have hnew : ∀ k, fk q = some k → ¬ live st k := fun k hk h => o4 k hk (hs k h)
  have hta : ∀ {r}, q = .ta r → Sh P Γ e q := by
    rintro r rfl
    exact Or.inr (Or.inr ⟨_, rfl, fun hl => hnew _ rfl (hwf.loc _ hl)⟩)
  refine ⟨A.ext.trans o1, fun k hk => o2 k (hs k hk), o3, hnew, ?_, ?_, ?_⟩
  · rcases o6 with rfl | ⟨r, hr⟩
    · rcases lin_shape h with ⟨y, rfl, hn⟩ | ⟨v, rfl, hn⟩ | ⟨q', k, hn, hk, _⟩ | ⟨c, k, hn⟩
      · cases hn; exact Or.inl ⟨y, rfl, rfl⟩
      · cases hn; exact Or.inr (Or.inl ⟨v, rfl⟩)
      · cases hn; exact Or.inr (Or.inr ⟨k, hk, fun hl => hnew _ hk (hwf.loc _ hl)⟩)
      · cases hn
    · exact hta hr
  · rcases o6 with rfl | ⟨r, rfl⟩
    · rcases lin_shape h with ⟨y, rfl, hn⟩ | ⟨v, rfl, hn⟩ | ⟨q', k, hn, _, hf⟩ | ⟨c, k, hn⟩
      · cases hn
        simp only [typ]
        cases Γ y <;> simp [LV.ps, LV.ty, Fit]
      · cases hn; cases v <;> simp [Fit, typ]
      · cases hn; exact hf
      · cases hn
    · trivial
  · intro g M hc hL
    rw [← evalV_eq hρ e M.s hp]
    refine Exe.bind (A.exe g M (hc.mono o1) hL) ?_
    rintro ⟨w, s⟩ M1 _ ⟨a1, a2, a3⟩
    dsimp only at a1 a2
    subst a1; subst a2
    refine (operand_exe hq A.ok hc M1).imp ?_
    rintro ⟨v, s⟩ M2 _ ⟨b1, b2, b3⟩
    exact ⟨b1, b2, a3.trans b3 hs⟩

/-! ## Targets -/

/-- The targets are ready: variables, and places whose container and key have been evaluated. -/
def TOk (Γ : Nat → LV) (M : Mach P) : List (Tgt P.F P.O) → List (Pn P.F P.O) → List (Place P) →
    Prop
  | [], [], [] => True
  | .loc x :: ts, .p d :: ns, .loc x' :: ps => x' = x ∧ d = (Γ x).ps ∧ TOk Γ M ts ns ps
  | .idx e k :: ts, .idx c q :: ns, .idx cv kv :: ps =>
    Sh P Γ e c ∧ Sh P Γ k q ∧ rd P M c = cv ∧ rd P M q = kv ∧ TOk Γ M ts ns ps
  | _, _, _ => False

theorem TOk.frame {Γ : Nat → LV} {M M' : Mach P} :
    ∀ {ts ns ps}, TOk Γ M ts ns ps →
      (∀ c q, Pn.idx c q ∈ ns → rd P M' c = rd P M c ∧ rd P M' q = rd P M q) → TOk Γ M' ts ns ps
  | [], [], [], _, _ => trivial
  | .loc x :: ts, .p d :: ns, .loc x' :: ps, ⟨h1, h2, h3⟩, hf =>
    ⟨h1, h2, TOk.frame h3 fun c q h => hf c q (List.mem_cons_of_mem _ h)⟩
  | .idx e k :: ts, .idx c q :: ns, .idx cv kv :: ps, ⟨h1, h2, h3, h4, h5⟩, hf => by
    have := hf c q (by simp)
    exact ⟨h1, h2, this.1.trans h3, this.2.trans h4,
      TOk.frame h5 fun c q h => hf c q (List.mem_cons_of_mem _ h)⟩

structure TgtsSim (Γ : Nat → LV) (ρ : Nat → P.V) (ts : List (Tgt P.F P.O)) (st : St P.F P.O)
    (ns : List (Pn P.F P.O)) (st' : St P.F P.O) : Prop where
  ext : BExt st st'
  sub : ∀ k, live st k → live st' k
  ok : ∀ n ∈ ns, OkN st' n
  new : ∀ n ∈ ns, ∀ k ∈ fks n, ¬ live st k
  exe : ∀ (g : Prog P) (M : Mach P), Covers g st' → Locals Γ ρ M →
    Exe g (here st M) st' (evalTgtsS Γ ρ ts M.s) (fun y M' => TOk Γ M' ts ns y.1 ∧ M'.s = y.2 ∧
      Frame st M M')

theorem tgts_sim {Γ : Nat → LV} {ρ : Nat → P.V} (hρ : ∀ x, HasTy (Γ x).ty (ρ x)) :
    ∀ {ts : List (Tgt P.F P.O)} {st ns st'}, linTgts Γ ts st = .ok (ns, st') → Wf Γ st →
      (∀ t ∈ ts, PlainT Γ t = true) → TgtsSim Γ ρ ts st ns st' := by
  intro ts
  induction ts with
  | nil =>
    intro st ns st' h hwf _
    simp only [linTgts, Res.ok.injEq, Prod.mk.injEq] at h
    obtain ⟨rfl, rfl⟩ := h
    exact ⟨.refl _, fun _ h => h, fun n hn => absurd hn (by simp), fun n hn => absurd hn (by simp),
      fun g M _ _ => Exe.ok ⟨trivial, rfl, .refl _ _⟩⟩
  | cons t ts ih =>
    intro st ns st' h hwf hp
    rcases t with x | ⟨e, k⟩
    · simp only [linTgts, Res.bind_eq_ok] at h
      obtain ⟨⟨r, s1⟩, h1, h2⟩ := h
      simp only [Res.ok.injEq, Prod.mk.injEq] at h2
      obtain ⟨rfl, rfl⟩ := h2
      have A := ih h1 hwf fun t ht => hp t (List.mem_cons_of_mem _ ht)
      refine ⟨A.ext, A.sub, ?_, ?_, ?_⟩
      · intro n hn
        rcases List.mem_cons.1 hn with rfl | hn
        · intro k hk
          simp only [uses, Option.mem_toList] at hk
          exact A.sub k (hwf.loc k ⟨x, hk⟩)
        · exact A.ok n hn
      · intro n hn
        rcases List.mem_cons.1 hn with rfl | hn
        · intro k hk
          cases hg : Γ x <;> rw [hg] at hk <;> simp [fks, fk, LV.ps] at hk
        · exact A.new n hn
      · intro g M hc hL
        refine Exe.bind (A.exe g M hc hL) ?_
        rintro ⟨ps, s⟩ M1 _ ⟨a1, a2, a3⟩
        exact Exe.ok ⟨⟨rfl, rfl, a1⟩, a2, a3⟩
    · have hpt := hp _ (List.mem_cons_self ..)
      simp only [PlainT, Bool.and_eq_true] at hpt
      simp only [linTgts, Res.bind_eq_ok] at h
      obtain ⟨⟨n, s4⟩, h0, ⟨r, s5⟩, h5, h6⟩ := h
      simp only [Res.ok.injEq, Prod.mk.injEq] at h6
      obtain ⟨rfl, rfl⟩ := h6
      dsimp only at h5
      have h0' := h0
      simp only [lin, Res.bind_eq_ok] at h0
      obtain ⟨⟨n1, s1⟩, h1, ⟨c, s2⟩, h2, ⟨n2, s3⟩, h3, ⟨q, s4'⟩, h4, h5'⟩ := h0
      simp only [Res.ok.injEq, Prod.mk.injEq] at h5'
      obtain ⟨rfl, rfl⟩ := h5'
      dsimp only at h2 h3 h4
      have A := op_sim hρ hpt.1 h1 h2 hwf
      have w2 := hwf.ext A.ext A.sub
      have B := op_sim hρ hpt.2 h3 h4 w2
      have w4 := w2.ext B.ext B.sub
      have C := ih h5 w4 fun t ht => hp t (List.mem_cons_of_mem _ ht)
      refine ⟨(A.ext.trans B.ext).trans C.ext, fun k hk => C.sub k (B.sub k (A.sub k hk)), ?_, ?_, ?_⟩
      · intro n hn
        rcases List.mem_cons.1 hn with rfl | hn
        · intro x hx
          simp only [uses, List.mem_append, Option.mem_toList] at hx
          rcases hx with hx | hx
          · exact C.sub x (B.sub x (A.ok x hx))
          · exact C.sub x (B.ok x hx)
        · exact C.ok n hn
      · intro n hn
        rcases List.mem_cons.1 hn with rfl | hn
        · intro x hx
          simp only [fks, List.mem_append, Option.mem_toList] at hx
          rcases hx with hx | hx
          · exact A.new x hx
          · exact fun h => B.new x hx (A.sub x h)
        · exact fun k hk h => C.new n hn k hk (B.sub k (A.sub k h))
      · intro g M hc hL
        have hc4 := hc.mono C.ext
        refine Exe.bind (A.exe g M (hc4.mono B.ext) hL) ?_
        rintro ⟨cv, s⟩ M1 _ ⟨a1, a2, a3⟩
        dsimp only at a1 a2
        subst a2
        have hL1 := hL.frame hwf a3
        refine Exe.bind (B.exe g M1 hc4 hL1) ?_
        rintro ⟨kv, s⟩ M2 _ ⟨b1, b2, b3⟩
        dsimp only at b1 b2
        subst b2
        have hL2 := hL1.frame w2 b3
        refine Exe.bind (C.exe g M2 hc hL2) ?_
        rintro ⟨ps, s⟩ M3 _ ⟨c1, c2, c3⟩
        refine Exe.ok ⟨⟨A.sh, B.sh, ?_, ?_, c1⟩, c2, (a3.trans b3 A.sub).trans c3
          fun k hk => B.sub k (A.sub k hk)⟩
        · rw [c3 c fun k hk => B.sub k (A.ok k hk), b3 c A.ok, a1]
        · rw [c3 q B.ok, b1]

/-! ## Values -/

/-- The values are ready. -/
def VOk (Γ : Nat → LV) (M : Mach P) : List (Exp P.F P.O) → List (Ps P.F P.O × Ty) → List P.V →
    Prop
  | [], [], [] => True
  | e :: es, (q, t) :: qs, v :: vs =>
    t = typ Γ e ∧ Sh P Γ e q ∧ (∀ r t, q ≠ .sym r t) ∧ Fit t q ∧ HasTy t v ∧ rd P M q = v ∧
    (∀ k, fk q = some k → ∀ p ∈ qs, fk p.1 ≠ some k) ∧ VOk Γ M es qs vs
  | _, _, _ => False

theorem VOk.frame {Γ : Nat → LV} {M M' : Mach P} :
    ∀ {es qs vs}, VOk Γ M es qs vs →
      (∀ p ∈ qs, rd P M' p.1 = rd P M p.1) → VOk Γ M' es qs vs
  | [], [], [], _, _ => trivial
  | e :: es, (q, t) :: qs, v :: vs, ⟨h1, h2, h3, h4, h5, h6, h7, h8⟩, hf =>
    ⟨h1, h2, h3, h4, h5, (hf (q, t) (by simp)).trans h6, h7,
      VOk.frame h8 fun p h => hf p (List.mem_cons_of_mem _ h)⟩

structure ValsSim (Γ : Nat → LV) (ρ : Nat → P.V) (es : List (Exp P.F P.O)) (st : St P.F P.O)
    (qs : List (Ps P.F P.O × Ty)) (st' : St P.F P.O) : Prop where
  ext : BExt st st'
  sub : ∀ k, live st k → live st' k
  new : ∀ p ∈ qs, ∀ k, fk p.1 = some k → ¬ live st k
  exe : ∀ (g : Prog P) (M : Mach P), Covers g st' → Locals Γ ρ M →
    Exe g (here st M) st' (evalValsS Γ ρ es M.s) (fun y M' => VOk Γ M' es qs y.1 ∧ M'.s = y.2 ∧
      Frame st M M')

/-- The value of an expression has its static type. -/
theorem evalS_ty {Γ : Nat → LV} {ρ : Nat → P.V} (hρ : ∀ x, HasTy (Γ x).ty (ρ x))
    {e : Exp P.F P.O} {s v s'} (hp : Plain Γ e = true) (h : evalS Γ ρ e s = .ok (v, s')) :
    HasTy (typ Γ e) v := by
  rw [← evalV_eq hρ e s hp] at h
  simp only [evalV, Res.bind_eq_ok] at h
  obtain ⟨⟨w, s1⟩, h1, h2⟩ := h
  exact force_ty (evalC_ty hρ e s w s1 h1) h2

/-- A value in a Lua register is copied. -/
theorem copyT_sim {Γ : Nat → LV} {ρ : Nat → P.V} (hρ : ∀ x, HasTy (Γ x).ty (ρ x))
    {e : Exp P.F P.O} {st q st1 q' st2} (hwf : Wf Γ st) (hp : Plain Γ e = true)
    (A : OpSim Γ ρ e st q st1) (h : copyT st1 q = .ok (q', st2)) :
    OpSim Γ ρ e st q' st2 ∧ ∀ r t, q' ≠ .sym r t := by
  cases q with
  | sym r t =>
    simp only [copyT, Res.bind_eq_ok] at h
    obtain ⟨⟨d, s1⟩, h1, h2⟩ := h
    simp only [Res.ok.injEq, Prod.mk.injEq] at h2
    obtain ⟨rfl, rfl⟩ := h2
    obtain ⟨k1, ⟨κ, k2, k3, k4⟩, kb⟩ := allocT_ok h1
    have hte : typ Γ e = t := by
      rcases A.sh with ⟨y, rfl, hy⟩ | ⟨v, hv⟩ | ⟨k, hk, _⟩
      · simp only [typ]
        cases hg : Γ y <;> rw [hg] at hy <;> cases hy
        rfl
      · cases hv
      · cases hk
    have e1 : BExt st1 (emit s1 (.mov (.sym r t) d)) := (BExt.same kb).trans (.emit _ _)
    refine ⟨⟨A.ext.trans e1, fun k hk => ?_, ?_, ?_, ?_, ?_, ?_⟩, ?_⟩
    · rw [live_emit, k4]; exact Or.inl (A.sub k hk)
    · intro k hk
      rw [fk_use k2] at hk
      rw [live_emit, k4]
      exact Or.inr (Option.some.inj hk).symm
    · intro k hk hl
      rw [k2] at hk
      obtain rfl := Option.some.inj hk
      exact k3 (A.sub _ hl)
    · exact Or.inr (Or.inr ⟨κ, k2, fun hl => k3 (A.sub _ (hwf.loc _ hl))⟩)
    · rw [hte]
      cases t <;> obtain ⟨r, rfl⟩ := k1 <;> simp [Fit]
    · intro g M hc hL
      have := A.exe g M (hc.mono e1) hL
      have he : evalS Γ ρ e M.s = (evalS Γ ρ e M.s >>= fun y => .ok y) := by
        cases evalS Γ ρ e M.s <;> rfl
      rw [he]
      refine Exe.bind this ?_
      rintro ⟨v, s⟩ M1 hv ⟨a1, a2, a3⟩
      dsimp only at a1 a2
      have hty := evalS_ty hρ hp hv
      rw [hte] at hty
      rw [← here_same (st' := s1) kb.1 kb.2.2 M1]
      refine (exe_ins (t := d) (r := .ok (v, s)) hc rfl ?_).imp ?_
      · simp only [rd] at a1
        cases t <;> obtain ⟨r', rfl⟩ := k1
        · exact a2 ▸ a1 ▸ wrT_ta
        · obtain ⟨i, rfl⟩ := hty
          simp only [exIns, exMov, a1, rawI, Res.bind_ok]
          exact wrI_ti a2
        · obtain ⟨f, rfl⟩ := hty
          simp only [exIns, exMov, a1, rawF, Res.bind_ok]
          exact wrF_tf a2
        · exact a2 ▸ a1 ▸ wrT_ta
        · exact a2 ▸ a1 ▸ wrT_ta
      · rintro ⟨v', s'⟩ M2 hx ⟨b1, b2, b3⟩
        refine ⟨b1, b2, fun p hp' => (b3 p fun he => ?_).trans (a3 p hp')⟩
        rw [fk_use k2] at he
        exact k3 (A.sub _ (hp' _ he))
    · intro r' t' hd
      subst hd
      cases k2
  | _ =>
    simp only [copyT, Res.ok.injEq, Prod.mk.injEq] at h
    obtain ⟨rfl, rfl⟩ := h
    exact ⟨A, fun _ _ h => nomatch h⟩

theorem vals_sim {Γ : Nat → LV} {ρ : Nat → P.V} (hρ : ∀ x, HasTy (Γ x).ty (ρ x)) :
    ∀ {es : List (Exp P.F P.O)} {st qs st'}, linVals Γ es st = .ok (qs, st') → Wf Γ st →
      (∀ e ∈ es, Plain Γ e = true) → ValsSim Γ ρ es st qs st' := by
  intro es
  induction es with
  | nil =>
    intro st qs st' h hwf _
    simp only [linVals, Res.ok.injEq, Prod.mk.injEq] at h
    obtain ⟨rfl, rfl⟩ := h
    exact ⟨.refl _, fun _ h => h, fun n hn => absurd hn (by simp),
      fun g M _ _ => Exe.ok ⟨trivial, rfl, .refl _ _⟩⟩
  | cons e es ih =>
    intro st qs st' h hwf hp
    have hpe := hp _ (List.mem_cons_self ..)
    simp only [linVals, Res.bind_eq_ok] at h
    obtain ⟨⟨n, s1⟩, h1, ⟨q0, s2⟩, h2, ⟨q, s3⟩, h3, ⟨r, s4⟩, h4, h5⟩ := h
    simp only [Res.ok.injEq, Prod.mk.injEq] at h5
    obtain ⟨rfl, rfl⟩ := h5
    dsimp only at h2 h3 h4
    obtain ⟨A, hns⟩ := copyT_sim hρ hwf hpe (op_sim hρ hpe h1 h2 hwf) h3
    have w3 := hwf.ext A.ext A.sub
    have B := ih h4 w3 fun t ht => hp t (List.mem_cons_of_mem _ ht)
    refine ⟨A.ext.trans B.ext, fun k hk => B.sub k (A.sub k hk), ?_, ?_⟩
    · intro p hp' k hk hl
      rcases List.mem_cons.1 hp' with rfl | hp'
      · exact A.new k hk hl
      · exact B.new p hp' k hk (A.sub k hl)
    · intro g M hc hL
      refine Exe.bind (A.exe g M (hc.mono B.ext) hL) ?_
      rintro ⟨v, s⟩ M1 hv ⟨a1, a2, a3⟩
      dsimp only at a1 a2
      subst a2
      refine Exe.bind (B.exe g M1 hc (hL.frame hwf a3)) ?_
      rintro ⟨vs, s⟩ M2 _ ⟨b1, b2, b3⟩
      refine Exe.ok ⟨⟨rfl, A.sh, hns, A.fit, evalS_ty hρ hpe hv, ?_, ?_, b1⟩, b2,
        a3.trans b3 A.sub⟩
      · rw [b3 q A.ok, a1]
      · intro k hk p hp' hk'
        exact B.new p hp' k hk' (A.ok k (fk_use hk))

/-! ## Stores -/

theorem run_ins {g : Prog P} {st : St P.F P.O} {x M M'} (h : Covers g (emit st x))
    (hj : x.jump = false) (he : exIns P M x = .ok M') :
    Run P g (here st M) (.ok (here (emit st x) M')) := by
  have hs := step_ins (M := M) h hj
  rw [he] at hs
  exact .step _ _ _ hs (.here _)

theorem run_ins_err {g : Prog P} {st : St P.F P.O} {x M m} (h : Covers g (emit st x))
    (hj : x.jump = false) (he : exIns P M x = .err m) : Run P g (here st M) (.err m) := by
  have hs := step_ins (M := M) h hj
  rw [he] at hs
  exact .err _ _ hs

/-- `M'` is `M` with `w` in the place `d`. -/
def Upd (M : Mach P) (d : Ps P.F P.O) (w : P.V) (M' : Mach P) : Prop :=
  rd P M' d = w ∧ M'.s = M.s ∧ ∀ p, slot p ≠ slot d → rd P M' p = rd P M p

theorem upd_sym {M : Mach P} {r t w} : Upd M (.sym r t) w { M with L := set M.L r w } := by
  refine ⟨by simp [rd, set], rfl, fun p hp => ?_⟩
  cases p <;> simp_all [rd, set, slot]

theorem upd_ti {M : Mach P} {r l i} : Upd M (.ti r l) (.int i) { M with I := set M.I r i } := by
  refine ⟨by simp [rd, set], rfl, fun p hp => ?_⟩
  cases p <;> simp_all [rd, set, slot]

theorem upd_tf {M : Mach P} {r l f} : Upd M (.tf r l) (.flt f) { M with F := set M.F r f } := by
  refine ⟨by simp [rd, set], rfl, fun p hp => ?_⟩
  cases p <;> simp_all [rd, set, slot]

/-- Moving a value of the right type into a variable. -/
theorem mov_upd {l : LV} {M : Mach P} {q : Ps P.F P.O} (h : HasTy l.ty (rd P M q)) :
    ∃ M', exIns P M (.mov q l.ps) = .ok M' ∧ Upd M l.ps (rd P M q) M' := by
  rcases l with ⟨r, t⟩ | r | r
  · exact ⟨_, rfl, upd_sym⟩
  · obtain ⟨i, hi⟩ := h
    rw [hi]
    refine ⟨_, ?_, upd_ti⟩
    cases q <;> simp_all [rd, exIns, exMov, LV.ps, rawI]
  · obtain ⟨f, hf⟩ := h
    rw [hf]
    refine ⟨_, ?_, upd_tf⟩
    cases q <;> simp_all [rd, exIns, exMov, LV.ps, rawF]

theorem store_exe {g : Prog P} {st : St P.F P.O} {l : LV} {q : Ps P.F P.O} {vt : Ty} {M : Mach P}
    (hl : l.ty = .any ∨ l.ty = .int ∨ l.ty = .flt) (hns : ∀ r t, q ≠ .sym r t) (hf : Fit vt q)
    (hv : HasTy vt (rd P M q)) (hu : convS l.ty vt (rd P M q) ≠ .ub)
    (hc : Covers g (store st (.p l.ps) l.ty q vt)) :
    Exe g (here st M) (store st (.p l.ps) l.ty q vt) (convS l.ty vt (rd P M q))
      (fun w M' => HasTy l.ty w ∧ rd P M' l.ps = w ∧ M'.s = M.s ∧
        ∀ p, slot p ≠ some l.slot → (∀ r, q = .ta r → slot p ≠ slot q) → rd P M' p = rd P M p) := by
  have mov : ∀ {st : St P.F P.O} {M}, Covers g (emit st (.mov q l.ps)) → HasTy l.ty (rd P M q) →
      Exe g (here st M) (emit st (.mov q l.ps)) (.ok (rd P M q))
        (fun w M' => HasTy l.ty w ∧ rd P M' l.ps = w ∧ M'.s = M.s ∧
          ∀ p, slot p ≠ some l.slot → (∀ r, q = .ta r → slot p ≠ slot q) →
            rd P M' p = rd P M p) := by
    intro st M hc h
    obtain ⟨M', h1, h2, h3, h4⟩ := mov_upd h
    exact ⟨M', run_ins hc rfl h1, h, h2, h3, fun p hp _ => h4 p (by rwa [slot_ps])⟩
  rcases hl with hl | hl | hl
  · -- untyped
    simp only [store, hl, convS, fromAny, conv] at hc ⊢
    have := mov (M := M) hc (by rw [hl]; trivial)
    rwa [hl] at this
  · -- an integer variable
    rw [hl] at mov
    simp only [store, hl, convS] at hc hu ⊢
    by_cases h1 : vt = .int
    · subst h1
      obtain ⟨i, hi⟩ := hv
      have := mov hc ⟨i, hi⟩
      simp only [if_true, fromAny, Bool.false_eq_true, if_false, conv]
      rw [hi] at this ⊢
      exact this
    by_cases h2 : vt = .flt
    · subst h2
      obtain ⟨f, hi⟩ := hv
      simp only [reduceCtorEq, if_true, if_false, fromAny, Bool.false_eq_true, conv, hi, tointns]
        at hc ⊢
      have hx : ∀ {y}, P.toInt f = y → tointns P (rd P M q) = y := by
        intro y hy; rw [hi]; exact hy
      cases ht : P.toInt f with
      | none =>
        refine run_ins_err hc rfl ?_
        simp only [exIns, hx ht]
        rfl
      | some i =>
        have : ∃ M', exIns P M (.movfi q l.ps) = .ok M' ∧ Upd M l.ps (.int i) M' := by
          simp only [exIns, hx ht]
          rcases l with ⟨r, t⟩ | r | r
          · exact ⟨_, rfl, upd_sym⟩
          · exact ⟨_, rfl, upd_ti⟩
          · cases hl
        obtain ⟨M', e1, e2, e3, e4⟩ := this
        exact ⟨M', run_ins hc rfl e1, ⟨i, rfl⟩, e2, e3, fun p hp _ => e4 p (by rwa [slot_ps])⟩
    · simp only [if_neg h1, if_neg h2] at hc ⊢
      have e1 : Covers g (emit st (.toint q)) := hc.mono (.emit _ _)
      have hbad : ∀ {x}, rd P M q = x → tointns P x = none → fromAny .int vt x = false →
          Exe g (here st M) (emit (emit st (.toint q)) (.mov q l.ps))
            (if fromAny .int vt x = true then .ub else conv P .int x)
            (fun w M' => HasTy .int w ∧ rd P M' l.ps = w ∧ M'.s = M.s ∧
              ∀ p, slot p ≠ some l.slot → (∀ r, q = .ta r → slot p ≠ slot q) →
                rd P M' p = rd P M p) := by
        intro x hx hn hfa
        simp only [hfa, Bool.false_eq_true, if_false, conv, hn]
        refine run_ins_err e1 rfl ?_
        simp only [exIns, hx, hn]
        rfl
      rcases hx : rd P M q with _ | b | i | f | o
      · exact hbad hx rfl (by cases vt <;> simp_all [fromAny])
      · exact hbad hx rfl (by cases vt <;> simp_all [fromAny])
      · have hfa : fromAny (P := P) .int vt (.int i) = false := by cases vt <;> rfl
        simp only [hfa, Bool.false_eq_true, if_false, conv, tointns]
        refine Exe.pre (run_ins e1 rfl (M' := M) ?_) ?_
        · simp only [exIns, hx, tointns]
        · have := mov hc ⟨i, hx⟩
          rwa [hx] at this
      · cases ht : P.toInt f with
        | none => exact hbad hx ht (by cases vt <;> simp_all [fromAny])
        | some i =>
          exfalso
          apply hu
          rw [hx]
          cases vt <;> simp_all [fromAny]
      · exact hbad hx rfl (by cases vt <;> simp_all [fromAny])
  · -- a number variable
    rw [hl] at mov
    have hfa : ∀ v, fromAny (P := P) .flt vt v = false := by intro v; cases vt <;> rfl
    simp only [store, hl, convS, hfa, Bool.false_eq_true, if_false] at hc hu ⊢
    by_cases h1 : vt = .flt
    · subst h1
      obtain ⟨i, hi⟩ := hv
      have := mov hc ⟨i, hi⟩
      simp only [if_true, conv]
      rw [hi] at this ⊢
      exact this
    by_cases h2 : vt = .int
    · subst h2
      obtain ⟨i, hi⟩ := hv
      simp only [reduceCtorEq, if_true, if_false, conv, hi, tonum] at hc ⊢
      have : ∃ M', exIns P M (.movif q l.ps) = .ok M' ∧ Upd M l.ps (.flt (P.ofInt i)) M' := by
        simp only [exIns, hi, tonum]
        rcases l with ⟨r, t⟩ | r | r
        · exact ⟨_, rfl, upd_sym⟩
        · cases hl
        · exact ⟨_, rfl, upd_tf⟩
      obtain ⟨M', e1, e2, e3, e4⟩ := this
      exact ⟨M', run_ins hc rfl e1, ⟨_, rfl⟩, e2, e3, fun p hp _ => e4 p (by rwa [slot_ps])⟩
    · simp only [if_neg h1, if_neg h2] at hc ⊢
      have e1 : Covers g (emit st (.toflt q)) := hc.mono (.emit _ _)
      cases hx : tonum P (rd P M q) with
      | none =>
        simp only [conv, hx]
        refine run_ins_err e1 rfl ?_
        simp only [exIns, hx]
        rfl
      | some f =>
        simp only [conv, hx]
        have hq : ∃ r, q = .ta r := by
          cases q with
          | sym r t => exact absurd rfl (hns r t)
          | ti r b => exact absurd hf h2
          | tf r b => exact absurd hf h1
          | tb r => simp [rd, tonum] at hx
          | ta r => exact ⟨r, rfl⟩
          | kc v => cases v <;> simp_all [rd, tonum, Fit]
        obtain ⟨r, rfl⟩ := hq
        refine Exe.pre (run_ins e1 rfl (M' := { M with T := set M.T r (.flt f) }) ?_) ?_
        · simp only [exIns, hx]
        · have hrd : rd P { M with T := set M.T r (.flt f) } (.ta r) = .flt f := by simp [rd, set]
          have := mov (M := { M with T := set M.T r (.flt f) }) hc ⟨f, hrd⟩
          rw [hrd] at this
          refine this.imp ?_
          rintro w M' _ ⟨m1, m2, m3, m4⟩
          refine ⟨m1, m2, m3, fun p hp hp' => (m4 p hp hp').trans ?_⟩
          have := hp' r rfl
          cases p <;> simp_all [rd, set, slot]

theorem sh_slot {Γ : Nat → LV} (hD : Distinct Γ) {e : Exp P.F P.O} {q : Ps P.F P.O} {x : Nat}
    (h : Sh P Γ e q) (hx : reads x e = false) : slot q ≠ some (Γ x).slot := by
  rcases h with ⟨y, rfl, rfl⟩ | ⟨v, rfl⟩ | ⟨k, hk, hl⟩
  · rw [slot_ps]
    intro h
    obtain rfl := hD y x (Option.some.inj h)
    simp [reads] at hx
  · simp [slot]
  · rw [slot_use (fk_use hk)]
    intro h
    refine hl ⟨x, ?_⟩
    exact use_slot (κ := k.1) (r := k.2) (by rw [slot_ps, h])

theorem slot_lv_a (l : LV) (r : Nat) : l.slot ≠ (some .a, r) := by cases l <;> simp [LV.slot]

theorem sh_ta {Γ : Nat → LV} {e : Exp P.F P.O} {q : Ps P.F P.O} {r : Nat} (h : Sh P Γ e q)
    (hq : fk q ≠ some (.a, r)) : slot q ≠ slot (.ta r : Ps P.F P.O) := by
  rcases h with ⟨y, rfl, rfl⟩ | ⟨v, rfl⟩ | ⟨k, hk, hl⟩
  · rw [slot_ps]
    exact fun h => slot_lv_a _ _ (Option.some.inj h)
  · simp [slot]
  · rw [slot_use (fk_use hk)]
    intro h
    simp only [slot, Option.some.injEq, Prod.mk.injEq] at h
    exact hq (by rw [hk, ← h.1, ← h.2])

/-- What a store of the value in `q` to the variable `x` leaves alone. -/
def Keeps (Γ : Nat → LV) (x : Nat) (q : Ps P.F P.O) (M M' : Mach P) : Prop :=
  ∀ p, slot p ≠ some (Γ x).slot → (∀ r, q = .ta r → slot p ≠ slot q) → rd P M' p = rd P M p

theorem Keeps.sh {Γ : Nat → LV} (hD : Distinct Γ) {x : Nat} {q : Ps P.F P.O} {M M' : Mach P}
    (h : Keeps Γ x q M M') {e : Exp P.F P.O} {p : Ps P.F P.O} (hs : Sh P Γ e p)
    (hx : reads x e = false) (hk : ∀ k, fk q = some k → fk p ≠ some k) :
    rd P M' p = rd P M p := by
  refine h p (sh_slot hD hs hx) ?_
  rintro r rfl
  exact sh_ta hs (hk _ rfl)

theorem TOk.upd {Γ : Nat → LV} (hD : Distinct Γ) {x : Nat} {q : Ps P.F P.O} {M M' : Mach P}
    (h : Keeps Γ x q M M') : ∀ {ts ns ps}, TOk Γ M ts ns ps →
      ts.all (Tgt.apart x) = true →
      (∀ n ∈ ns, ∀ k, fk q = some k → k ∉ fks n) → TOk Γ M' ts ns ps
  | [], [], [], _, _, _ => trivial
  | .loc y :: ts, .p d :: ns, .loc y' :: ps, ⟨h1, h2, h3⟩, ha, hk => by
    simp only [List.all_cons, Tgt.apart, Bool.true_and] at ha
    exact ⟨h1, h2, TOk.upd hD h h3 ha fun n hn => hk n (List.mem_cons_of_mem _ hn)⟩
  | .idx e k :: ts, .idx c p :: ns, .idx cv kv :: ps, ⟨h1, h2, h3, h4, h5⟩, ha, hk => by
    simp only [List.all_cons, Tgt.apart, Bool.and_eq_true, Bool.not_eq_true'] at ha
    have hk0 := hk _ (List.mem_cons_self ..)
    simp only [fks, List.mem_append, Option.mem_toList, not_or] at hk0
    exact ⟨h1, h2, (h.sh hD h1 ha.1.1 fun k hq => (hk0 k hq).1).trans h3,
      (h.sh hD h2 ha.1.2 fun k hq => (hk0 k hq).2).trans h4,
      TOk.upd hD h h5 ha.2 fun n hn => hk n (List.mem_cons_of_mem _ hn)⟩

theorem VOk.upd {Γ : Nat → LV} (hD : Distinct Γ) {x : Nat} {q : Ps P.F P.O} {M M' : Mach P}
    (h : Keeps Γ x q M M') : ∀ {es qs vs}, VOk Γ M es qs vs →
      ((Γ x).inC = false ∨ es.all (fun e => !reads x e) = true) →
      (∀ p ∈ qs, ∀ k, fk q = some k → fk p.1 ≠ some k) → VOk Γ M' es qs vs
  | [], [], [], _, _, _ => trivial
  | e :: es, (p, t) :: qs, v :: vs, ⟨h1, h2, h3, h4, h5, h6, h7, h8⟩, ha, hk => by
    have hk0 := hk _ (List.mem_cons_self ..)
    refine ⟨h1, h2, h3, h4, h5, ?_, h7, VOk.upd hD h h8 (ha.imp_right fun h => ?_)
      fun n hn => hk n (List.mem_cons_of_mem _ hn)⟩
    · rw [← h6]
      rcases ha with ha | ha
      · refine h p ?_ ?_
        · cases hg : Γ x with
          | sym r t' =>
            intro hs
            cases p <;> simp [slot, LV.slot] at hs
            exact h3 _ _ rfl
          | _ => rw [hg] at ha; cases ha
        · rintro r rfl
          exact sh_ta h2 (hk0 _ rfl)
      · simp only [List.all_cons, Bool.and_eq_true, Bool.not_eq_true'] at ha
        exact h.sh hD h2 ha.1 hk0
    · simp only [List.all_cons, Bool.and_eq_true] at h
      exact h.2

theorem rd_s (M : Mach P) (s : P.S) (q : Ps P.F P.O) : rd P { M with s := s } q = rd P M q := by
  cases q <;> rfl

theorem store_ext (st : St P.F P.O) (n : Pn P.F P.O) (t : Ty) (q : Ps P.F P.O) (vt : Ty) :
    BExt st (store st n t q vt) := by
  unfold store
  repeat' split
  all_goals first | exact .emit _ _ | exact (BExt.emit _ _).trans (.emit _ _)

theorem stores_ext : ∀ {nts qs} {st st' : St P.F P.O}, linStores nts qs st = .ok st' → BExt st st'
  | [], _, st, st', h => by
    simp only [linStores, Res.ok.injEq] at h
    subst h
    exact .refl _
  | (t, tt) :: ts, (v, vt) :: vs, st, st', h => by
    simp only [linStores] at h
    exact ((store_ext st t tt v vt).trans (.same (freeP_blocks _ v))).trans (stores_ext h)
  | (.idx _ _, _) :: _, [], _, _, h => by
    simp only [linStores, assertion] at h
    cases h
  | (.p d, _) :: ts, [], st, st', h => by
    simp only [linStores] at h
    exact (BExt.emit _ _).trans (stores_ext h)

/-- What the stores leave alone. -/
def KeepsAll (Γ : Nat → LV) (qs : List (Ps P.F P.O × Ty)) (M M' : Mach P) : Prop :=
  ∀ p, (∀ x, slot p ≠ some (Γ x).slot) → (∀ a ∈ qs, ∀ r, a.1 = .ta r → slot p ≠ slot a.1) →
    rd P M' p = rd P M p

/-- Everything in use that is not a variable keeps its value. -/
def FrameT (Γ : Nat → LV) (st : St P.F P.O) (M M' : Mach P) : Prop :=
  ∀ q, Ok st q → (∀ x, slot q ≠ some (Γ x).slot) → rd P M' q = rd P M q

/-- The stores. -/
theorem stores_exe {Γ : Nat → LV} (hD : Distinct Γ) (g : Prog P) :
    ∀ {ts ns ps es qs vs} {ρ : Nat → P.V} {M : Mach P} {st st' : St P.F P.O},
      linStores (ns.zip (ts.map (Tgt.ty Γ))) qs st = .ok st' → TOk Γ M ts ns ps →
      VOk Γ M es qs vs → Fine Γ ts es = true →
      (∀ p ∈ qs, ∀ n ∈ ns, ∀ k, fk p.1 = some k → k ∉ fks n) → Locals Γ ρ M →
      (∀ x, HasTy (Γ x).ty (ρ x)) → Covers g st' → assignS Γ ps vs es ρ M.s ≠ .ub →
      Exe g (here st M) st' (assignS Γ ps vs es ρ M.s) (fun y M' => Locals Γ y.1 M' ∧ M'.s = y.2 ∧
        (∀ x, HasTy (Γ x).ty (y.1 x)) ∧ KeepsAll Γ qs M M') := by
  -- what an assignment to a variable does to the variables
  have hloc : ∀ {x q w} {ρ : Nat → P.V} {M M' : Mach P}, Keeps Γ x q M M' → Locals Γ ρ M →
      rd P M' (Γ x).ps = w → Locals Γ (set ρ x w) M' := by
    intro x q w ρ M M' hk hL hw y
    by_cases hy : y = x
    · subst hy; simp [set, hw]
    · simp only [set, if_neg hy]
      rw [← hL y]
      refine hk _ ?_ ?_
      · rw [slot_ps]
        exact fun h => hy (hD _ _ (Option.some.inj h))
      · rintro r rfl
        rw [slot_ps]
        exact fun h => slot_lv_a _ _ (Option.some.inj h)
  have hty : ∀ {x w} {ρ : Nat → P.V}, (∀ x, HasTy (Γ x).ty (ρ x)) → HasTy (Γ x).ty w →
      ∀ y, HasTy (Γ y).ty (set ρ x w y) := by
    intro x w ρ h hw y
    by_cases hy : y = x
    · subst hy; simpa [set] using hw
    · simpa [set, hy] using h y
  intro ts
  induction ts with
  | nil =>
    intro ns ps es qs vs ρ M st st' h hT hV hF hK hL hρ hc hu
    cases ns with
    | cons => exact hT.elim
    | nil =>
      cases ps with
      | cons => exact hT.elim
      | nil =>
        simp only [List.zip_nil_left, linStores, Res.ok.injEq] at h
        subst h
        exact Exe.ok ⟨hL, rfl, hρ, fun _ _ _ => rfl⟩
  | cons t ts ih =>
    intro ns ps es qs vs ρ M st st' h hT hV hF hK hL hρ hc hu
    rcases t with x | ⟨e1, k1⟩
    · -- a variable
      rcases ns with _ | ⟨_ | _, ns⟩
      · exact hT.elim
      swap
      · exact hT.elim
      rcases ps with _ | ⟨x' | _, ps⟩
      · exact hT.elim
      swap
      · exact hT.elim
      obtain ⟨hx, rfl, hT⟩ := hT
      subst hx
      simp only [Fine, Bool.and_eq_true, Bool.or_eq_true, beq_iff_eq, Bool.not_eq_true'] at hF
      obtain ⟨⟨⟨⟨f1, f2⟩, f3⟩, f4⟩, f5⟩ := hF
      cases es with
      | nil =>
        -- without a value
        cases qs with
        | cons => exact hV.elim
        | nil =>
          cases vs with
          | cons => exact hV.elim
          | nil =>
            simp only [List.map_cons, List.zip_cons_cons, linStores] at h
            simp only [assignS] at hu ⊢
            have hi : ∃ M', exIns P M (.init (Γ x').ps) = .ok M' ∧
                Upd M (Γ x').ps (dflt P (Γ x').ty) M' := by
              simp only [List.isEmpty_nil, Bool.true_eq_false, false_or] at f2
              cases hg : Γ x' with
              | sym r t =>
                rw [hg] at f2
                simp only [LV.inC, Bool.false_eq_true, false_or, LV.ty] at f2
                subst f2
                exact ⟨_, rfl, upd_sym⟩
              | ireg r => exact ⟨_, rfl, upd_ti⟩
              | freg r => exact ⟨_, rfl, upd_tf⟩
            obtain ⟨M', m1, m2, m3, m4⟩ := hi
            have hk : Keeps Γ x' (.kc .nil) M M' := fun p hp _ => m4 p (by rwa [slot_ps])
            refine Exe.pre (run_ins (hc.mono (stores_ext h)) rfl m1) ?_
            rw [← m3] at hu ⊢
            have hd : HasTy (Γ x').ty (dflt P (Γ x').ty) := by
              cases (Γ x').ty <;> simp [HasTy, dflt]
            refine (ih (es := []) (vs := []) h (hT.upd hD hk f3 fun _ _ _ h => nomatch h) trivial f5
              (fun _ h => absurd h (by simp)) (hloc hk hL m2) (hty hρ hd) hc hu).imp ?_
            rintro y M2 _ ⟨z1, z2, z3, z4⟩
            exact ⟨z1, z2, z3, fun p h1 h2 => (z4 p h1 h2).trans (hk p (h1 x') fun _ h => nomatch h)⟩
      | cons e es =>
        rcases qs with _ | ⟨⟨q, t⟩, qs⟩
        · exact hV.elim
        rcases vs with _ | ⟨v, vs⟩
        · exact hV.elim
        obtain ⟨rfl, v2, v3, v4, v5, rfl, v7, v8⟩ := hV
        simp only [List.map_cons, List.zip_cons_cons, linStores, Tgt.ty] at h
        simp only [assignS] at hu ⊢
        have hce := hc.mono ((BExt.same (freeP_blocks _ q)).trans (stores_ext h))
        have hu1 : convS (Γ x').ty (typ Γ e) (rd P M q) ≠ .ub := by
          intro he
          rw [he] at hu
          exact hu rfl
        refine Exe.bind (store_exe (by rcases f1 with (h | h) | h <;> simp [h]) v3 v4 v5 hu1 hce) ?_
        rintro w M1 hw ⟨w1, w2, w3, w4⟩
        rw [hw] at hu
        have hk : Keeps Γ x' q M M1 := w4
        rw [← here_same (freeP_blocks _ q).1 (freeP_blocks _ q).2.2 M1]
        have hu' : assignS Γ ps vs es (set ρ x' w) M.s ≠ .ub := hu
        rw [← w3] at hu' ⊢
        refine (ih h (hT.upd hD hk f3 fun n hn k hq =>
            hK (q, typ Γ e) (List.mem_cons_self ..) n (List.mem_cons_of_mem _ hn) k hq)
          (v8.upd hD hk f4 fun p hp k hq => v7 k hq p hp) f5
          (fun p hp n hn => hK p (List.mem_cons_of_mem _ hp) n (List.mem_cons_of_mem _ hn))
          (hloc hk hL w2) (hty hρ w1) hc hu').imp ?_
        rintro y M2 _ ⟨z1, z2, z3, z4⟩
        exact ⟨z1, z2, z3, fun p h1 h2 =>
          (z4 p h1 fun a ha => h2 a (List.mem_cons_of_mem _ ha)).trans
            (hk p (h1 x') (h2 (q, typ Γ e) (List.mem_cons_self ..)))⟩
    · -- an indexed place
      rcases ns with _ | ⟨_ | ⟨c, k⟩, ns⟩
      · exact hT.elim
      · exact hT.elim
      rcases ps with _ | ⟨_ | ⟨cv, kv⟩, ps⟩
      · exact hT.elim
      · exact hT.elim
      obtain ⟨t1, t2, rfl, rfl, hT⟩ := hT
      simp only [Fine] at hF
      cases es with
      | nil =>
        cases qs with
        | cons => exact hV.elim
        | nil =>
          simp only [List.map_cons, List.zip_cons_cons, linStores, assertion] at h
          cases h
      | cons e es =>
        rcases qs with _ | ⟨⟨q, t⟩, qs⟩
        · exact hV.elim
        rcases vs with _ | ⟨v, vs⟩
        · exact hV.elim
        obtain ⟨rfl, v2, v3, v4, v5, rfl, v7, v8⟩ := hV
        simp only [List.map_cons, List.zip_cons_cons, linStores] at h
        simp only [assignS] at hu ⊢
        have hce := hc.mono ((BExt.same (freeP_blocks _ q)).trans (stores_ext h))
        simp only [store] at hce h
        cases hp : P.put (rd P M c) (rd P M k) (rd P M q) M.s with
        | none =>
          refine run_ins_err hce rfl ?_
          simp only [exIns, hp]
          rfl
        | some s =>
          rw [hp] at hu
          refine Exe.pre (run_ins hce rfl (M' := { M with s := s }) ?_) ?_
          · simp only [exIns, hp]
            rfl
          rw [← here_same (freeP_blocks _ q).1 (freeP_blocks _ q).2.2]
          refine (ih (M := { M with s := s }) h
            (hT.frame fun _ _ _ => ⟨rd_s _ _ _, rd_s _ _ _⟩)
            (v8.frame fun _ _ => rd_s _ _ _) hF
            (fun p hp n hn => hK p (List.mem_cons_of_mem _ hp) n (List.mem_cons_of_mem _ hn))
            (fun x => (rd_s _ _ _).trans (hL x)) hρ hc hu).imp ?_
          rintro y M2 _ ⟨z1, z2, z3, z4⟩
          exact ⟨z1, z2, z3, fun p h1 h2 =>
            (z4 p h1 fun a ha => h2 a (List.mem_cons_of_mem _ ha)).trans (rd_s _ _ _)⟩

theorem foldl_free {α : Type} (f : St P.F P.O → α → St P.F P.O)
    (h : ∀ st a, (f st a).blocks = st.blocks ∧ (f st a).nb = st.nb ∧ (f st a).cur = st.cur) :
    ∀ (l : List α) (st : St P.F P.O), (l.foldl f st).blocks = st.blocks ∧
      (l.foldl f st).nb = st.nb ∧ (l.foldl f st).cur = st.cur
  | [], st => ⟨rfl, rfl, rfl⟩
  | a :: l, st => by
    obtain ⟨h1, h2, h3⟩ := foldl_free f h l (f st a)
    obtain ⟨k1, k2, k3⟩ := h st a
    exact ⟨h1.trans k1, h2.trans k2, h3.trans k3⟩

/-- The code of an assignment. -/
theorem assign_exe {Γ : Nat → LV} {ρ : Nat → P.V} (hD : Distinct Γ)
    (hρ : ∀ x, HasTy (Γ x).ty (ρ x)) {ts : List (Tgt P.F P.O)} {es : List (Exp P.F P.O)}
    {st st' : St P.F P.O} (hwf : Wf Γ st) (h : linAssign Γ ts es st = .ok st')
    (hts : ∀ t ∈ ts, PlainT Γ t = true) (hes : ∀ e ∈ es, Plain Γ e = true)
    (hF : Fine Γ ts es = true) (g : Prog P) (hc : Covers g st') (M : Mach P) (hL : Locals Γ ρ M)
    (hu : evalAssignS Γ ts es ρ M.s ≠ .ub) :
    Exe g (here st M) st' (evalAssignS Γ ts es ρ M.s) (fun y M' => Locals Γ y.1 M' ∧ M'.s = y.2 ∧
      (∀ x, HasTy (Γ x).ty (y.1 x)) ∧ FrameT Γ st M M') := by
  simp only [linAssign, Res.bind_eq_ok] at h
  obtain ⟨⟨ns, s1⟩, h1, ⟨qs, s2⟩, h2, s3, h3, h4⟩ := h
  simp only [Res.ok.injEq] at h4
  dsimp only at h2 h3
  have A := tgts_sim hρ h1 hwf hts
  have w1 := hwf.ext A.ext A.sub
  have B := vals_sim hρ h2 w1 hes
  have f1 := foldl_free (P := P) freeP freeP_blocks (qs.map Prod.fst).reverse s3
  have f2 := foldl_free (P := P) freeN freeN_blocks ns.reverse
    ((qs.map Prod.fst).reverse.foldl freeP s3)
  have hsame : st'.blocks = s3.blocks ∧ st'.nb = s3.nb ∧ st'.cur = s3.cur := by
    rw [← h4]
    exact ⟨f2.1.trans f1.1, f2.2.1.trans f1.2.1, f2.2.2.trans f1.2.2⟩
  refine Exe.same hsame ?_
  have hc3 : Covers g s3 := fun b => hsame.1 ▸ hc b
  have hc2 := hc3.mono (stores_ext h3)
  have hc1 := hc2.mono B.ext
  simp only [evalAssignS] at hu ⊢
  refine Exe.bind (A.exe g M hc1 hL) ?_
  rintro ⟨ps, s⟩ M1 ht ⟨a1, a2, a3⟩
  rw [ht, Res.bind_ok] at hu
  dsimp only at a1 a2 hu ⊢
  subst a2
  have hL1 := hL.frame hwf a3
  refine Exe.bind (B.exe g M1 hc2 hL1) ?_
  rintro ⟨vs, s⟩ M2 hv ⟨b1, b2, b3⟩
  rw [hv, Res.bind_ok] at hu
  dsimp only at b1 b2 hu ⊢
  subst b2
  refine (stores_exe hD g h3 (a1.frame fun c q hcq => ?_) b1 hF ?_ (hL1.frame w1 b3) hρ hc3
    hu).imp ?_
  rotate_left 2
  · rintro y M3 _ ⟨z1, z2, z3, z4⟩
    refine ⟨z1, z2, z3, fun p hp hv => ?_⟩
    have hp1 : Ok s1 p := fun k hk => A.sub k (hp k hk)
    rw [z4 p hv, b3 p hp1, a3 p hp]
    rintro ⟨a, ta⟩ ha r hr hs
    dsimp only at hr hs
    subst hr
    have hu : use p = some (.a, r) := use_slot hs
    exact B.new _ ha (.a, r) rfl (hp1 _ hu)
  · have ho := A.ok _ hcq
    exact ⟨b3 c fun k hk => ho k (by simp [uses, hk]), b3 q fun k hk => ho k (by simp [uses, hk])⟩
  · intro p hp n hn k hk hk'
    exact B.new p hp k hk (A.ok n hn k (fks_uses hk'))

/-! ## The undefined cases are the only difference -/

theorem bind_ub {α β : Type} {r r' : Res α} {f f' : α → Res β} (h : r = .ub ∨ r = r')
    (h' : ∀ x, r = .ok x → f x = .ub ∨ f x = f' x) :
    (r >>= f) = .ub ∨ (r >>= f) = (r' >>= f') := by
  rcases h with rfl | rfl
  · exact Or.inl rfl
  · cases r with
    | ok x => exact h' x rfl
    | err m => exact Or.inr rfl
    | ub => exact Or.inl rfl

/-- Overflow is the only way in which `evalS` differs from the language. -/
theorem evalS_eval (Γ : Nat → LV) (ρ : Nat → P.V) :
    ∀ (e : Exp P.F P.O) (s : P.S), evalS Γ ρ e s = .ub ∨ evalS Γ ρ e s = eval P ρ e s := by
  intro e
  induction e with
  | lit v => exact fun _ => Or.inr rfl
  | loc x => exact fun _ => Or.inr rfl
  | idx e k ihe ihk =>
    intro s
    exact bind_ub (ihe s) fun ⟨_, s⟩ _ => bind_ub (ihk s) fun ⟨_, s⟩ _ => Or.inr rfl
  | bin o a b iha ihb =>
    intro s
    refine bind_ub (iha s) fun ⟨_, s⟩ _ => bind_ub (ihb s) fun ⟨_, s⟩ _ => ?_
    dsimp only
    split
    · exact Or.inl rfl
    · exact Or.inr rfl
  | and a b iha ihb =>
    intro s
    refine bind_ub (iha s) fun ⟨_, s⟩ _ => ?_
    dsimp only
    split
    · exact Or.inr rfl
    · exact ihb s
  | or a b iha ihb =>
    intro s
    refine bind_ub (iha s) fun ⟨_, s⟩ _ => ?_
    dsimp only
    split
    · exact ihb s
    · exact Or.inr rfl
  | not a ih =>
    intro s
    exact bind_ub (ih s) fun ⟨_, s⟩ _ => Or.inr rfl
  | neg a ih =>
    intro s
    refine bind_ub (ih s) fun ⟨_, s⟩ _ => ?_
    dsimp only
    split
    · exact Or.inl rfl
    · exact Or.inr rfl

theorem evalTgtsS_eq (Γ : Nat → LV) (ρ : Nat → P.V) : ∀ (ts : List (Tgt P.F P.O)) (s : P.S),
    evalTgtsS Γ ρ ts s = .ub ∨ evalTgtsS Γ ρ ts s = evalTgts P ρ ts s
  | [], _ => Or.inr rfl
  | .loc x :: ts, s => bind_ub (evalTgtsS_eq Γ ρ ts s) fun _ _ => Or.inr rfl
  | .idx e k :: ts, s => bind_ub (evalS_eval Γ ρ e s) fun ⟨_, s⟩ _ =>
      bind_ub (evalS_eval Γ ρ k s) fun ⟨_, s⟩ _ =>
        bind_ub (evalTgtsS_eq Γ ρ ts s) fun _ _ => Or.inr rfl

theorem evalValsS_eq (Γ : Nat → LV) (ρ : Nat → P.V) : ∀ (es : List (Exp P.F P.O)) (s : P.S),
    evalValsS Γ ρ es s = .ub ∨ evalValsS Γ ρ es s = evalVals P ρ es s
  | [], _ => Or.inr rfl
  | e :: es, s => bind_ub (evalS_eval Γ ρ e s) fun ⟨_, s⟩ _ =>
      bind_ub (evalValsS_eq Γ ρ es s) fun _ _ => Or.inr rfl

theorem evalValsS_length (Γ : Nat → LV) (ρ : Nat → P.V) : ∀ {es : List (Exp P.F P.O)} {s vs s'},
    evalValsS Γ ρ es s = .ok (vs, s') → vs.length = es.length
  | [], s, vs, s', h => by
    simp only [evalValsS, Res.ok.injEq, Prod.mk.injEq] at h
    rw [← h.1]; rfl
  | e :: es, s, vs, s', h => by
    simp only [evalValsS, Res.bind_eq_ok] at h
    obtain ⟨⟨v, s1⟩, h1, ⟨r, s2⟩, h2, h3⟩ := h
    simp only [Res.ok.injEq, Prod.mk.injEq] at h3
    rw [← h3.1]
    simp [evalValsS_length Γ ρ h2]

theorem assignS_eq (Γ : Nat → LV) : ∀ (ps : List (Place P)) (vs : List P.V)
    (es : List (Exp P.F P.O)) (ρ : Nat → P.V) (s : P.S), vs.length = es.length →
    assignS Γ ps vs es ρ s = .ub ∨
      assignS Γ ps vs es ρ s = assignAll P (fun x => (Γ x).ty) ps vs ρ s
  | [], _, _, _, _, _ => Or.inr (by simp only [assignS, assignAll])
  | .loc x :: ps, [], [], ρ, s, _ => by
    simp only [assignS, assignAll]
    exact assignS_eq Γ ps [] [] _ _ rfl
  | .idx c k :: ps, [], [], ρ, s, _ => by
    simp only [assignS, assignAll]
    exact bind_ub (Or.inr rfl) fun _ _ => assignS_eq Γ ps [] [] _ _ rfl
  | .loc x :: ps, v :: vs, e :: es, ρ, s, h => by
    simp only [assignS, assignAll]
    refine bind_ub ?_ fun _ _ => assignS_eq Γ ps vs es _ _ (by simpa using h)
    unfold convS
    split
    · exact Or.inl rfl
    · exact Or.inr rfl
  | .idx c k :: ps, v :: vs, e :: es, ρ, s, h => by
    simp only [assignS, assignAll]
    exact bind_ub (Or.inr rfl) fun _ _ => assignS_eq Γ ps vs es _ _ (by simpa using h)

/-- Overflow, and floats from untyped places in integer variables, are the only ways in which
`evalAssignS` differs from the language. -/
theorem evalAssignS_eq (Γ : Nat → LV) (ts : List (Tgt P.F P.O)) (es : List (Exp P.F P.O))
    (ρ : Nat → P.V) (s : P.S) :
    evalAssignS Γ ts es ρ s = .ub ∨
      evalAssignS Γ ts es ρ s = evalAssign P (fun x => (Γ x).ty) ts es ρ s :=
  bind_ub (evalTgtsS_eq Γ ρ ts s) fun ⟨ps, s⟩ _ =>
    bind_ub (evalValsS_eq Γ ρ es s) fun ⟨vs, s⟩ hv =>
      assignS_eq Γ ps vs es ρ s (evalValsS_length Γ ρ hv)

end Verif.Lin
