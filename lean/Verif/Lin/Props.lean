import Verif.Lin.Assign
import Verif.Lin.Regs

/-!
# Properties of the linearizer of the compiler library: operators and expressions (C89, C90)
-/
namespace Verif.Lin

variable {P : Par}

/-! ## An instance, for examples and witnesses -/

/-- Floats are multiples of one half; every indexed load gives the number of accesses so far, and
is recorded, as is every store. -/
def P0 : Par where
  F := Int
  O := Nat
  S := List (Val Int Nat × Val Int Nat × Val Int Nat)
  fadd := (· + ·)
  fsub := (· - ·)
  fmul x y := x * y / 2
  fdiv x y := 2 * x / y
  fneg := (- ·)
  feq x y := decide (x = y)
  flt x y := decide (x < y)
  fle x y := decide (x ≤ y)
  ofInt i := 2 * i.toInt
  toInt f := if f % 2 = 0 then some (BitVec.ofInt 64 (f / 2)) else none
  bits f := BitVec.ofInt 64 (f + 1000)
  unbits i := i.toInt - 1000
  shiftl x y := if y.toInt < 0 then x >>> (-y).toNat else x <<< y.toNat
  arith _ _ _ _ := none
  unm _ _ := none
  cmp _ _ _ _ := none
  get c k s := some (.int (BitVec.ofNat 64 s.length), (c, k, .nil) :: s)
  put c k v s := some ((c, k, v) :: s)
  fadd_comm := Int.add_comm
  fmul_comm x y := by rw [Int.mul_comm]
  arith_int := by intros; contradiction
  arith_flt := by intros; contradiction

/-- Two untyped variables, an integer variable and a number variable. -/
def Γ0 : Nat → LV
  | 0 => .sym 0 .any
  | 1 => .sym 1 .any
  | 2 => .ireg 0
  | 3 => .freg 0
  | _ => .sym 4 .any

/-- The linearizer after the declarations of these variables. -/
def st0 : St Int Nat := ⟨[0], [0], [], fun _ => [], 1, 0⟩

def M0 : Mach P0 := ⟨fun r => .obj (r : Nat), fun _ => .nil, fun _ => 7, fun _ => (5 : Int), []⟩

def ρ0 : Nat → P0.V
  | 0 => .obj (0 : Nat)
  | 1 => .obj (1 : Nat)
  | 2 => .int 7
  | 3 => .flt (5 : Int)
  | _ => .obj (4 : Nat)

theorem wf0 : Wf (P := P0) Γ0 st0 := by
  refine ⟨?_, Nat.zero_lt_one, fun _ _ => rfl⟩
  rintro ⟨κ, r⟩ ⟨x, hx⟩
  unfold Γ0 at hx
  split at hx <;> simp [LV.ps, use] at hx <;> obtain ⟨rfl, rfl⟩ := hx <;> simp [live, pool, st0]

theorem locals0 : Locals (P := P0) Γ0 ρ0 M0 := by
  intro x
  unfold Γ0 ρ0
  split <;> rfl

theorem typed0 : ∀ x, HasTy (P := P0) (Γ0 x).ty (ρ0 x) := by
  intro x
  unfold Γ0 ρ0
  split <;> first | exact trivial | exact ⟨_, rfl⟩

/-! ## Runs -/

/-- Runs are deterministic: of two runs from the same point, one goes on from where the other
stops; so errors and undefined behaviour are never a matter of choice. -/
theorem run_det {g : Prog P} {c : Cfg P} {o1 o2 : Res (Cfg P)} (h1 : Run P g c o1)
    (h2 : Run P g c o2) :
    o1 = o2 ∨ (∃ c', o1 = .ok c' ∧ Run P g c' o2) ∨ (∃ c', o2 = .ok c' ∧ Run P g c' o1) := by
  induction h1 generalizing o2 with
  | here c => exact Or.inr (Or.inl ⟨c, rfl, h2⟩)
  | step c c1 o hs h ih =>
    cases h2 with
    | here => exact Or.inr (Or.inr ⟨c, rfl, .step _ _ _ hs h⟩)
    | step _ c2 _ hs2 h2 =>
      rw [hs] at hs2
      cases hs2
      exact ih h2
    | err _ m hs2 => rw [hs] at hs2; cases hs2
    | ub _ hs2 => rw [hs] at hs2; cases hs2
  | err c m hs =>
    cases h2 with
    | here => exact Or.inr (Or.inr ⟨c, rfl, .err _ _ hs⟩)
    | step _ c2 _ hs2 h2 => rw [hs] at hs2; cases hs2
    | err _ m hs2 => rw [hs] at hs2; cases hs2; exact Or.inl rfl
    | ub _ hs2 => rw [hs] at hs2; cases hs2
  | ub c hs =>
    cases h2 with
    | here => exact Or.inr (Or.inr ⟨c, rfl, .ub _ hs⟩)
    | step _ c2 _ hs2 h2 => rw [hs] at hs2; cases hs2
    | err _ m hs2 => rw [hs] at hs2; cases hs2
    | ub _ hs2 => exact Or.inl rfl

/-- What it means that a piece of code, from `c` to the end of the code of `st'`, has the outcome
`r`: it ends with the value in `q` and the world as `r` says, or stops with the same error. -/
def Gives (g : Prog P) (c : Cfg P) (st' : St P.F P.O) (q : Ps P.F P.O)
    (keep : Mach P → Prop) (r : Res (P.V × P.S)) : Prop :=
  match r with
  | .ok (v, s) => ∃ M', Run P g c (.ok (here st' M')) ∧ rd P M' q = v ∧ M'.s = s ∧ keep M'
  | .err m => Run P g c (.err m)
  | .ub => Run P g c .ub

/-! ## C90: expressions -/

/-- The code of an expression in C's integer arithmetic. -/
theorem expression_run {Γ : Nat → LV} {ρ : Nat → P.V} {e : Exp P.F P.O}
    {st st1 st2 : St P.F P.O} {n q} (hρ : ∀ x, HasTy (Γ x).ty (ρ x)) (hwf : Wf Γ st)
    (h : lin Γ e st = .ok (n, st1)) (hq : operand st1 n = .ok (q, st2)) (hp : Plain Γ e = true)
    (g : Prog P) (hc : Covers g st2) (M : Mach P) (hL : Locals Γ ρ M) :
    Gives g (here st M) st2 q (fun M' => ∀ p, Ok st p → rd P M' p = rd P M p)
      (evalS Γ ρ e M.s) := by
  have A := lin_sim hρ e st n st1 h hwf
  obtain ⟨o1, o2, o3, o4, _⟩ := operand_st hq A.ok
  have key : Exe g (here st M) st2 (evalV Γ ρ e M.s) (fun y M' => rd P M' q = y.1 ∧ M'.s = y.2 ∧
      ∀ p, Ok st p → rd P M' p = rd P M p) := by
    refine Exe.bind (A.exe g M (hc.mono o1) hL) ?_
    rintro ⟨w, s⟩ M1 _ ⟨a1, a2, a3⟩
    dsimp only at a1 a2
    subst a1; subst a2
    refine (operand_exe hq A.ok hc M1).imp ?_
    rintro ⟨v, s⟩ M2 _ ⟨b1, b2, b3⟩
    refine ⟨b1, b2, fun p hp => ?_⟩
    rw [b3 p fun k hk => (live_freeN _ _ _).2 ⟨A.sub k (hp k hk), fun h => A.new k h (hp k hk)⟩,
      a3 p hp]
  rw [← evalV_eq hρ e M.s hp]
  rcases hr : evalV Γ ρ e M.s with ⟨v, s⟩ | m | _
  · rw [hr] at key
    obtain ⟨M', k1, k2, k3, k4⟩ := key
    exact ⟨M', k1, k2, k3, k4⟩
  · rw [hr] at key; exact key
  · rw [hr] at key; exact key

/-- C90.  Take any expression that satisfies `Plain`, any state in the middle of a function, and
any program that contains the code that the linearizer emits for the expression and for the use of
its value.  If no integer operation overflows, then running that code gives the value - or the
error - that the language gives the expression, with the same effects on the world, in the same
order; and nothing that was in use before, in particular no variable, has changed.  (For
expressions that are not `Plain` this is false: `order_wrong`, `compare_order_wrong`,
`divide_wrong`; with overflow: `overflow_ub`.) -/
theorem expression_value_partial {Γ : Nat → LV} {ρ : Nat → P.V} {e : Exp P.F P.O}
    {st st1 st2 : St P.F P.O} {n q} (hρ : ∀ x, HasTy (Γ x).ty (ρ x)) (hwf : Wf Γ st)
    (h : lin Γ e st = .ok (n, st1)) (hq : operand st1 n = .ok (q, st2)) (hp : Plain Γ e = true)
    (g : Prog P) (hc : Covers g st2) (M : Mach P) (hL : Locals Γ ρ M)
    (hov : evalS Γ ρ e M.s ≠ .ub) :
    Gives g (here st M) st2 q
      (fun M' => Locals Γ ρ M' ∧ ∀ p, Ok st p → rd P M' p = rd P M p) (eval P ρ e M.s) := by
  have key := expression_run hρ hwf h hq hp g hc M hL
  rcases evalS_eval Γ ρ e M.s with h' | h'
  · exact absurd h' hov
  · rw [← h']
    rcases hr : evalS Γ ρ e M.s with ⟨v, s⟩ | m | _
    · rw [hr] at key
      obtain ⟨M', k1, k2, k3, k4⟩ := key
      refine ⟨M', k1, k2, k3, fun x => ?_, k4⟩
      rw [k4 _ fun k hk => hwf.loc k ⟨x, hk⟩, hL x]
    · rw [hr] at key; exact key
    · exact absurd hr hov

/-- The hypotheses hold of a nested expression with typed and untyped operands, loads and
short-circuit operators: `a[b] + 1 and (i * x > -x) or not b[i]`. -/
def ex1 : Exp Int Nat :=
  .or (.and (.bin (.ar .add) (.idx (.loc 0) (.loc 1)) (.lit (.int 1)))
      (.bin (.cm .gt) (.bin (.ar .mul) (.loc 2) (.loc 3)) (.neg (.loc 3))))
    (.not (.idx (.loc 1) (.loc 2)))

example : Plain Γ0 ex1 = true := by decide +kernel

example : (match evalS (P := P0) Γ0 ρ0 ex1 [] with
    | .ok (.bool true, _) => true
    | _ => false) = true := by decide +kernel

example : ∃ n st1 q st2, lin Γ0 ex1 st0 = .ok (n, st1) ∧ operand st1 n = .ok (q, st2) :=
  ⟨_, _, _, _, rfl, rfl⟩

/-! ### Where it fails -/

/-- Some steps of a run. -/
def runN (g : Prog P) : Nat → Cfg P → Res (Cfg P)
  | 0, c => .ok c
  | n + 1, c =>
    match step P g c with
    | none => .ok c
    | some (.ok c') => runN g n c'
    | some (.err m) => .err m
    | some .ub => .ub

theorem run_runN (g : Prog P) (n : Nat) (c : Cfg P) : Run P g c (runN g n c) := by
  induction n generalizing c with
  | zero => exact .here c
  | succ n ih =>
    simp only [runN]
    rcases h : step P g c with _ | c' | m | _
    · exact .here c
    · exact .step _ _ _ h (ih c')
    · exact .err _ _ h
    · exact .ub _ h

/-- The code of an expression does not give the value of the expression. -/
def Wrong (e : Exp Int Nat) (v v' : P0.V) : Prop :=
  ∃ n st1 q st2, lin Γ0 e st0 = .ok (n, st1) ∧ operand st1 n = .ok (q, st2) ∧
    (∃ s, eval P0 ρ0 e [] = .ok (v, s)) ∧
    ∃ M', Run P0 st2.blocks (here (P := P0) st0 M0) (.ok (here (P := P0) st2 M')) ∧
      rd P0 M' q = v' ∧ v' ≠ v

/-- `t[u] - (u[u] - t[t])`: the first load is emitted last.  Here the three loads give 0, 1 and 2
in the order in which they happen, so the value should be 1, and is 3. -/
theorem order_wrong : Wrong (.bin (.ar .sub) (.idx (.loc 0) (.loc 1))
    (.bin (.ar .sub) (.idx (.loc 1) (.loc 1)) (.idx (.loc 0) (.loc 0)))) (.int 1) (.int 3) :=
  ⟨_, _, _, _, rfl, rfl, ⟨_, rfl⟩, _, run_runN (P := P0) _ 5 _, rfl, by simp⟩

/-- `t[u] > u[t]`: the right operand is loaded first.  The loads give 0 and 1, so the comparison
is false, and the code says true. -/
theorem compare_order_wrong : Wrong (.bin (.cm .gt) (.idx (.loc 0) (.loc 1))
    (.idx (.loc 1) (.loc 0))) (.bool false) (.bool true) :=
  ⟨_, _, _, _, rfl, rfl, ⟨_, rfl⟩, _, run_runN (P := P0) _ 3 _, rfl, by simp⟩

/-! ## C89: operators -/

/-- C89.  Any operator with operands that are literals or variables, of any static types, gives
the value that the language says - unless integers overflow, or it is `/` with two operands of
static type integer, where it is wrong (`divide_wrong`, `divide_by_zero`, `overflow_ub`). -/
theorem operator_value_partial {Γ : Nat → LV} {ρ : Nat → P.V} {o : Bin} {a b : Exp P.F P.O}
    {st st1 st2 : St P.F P.O} {n q} (hρ : ∀ x, HasTy (Γ x).ty (ρ x)) (hwf : Wf Γ st)
    (ha : a.leaf = true) (hb : b.leaf = true)
    (hdiv : ¬ (o = .ar .div ∧ typ Γ a = .int ∧ typ Γ b = .int))
    (h : lin Γ (.bin o a b) st = .ok (n, st1)) (hq : operand st1 n = .ok (q, st2))
    (g : Prog P) (hc : Covers g st2) (M : Mach P) (hL : Locals Γ ρ M) (x y : P.V)
    (hx : eval P ρ a M.s = .ok (x, M.s)) (hy : eval P ρ b M.s = .ok (y, M.s)) :
    Gives g (here st M) st2 q (fun M' => Locals Γ ρ M')
      (if ovf o (typ Γ a) (typ Γ b) x y then .ub else binSem P o x y M.s) := by
  have hpa : ∀ {e : Exp P.F P.O}, e.leaf = true → Plain Γ e = true ∧ e.isIdx = false ∧
      ∀ s, evalS Γ ρ e s = eval P ρ e s := by
    intro e he
    cases e <;> simp only [Exp.leaf, Bool.false_eq_true] at he <;> exact ⟨rfl, rfl, fun _ => rfl⟩
  obtain ⟨pa, ia, ea⟩ := hpa ha
  obtain ⟨pb, ib, eb⟩ := hpa hb
  have hp : Plain Γ (.bin o a b) = true := by
    simp only [Plain, pa, pb, ia, Bool.not_false, Bool.true_or, Bool.and_true, Bool.true_and,
      Bool.not_eq_true', Bool.and_eq_false_iff, beq_eq_false_iff_ne]
    by_cases h1 : o = .ar .div
    · by_cases h2 : typ Γ a = .int
      · exact Or.inr fun h3 => hdiv ⟨h1, h2, h3⟩
      · exact Or.inl (Or.inr h2)
    · exact Or.inl (Or.inl h1)
  have key := expression_run hρ hwf h hq hp g hc M hL
  have he : evalS Γ ρ (.bin o a b) M.s =
      if ovf o (typ Γ a) (typ Γ b) x y then .ub else binSem P o x y M.s := by
    simp only [evalS, ea, eb, hx, hy, Res.bind_ok]
  rw [he] at key
  revert key
  generalize (if ovf o (typ Γ a) (typ Γ b) x y then Res.ub else binSem P o x y M.s) = r
  intro key
  rcases r with ⟨v, s⟩ | m | _
  · obtain ⟨M', k1, k2, k3, k4⟩ := key
    exact ⟨M', k1, k2, k3, fun x => by rw [k4 _ fun k hk => hwf.loc k ⟨x, hk⟩, hL x]⟩
  · exact key
  · exact key

/-- An integer variable times a number variable, in registers of C. -/
example : ∃ n st1 q st2, lin Γ0 (.bin (.ar .mul) (.loc 2) (.loc 3)) st0 = .ok (n, st1) ∧
    operand st1 n = .ok (q, st2) := ⟨_, _, _, _, rfl, rfl⟩

/-- `i / 2` with an integer variable that is 7 gives 3.0, not 3.5: the instruction divides
integers. -/
theorem divide_wrong : Wrong (.bin (.ar .div) (.loc 2) (.lit (.int 2))) (.flt (7 : Int))
    (.flt (6 : Int)) :=
  ⟨_, _, _, _, rfl, rfl, ⟨_, rfl⟩, _, run_runN (P := P0) _ 1 _, rfl, fun h => by cases h⟩

/-- The code of an expression that has a value is undefined. -/
def Undefined (e : Exp Int Nat) : Prop :=
  ∃ n st1 q st2, lin Γ0 e st0 = .ok (n, st1) ∧ operand st1 n = .ok (q, st2) ∧
    (∃ r, eval P0 ρ0 e [] = .ok r) ∧ Run P0 st2.blocks (here (P := P0) st0 M0) .ub

/-- `i / 0` is a float in the language, and divides integers by zero in C. -/
theorem divide_by_zero : Undefined (.bin (.ar .div) (.loc 2) (.lit (.int 0))) :=
  ⟨_, _, _, _, rfl, rfl, ⟨_, rfl⟩, run_runN (P := P0) _ 1 _⟩

/-- `i + 9223372036854775807` wraps around in the language, and overflows in C; so do unary minus
and untyped operands (`emit_op_arith`). -/
theorem overflow_ub : Undefined (.bin (.ar .add) (.loc 2) (.lit (.int 9223372036854775807))) :=
  ⟨_, _, _, _, rfl, rfl, ⟨_, rfl⟩, run_runN (P := P0) _ 1 _⟩

theorem negate_overflow_ub : Undefined (.neg (.lit (.int 0x8000000000000000))) :=
  ⟨_, _, _, _, rfl, rfl, ⟨_, rfl⟩, run_runN (P := P0) _ 1 _⟩

/-! ## C91: temporaries -/

/-- C91.  In a state where the registers in use are below `m`, every expression whose operators
are nested at most `d` deep, with `m + 6 * d + 3` at most 256, is compiled, however large it is
otherwise: no set of registers is overrun, and no assertion fails. -/
theorem temporaries_suffice_partial {F O : Type} (Γ : Nat → LV) (e : Exp F O) (st : St F O)
    (m : Nat) (hb : ∀ k, live st k → k.2 < m) (hd : m + 6 * depth e + 3 ≤ 256) :
    ∃ n st1 q st2, lin Γ e st = .ok (n, st1) ∧ operand st1 n = .ok (q, st2) ∧
      ∀ k, live st2 k → live st k ∨ fk q = some k := by
  obtain ⟨n, st1, h1, h2, h3⟩ := lin_regs Γ (fun x => by cases Γ x <;> rfl) e st m hb (by omega)
  have hs : ∀ k, live (freeN st1 n) k → live st k := by
    intro k hk
    rw [live_freeN] at hk
    exact (h2 k hk.1).resolve_right hk.2
  obtain ⟨q, st2, h4, _, h6, _⟩ := operand_tot (n := n) (st := st1) (m := m + 1) (by omega)
    (fun k hk => Nat.lt_succ_of_lt (hb k (hs k hk))) (by
      rintro q rfl k hk
      exact Nat.lt_succ_of_lt (h3 k (by simp [fks, hk])))
  exact ⟨n, st1, q, st2, h1, h4, fun k hk => (h6 k hk).imp_left (hs k)⟩

example : ∀ k, live st0 k → k.2 < 1 := by
  rintro ⟨κ, r⟩ h
  cases κ <;> simp_all [live, pool, st0]

example : 1 + 6 * depth ex1 + 3 ≤ 256 := by decide

/-- A sum of more than 256 variables, `x + x + ... + x`, writes outside the set of registers,
whatever the state is. -/
theorem temporaries_overrun {F O : Type} {Γ : Nat → LV} {x : Nat} (hx : (Γ x).ty = .any)
    (st : St F O) (hst : ∀ r ∈ st.a, r < 256) {n : Nat} (hn : 256 < n) :
    lin Γ (sum x n) st = .ub :=
  sum_ub hx n st (top_le hst) (by omega)

/-! ## C92: assignments -/

/-- C92.  Take any multiple assignment to local variables and indexed places, of any length, with
any number of values, whose expressions are `Plain`, and in which no variable is used in place
after it has been assigned (`Fine`).  Unless integers overflow, or a float comes from an untyped
place into an integer variable, running its code in any program that contains it has the outcome
that the language gives: all variables have the values, of their declared types, and all stores
have been made, in the order, that the language says; or the same error is raised.  (Without these
conditions it is false: `swap_wrong`, `key_wrong`, `toint_wrong`, `init_wrong`,
`init_asserts`.) -/
theorem assignment_partial {Γ : Nat → LV} {ρ : Nat → P.V} (hD : Distinct Γ)
    (hρ : ∀ x, HasTy (Γ x).ty (ρ x)) {ts : List (Tgt P.F P.O)} {es : List (Exp P.F P.O)}
    {st st' : St P.F P.O} (hwf : Wf Γ st) (h : linAssign Γ ts es st = .ok st')
    (hts : ∀ t ∈ ts, PlainT Γ t = true) (hes : ∀ e ∈ es, Plain Γ e = true)
    (hF : Fine Γ ts es = true) (g : Prog P) (hc : Covers g st') (M : Mach P) (hL : Locals Γ ρ M)
    (hu : evalAssignS Γ ts es ρ M.s ≠ .ub) :
    match evalAssign P (fun x => (Γ x).ty) ts es ρ M.s with
    | .ok (ρ', s') => ∃ M', Run P g (here st M) (.ok (here st' M')) ∧ Locals Γ ρ' M' ∧
        M'.s = s' ∧ ∀ x, HasTy (Γ x).ty (ρ' x)
    | .err m => Run P g (here st M) (.err m)
    | .ub => False := by
  have key := assign_exe hD hρ hwf h hts hes hF g hc M hL hu
  rw [← (evalAssignS_eq Γ ts es ρ M.s).resolve_left hu]
  revert key hu
  generalize evalAssignS Γ ts es ρ M.s = r
  intro hu key
  rcases r with ⟨ρ', s'⟩ | m | _
  · obtain ⟨M', k1, k2, k3, k4, _⟩ := key
    exact ⟨M', k1, k2, k3, k4⟩
  · exact key
  · exact hu rfl

/-- Two untyped variables, an integer variable, a number variable, and more untyped ones. -/
def Γ2 : Nat → LV
  | 2 => .ireg 0
  | 3 => .freg 0
  | n => .sym n .any

def M2 : Mach P0 := ⟨fun r => .obj (r : Nat), fun _ => .nil, fun _ => 7, fun _ => (5 : Int), []⟩

def ρ2 : Nat → P0.V
  | 2 => .int 7
  | 3 => .flt (5 : Int)
  | n => .obj (n : Nat)

/-- `a, b, t[u], i, x = b, a, i + 1, t[1]`: a swap of untyped variables, an indexed place, an
integer variable that gets a value from an untyped place, a number variable without a value. -/
def ts2 : List (Tgt Int Nat) := [.loc 0, .loc 1, .idx (.loc 4) (.loc 5), .loc 2, .loc 3]

def es2 : List (Exp Int Nat) :=
  [.loc 1, .loc 0, .bin (.ar .add) (.loc 2) (.lit (.int 1)), .idx (.loc 4) (.lit (.int 1))]

example : Distinct Γ2 := by
  intro x y h
  unfold Γ2 at h
  split at h <;> split at h <;> simp_all [LV.slot]

example : Wf (P := P0) Γ2 st0 := by
  refine ⟨?_, Nat.zero_lt_one, fun _ _ => rfl⟩
  rintro ⟨κ, r⟩ ⟨x, hx⟩
  unfold Γ2 at hx
  split at hx <;> simp [LV.ps, use] at hx <;> obtain ⟨rfl, rfl⟩ := hx <;> simp [live, pool, st0]

example : Locals (P := P0) Γ2 ρ2 M2 := by
  intro x
  unfold Γ2 ρ2
  split <;> first | rfl | (split <;> first | rfl | simp_all)

example : Fine Γ2 ts2 es2 = true ∧ (∀ t ∈ ts2, PlainT Γ2 t = true) ∧
    ∀ e ∈ es2, Plain Γ2 e = true := by decide +kernel

example : ∃ st', linAssign Γ2 ts2 es2 st0 = .ok st' := ⟨_, rfl⟩

example : ∃ r, evalAssignS (P := P0) Γ2 ts2 es2 ρ2 [] = .ok r := ⟨_, rfl⟩

/-- Two integer variables, a number variable, an untyped variable, and an integer variable that is
captured by a closure. -/
def Γ1 : Nat → LV
  | 0 => .ireg 0
  | 1 => .ireg 1
  | 2 => .freg 0
  | 3 => .sym 0 .any
  | _ => .sym 1 .int

def st1 : St Int Nat := ⟨[0, 1], [0], [], fun _ => [], 1, 0⟩

def M1 : Mach P0 :=
  ⟨fun r => if r = 1 then .int 3 else .flt (8 : Int), fun _ => .nil,
    fun r => if r = 0 then 7 else 8, fun _ => (5 : Int), []⟩

def ρ1 : Nat → P0.V
  | 0 => .int 7
  | 1 => .int 8
  | 2 => .flt (5 : Int)
  | 3 => .flt (8 : Int)
  | _ => .int 3

/-- The code of an assignment leaves a variable with another value than the language says. -/
def WrongLoc (ts : List (Tgt Int Nat)) (es : List (Exp Int Nat)) (x : Nat) (v v' : P0.V) : Prop :=
  ∃ st2, linAssign Γ1 ts es st1 = .ok st2 ∧
    (∃ ρ' s', evalAssign P0 (fun x => (Γ1 x).ty) ts es ρ1 [] = .ok (ρ', s') ∧ ρ' x = v) ∧
    ∃ M', Run P0 st2.blocks (here (P := P0) st1 M1) (.ok (here (P := P0) st2 M')) ∧
      rd P0 M' (Γ1 x).ps = v' ∧ v' ≠ v

/-- `a, b = b, a` with integer variables: both end up with what `b` was. -/
theorem swap_wrong : WrongLoc [.loc 0, .loc 1] [.loc 1, .loc 0] 1 (.int 7) (.int 8) :=
  ⟨_, rfl, ⟨_, _, rfl, rfl⟩, _, run_runN (P := P0) _ 2 _, rfl, fun h => by cases h⟩

/-- `a = u` where the untyped `u` holds 4.0: the integer variable gets the bytes of the float
instead of 4. -/
theorem toint_wrong : WrongLoc [.loc 0] [.loc 3] 0 (.int 4) (.int 1008) :=
  ⟨_, rfl, ⟨_, _, rfl, rfl⟩, _, run_runN (P := P0) _ 3 _, rfl, fun h => by cases h⟩

/-- `a, c = 1` with a captured integer variable `c`: it becomes nil, not 0. -/
theorem init_wrong : WrongLoc [.loc 0, .loc 4] [.lit (.int 1)] 4 (.int 0) .nil :=
  ⟨_, rfl, ⟨_, _, rfl, rfl⟩, _, run_runN (P := P0) _ 2 _, rfl, fun h => by cases h⟩

/-- `a, u[a] = 1, 2`: the store uses the new value of `a` as key. -/
theorem key_wrong : ∃ st2,
    linAssign Γ1 [.loc 0, .idx (.loc 3) (.loc 0)] [.lit (.int 1), .lit (.int 2)] st1 = .ok st2 ∧
    (∃ ρ', evalAssign P0 (fun x => (Γ1 x).ty) [.loc 0, .idx (.loc 3) (.loc 0)]
      [.lit (.int 1), .lit (.int 2)] ρ1 [] = .ok (ρ', [(.flt (8 : Int), .int 7, .int 2)])) ∧
    ∃ M', Run P0 st2.blocks (here (P := P0) st1 M1) (.ok (here (P := P0) st2 M')) ∧
      M'.s = [(.flt (8 : Int), .int 1, .int 2)] :=
  ⟨_, rfl, ⟨_, rfl⟩, _, run_runN (P := P0) _ 2 _, rfl⟩

/-- `u[a], u[b] = 1`: an assertion of the linearizer fails, although the language stores nil. -/
theorem init_asserts :
    linAssign Γ1 [.idx (.loc 3) (.loc 0), .idx (.loc 3) (.loc 1)] [.lit (.int 1)] st1
      = assertion ∧
    ∃ r, evalAssign P0 (fun x => (Γ1 x).ty) [.idx (.loc 3) (.loc 0), .idx (.loc 3) (.loc 1)]
      [.lit (.int 1)] ρ1 [] = .ok r :=
  ⟨rfl, _, rfl⟩

end Verif.Lin
