import Verif.Float.Compare
import Mathlib.Order.WithBot
import Mathlib.Algebra.Order.Field.Rat
import Mathlib.Tactic.Positivity
import Mathlib.Tactic.Ring
/-!
Properties C06 and C07: comparisons between integers and floats, conversion of floats to integers.
The exact value of a number is an element of the rationals with two infinities added.
-/
namespace Verif.Float
open Verif.Arith (LInt)
attribute [local irreducible] U

/-- exact values of numbers other than NaN -/
abbrev Ext := WithBot (WithTop ℚ)

/-- the exact value of a double; NaN has none -/
def Dbl.val : Dbl → Option Ext
  | .nan => none
  | .inf true => some ⊥
  | .inf false => some ⊤
  | .fin n s => some (((if n then -(s : ℚ) else s) / 2 ^ 1074 : ℚ) : WithTop ℚ)

/-- the exact value of a number -/
def Num.val : Num → Option Ext
  | .int i => some (((i.toInt : ℚ) : WithTop ℚ) : Ext)
  | .flt f => f.val

theorem U_cast : ((U : Int) : ℚ) = 2 ^ 1074 := by
  unfold U; push_cast; rfl

theorem sc_cast (n : Bool) (s : Nat) : (if n then -(s : ℚ) else s) = ((sc n s : Int) : ℚ) := by
  unfold sc; cases n <;> simp

theorem pow_pos' : (0 : ℚ) < 2 ^ 1074 := by positivity

theorem int_lt_fin (i : Int) (v : Int) : (i : ℚ) < (v : ℚ) / 2 ^ 1074 ↔ i * U < v := by
  rw [lt_div_iff₀ pow_pos', ← U_cast, ← Int.cast_mul, Int.cast_lt]

theorem fin_lt_int (i : Int) (v : Int) : (v : ℚ) / 2 ^ 1074 < (i : ℚ) ↔ v < i * U := by
  rw [div_lt_iff₀ pow_pos', ← U_cast, ← Int.cast_mul, Int.cast_lt]

theorem int_le_fin (i : Int) (v : Int) : (i : ℚ) ≤ (v : ℚ) / 2 ^ 1074 ↔ i * U ≤ v := by
  rw [le_div_iff₀ pow_pos', ← U_cast, ← Int.cast_mul, Int.cast_le]

theorem fin_le_int (i : Int) (v : Int) : (v : ℚ) / 2 ^ 1074 ≤ (i : ℚ) ↔ v ≤ i * U := by
  rw [div_le_iff₀ pow_pos', ← U_cast, ← Int.cast_mul, Int.cast_le]

theorem fin_lt_fin (v w : Int) : (v : ℚ) / 2 ^ 1074 < (w : ℚ) / 2 ^ 1074 ↔ v < w := by
  rw [div_lt_div_iff_of_pos_right pow_pos', Int.cast_lt]

theorem fin_le_fin (v w : Int) : (v : ℚ) / 2 ^ 1074 ≤ (w : ℚ) / 2 ^ 1074 ↔ v ≤ w := by
  rw [div_le_div_iff_of_pos_right pow_pos', Int.cast_le]

theorem coe_lt (a b : ℚ) : (((a : WithTop ℚ)) : Ext) < ((b : WithTop ℚ) : Ext) ↔ a < b := by
  rw [WithBot.coe_lt_coe, WithTop.coe_lt_coe]

theorem coe_le (a b : ℚ) : (((a : WithTop ℚ)) : Ext) ≤ ((b : WithTop ℚ) : Ext) ↔ a ≤ b := by
  rw [WithBot.coe_le_coe, WithTop.coe_le_coe]

theorem coe_lt_top (a : ℚ) : (((a : WithTop ℚ)) : Ext) < ⊤ := WithBot.coe_lt_coe.2 (WithTop.coe_lt_top a)
theorem bot_lt_coe (a : ℚ) : (⊥ : Ext) < ((a : WithTop ℚ) : Ext) := WithBot.bot_lt_coe _

theorem some_iff {x y : Ext} {R : Ext → Ext → Prop} :
    (∃ a b, some x = some a ∧ some y = some b ∧ R a b) ↔ R x y := by simp

/-- **C06.** `a < b` on numbers of any kind never fails, and is true exactly when both have exact values (neither is NaN) and
the exact value of `a` is smaller. -/
theorem lt_exact {a b : Num} (ha : a.WF) (hb : b.WF) :
    ∃ r, LTnum a b = .ok r ∧ (r = true ↔ ∃ x y, a.val = some x ∧ b.val = some y ∧ x < y) := by
  cases a with
  | int i =>
    cases b with
    | int j =>
      refine ⟨_, rfl, ?_⟩
      simp only [Num.val, some_iff, coe_lt, Int.cast_lt, decide_eq_true_eq]
    | flt f =>
      cases f with
      | nan => exact ⟨_, LTintfloat_nan i, by simp [Num.val, Dbl.val]⟩
      | inf n =>
        refine ⟨_, LTintfloat_inf i n, ?_⟩
        cases n <;> simp [Num.val, Dbl.val, coe_lt_top]
      | fin n s =>
        refine ⟨_, LTintfloat_fin i hb, ?_⟩
        simp only [Num.val, Dbl.val, some_iff, coe_lt, sc_cast, int_lt_fin, decide_eq_true_eq]
  | flt f =>
    cases b with
    | int i =>
      cases f with
      | nan => exact ⟨_, LTfloatint_nan i, by simp [Num.val, Dbl.val]⟩
      | inf n =>
        refine ⟨_, LTfloatint_inf i n, ?_⟩
        cases n <;> simp [Num.val, Dbl.val, bot_lt_coe]
      | fin n s =>
        refine ⟨_, LTfloatint_fin i ha, ?_⟩
        simp only [Num.val, Dbl.val, some_iff, coe_lt, sc_cast, fin_lt_int, decide_eq_true_eq]
    | flt g =>
      refine ⟨_, rfl, ?_⟩
      cases f with
      | nan => simp [Num.val, Dbl.val, lt]
      | inf n =>
        cases g with
        | nan => cases n <;> simp [Num.val, Dbl.val, lt]
        | inf n' => cases n <;> cases n' <;> simp [Num.val, Dbl.val, lt]
        | fin n' s' => cases n <;> simp [Num.val, Dbl.val, lt, bot_lt_coe]
      | fin n s =>
        cases g with
        | nan => simp [Num.val, Dbl.val, lt]
        | inf n' => cases n' <;> simp [Num.val, Dbl.val, lt, coe_lt_top]
        | fin n' s' =>
          simp only [Num.val, Dbl.val, some_iff, coe_lt, sc_cast, fin_lt_fin, lt, decide_eq_true_eq]

/-- **C06.** The same for `a <= b`. -/
theorem le_exact {a b : Num} (ha : a.WF) (hb : b.WF) :
    ∃ r, LEnum a b = .ok r ∧ (r = true ↔ ∃ x y, a.val = some x ∧ b.val = some y ∧ x ≤ y) := by
  cases a with
  | int i =>
    cases b with
    | int j =>
      refine ⟨_, rfl, ?_⟩
      simp only [Num.val, some_iff, coe_le, Int.cast_le, decide_eq_true_eq]
    | flt f =>
      cases f with
      | nan => exact ⟨_, LEintfloat_nan i, by simp [Num.val, Dbl.val]⟩
      | inf n =>
        refine ⟨_, LEintfloat_inf i n, ?_⟩
        cases n <;> simp [Num.val, Dbl.val]
      | fin n s =>
        refine ⟨_, LEintfloat_fin i hb, ?_⟩
        simp only [Num.val, Dbl.val, some_iff, coe_le, sc_cast, int_le_fin, decide_eq_true_eq]
  | flt f =>
    cases b with
    | int i =>
      cases f with
      | nan => exact ⟨_, LEfloatint_nan i, by simp [Num.val, Dbl.val]⟩
      | inf n =>
        refine ⟨_, LEfloatint_inf i n, ?_⟩
        cases n with
        | true => simp [Num.val, Dbl.val]
        | false => simp only [Num.val, Dbl.val, some_iff, Bool.false_eq_true, false_iff, not_le]; exact coe_lt_top _
      | fin n s =>
        refine ⟨_, LEfloatint_fin i ha, ?_⟩
        simp only [Num.val, Dbl.val, some_iff, coe_le, sc_cast, fin_le_int, decide_eq_true_eq]
    | flt g =>
      refine ⟨_, rfl, ?_⟩
      cases f with
      | nan => simp [Num.val, Dbl.val, le]
      | inf n =>
        cases g with
        | nan => cases n <;> simp [Num.val, Dbl.val, le]
        | inf n' => cases n <;> cases n' <;> simp [Num.val, Dbl.val, le]
        | fin n' s' =>
          cases n with
          | true => simp [Num.val, Dbl.val, le]
          | false => simp only [Num.val, Dbl.val, le, some_iff, Bool.false_eq_true, false_iff, not_le]; exact coe_lt_top _
      | fin n s =>
        cases g with
        | nan => simp [Num.val, Dbl.val, le]
        | inf n' => cases n' <;> simp [Num.val, Dbl.val, le]
        | fin n' s' =>
          simp only [Num.val, Dbl.val, some_iff, coe_le, sc_cast, fin_le_fin, le, decide_eq_true_eq]

/-- equality of an integer and a float, in units -/
theorem EQ_int_fin (i : LInt) {n : Bool} {s : Nat} (hr : Rep s) :
    EQnum (.int i) (.flt (.fin n s)) = .ok (decide (i.toInt * U = sc n s)) ∧
    EQnum (.flt (.fin n s)) (.int i) = .ok (decide (i.toInt * U = sc n s)) := by
  have hU := U_pos
  have hi := toInt_range i
  simp only [EQnum, toIntegerNS, Res.bind_ok, fltToInteger_fin hr]
  by_cases hd : (U : Int) ∣ sc n s
  · simp only [hd, not_true_eq_false, and_false, if_false]
    obtain ⟨z, hz⟩ := hd
    have e : rnd .eq (sc n s) = z := by
      simp only [rnd, hz]; exact Int.mul_ediv_cancel_left _ (by omega)
    have e2 : i.toInt * U = sc n s ↔ i.toInt = z := by
      rw [hz, Int.mul_comm]
      exact ⟨fun h => Int.eq_of_mul_eq_mul_left (by omega) h, fun h => by rw [h]⟩
    rw [e]
    by_cases hr : -2 ^ 63 ≤ z ∧ z < 2 ^ 63
    · rw [if_pos hr]
      have : i = BitVec.ofInt 64 z ↔ i.toInt = z := by
        constructor
        · intro h; rw [h, toInt_ofInt hr]
        · intro h; apply BitVec.eq_of_toInt_eq; rw [h, toInt_ofInt hr]
      simp only [Res.pure_eq, e2, this]
      simp only [eq_comm (a := BitVec.ofInt 64 z), this, and_self]
    · rw [if_neg hr]
      simp only [Res.pure_eq, e2]
      have : i.toInt ≠ z := by omega
      simp [this]
  · simp only [hd, not_false_eq_true, and_true, if_true, Res.pure_eq]
    have : i.toInt * U ≠ sc n s := fun h => hd ⟨i.toInt, by rw [Int.mul_comm]; exact h.symm⟩
    simp [this]

/-- **C06.** `a == b` on numbers is true exactly when both have the same exact value. -/
theorem eq_exact {a b : Num} (ha : a.WF) (hb : b.WF) :
    ∃ r, EQnum a b = .ok r ∧ (r = true ↔ ∃ x y, a.val = some x ∧ b.val = some y ∧ x = y) := by
  have q1 : ∀ (i : Int) (v : Int), (i : ℚ) = (v : ℚ) / 2 ^ 1074 ↔ i * U = v := by
    intro i v
    rw [le_antisymm_iff, int_le_fin, fin_le_int]; omega
  have cc : ∀ a b : ℚ, (((a : WithTop ℚ)) : Ext) = ((b : WithTop ℚ) : Ext) ↔ a = b := by
    intro a b; rw [WithBot.coe_inj, WithTop.coe_inj]
  have ct : ∀ a : ℚ, (((a : WithTop ℚ)) : Ext) ≠ ⊤ := fun a => ne_of_lt (coe_lt_top a)
  have tc : ∀ a : ℚ, ⊤ ≠ (((a : WithTop ℚ)) : Ext) := fun a => (ne_of_lt (coe_lt_top a)).symm
  have cb : ∀ a : ℚ, (((a : WithTop ℚ)) : Ext) ≠ ⊥ := fun a => (ne_of_lt (bot_lt_coe a)).symm
  have bc : ∀ a : ℚ, ⊥ ≠ (((a : WithTop ℚ)) : Ext) := fun a => ne_of_lt (bot_lt_coe a)
  have inf1 : ∀ i n, EQnum (.int i) (.flt (.inf n)) = .ok false := by
    intro i n; simp [EQnum, toIntegerNS, fltToInteger_inf]
  have inf2 : ∀ i n, EQnum (.flt (.inf n)) (.int i) = .ok false := by
    intro i n; simp [EQnum, toIntegerNS, fltToInteger_inf]
  have nan1 : ∀ i, EQnum (.int i) (.flt .nan) = .ok false := by
    intro i; simp [EQnum, toIntegerNS, fltToInteger_nan]
  have nan2 : ∀ i, EQnum (.flt .nan) (.int i) = .ok false := by
    intro i; simp [EQnum, toIntegerNS, fltToInteger_nan]
  cases a with
  | int i =>
    cases b with
    | int j =>
      refine ⟨_, rfl, ?_⟩
      simp only [Num.val, some_iff, cc, Int.cast_inj, decide_eq_true_eq, BitVec.toInt_inj]
    | flt f =>
      cases f with
      | nan => exact ⟨_, nan1 i, by simp [Num.val, Dbl.val]⟩
      | inf n => exact ⟨_, inf1 i n, by cases n <;> simp [Num.val, Dbl.val, ct, cb]⟩
      | fin n s =>
        refine ⟨_, (EQ_int_fin i hb).1, ?_⟩
        simp only [Num.val, Dbl.val, some_iff, cc, sc_cast, q1, decide_eq_true_eq]
  | flt f =>
    cases b with
    | int i =>
      cases f with
      | nan => exact ⟨_, nan2 i, by simp [Num.val, Dbl.val]⟩
      | inf n => exact ⟨_, inf2 i n, by cases n <;> simp [Num.val, Dbl.val, tc, bc]⟩
      | fin n s =>
        refine ⟨_, (EQ_int_fin i ha).2, ?_⟩
        simp only [Num.val, Dbl.val, some_iff, cc, sc_cast, decide_eq_true_eq]
        rw [eq_comm (a := ((sc n s : Int) : ℚ) / 2 ^ 1074), q1]
    | flt g =>
      refine ⟨_, rfl, ?_⟩
      cases f with
      | nan => simp [Num.val, Dbl.val, eq]
      | inf n =>
        cases g with
        | nan => cases n <;> simp [Num.val, Dbl.val, eq]
        | inf n' => cases n <;> cases n' <;> simp [Num.val, Dbl.val, eq]
        | fin n' s' => cases n <;> simp [Num.val, Dbl.val, eq, tc, bc]
      | fin n s =>
        cases g with
        | nan => simp [Num.val, Dbl.val, eq]
        | inf n' => cases n' <;> simp [Num.val, Dbl.val, eq, ct, cb]
        | fin n' s' =>
          simp only [Num.val, Dbl.val, some_iff, cc, sc_cast, eq, decide_eq_true_eq]
          rw [le_antisymm_iff (a := ((sc n s : Int) : ℚ) / 2 ^ 1074), fin_le_fin, fin_le_fin]; omega

/-- **C06.** `<` and `<=` are transitive, and `a < b` is the negation of `b <= a` unless one of them is NaN. -/
theorem order_laws {a b c : Num} (ha : a.WF) (hb : b.WF) (hc : c.WF) :
    (LTnum a b = .ok true → LTnum b c = .ok true → LTnum a c = .ok true) ∧
    (LEnum a b = .ok true → LEnum b c = .ok true → LEnum a c = .ok true) ∧
    (LTnum a b = .ok true → LEnum b c = .ok true → LTnum a c = .ok true) ∧
    (a ≠ .flt .nan → b ≠ .flt .nan → (LTnum a b = .ok true ↔ LEnum b a = .ok false)) := by
  have hlt : ∀ {a b : Num}, a.WF → b.WF → (LTnum a b = .ok true ↔ ∃ x y, a.val = some x ∧ b.val = some y ∧ x < y) := by
    intro a b ha hb
    obtain ⟨r, h1, h2⟩ := lt_exact ha hb
    rw [← h2, h1]; simp
  have hle : ∀ {a b : Num}, a.WF → b.WF → (LEnum a b = .ok true ↔ ∃ x y, a.val = some x ∧ b.val = some y ∧ x ≤ y) := by
    intro a b ha hb
    obtain ⟨r, h1, h2⟩ := le_exact ha hb
    rw [← h2, h1]; simp
  have hval : ∀ {a : Num}, a ≠ .flt .nan → ∃ x, a.val = some x := by
    intro a h
    cases a with
    | int i => exact ⟨_, rfl⟩
    | flt f =>
      cases f with
      | nan => exact absurd rfl h
      | inf n => cases n <;> exact ⟨_, rfl⟩
      | fin n s => exact ⟨_, rfl⟩
  refine ⟨?_, ?_, ?_, ?_⟩
  · rw [hlt ha hb, hlt hb hc, hlt ha hc]
    rintro ⟨x, y, h1, h2, h3⟩ ⟨y', z, h4, h5, h6⟩
    rw [h2] at h4; cases h4
    exact ⟨x, z, h1, h5, lt_trans h3 h6⟩
  · rw [hle ha hb, hle hb hc, hle ha hc]
    rintro ⟨x, y, h1, h2, h3⟩ ⟨y', z, h4, h5, h6⟩
    rw [h2] at h4; cases h4
    exact ⟨x, z, h1, h5, le_trans h3 h6⟩
  · rw [hlt ha hb, hle hb hc, hlt ha hc]
    rintro ⟨x, y, h1, h2, h3⟩ ⟨y', z, h4, h5, h6⟩
    rw [h2] at h4; cases h4
    exact ⟨x, z, h1, h5, lt_of_lt_of_le h3 h6⟩
  · intro na nb
    obtain ⟨x, hx⟩ := hval na
    obtain ⟨y, hy⟩ := hval nb
    obtain ⟨r, h1, h2⟩ := le_exact hb ha
    rw [hlt ha hb, h1]
    rw [hx, hy] at *
    rw [some_iff] at h2 ⊢
    cases r with
    | true => simp; exact h2.1 rfl
    | false =>
      simp only [iff_true]
      exact not_le.1 (fun h => by have := h2.2 h; cases this)

/-- **C07.** Conversion of a float to an integer never executes an out-of-range cast, and its result is exact:
in mode `eq` it is `z` iff the float is exactly `z`; in mode `floor` iff `z ≤ f < z+1`; in mode `ceil` iff
`z-1 < f ≤ z` (with `z` a 64-bit integer). -/
theorem flttointeger_exact {f : Dbl} (hf : f.WF) (mode : Mode) :
    ∃ r, fltToInteger f mode = .ok r ∧ ∀ i : LInt, r = some i ↔
      ∃ q : ℚ, f.val = some ((q : WithTop ℚ) : Ext) ∧ match mode with
        | .eq => q = i.toInt
        | .floor => (i.toInt : ℚ) ≤ q ∧ q < i.toInt + 1
        | .ceil => (i.toInt : ℚ) - 1 < q ∧ q ≤ i.toInt := by
  have hU := U_pos
  have ct : ∀ a : ℚ, ⊤ ≠ (((a : WithTop ℚ)) : Ext) := fun a => (ne_of_lt (coe_lt_top a)).symm
  cases f with
  | nan => exact ⟨_, fltToInteger_nan mode, by simp [Dbl.val]⟩
  | inf n => exact ⟨_, fltToInteger_inf n mode, by cases n <;> simp [Dbl.val, ct]⟩
  | fin n s =>
    refine ⟨_, fltToInteger_fin hf mode, ?_⟩
    intro i
    have hi := toInt_range i
    have hex : ∀ P : ℚ → Prop, (∃ q : ℚ, (Dbl.fin n s).val = some ((q : WithTop ℚ) : Ext) ∧ P q) ↔ P (((sc n s : Int) : ℚ) / 2 ^ 1074) := by
      intro P
      simp only [Dbl.val, sc_cast, Option.some.injEq]
      constructor
      · rintro ⟨q, h1, h2⟩
        rw [WithBot.coe_inj, WithTop.coe_inj] at h1
        rw [h1]; exact h2
      · intro h; exact ⟨_, rfl, h⟩
    rw [hex]
    have hrange : ∀ z : Int, (if -2 ^ 63 ≤ z ∧ z < 2 ^ 63 then some (BitVec.ofInt 64 z) else none) = some i ↔ z = i.toInt := by
      intro z
      constructor
      · intro h
        split at h
        · rename_i hz
          cases h; rw [toInt_ofInt hz]
        · cases h
      · intro h
        rw [h, if_pos hi, BitVec.ofInt_toInt]
    cases mode with
    | eq =>
      by_cases hd : (U : Int) ∣ sc n s
      · simp only [hd, not_true_eq_false, and_false, if_false]
        rw [hrange, le_antisymm_iff (a := ((sc n s : Int) : ℚ) / 2 ^ 1074), fin_le_int, int_le_fin]
        simp only [rnd]
        obtain ⟨z, hz⟩ := hd
        rw [hz, Int.mul_ediv_cancel_left _ (by omega), Int.mul_comm]
        constructor
        · intro h; rw [h]; exact ⟨le_refl _, le_refl _⟩
        · intro ⟨h1, h2⟩
          exact Int.le_antisymm (Int.le_of_mul_le_mul_right h1 (by omega)) (Int.le_of_mul_le_mul_right h2 (by omega))
      · simp only [hd, not_false_eq_true, and_true, if_true]
        constructor
        · intro h; cases h
        · intro h
          exfalso; apply hd
          rw [le_antisymm_iff, fin_le_int, int_le_fin] at h
          exact ⟨i.toInt, by rw [Int.mul_comm]; omega⟩
    | floor =>
      simp only [reduceCtorEq, false_and, if_false]
      rw [hrange, int_le_fin]
      have : ((i.toInt : ℚ) + 1) = ((i.toInt + 1 : Int) : ℚ) := by push_cast; rfl
      rw [this, fin_lt_int, ← le_floor, ← floor_lt]; omega
    | ceil =>
      simp only [reduceCtorEq, false_and, if_false]
      rw [hrange, fin_le_int]
      have : ((i.toInt : ℚ) - 1) = ((i.toInt - 1 : Int) : ℚ) := by push_cast; rfl
      rw [this, int_lt_fin, ← lt_ceil, ← ceil_le]; omega

/-- hypotheses are met: 2^53 + 2 as a double is a proper double, and it is compared exactly with 2^53+1, which is not one -/
example : (Num.flt (.fin false ((2 ^ 53 + 2) * 2 ^ 1074))).WF ∧ (Num.int (2 ^ 53 + 1)).WF :=
  ⟨⟨2 ^ 52 + 1, 1075, by decide, by decide, by rw [show 1075 = 1074 + 1 by rfl, Nat.pow_succ 2 1074]; ring⟩, trivial⟩

end Verif.Float
