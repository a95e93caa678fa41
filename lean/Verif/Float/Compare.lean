import Verif.Float.Lemmas
/-! The comparisons, in units. -/
namespace Verif.Float
open Verif.Arith (LInt)
attribute [local irreducible] U

theorem intFitsF_iff (i : LInt) : intFitsF i = true ↔ i.toInt.natAbs ≤ 2 ^ 53 := by
  unfold intFitsF
  simp only [decide_eq_true_eq, BitVec.le_def]
  have h1 : (1#64 <<< 53 + i).toNat = (2 ^ 53 + i.toNat) % 2 ^ 64 := by
    rw [BitVec.toNat_add]; rfl
  have h2 : (2#64 * (1#64 <<< 53)).toNat = 2 ^ 54 := rfl
  rw [h1, h2, BitVec.toInt_eq_toNat_cond]
  have := i.isLt
  split <;> omega

theorem toInt_range (i : LInt) : -2 ^ 63 ≤ i.toInt ∧ i.toInt < 2 ^ 63 := by
  have h1 := BitVec.toInt_lt (x := i)
  have h2 := BitVec.le_toInt (x := i)
  omega

theorem toInt_ofInt {z : Int} (h : -2 ^ 63 ≤ z ∧ z < 2 ^ 63) : (BitVec.ofInt 64 z).toInt = z := by
  rw [BitVec.toInt_ofInt]
  rw [Int.bmod_eq_of_le] <;> omega

/-- `i < ceil v ↔ i < v` and its companions -/
theorem lt_ceil (i v : Int) : i < rnd .ceil v ↔ i * U < v := by
  have hU := U_pos
  unfold rnd
  have : i < -(-v / U) ↔ -v / (U : Int) < -i := by omega
  rw [this, Int.ediv_lt_iff_lt_mul (by omega), Int.neg_mul]; omega

theorem ceil_le (i v : Int) : rnd .ceil v ≤ i ↔ v ≤ i * U := by
  have := lt_ceil i v; omega

theorem le_floor (i v : Int) : i ≤ rnd .floor v ↔ i * U ≤ v := by
  have hU := U_pos
  unfold rnd
  exact Int.le_ediv_iff_mul_le (by omega)

theorem floor_lt (i v : Int) : rnd .floor v < i ↔ v < i * U := by
  have := le_floor i v; omega

theorem zero_eq : ofInt 0 = .fin false 0 := by
  rw [ofInt_small (by decide)]; simp

theorem lt_zero_fin (n : Bool) (s : Nat) : lt (ofInt 0) (.fin n s) = decide (0 < sc n s) := by
  rw [zero_eq]; rfl

theorem fin_lt_zero (n : Bool) (s : Nat) : lt (.fin n s) (ofInt 0) = decide (sc n s < 0) := by
  rw [zero_eq]; rfl

theorem LTintfloat_fin (i : LInt) {n : Bool} {s : Nat} (hr : Rep s) :
    LTintfloat i (.fin n s) = .ok (decide (i.toInt * U < sc n s)) := by
  have hU := U_pos
  obtain ⟨r1, r2⟩ := toInt_range i
  unfold LTintfloat
  by_cases hf : intFitsF i = true
  · rw [if_pos hf, ofInt_small ((intFitsF_iff i).1 hf)]
    simp only [lt, sc_natAbs]
  · rw [if_neg hf, fltToInteger_fin hr]
    simp only [reduceCtorEq, false_and, if_false, Res.bind_ok]
    by_cases hz : -2 ^ 63 ≤ rnd .ceil (sc n s) ∧ rnd .ceil (sc n s) < 2 ^ 63
    · rw [if_pos hz]
      simp only [Res.pure_eq, toInt_ofInt hz, lt_ceil]
    · rw [if_neg hz]
      simp only [Res.pure_eq, lt_zero_fin]
      congr 2
      rw [eq_iff_iff, ← lt_ceil]
      have h0 : 0 < rnd .ceil (sc n s) ↔ 0 < sc n s := by rw [lt_ceil, Int.zero_mul]
      omega

theorem LEintfloat_fin (i : LInt) {n : Bool} {s : Nat} (hr : Rep s) :
    LEintfloat i (.fin n s) = .ok (decide (i.toInt * U ≤ sc n s)) := by
  have hU := U_pos
  obtain ⟨r1, r2⟩ := toInt_range i
  unfold LEintfloat
  by_cases hf : intFitsF i = true
  · rw [if_pos hf, ofInt_small ((intFitsF_iff i).1 hf)]
    simp only [le, sc_natAbs]
  · rw [if_neg hf, fltToInteger_fin hr]
    simp only [reduceCtorEq, false_and, if_false, Res.bind_ok]
    by_cases hz : -2 ^ 63 ≤ rnd .floor (sc n s) ∧ rnd .floor (sc n s) < 2 ^ 63
    · rw [if_pos hz]
      simp only [Res.pure_eq, toInt_ofInt hz, le_floor]
    · rw [if_neg hz]
      simp only [Res.pure_eq, lt_zero_fin]
      congr 2
      rw [eq_iff_iff, ← le_floor]
      have h0 : rnd .floor (sc n s) < 0 ↔ sc n s < 0 := by rw [floor_lt, Int.zero_mul]
      have h1 : 1 ≤ rnd .floor (sc n s) ↔ (U : Int) ≤ sc n s := by rw [le_floor, Int.one_mul]
      omega

theorem LTfloatint_fin (i : LInt) {n : Bool} {s : Nat} (hr : Rep s) :
    LTfloatint (.fin n s) i = .ok (decide (sc n s < i.toInt * U)) := by
  have hU := U_pos
  obtain ⟨r1, r2⟩ := toInt_range i
  unfold LTfloatint
  by_cases hf : intFitsF i = true
  · rw [if_pos hf, ofInt_small ((intFitsF_iff i).1 hf)]
    simp only [lt, sc_natAbs]
  · rw [if_neg hf, fltToInteger_fin hr]
    simp only [reduceCtorEq, false_and, if_false, Res.bind_ok]
    by_cases hz : -2 ^ 63 ≤ rnd .floor (sc n s) ∧ rnd .floor (sc n s) < 2 ^ 63
    · rw [if_pos hz]
      simp only [Res.pure_eq, toInt_ofInt hz, floor_lt]
    · rw [if_neg hz]
      simp only [Res.pure_eq, fin_lt_zero]
      congr 2
      rw [eq_iff_iff, ← floor_lt]
      have h0 : rnd .floor (sc n s) < 0 ↔ sc n s < 0 := by rw [floor_lt, Int.zero_mul]
      omega

theorem LEfloatint_fin (i : LInt) {n : Bool} {s : Nat} (hr : Rep s) :
    LEfloatint (.fin n s) i = .ok (decide (sc n s ≤ i.toInt * U)) := by
  have hU := U_pos
  obtain ⟨r1, r2⟩ := toInt_range i
  unfold LEfloatint
  by_cases hf : intFitsF i = true
  · rw [if_pos hf, ofInt_small ((intFitsF_iff i).1 hf)]
    simp only [le, sc_natAbs]
  · rw [if_neg hf, fltToInteger_fin hr]
    simp only [reduceCtorEq, false_and, if_false, Res.bind_ok]
    by_cases hz : -2 ^ 63 ≤ rnd .ceil (sc n s) ∧ rnd .ceil (sc n s) < 2 ^ 63
    · rw [if_pos hz]
      simp only [Res.pure_eq, toInt_ofInt hz, ceil_le]
    · rw [if_neg hz]
      simp only [Res.pure_eq, fin_lt_zero]
      congr 2
      rw [eq_iff_iff, ← ceil_le]
      have h0 : rnd .ceil (sc n s) ≤ 0 ↔ sc n s ≤ 0 := by rw [ceil_le, Int.zero_mul]
      have h1 : rnd .ceil (sc n s) ≤ -1 ↔ sc n s ≤ -U := by rw [ceil_le, Int.neg_mul, Int.one_mul]
      omega

theorem numberToInteger_inf (b : Bool) : numberToInteger (.inf b) = .ok none := by
  unfold numberToInteger
  rw [ofInt_minInt]
  cases b <;> rfl

theorem fltToInteger_inf (b : Bool) (mode : Mode) : fltToInteger (.inf b) mode = .ok none := by
  unfold fltToInteger
  have : eq (.inf b) (floor (.inf b)) = true := by cases b <;> rfl
  dsimp only
  rw [this]
  simp only [Bool.not_true, Bool.false_eq_true, if_false, floor]
  exact numberToInteger_inf b

theorem fltToInteger_nan (mode : Mode) : fltToInteger .nan mode = .ok none := by
  have h : numberToInteger .nan = .ok none := by
    unfold numberToInteger
    rw [ofInt_minInt]; rfl
  unfold fltToInteger
  cases mode with
  | eq => rfl
  | floor => dsimp only; simp only [floor, eq, Bool.not_false, if_true]; exact h
  | ceil => dsimp only; simp only [floor, eq, Bool.not_false, if_true, add]; exact h

theorem ofInt_fin_of_fits {i : LInt} (h : intFitsF i = true) : ∃ n s, ofInt i.toInt = .fin n s :=
  ⟨_, _, ofInt_small ((intFitsF_iff i).1 h)⟩

theorem LTintfloat_inf (i : LInt) (b : Bool) : LTintfloat i (.inf b) = .ok (!b) := by
  unfold LTintfloat
  split
  · rename_i h; obtain ⟨n, s, e⟩ := ofInt_fin_of_fits h; rw [e]; rfl
  · rw [fltToInteger_inf, zero_eq]; rfl

theorem LEintfloat_inf (i : LInt) (b : Bool) : LEintfloat i (.inf b) = .ok (!b) := by
  unfold LEintfloat
  split
  · rename_i h; obtain ⟨n, s, e⟩ := ofInt_fin_of_fits h; rw [e]; rfl
  · rw [fltToInteger_inf, zero_eq]; rfl

theorem LTfloatint_inf (i : LInt) (b : Bool) : LTfloatint (.inf b) i = .ok b := by
  unfold LTfloatint
  split
  · rename_i h; obtain ⟨n, s, e⟩ := ofInt_fin_of_fits h; rw [e]; cases b <;> rfl
  · rw [fltToInteger_inf, zero_eq]; cases b <;> rfl

theorem LEfloatint_inf (i : LInt) (b : Bool) : LEfloatint (.inf b) i = .ok b := by
  unfold LEfloatint
  split
  · rename_i h; obtain ⟨n, s, e⟩ := ofInt_fin_of_fits h; rw [e]; cases b <;> rfl
  · rw [fltToInteger_inf, zero_eq]; cases b <;> rfl

theorem LTintfloat_nan (i : LInt) : LTintfloat i .nan = .ok false := by
  unfold LTintfloat
  split
  · rename_i h; obtain ⟨n, s, e⟩ := ofInt_fin_of_fits h; rw [e]; rfl
  · rw [fltToInteger_nan, zero_eq]; rfl

theorem LEintfloat_nan (i : LInt) : LEintfloat i .nan = .ok false := by
  unfold LEintfloat
  split
  · rename_i h; obtain ⟨n, s, e⟩ := ofInt_fin_of_fits h; rw [e]; rfl
  · rw [fltToInteger_nan, zero_eq]; rfl

theorem LTfloatint_nan (i : LInt) : LTfloatint .nan i = .ok false := by
  unfold LTfloatint
  split
  · rename_i h; obtain ⟨n, s, e⟩ := ofInt_fin_of_fits h; rw [e]; rfl
  · rw [fltToInteger_nan, zero_eq]; rfl

theorem LEfloatint_nan (i : LInt) : LEfloatint .nan i = .ok false := by
  unfold LEfloatint
  split
  · rename_i h; obtain ⟨n, s, e⟩ := ofInt_fin_of_fits h; rw [e]; rfl
  · rw [fltToInteger_nan, zero_eq]; rfl

end Verif.Float
