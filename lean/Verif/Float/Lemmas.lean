import Verif.Float.Model
/-! Facts about the model of doubles, in units. -/
namespace Verif.Float
open Verif.Arith (LInt)

theorem U_pos : 0 < U := Nat.two_pow_pos _

theorem round53_eq {a j : Nat} (ha : a < 2 ^ 53) : round53 (a * 2 ^ j) = a * 2 ^ j := by
  unfold round53
  split
  · rfl
  · rename_i hn
    have hpos : 0 < a * 2 ^ j := by omega
    have hlog : (a * 2 ^ j).log2 - 52 ≤ j := by
      have : (a * 2 ^ j).log2 < 53 + j := by
        rw [Nat.log2_lt (by omega), Nat.pow_add]
        exact Nat.mul_lt_mul_of_pos_right ha (Nat.two_pow_pos j)
      omega
    generalize (a * 2 ^ j).log2 - 52 = k at hlog
    dsimp only
    have hd : 2 ^ k ∣ a * 2 ^ j := Nat.dvd_trans (Nat.pow_dvd_pow 2 hlog) (Nat.dvd_mul_left ..)
    have hr : a * 2 ^ j % 2 ^ k = 0 := Nat.mod_eq_zero_of_dvd hd
    have hk := Nat.two_pow_pos k
    rw [hr, if_neg (by omega)]
    exact Nat.div_mul_cancel hd

/-- small integers (in units) are exact -/
theorem mk_int {n : Nat} (neg : Bool) (h : n ≤ 2 ^ 53) : mk neg (n * U) = .fin neg (n * U) := by
  have e : round53 (n * U) = n * U := by
    by_cases h1 : n = 2 ^ 53
    · have : n * U = 2 ^ 52 * 2 ^ 1075 := by subst h1; unfold U; rw [← Nat.pow_add, ← Nat.pow_add]
      rw [this]; exact round53_eq (by decide)
    · exact round53_eq (by omega)
  unfold mk
  rw [e, if_pos]
  have : n * U ≤ 2 ^ 53 * U := Nat.mul_le_mul_right _ h
  have h2 : 2 ^ 53 * U < 2 ^ 2098 := by
    unfold U; rw [← Nat.pow_add]; exact Nat.pow_lt_pow_right (by omega) (by omega)
  omega

theorem sc_natAbs (i : Int) (u : Nat) : sc (decide (i < 0)) (i.natAbs * u) = i * u := by
  unfold sc
  by_cases h : i < 0
  · simp only [h, decide_true, if_true, Int.natCast_mul]
    rw [Int.ofNat_natAbs_of_nonpos (by omega), Int.neg_mul, Int.neg_neg]
  · simp only [h, decide_false, Bool.false_eq_true, if_false, Int.natCast_mul]
    rw [Int.natAbs_of_nonneg (by omega)]

theorem ofInt_small {i : Int} (h : i.natAbs ≤ 2 ^ 53) : ofInt i = .fin (decide (i < 0)) (i.natAbs * U) := mk_int _ h

theorem ofInt_minInt : ofInt (-2 ^ 63) = .fin true (2 ^ 63 * U) := by
  have e : round53 (2 ^ 63 * U) = 2 ^ 63 * U := by
    have : 2 ^ 63 * U = 2 ^ 52 * 2 ^ 1085 := by unfold U; rw [← Nat.pow_add, ← Nat.pow_add]
    rw [this]; exact round53_eq (by decide)
  have h1 : ((-2 ^ 63 : Int)).natAbs = 2 ^ 63 := by decide
  have h2 : decide ((-2 ^ 63 : Int) < 0) = true := by decide
  unfold ofInt mk
  rw [h1, h2, e, if_pos]
  unfold U; rw [← Nat.pow_add]; exact Nat.pow_lt_pow_right (by omega) (by omega)

/-- a double that is not an integer is smaller than 2^52 -/
theorem Rep.frac {s : Nat} (h : Rep s) (hd : ¬ U ∣ s) : s < 2 ^ 52 * U := by
  obtain ⟨m, k, h1, h2, rfl⟩ := h
  have hk : k ≤ 1073 := by
    by_cases hk : k ≤ 1073
    · exact hk
    · exfalso; apply hd
      exact Nat.dvd_trans (Nat.pow_dvd_pow 2 (by omega)) (Nat.dvd_mul_left ..)
  have : 2 ^ k ≤ 2 ^ 1073 := Nat.pow_le_pow_right (by omega) hk
  calc m * 2 ^ k ≤ m * 2 ^ 1073 := Nat.mul_le_mul_left _ this
    _ < 2 ^ 53 * 2 ^ 1073 := Nat.mul_lt_mul_of_pos_right h1 (Nat.two_pow_pos _)
    _ = 2 ^ 52 * U := by unfold U; rw [← Nat.pow_add, ← Nat.pow_add]

/-- the value in units of a double that is a multiple of 1 -/
theorem floor_fin (n : Bool) (s : Nat) : ∃ n' z, floor (.fin n s) = .fin n' z ∧ sc n' z = sc n s / (U : Int) * U ∧ n' = n := by
  refine ⟨n, _, rfl, ?_, rfl⟩
  have hU := U_pos
  unfold sc
  cases n with
  | false =>
    simp only [Bool.false_eq_true, if_false, Int.natCast_mul]
    rw [Int.natAbs_of_nonneg (Int.ediv_nonneg (by omega) (by omega))]
  | true =>
    simp only [if_true, Int.natCast_mul]
    rw [Int.ofNat_natAbs_of_nonpos, Int.neg_mul, Int.neg_neg]
    apply Int.ediv_nonpos_of_nonpos_of_neg <;> omega

/-- `lua_numbertointeger` on a double that is the integer `z` -/
theorem numberToInteger_int {n : Bool} {s : Nat} {z : Int} (h : sc n s = z * U) :
    numberToInteger (.fin n s) = .ok (if -2 ^ 63 ≤ z ∧ z < 2 ^ 63 then some (BitVec.ofInt 64 z) else none) := by
  have hU := U_pos
  unfold numberToInteger
  rw [ofInt_minInt]
  simp only [le, lt, neg, Bool.not_true]
  have e1 : sc true (2 ^ 63 * U) = -2 ^ 63 * U := by simp only [sc, if_true, Int.natCast_mul, Int.neg_mul]; rfl
  have e2 : sc false (2 ^ 63 * U) = 2 ^ 63 * U := by simp only [sc, Bool.false_eq_true, if_false, Int.natCast_mul]; rfl
  rw [e1, e2, h]
  have l1 : (-2 ^ 63 * (U : Int) ≤ z * U) ↔ -2 ^ 63 ≤ z :=
    ⟨fun h => Int.le_of_mul_le_mul_right h (by omega), fun h => Int.mul_le_mul_of_nonneg_right h (by omega)⟩
  have l2 : (z * (U : Int) < 2 ^ 63 * U) ↔ z < 2 ^ 63 :=
    ⟨fun h => Int.lt_of_mul_lt_mul_right h (by omega), fun h => Int.mul_lt_mul_of_pos_right h (by omega)⟩
  simp only [l1, l2]
  by_cases hz : -2 ^ 63 ≤ z ∧ z < 2 ^ 63
  · rw [if_pos (by simp only [Bool.and_eq_true, decide_eq_true_eq]; exact hz), if_pos hz]
    have ht : sc n (s / U) = z := by
      unfold sc at h ⊢
      cases n with
      | false =>
        simp only [Bool.false_eq_true, if_false] at h ⊢
        rw [Int.natCast_ediv, h, Int.mul_ediv_cancel _ (by omega)]
      | true =>
        simp only [if_true] at h ⊢
        have : (s : Int) = (-z) * U := by rw [Int.neg_mul, ← h, Int.neg_neg]
        rw [Int.natCast_ediv, this, Int.mul_ediv_cancel _ (by omega), Int.neg_neg]
    simp only [castInt, ht, hz, and_self, if_true, Res.bind_ok, Res.pure_eq]
  · rw [if_neg (by simp only [Bool.and_eq_true, decide_eq_true_eq]; exact hz), if_neg hz]; rfl

/-- value of `floor`/`ceil` -/
def rnd (mode : Mode) (v : Int) : Int :=
  match mode with
  | .ceil => -(-v / U)
  | _ => v / U

/-- `luaV_flttointeger` on a finite double, in units -/
theorem fltToInteger_fin {n : Bool} {s : Nat} (hr : Rep s) (mode : Mode) :
    fltToInteger (.fin n s) mode = .ok (
      if mode = .eq ∧ ¬ (U : Int) ∣ sc n s then none
      else if -2 ^ 63 ≤ rnd mode (sc n s) ∧ rnd mode (sc n s) < 2 ^ 63 then some (BitVec.ofInt 64 (rnd mode (sc n s))) else none) := by
  have hU := U_pos
  obtain ⟨n', z, e1, e2, _⟩ := floor_fin n s
  unfold fltToInteger
  rw [e1]
  dsimp only
  have heq : eq (.fin n s) (.fin n' z) = decide ((U : Int) ∣ sc n s) := by
    simp only [eq, e2]
    congr 1
    rw [eq_iff_iff]
    constructor
    · intro h; exact ⟨sc n s / U, by rw [Int.mul_comm]; exact h⟩
    · intro h; exact (Int.ediv_mul_cancel h).symm
  rw [heq]
  by_cases hd : (U : Int) ∣ sc n s
  · simp only [hd, decide_true, Bool.not_true, Bool.false_eq_true, if_false, not_true_eq_false, and_false]
    rw [numberToInteger_int e2]
    have : rnd mode (sc n s) = sc n s / U := by
      cases mode with
      | eq => rfl
      | floor => rfl
      | ceil => unfold rnd; rw [Int.neg_ediv_of_dvd hd, Int.neg_neg]
    rw [this]
  · simp only [hd, decide_false, Bool.not_false, if_true, not_false_eq_true, and_true]
    cases mode with
    | eq => rfl
    | floor => simp only [reduceCtorEq, if_false, rnd]; exact numberToInteger_int e2
    | ceil =>
      simp only [reduceCtorEq, if_false]
      -- floor + 1 is exact
      have hs : s < 2 ^ 52 * U := hr.frac (by
        intro h; apply hd
        unfold sc
        split
        · exact (Int.dvd_neg).2 (Int.natCast_dvd_natCast.2 h)
        · exact Int.natCast_dvd_natCast.2 h)
      have hb : -(2 ^ 52) ≤ sc n s / (U : Int) ∧ sc n s / (U : Int) < 2 ^ 52 := by
        have hb1 : -(2 ^ 52 * (U : Int)) < sc n s ∧ sc n s < 2 ^ 52 * (U : Int) := by
          have : (s : Int) < 2 ^ 52 * U := by
            have h := Int.ofNat_lt.2 hs
            rw [Int.natCast_mul] at h
            exact h
          unfold sc; split <;> omega
        constructor
        · rw [Int.le_ediv_iff_mul_le (by omega), Int.neg_mul]; omega
        · rw [Int.ediv_lt_iff_lt_mul (by omega)]; omega
      have hc : rnd .ceil (sc n s) = sc n s / U + 1 := by
        unfold rnd
        have h1 := Int.emod_nonneg (sc n s) (b := (U : Int)) (by omega)
        have h2 := Int.emod_lt_of_pos (sc n s) (b := (U : Int)) (by omega)
        have h3 := Int.mul_ediv_add_emod (sc n s) (U : Int)
        have h4 : sc n s % (U : Int) ≠ 0 := fun e => hd (Int.dvd_of_emod_eq_zero e)
        have : -sc n s / (U : Int) = -(sc n s / U + 1) := by
          rw [Int.ediv_eq_iff_of_pos (by omega)]
          rw [Int.neg_mul, Int.add_mul, Int.one_mul, Int.mul_comm (sc n s / (U : Int))]
          omega
        rw [this, Int.neg_neg]
      rw [ofInt_small (by decide)]
      simp only [add]
      have hz1 : sc n' z + sc (decide ((1 : Int) < 0)) ((1 : Int).natAbs * U) = (sc n s / U + 1) * U := by
        rw [e2, sc_natAbs, Int.add_mul]
      rw [hz1, hc]
      by_cases h0 : (sc n s / (U : Int) + 1) * U = 0
      · rw [if_pos h0]
        have : sc n s / (U : Int) + 1 = 0 := by
          rcases Int.mul_eq_zero.1 h0 with e | e
          · exact e
          · omega
        rw [this]
        exact numberToInteger_int (by simp [sc])
      · rw [if_neg h0, Int.natAbs_mul, Int.natAbs_natCast]
        have hl : (sc n s / (U : Int) + 1).natAbs ≤ 2 ^ 53 := by omega
        rw [mk_int _ hl]
        have hs : decide ((sc n s / (U : Int) + 1) * U < 0) = decide (sc n s / (U : Int) + 1 < 0) := by
          congr 1
          rw [eq_iff_iff]
          constructor
          · intro h
            refine Int.not_le.1 fun h' => ?_
            have := Int.mul_nonneg h' (show (0 : Int) ≤ U by omega)
            omega
          · intro h; exact Int.mul_neg_of_neg_of_pos h (by omega)
        rw [hs]
        exact numberToInteger_int (sc_natAbs _ _)

/-- the magnitude of the double 10.5, used in examples -/
def tenAndHalf : Nat := 21 * 2 ^ 1073

theorem tenAndHalf_rep : Rep tenAndHalf := ⟨21, 1073, by decide, by decide, rfl⟩

theorem tenAndHalf_mul : tenAndHalf * 2 = 21 * U := by
  unfold tenAndHalf U
  rw [Nat.mul_assoc, ← Nat.pow_succ]

end Verif.Float
