import Verif.Arith.Model
/-! Helper lemmas for the integer arithmetic theorems. -/
namespace Verif.Arith

theorem castS2U_test (n : LInt) : (n + 1 ≤ 1) ↔ (n = 0 ∨ n = -1) := by
  constructor
  · intro h
    have h' : (n + 1).toNat ≤ 1 := by simpa [BitVec.le_def] using h
    rw [BitVec.toNat_add] at h'
    have hn := n.isLt
    rcases Nat.lt_or_ge (n.toNat + 1) (2 ^ 64) with h1 | h1
    · left
      apply BitVec.eq_of_toNat_eq
      simp at h' ⊢; omega
    · right
      apply BitVec.eq_of_toNat_eq
      simp at h' ⊢; omega
  · rintro (h | h) <;> subst h <;> decide

theorem xor_neg (a b : LInt) : (a ^^^ b).toInt < 0 ↔ ¬ ((a.toInt < 0) ↔ (b.toInt < 0)) := by
  have h1 : ((a ^^^ b).toInt < 0) ↔ (a ^^^ b).msb = true := by
    rw [BitVec.msb_eq_toInt]; simp
  have h2 : (a.toInt < 0) ↔ a.msb = true := by rw [BitVec.msb_eq_toInt]; simp
  have h3 : (b.toInt < 0) ↔ b.msb = true := by rw [BitVec.msb_eq_toInt]; simp
  rw [h1, h2, h3, BitVec.msb_xor]
  cases a.msb <;> cases b.msb <;> simp

theorem toInt_ne_zero {n : LInt} (h : n ≠ 0) : n.toInt ≠ 0 := by
  intro h0; apply h; apply BitVec.eq_of_toInt_eq; simpa using h0

theorem toInt_range (n : LInt) : -2 ^ 63 ≤ n.toInt ∧ n.toInt < 2 ^ 63 := by
  have h1 := BitVec.le_toInt n
  have h2 := BitVec.toInt_lt (x := n)
  constructor
  · simpa using h1
  · simpa using h2

theorem bmod_id {x : Int} (h1 : -2 ^ 63 ≤ x) (h2 : x < 2 ^ 63) : x.bmod (2 ^ 64) = x := by
  apply Int.bmod_eq_of_le <;> omega

theorem tdiv_range {a b : Int} (ha1 : -2 ^ 63 ≤ a) (ha2 : a < 2 ^ 63) (hb1 : b ≠ -1) :
    -2 ^ 63 ≤ a.tdiv b ∧ a.tdiv b < 2 ^ 63 := by
  have key : (a.tdiv b).natAbs ≤ a.natAbs := Int.natAbs_tdiv_le_natAbs a b
  constructor
  · omega
  · rcases Int.lt_or_le (a.tdiv b) (2 ^ 63) with h | h
    · exact h
    · exfalso
      have hab : a = -2 ^ 63 := by omega
      subst hab
      have : (Int.tdiv (-2 ^ 63) b).natAbs = (2 ^ 63) / b.natAbs := by
        rw [Int.natAbs_tdiv]; rfl
      have hb : b.natAbs ≤ 1 := by
        rcases Nat.lt_or_ge 1 b.natAbs with h1 | h1
        · have : 2 ^ 63 / b.natAbs ≤ 2 ^ 63 / 2 := Nat.div_le_div_left h1 (by decide)
          omega
        · exact h1
      have : b = 0 ∨ b = 1 := by omega
      rcases this with h0 | h0 <;> subst h0 <;> revert h <;> decide

theorem tmod_sign_pos {a b : Int} (h : 0 ≤ a) : 0 ≤ a.tmod b := Int.tmod_nonneg b h
theorem tmod_sign_neg {a b : Int} (h : a < 0) : a.tmod b ≤ 0 := by
  have := Int.tmod_nonneg (a := -a) b (by omega)
  rw [Int.neg_tmod] at this; omega

theorem fdiv_of_tdiv {a b : Int} (hb : b ≠ 0) :
    a.fdiv b = if (¬ ((a < 0) ↔ (b < 0))) ∧ a.tmod b ≠ 0 then a.tdiv b - 1 else a.tdiv b := by
  rw [Int.fdiv_eq_tdiv]
  have hs : (0 < b → b.sign = 1) ∧ (b < 0 → b.sign = -1) :=
    ⟨Int.sign_eq_one_of_pos, Int.sign_eq_neg_one_of_neg⟩
  simp only [Int.dvd_iff_tmod_eq_zero]
  split <;> split <;> try omega
  all_goals split <;> (try split) <;> omega

theorem fmod_of_tmod {a b : Int} (hb : b ≠ 0) :
    a.fmod b = if a.tmod b ≠ 0 ∧ (¬ ((a.tmod b < 0) ↔ (b < 0))) then a.tmod b + b else a.tmod b := by
  have h1 := @tmod_sign_pos a b
  have h2 := @tmod_sign_neg a b
  rw [Int.fmod_eq_tmod]
  simp only [Int.dvd_iff_tmod_eq_zero]
  split <;> split <;> try omega
  all_goals split <;> (try split) <;> omega

end Verif.Arith
