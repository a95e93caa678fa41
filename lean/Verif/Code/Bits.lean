import Verif.Code.Model
/-! Arithmetic forms of the field accessors. -/
namespace Verif.Code

theorem getOp_eq (i : Nat) : getOp i = i % 256 := Nat.and_two_pow_sub_one_eq_mod i 8
theorem getA_eq (i : Nat) : getA i = i / 256 % 128 := by
  unfold getA; rw [Nat.shiftRight_eq_div_pow]; exact Nat.and_two_pow_sub_one_eq_mod _ 7
theorem getB_eq (i : Nat) : getB i = i / 16777216 := by
  unfold getB; rw [Nat.shiftRight_eq_div_pow]
theorem getC_eq (i : Nat) : getC i = i / 65536 % 256 := by
  unfold getC; rw [Nat.shiftRight_eq_div_pow]; exact Nat.and_two_pow_sub_one_eq_mod _ 8
theorem getBx_eq (i : Nat) : getBx i = i / 65536 := by
  unfold getBx; rw [Nat.shiftRight_eq_div_pow]
theorem getAx_eq (i : Nat) : getAx i = i / 256 := by
  unfold getAx; rw [Nat.shiftRight_eq_div_pow]

theorem or_add (k a b : Nat) (h : a < 2 ^ k) : a ||| (b * 2 ^ k) = a + b * 2 ^ k := by
  rw [Nat.or_comm, Nat.mul_comm, ← Nat.two_pow_add_eq_or_of_lt h, Nat.add_comm]

theorem createABC_eq {o a b c : Nat} (ho : o < 256) (ha : a < 256) (hb : b < 256) (hc : c < 256) :
    createABC o a b c = o + a * 256 + c * 65536 + b * 16777216 := by
  unfold createABC
  simp only [Nat.shiftLeft_eq]
  rw [Nat.mod_eq_of_lt (by omega), Nat.mod_eq_of_lt (by omega), Nat.mod_eq_of_lt (by omega)]
  rw [Nat.or_assoc, Nat.or_comm (b * 2 ^ 24), ← Nat.or_assoc]
  rw [or_add 8 o a (by omega), or_add 16 _ c (by omega), or_add 24 _ b (by omega)]

theorem createABx_eq {o a b : Nat} (ho : o < 256) (ha : a < 256) (hb : b < 65536) :
    createABx o a b = o + a * 256 + b * 65536 := by
  unfold createABx
  simp only [Nat.shiftLeft_eq]
  rw [Nat.mod_eq_of_lt (by omega), Nat.mod_eq_of_lt (by omega)]
  rw [or_add 8 o a (by omega), or_add 16 _ b (by omega)]

theorem createAx_eq {o a : Nat} (ho : o < 256) (ha : a < 16777216) :
    createAx o a = o + a * 256 := by
  unfold createAx
  simp only [Nat.shiftLeft_eq]
  rw [Nat.mod_eq_of_lt (by omega), or_add 8 o a (by omega)]

theorem setAx_eq {p a : Nat} (ha : a < 16777216) : setAx p a = p % 256 + a * 256 := by
  unfold setAx
  have : p &&& 0xff = p % 256 := Nat.and_two_pow_sub_one_eq_mod p 8
  simp only [Nat.shiftLeft_eq]
  rw [this, Nat.mod_eq_of_lt (a := a * 2 ^ 8) (by omega), or_add 8 _ a (by omega)]

theorem setByte0 (le : Bool) (p x : Nat) (hp : p < 4294967296) :
    setByte le p x 0 = p - p % 256 + x % 256 := by
  cases le <;> simp [setByte, toMem, ofMem] <;> omega
theorem setByte1 (le : Bool) (p x : Nat) (hp : p < 4294967296) :
    setByte le p x 1 = p - (p / 256 % 256) * 256 + (x % 256) * 256 := by
  cases le <;> simp [setByte, toMem, ofMem] <;> omega
theorem setByte2 (le : Bool) (p x : Nat) (hp : p < 4294967296) :
    setByte le p x 2 = p - (p / 65536 % 256) * 65536 + (x % 256) * 65536 := by
  cases le <;> simp [setByte, toMem, ofMem] <;> omega
theorem setByte3 (le : Bool) (p x : Nat) :
    setByte le p x 3 = p % 16777216 + (x % 256) * 16777216 := by
  cases le <;> simp [setByte, toMem, ofMem] <;> omega
theorem setA_eq (le : Bool) (p x : Nat) (hp : p < 4294967296) :
    setA le p x = p - (p / 256 % 256) * 256 + (x % 128) * 256 := by
  unfold setA
  have : x &&& 0x7f = x % 128 := Nat.and_two_pow_sub_one_eq_mod x 7
  rw [setByte1 le p _ hp, this]; omega
theorem setBx_eq (le : Bool) (p x : Nat) : setBx le p x = p % 65536 + (x % 65536) * 65536 := by
  cases le <;> simp [setBx, toMem16, ofMem16] <;> omega

end Verif.Code
