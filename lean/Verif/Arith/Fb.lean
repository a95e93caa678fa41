import Verif.Arith.Model
/-! C04: "floating byte" size hints, C05: `luaO_ceillog2`. -/
namespace Verif.Arith

/-- loop invariant: `x` is `x0 / 2^e` rounded up, and `e` is not larger than necessary -/
def FbInv (x0 x e : Nat) : Prop :=
  8 ≤ x ∧ x0 ≤ x * 2 ^ e ∧ (x - 1) * 2 ^ e < x0 ∧ (0 < e → 15 * 2 ^ e < 2 * x0)

theorem fbFine_spec (x0 x e : Nat) (h : FbInv x0 x e) (hx : x < 2 ^ 31) :
    FbInv x0 (fbFine x e).1 (fbFine x e).2 ∧ (fbFine x e).1 < 16 := by
  fun_induction fbFine x e with
  | case1 x e h16 ih =>
    apply ih
    · obtain ⟨h1, h2, h3, h4⟩ := h
      have hm : (x + 1) % 2 ^ 32 = x + 1 := Nat.mod_eq_of_lt (by omega)
      rw [hm]
      have e2 : 2 ^ (e + 1) = 2 * 2 ^ e := by rw [Nat.pow_succ]; omega
      refine ⟨by omega, ?_, ?_, ?_⟩
      · rw [e2, ← Nat.mul_assoc]
        have : x * 2 ^ e ≤ (x + 1) / 2 * 2 * 2 ^ e := Nat.mul_le_mul_right _ (by omega)
        omega
      · rw [e2, ← Nat.mul_assoc]
        have : ((x + 1) / 2 - 1) * 2 * 2 ^ e ≤ (x - 1) * 2 ^ e := Nat.mul_le_mul_right _ (by omega)
        omega
      · intro _
        rw [e2]
        have : 15 * 2 ^ e ≤ (x - 1) * 2 ^ e := Nat.mul_le_mul_right _ (by omega)
        omega
    · have hm : (x + 1) % 2 ^ 32 = x + 1 := Nat.mod_eq_of_lt (by omega)
      rw [hm]; omega
  | case2 x e h16 => exact ⟨h, by omega⟩

theorem fbCoarse_spec (x0 x e : Nat) (h : FbInv x0 x e) (hx : x < 2 ^ 31) :
    FbInv x0 (fbCoarse x e).1 (fbCoarse x e).2 ∧ (fbCoarse x e).1 < 2 ^ 31 := by
  fun_induction fbCoarse x e with
  | case1 x e h16 ih =>
    have hm : (x + 15) % 2 ^ 32 = x + 15 := Nat.mod_eq_of_lt (by omega)
    apply ih
    · obtain ⟨h1, h2, h3, h4⟩ := h
      rw [hm]
      have e2 : 2 ^ (e + 4) = 16 * 2 ^ e := by rw [Nat.pow_add]; omega
      refine ⟨by omega, ?_, ?_, ?_⟩
      · rw [e2, ← Nat.mul_assoc]
        have : x * 2 ^ e ≤ (x + 15) / 16 * 16 * 2 ^ e := Nat.mul_le_mul_right _ (by omega)
        omega
      · rw [e2, ← Nat.mul_assoc]
        have : ((x + 15) / 16 - 1) * 16 * 2 ^ e ≤ (x - 1) * 2 ^ e := Nat.mul_le_mul_right _ (by omega)
        omega
      · intro _
        rw [e2]
        have : 127 * 2 ^ e ≤ (x - 1) * 2 ^ e := Nat.mul_le_mul_right _ (by omega)
        omega
    · rw [hm]; omega
  | case2 x e h16 => exact ⟨h, by omega⟩

theorem fb2int_eq (b : Nat) (hb : 8 ≤ b) : fb2int b = (b % 8 + 8) * 2 ^ (b / 8 - 1) := by
  unfold fb2int
  rw [if_neg (by omega), Nat.shiftLeft_eq, Nat.shiftRight_eq_div_pow,
    show b &&& 7 = b % 8 from Nat.and_two_pow_sub_one_eq_mod b 3]

theorem fb2int_small (b : Nat) (hb : b < 8) : fb2int b = b := by unfold fb2int; rw [if_pos hb]

theorem fb2int_succ (b : Nat) : fb2int b < fb2int (b + 1) := by
  by_cases h : b < 7
  · rw [fb2int_small _ (by omega), fb2int_small _ (by omega)]; omega
  · by_cases h7 : b = 7
    · subst h7; decide
    · rw [fb2int_eq b (by omega), fb2int_eq (b + 1) (by omega)]
      by_cases h8 : b % 8 = 7
      · have h1 : (b + 1) % 8 = 0 := by omega
        have h2 : (b + 1) / 8 - 1 = (b / 8 - 1) + 1 := by omega
        rw [h8, h1, h2, Nat.pow_succ]
        have := Nat.two_pow_pos (b / 8 - 1)
        omega
      · have h1 : (b + 1) % 8 = b % 8 + 1 := by omega
        have h2 : (b + 1) / 8 - 1 = (b / 8 - 1) := by omega
        rw [h1, h2]
        exact Nat.mul_lt_mul_of_pos_right (by omega) (Nat.two_pow_pos _)

theorem fb2int_strictMono {a b : Nat} (h : a < b) : fb2int a < fb2int b := by
  induction h with
  | refl => exact fb2int_succ a
  | step _ ih => exact Nat.lt_trans ih (fb2int_succ _)

theorem fb2int_mono {a b : Nat} (h : a ≤ b) : fb2int a ≤ fb2int b := by
  rcases Nat.lt_or_eq_of_le h with h | h
  · exact Nat.le_of_lt (fb2int_strictMono h)
  · rw [h]; exact Nat.le_refl _

theorem int2fb_core (x : Nat) (hx : x < 2 ^ 31) :
    x ≤ fb2int (int2fb x) ∧ (0 < int2fb x → fb2int (int2fb x - 1) < x) := by
  by_cases h : x < 8
  · have : int2fb x = x := by unfold int2fb; rw [if_pos h]
    rw [this, fb2int_small x h]
    refine ⟨Nat.le_refl _, ?_⟩
    intro h0; rw [fb2int_small _ (by omega)]; omega
  · unfold int2fb
    rw [if_neg h]
    have hc := fbCoarse_spec x x 0 ⟨by omega, by omega, by omega, by omega⟩ hx
    generalize fbCoarse x 0 = p at hc
    obtain ⟨x1, e1⟩ := p
    have hf := fbFine_spec x x1 e1 hc.1 hc.2
    simp only
    generalize fbFine x1 e1 = p at hf
    obtain ⟨x2, e2⟩ := p
    obtain ⟨⟨a1, a2, a3, a4⟩, a5⟩ := hf
    simp only at a1 a2 a3 a4 a5 ⊢
    have hor : ((e2 + 1) <<< 3 ||| (x2 - 8)) = (e2 + 1) * 8 + (x2 - 8) := by
      rw [Nat.shiftLeft_eq, Nat.mul_comm (e2 + 1) (2 ^ 3),
        ← Nat.two_pow_add_eq_or_of_lt (i := 3) (by omega) (e2 + 1)]
    rw [hor]
    have hv : fb2int ((e2 + 1) * 8 + (x2 - 8)) = x2 * 2 ^ e2 := by
      rw [fb2int_eq _ (by omega)]
      congr 1
      · omega
      · congr 1; omega
    refine ⟨by omega, ?_⟩
    intro _
    by_cases h8 : x2 = 8
    · subst h8
      by_cases he : e2 = 0
      · subst he
        simp [fb2int_small] at a3 ⊢
        omega
      · have := a4 (by omega)
        rw [fb2int_eq _ (by omega)]
        have e3 : ((e2 + 1) * 8 + (8 - 8) - 1) % 8 = 7 := by omega
        have e4 : ((e2 + 1) * 8 + (8 - 8) - 1) / 8 - 1 = e2 - 1 := by omega
        rw [e3, e4]
        have e5 : 2 ^ e2 = 2 * 2 ^ (e2 - 1) := by
          conv => lhs; rw [show e2 = (e2 - 1) + 1 by omega, Nat.pow_succ]
          omega
        omega
    · have hv : fb2int ((e2 + 1) * 8 + (x2 - 8) - 1) = (x2 - 1) * 2 ^ e2 := by
        rw [fb2int_eq _ (by omega)]
        congr 1
        · omega
        · congr 1; omega
      omega

/-- **C04** (exact characterisation).  For every size below `2^31`, the hint is the smallest code whose
decoded value is not below the size. -/
theorem int2fb_least (x : Nat) (hx : x < 2 ^ 31) (b : Nat) : x ≤ fb2int b ↔ int2fb x ≤ b := by
  obtain ⟨h1, h2⟩ := int2fb_core x hx
  constructor
  · intro h
    apply Decidable.byContradiction
    intro hb
    have := h2 (by omega)
    have := fb2int_mono (a := b) (b := int2fb x - 1) (by omega)
    omega
  · intro h
    exact Nat.le_trans h1 (fb2int_mono h)

/-- **C04**: a size hint never under-allocates and over-allocates by at most one eighth. -/
theorem int2fb_bounds (x : Nat) (hx : x < 2 ^ 31) :
    x ≤ fb2int (int2fb x) ∧ 8 * fb2int (int2fb x) ≤ 9 * x := by
  obtain ⟨h1, h2⟩ := int2fb_core x hx
  refine ⟨h1, ?_⟩
  by_cases h8 : int2fb x ≤ 8
  · by_cases h0 : 0 < int2fb x
    · have := h2 h0
      rw [fb2int_small _ (by omega)] at this
      have h9 := fb2int_mono h8
      have h10 : fb2int 8 = 8 := by decide
      have : fb2int (int2fb x) = int2fb x := by
        rcases Nat.lt_or_eq_of_le h8 with h | h
        · exact fb2int_small _ h
        · rw [h]; decide
      omega
    · have : int2fb x = 0 := by omega
      rw [this]; simp [fb2int]
  · have h3 := h2 (by omega)
    generalize int2fb x = b at *
    rw [fb2int_eq _ (by omega)] at h1 h3 ⊢
    by_cases hm : b % 8 = 0
    · rw [show (b - 1) % 8 = 7 by omega, show (b - 1) / 8 - 1 = b / 8 - 1 - 1 by omega] at h3
      have e5 : 2 ^ (b / 8 - 1) = 2 * 2 ^ (b / 8 - 1 - 1) := by
        conv => lhs; rw [show b / 8 - 1 = (b / 8 - 1 - 1) + 1 by omega, Nat.pow_succ]
        omega
      rw [hm]; omega
    · rw [show (b - 1) % 8 = b % 8 - 1 by omega, show (b - 1) / 8 - 1 = b / 8 - 1 by omega] at h3
      have hp : 8 * 2 ^ (b / 8 - 1) ≤ (b % 8 - 1 + 8) * 2 ^ (b / 8 - 1) :=
        Nat.mul_le_mul_right _ (by omega)
      have hq : (b % 8 + 8) * 2 ^ (b / 8 - 1) = (b % 8 - 1 + 8) * 2 ^ (b / 8 - 1) + 2 ^ (b / 8 - 1) := by
        rw [show b % 8 + 8 = (b % 8 - 1 + 8) + 1 by omega, Nat.add_mul, Nat.one_mul]
      omega

/-- **C04**: the encoding is monotone. -/
theorem int2fb_mono (x y : Nat) (hy : y < 2 ^ 31) (h : x ≤ y) : int2fb x ≤ int2fb y := by
  rw [← int2fb_least x (by omega)]
  exact Nat.le_trans h (int2fb_bounds y hy).1

/-- **C04**: decoded codes encode back to themselves, so encodable sizes are reproduced exactly. -/
theorem int2fb_fb2int (b : Nat) (hb : fb2int b < 2 ^ 31) : int2fb (fb2int b) = b := by
  have h1 := (int2fb_least (fb2int b) hb b).1 (Nat.le_refl _)
  have h2 := (int2fb_bounds (fb2int b) hb).1
  apply Decidable.byContradiction
  intro h
  have := fb2int_strictMono (a := int2fb (fb2int b)) (b := b) (by omega)
  omega

/-- **C04**: the hint of every size below `2^31` fits in nine bits' worth of operand, in fact in a byte. -/
theorem int2fb_byte (x : Nat) (hx : x < 2 ^ 31) : int2fb x < 256 := by
  have : int2fb x ≤ 255 := by
    rw [← int2fb_least x hx]
    have : fb2int 255 = 15 * 2 ^ 30 := by decide
    omega
  omega

example : (1000 : Nat) < 2 ^ 31 ∧ int2fb 1000 = 64 ∧ fb2int 64 = 1024 := by decide +kernel
example : fb2int 0x9f < 2 ^ 31 := by decide

/-! ### C05 -/

theorem table_small : ∀ x : Fin 256, ∃ k, log2Table[x.val]? = some k ∧
    x.val + 1 ≤ 2 ^ k ∧ (0 < k → 2 ^ (k - 1) < x.val + 1) := by
  have h : ∀ x : Fin 256, (match log2Table[x.val]? with
      | some k => decide (x.val + 1 ≤ 2 ^ k) && (decide (k = 0) || decide (2 ^ (k - 1) < x.val + 1))
      | none => false) = true := by decide +kernel
  intro x
  have := h x
  split at this
  · rename_i k hk
    refine ⟨k, hk, ?_⟩
    simp at this
    refine ⟨this.1, ?_⟩
    intro h0
    rcases this.2 with h | h
    · omega
    · exact h
  · simp at this

theorem ceillog2Loop_spec (x l : Nat) : ∃ k, ceillog2Loop x l = some (l + k) ∧
    x + 1 ≤ 2 ^ k ∧ (0 < k → 2 ^ (k - 1) < x + 1) := by
  fun_induction ceillog2Loop x l with
  | case1 x l h ih =>
    obtain ⟨k, h1, h2, h3⟩ := ih
    refine ⟨8 + k, ?_, ?_, ?_⟩
    · rw [h1]; congr 1; omega
    · rw [Nat.pow_add]; omega
    · intro _
      have hk : 0 < k := by
        rcases Nat.eq_zero_or_pos k with h0 | h0
        · subst h0; simp at h2; omega
        · exact h0
      have := h3 hk
      rw [show 8 + k - 1 = 8 + (k - 1) by omega, Nat.pow_add]
      omega
  | case2 x l h =>
    obtain ⟨k, h1, h2⟩ := table_small ⟨x, by omega⟩
    exact ⟨k, by simp only [] at h1; rw [h1]; rfl, h2⟩

/-- **C05**: for every `1 ≤ x < 2^32` no table access is out of bounds and the result is the least `k`
with `x ≤ 2^k`. -/
theorem ceillog2_least (x : Nat) (h1 : 1 ≤ x) (h2 : x < 2 ^ 32) :
    ∃ k, ceillog2 x = some k ∧ ∀ j, x ≤ 2 ^ j ↔ k ≤ j := by
  unfold ceillog2
  rw [show (x + (2 ^ 32 - 1)) % 2 ^ 32 = x - 1 by omega]
  obtain ⟨k, a, b, c⟩ := ceillog2Loop_spec (x - 1) 0
  refine ⟨k, by rw [a, Nat.zero_add], ?_⟩
  intro j
  constructor
  · intro hj
    apply Decidable.byContradiction
    intro hlt
    have := c (by omega)
    have : 2 ^ j ≤ 2 ^ (k - 1) := Nat.pow_le_pow_right (by decide) (by omega)
    omega
  · intro hj
    have : 2 ^ k ≤ 2 ^ j := Nat.pow_le_pow_right (by decide) hj
    omega

example : ceillog2 1025 = some 11 := by decide +kernel

end Verif.Arith
