import Verif.HashTab.Model
import Mathlib.Data.Nat.Prime.Basic
/-! The sizes in `hash_sizes` are primes, checked by trial division in the kernel. -/
namespace Verif.HashTab

/-- no number in `[a, a + 2^k)` divides `p` -/
def noDiv (p : Nat) : Nat → Nat → Bool
  | 0, a => p % a != 0
  | k + 1, a => noDiv p k a && noDiv p k (a + 2 ^ k)

theorem noDiv_spec {p : Nat} : ∀ {k a : Nat}, noDiv p k a = true →
    ∀ d, a ≤ d → d < a + 2 ^ k → ¬ d ∣ p := by
  intro k
  induction k with
  | zero =>
    intro a h d h1 h2 hd
    have : d = a := by simp at h2; omega
    subst this
    simp [noDiv] at h
    exact h (Nat.mod_eq_zero_of_dvd hd)
  | succ k ih =>
    intro a h d h1 h2
    simp only [noDiv, Bool.and_eq_true] at h
    by_cases hlt : d < a + 2 ^ k
    · exact ih h.1 d h1 hlt
    · exact ih h.2 d (by omega) (by rw [pow_succ] at h2; omega)

theorem prime_of_noDiv {p k : Nat} (h2 : 2 ≤ p) (h : noDiv p k 2 = true)
    (hk : p < (2 + 2 ^ k) * (2 + 2 ^ k)) : p.Prime := by
  rw [Nat.prime_def_le_sqrt]
  refine ⟨h2, fun m hm hs => noDiv_spec h m hm ?_⟩
  have := Nat.le_sqrt.1 hs
  by_contra hc
  have hc' : 2 + 2 ^ k ≤ m := by omega
  have := Nat.mul_le_mul hc' hc'
  omega

/-- trial division bound for each size class -/
def bits : List Nat :=
  [0, 0, 1, 2, 3, 3, 4, 4, 5, 6, 6, 7, 7, 8, 8, 9, 9, 10, 10, 11, 11, 12, 12, 13, 13, 14, 14, 15,
   15, 16]

def chk (i : Nat) : Bool :=
  match hashSizes[i]?, bits[i]? with
  | some (m, s, r), some k =>
    decide (5 ≤ s) && noDiv s k 2 && decide (s < (2 + 2 ^ k) * (2 + 2 ^ k)) &&
    decide (r + 2 = s) && decide (m = 2 ^ (i + 1)) && decide (m < s) && decide (s + s < 2 ^ 32)
  | _, _ => false

theorem chk_all : (List.range 30).all chk = true := by decide +kernel

/-- what is known of size class `i`, for all but the largest -/
theorem sizes_ok {i : Nat} (hi : i < 30) : ∃ s, hashSizes[i]? = some (2 ^ (i + 1), s, s - 2) ∧
    s.Prime ∧ 5 ≤ s ∧ 2 ^ (i + 1) < s ∧ s + s < 2 ^ 32 := by
  have h := List.all_eq_true.1 chk_all i (List.mem_range.2 hi)
  simp only [chk] at h
  split at h
  · rename_i m s r k h1 h2
    simp only [Bool.and_eq_true, decide_eq_true_eq] at h
    obtain ⟨⟨⟨⟨⟨⟨a, b⟩, c⟩, d⟩, e⟩, f⟩, g⟩ := h
    refine ⟨s, ?_, prime_of_noDiv (by omega) b c, a, by omega, g⟩
    rw [h1, e]; congr 3; omega
  · simp at h

end Verif.HashTab
