import Verif.Random.Model
/-!
# C40: `math.random` stays in its interval and reaches all of it, uniformly
-/
namespace Verif.Random

/-- Bit `i` of `x` is set when one of the bits `i … i+s-1` of `n` is. -/
def Spread (n s x : Nat) : Prop := ∀ i, x.testBit i = true ↔ ∃ j, j < s ∧ n.testBit (i + j) = true

theorem spread_one (n : Nat) : Spread n 1 n := by
  intro i
  constructor
  · intro h; exact ⟨0, by omega, h⟩
  · rintro ⟨j, hj, h⟩
    have : j = 0 := by omega
    subst this; exact h

theorem spread_double {n s x : Nat} (h : Spread n s x) : Spread n (s + s) (x ||| x >>> s) := by
  intro i
  rw [Nat.testBit_or, Bool.or_eq_true, Nat.testBit_shiftRight, h i, h (s + i)]
  constructor
  · rintro (⟨j, hj, hb⟩ | ⟨j, hj, hb⟩)
    · exact ⟨j, by omega, hb⟩
    · exact ⟨s + j, by omega, by rw [← hb]; congr 1; omega⟩
  · rintro ⟨j, hj, hb⟩
    by_cases hs : j < s
    · exact .inl ⟨j, hs, hb⟩
    · exact .inr ⟨j - s, by omega, by rw [← hb]; congr 1; omega⟩

theorem limit_spread (n : Nat) : Spread n 64 (limit n) :=
  spread_double (s := 32) (spread_double (s := 16) (spread_double (s := 8) (spread_double (s := 4)
    (spread_double (s := 2) (spread_double (s := 1) (spread_one n))))))

/-- `limit n` is the smallest 2^k - 1 not smaller than `n`. -/
theorem limit_spec {n : Nat} (h0 : n ≠ 0) (hn : n < 2 ^ 64) :
    limit n = 2 ^ (n.log2 + 1) - 1 := by
  have hL : 2 ^ n.log2 ≤ n := Nat.log2_self_le h0
  have hU : n < 2 ^ (n.log2 + 1) := Nat.lt_log2_self
  have hL64 : n.log2 < 64 := (Nat.log2_lt h0).2 hn
  apply Nat.eq_of_testBit_eq
  intro i
  rw [Nat.testBit_two_pow_sub_one]
  rw [Bool.eq_iff_iff, decide_eq_true_iff, limit_spread n i]
  constructor
  · rintro ⟨j, hj, hb⟩
    have h1 : 2 ^ (i + j) ≤ n := Nat.ge_two_pow_of_testBit hb
    have : i + j < n.log2 + 1 := (Nat.pow_lt_pow_iff_right (by omega : 1 < 2)).1
      (Nat.lt_of_le_of_lt h1 hU)
    omega
  · intro hi
    refine ⟨n.log2 - i, by omega, ?_⟩
    have e : i + (n.log2 - i) = n.log2 := by omega
    rw [e]
    exact Nat.testBit_of_two_pow_le_and_two_pow_add_one_gt hL hU

theorem and_succ_zero (n : Nat) (h : n &&& (n + 1) = 0) : ∃ k, n + 1 = 2 ^ k := by
  induction n using Nat.strongRecOn with
  | ind n ih =>
    by_cases h0 : n = 0
    · exact ⟨0, by omega⟩
    have hd : (n / 2) &&& ((n + 1) / 2) = 0 := by
      rw [← Nat.and_div_two, h]
    by_cases hodd : n % 2 = 1
    · have e : (n + 1) / 2 = n / 2 + 1 := by omega
      rw [e] at hd
      obtain ⟨k, hk⟩ := ih (n / 2) (by omega) hd
      exact ⟨k + 1, by rw [Nat.pow_succ]; omega⟩
    · have e : (n + 1) / 2 = n / 2 := by omega
      rw [e, Nat.and_self] at hd
      omega

/-- One draw: there is a power of two such that a value is accepted exactly when its remainder is
at most `n`, and then the result is that remainder. -/
theorem project_spec (n : Nat) (hn : n < 2 ^ 64) :
    ∃ k, k ≤ 64 ∧ n + 1 ≤ 2 ^ k ∧ 2 ^ k < 2 * (n + 1) ∧
      (∀ ran, project ran n [] = if ran % 2 ^ k ≤ n then some (ran % 2 ^ k) else none) ∧
      (∀ ran r rs, project ran n (r :: rs) =
        if ran % 2 ^ k ≤ n then some (ran % 2 ^ k) else project r n rs) := by
  by_cases hz : n &&& uw (n + 1) = 0
  · have hk : ∃ k, k ≤ 64 ∧ n + 1 = 2 ^ k := by
      by_cases hw : n + 1 = 2 ^ 64
      · exact ⟨64, by omega, hw⟩
      · have e : uw (n + 1) = n + 1 := Nat.mod_eq_of_lt (by omega)
        rw [e] at hz
        obtain ⟨k, hk⟩ := and_succ_zero n hz
        refine ⟨k, ?_, hk⟩
        have : 2 ^ k < 2 ^ 65 := by rw [← hk]; omega
        have := (Nat.pow_lt_pow_iff_right (by omega : 1 < 2)).1 this
        omega
    obtain ⟨k, hk1, hk⟩ := hk
    have hp : ∀ ran next, project ran n next = some (ran % 2 ^ k) := by
      intro ran next
      unfold project
      rw [if_pos hz]
      have : n = 2 ^ k - 1 := by omega
      rw [this, Nat.and_two_pow_sub_one_eq_mod]
    have hle : ∀ ran, ran % 2 ^ k ≤ n := fun ran => by
      have := Nat.mod_lt ran (Nat.two_pow_pos k); omega
    refine ⟨k, hk1, by omega, by omega, ?_, ?_⟩
    · intro ran; rw [hp, if_pos (hle ran)]
    · intro ran r rs; rw [hp, if_pos (hle ran)]
  · have h0 : n ≠ 0 := fun h => by subst h; simp at hz
    have hU : n < 2 ^ (n.log2 + 1) := Nat.lt_log2_self
    have hL : 2 ^ n.log2 ≤ n := Nat.log2_self_le h0
    have hL64 : n.log2 < 64 := (Nat.log2_lt h0).2 hn
    have hp : ∀ ran next, project ran n next = reject (2 ^ (n.log2 + 1) - 1) n ran next := by
      intro ran next
      unfold project
      rw [if_neg hz, limit_spec h0 hn]
    refine ⟨n.log2 + 1, by omega, by omega, by rw [Nat.pow_succ]; omega, ?_, ?_⟩
    · intro ran
      rw [hp]; unfold reject
      rw [Nat.and_two_pow_sub_one_eq_mod]
      by_cases hc : ran % 2 ^ (n.log2 + 1) ≤ n
      · rw [if_neg (by omega), if_pos hc]
      · rw [if_pos (by omega), if_neg hc]
    · intro ran r rs
      rw [hp, hp]
      conv => lhs; unfold reject
      rw [Nat.and_two_pow_sub_one_eq_mod]
      by_cases hc : ran % 2 ^ (n.log2 + 1) ≤ n
      · rw [if_neg (by omega), if_pos hc]
      · rw [if_pos (by omega), if_neg hc]

theorem diff_spec {low up : Int} (hl : InI low) (hu : InI up) (h : low ≤ up) :
    uw (toU up + (18446744073709551616 - toU low)) = (up - low).toNat := by
  unfold uw toU; unfold InI at *; omega

theorem place_spec {low up : Int} (hl : InI low) (hu : InI up) {p : Nat}
    (hp : p ≤ (up - low).toNat) : toS (uw (p + toU low)) = low + p := by
  unfold toS uw toU; unfold InI at *; split <;> omega

/-- C40.  For every interval there is a power of two 2^k, at least the size of the interval and less
than twice it, such that each draw is accepted exactly when its remainder modulo 2^k falls in the
interval, and then gives the value at that offset; otherwise the next draw is used.  As 2^k divides
2^64, all values of the interval are given by equally many draws, and more than half of the draws
are accepted. -/
theorem random_uniform (low up : Int) (hl : InI low) (hu : InI up) (h : low ≤ up) :
    ∃ k, k ≤ 64 ∧ up - low + 1 ≤ 2 ^ k ∧ (2 ^ k : Int) < 2 * (up - low + 1) ∧
      (∀ rv, random rv [] low up =
        if ((rv % 2 ^ k : Nat) : Int) ≤ up - low then some (.ok (low + (rv % 2 ^ k : Nat)))
        else none) ∧
      (∀ rv r rs, random rv (r :: rs) low up =
        if ((rv % 2 ^ k : Nat) : Int) ≤ up - low then some (.ok (low + (rv % 2 ^ k : Nat)))
        else random r rs low up) := by
  have hd := diff_spec hl hu h
  have hN : (up - low).toNat < 2 ^ 64 := by unfold InI at *; omega
  obtain ⟨k, hk1, hk2, hk3, hk4, hk5⟩ := project_spec (up - low).toNat hN
  have ecast : ((2 ^ k : Nat) : Int) = (2 : Int) ^ k := by exact_mod_cast rfl
  have key : ∀ rv next, random rv next low up =
      (match project rv (up - low).toNat next with
        | none => none
        | some p => some (.ok (toS (uw (p + toU low))))) := by
    intro rv next
    unfold random
    rw [if_pos h, hd]; rfl
  refine ⟨k, hk1, by rw [← ecast]; omega, by rw [← ecast]; omega, ?_, ?_⟩
  · intro rv
    rw [key, hk4]
    by_cases hc : rv % 2 ^ k ≤ (up - low).toNat
    · rw [if_pos hc, if_pos (by omega)]
      show some (Res.ok (toS (uw (rv % 2 ^ k + toU low)))) = _
      rw [place_spec hl hu hc]
    · rw [if_neg hc, if_neg (by omega)]
  · intro rv r rs
    rw [key, hk5]
    by_cases hc : rv % 2 ^ k ≤ (up - low).toNat
    · rw [if_pos hc, if_pos (by omega)]
      show some (Res.ok (toS (uw (rv % 2 ^ k + toU low)))) = _
      rw [place_spec hl hu hc]
    · rw [if_neg hc, if_neg (by omega), key]

/-- C40.  Whatever the generator yields, a value returned is in the interval. -/
theorem random_in_range (low up : Int) (hl : InI low) (hu : InI up) (h : low ≤ up)
    (rv : Nat) (next : List Nat) (x : Res Int) (hx : random rv next low up = some x) :
    ∃ v, x = .ok v ∧ low ≤ v ∧ v ≤ up := by
  obtain ⟨k, _, _, _, h1, h2⟩ := random_uniform low up hl hu h
  induction next generalizing rv with
  | nil =>
    rw [h1] at hx
    split at hx
    · next hc => injection hx with hx; exact ⟨_, hx.symm, by omega, by omega⟩
    · cases hx
  | cons r rs ih =>
    rw [h2] at hx
    split at hx
    · next hc => injection hx with hx; exact ⟨_, hx.symm, by omega, by omega⟩
    · exact ih r hx

/-- C40.  Every value of the interval is returned for some generator output. -/
theorem random_reaches (low up : Int) (hl : InI low) (hu : InI up) (v : Int)
    (h1 : low ≤ v) (h2 : v ≤ up) (next : List Nat) :
    ∃ rv, rv < 2 ^ 64 ∧ random rv next low up = some (.ok v) := by
  obtain ⟨k, hk1, hk2, _, h3, h4⟩ := random_uniform low up hl hu (by omega)
  have ecast : ((2 ^ k : Nat) : Int) = (2 : Int) ^ k := by exact_mod_cast rfl
  have hlt : (v - low).toNat < 2 ^ k := by rw [← ecast] at hk2; omega
  have hm : (v - low).toNat % 2 ^ k = (v - low).toNat := Nat.mod_eq_of_lt hlt
  have h64 : (2 : Nat) ^ k ≤ 2 ^ 64 := Nat.pow_le_pow_right (by omega) hk1
  refine ⟨(v - low).toNat, by omega, ?_⟩
  cases next with
  | nil => rw [h3, hm, if_pos (by omega)]; congr 2; omega
  | cons r rs => rw [h4, hm, if_pos (by omega)]; congr 2; omega

/-- An empty interval is an error, and nothing else is. -/
theorem random_empty (low up : Int) (rv : Nat) (next : List Nat) (h : up < low) :
    random rv next low up = some (.err "interval is empty") := by
  unfold random; rw [if_neg (by omega)]

-- the full range of integers, and an interval of size 10
example : InI minI ∧ InI maxI ∧ minI ≤ maxI := by unfold InI minI maxI; omega
example : random 27 [12, 5] 1 10 = some (.ok 6) := by decide +kernel
example : random 3 [] (-9223372036854775808) 9223372036854775807 =
    some (.ok (-9223372036854775805)) := by decide +kernel

end Verif.Random
