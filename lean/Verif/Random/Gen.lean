import Verif.Float.Model
/-!
# The generator behind `math.random` — lmathlib.c:316-358, 608-650
-/
namespace Verif.Random
open Verif.Float

abbrev W := BitVec 64

/-- `RanState` — lmathlib.c:534-536 (64-bit `Rand64`). -/
structure State where
  s0 : W
  s1 : W
  s2 : W
  s3 : W
deriving DecidableEq

/-- `rotl` — lmathlib.c:319-321. -/
def rotl (x : W) (n : Nat) : W := (x <<< n) ||| (x >>> (64 - n))

/-- `nextrand` — lmathlib.c:323-334: the result and the new state. -/
def nextrand (st : State) : W × State :=
  let state0 := st.s0
  let state1 := st.s1
  let state2 := st.s2 ^^^ state0
  let state3 := st.s3 ^^^ state1
  let res := rotl (state1 * 5) 7 * 9
  (res, { s0 := state0 ^^^ state3, s1 := state1 ^^^ state2,
          s2 := state2 ^^^ (state1 <<< 17), s3 := rotl state3 45 })

/-- `k` calls of `nextrand`. -/
def advance : Nat → State → State
  | 0, st => st
  | k + 1, st => advance k (nextrand st).2

/-- `setseed` — lmathlib.c:609-620. -/
def setseed (n1 n2 : W) : State := advance 16 ⟨n1, 0xff, n2, 0⟩

/-- `I2d` — lmathlib.c:351-358 (53 mantissa bits): the top 53 bits times 2^-53.  That product is
exact, so the value is given directly in units of 2^-1074. -/
def I2d (x : W) : Dbl := .fin false ((x >>> 11).toNat * 2 ^ 1021)

/-- `math_randomseed` with arguments — lmathlib.c:639-642; `n1` is the result of
`luaL_checknumber`. -/
def randomseed (n1 : Dbl) (n2 : W) : Res State := do
  let i ← castInt n1
  pure (setseed i n2)

/-! ## The state never collapses -/

theorem rotl_bit (x : W) (n i : Nat) (hn : 0 < n) (hn2 : n < 64) :
    (rotl x n).getLsbD i =
      if i < 64 then (if i < n then x.getLsbD (64 - n + i) else x.getLsbD (i - n)) else false := by
  unfold rotl
  rw [BitVec.getLsbD_or, BitVec.getLsbD_shiftLeft, BitVec.getLsbD_ushiftRight]
  by_cases hi : i < 64
  · rw [if_pos hi]
    by_cases hin : i < n
    · rw [if_pos hin]; simp [hin, hi]
    · rw [if_neg hin]
      have : x.getLsbD (64 - n + i) = false := BitVec.getLsbD_of_ge _ _ (by omega)
      simp [hin, hi, this]
  · rw [if_neg hi]
    have : x.getLsbD (64 - n + i) = false := BitVec.getLsbD_of_ge _ _ (by omega)
    simp [hi, this]

theorem rotl_inj {x y : W} {n : Nat} (hn : 0 < n) (hn2 : n < 64) (h : rotl x n = rotl y n) :
    x = y := by
  apply BitVec.eq_of_getLsbD_eq
  intro i hi
  by_cases hc : i + n < 64
  · have := congrArg (fun z => z.getLsbD (i + n)) h
    simp only [rotl_bit _ _ _ hn hn2, if_pos hc, if_neg (by omega : ¬ i + n < n),
      Nat.add_sub_cancel] at this
    exact this
  · have := congrArg (fun z => z.getLsbD (i + n - 64)) h
    simp only [rotl_bit _ _ _ hn hn2, if_pos (by omega : i + n - 64 < 64),
      if_pos (by omega : i + n - 64 < n)] at this
    have e : 64 - n + (i + n - 64) = i := by omega
    rw [e] at this
    exact this

/-- A word equal to its own left shift is zero. -/
theorem shift_fix (d : W) (h : d = d <<< 17) : d = 0 := by
  have hb : ∀ i, d.getLsbD i = false := by
    intro i
    induction i using Nat.strongRecOn with
    | ind i ih =>
      rw [h, BitVec.getLsbD_shiftLeft]
      by_cases hi : i < 17
      · simp [hi]
      · rw [ih (i - 17) (by omega)]; simp
  apply BitVec.eq_of_getLsbD_eq
  intro i _
  rw [hb]; simp

theorem xor_shift_inj {x y : W} (h : x ^^^ (x <<< 17) = y ^^^ (y <<< 17)) : x = y := by
  have hd : x ^^^ y = (x ^^^ y) <<< 17 := by
    apply BitVec.eq_of_getLsbD_eq
    intro i hi
    have := congrArg (fun z => z.getLsbD i) h
    simp only [BitVec.getLsbD_xor, BitVec.getLsbD_shiftLeft] at this ⊢
    revert this
    generalize x.getLsbD i = a
    generalize y.getLsbD i = b
    generalize x.getLsbD (i - 17) = c
    generalize y.getLsbD (i - 17) = e
    generalize decide (i < 64) = p
    generalize decide (i < 17) = q
    revert a b c e p q; decide
  have h0 := shift_fix _ hd
  apply BitVec.eq_of_getLsbD_eq
  intro i hi
  have := congrArg (fun z => z.getLsbD i) h0
  simp only [BitVec.getLsbD_xor] at this
  revert this
  generalize x.getLsbD i = a
  generalize y.getLsbD i = b
  cases a <;> cases b <;> simp

theorem xor_right_inj {a b c : W} (h : a ^^^ c = b ^^^ c) : a = b := by
  have := congrArg (· ^^^ c) h
  simpa [BitVec.xor_assoc] using this

/-- C58.  Two different states never step to the same state, so the generator's states form
disjoint cycles and none is ever lost. -/
theorem nextrand_injective (a b : State) (h : (nextrand a).2 = (nextrand b).2) : a = b := by
  obtain ⟨a0, a1, a2, a3⟩ := a
  obtain ⟨b0, b1, b2, b3⟩ := b
  simp only [nextrand, State.mk.injEq] at h
  obtain ⟨h0, h1, h2, h3⟩ := h
  have e3 := rotl_inj (by omega) (by omega) h3
  rw [e3] at h0
  have e0 := xor_right_inj h0
  have hx : a1 ^^^ (a1 <<< 17) = b1 ^^^ (b1 <<< 17) := by
    have : (a1 ^^^ (a2 ^^^ a0)) ^^^ ((a2 ^^^ a0) ^^^ (a1 <<< 17)) =
        (b1 ^^^ (b2 ^^^ b0)) ^^^ ((b2 ^^^ b0) ^^^ (b1 <<< 17)) := by rw [h1, h2]
    have l : ∀ p q r : W, (p ^^^ q) ^^^ (q ^^^ r) = p ^^^ r := by
      intro p q r
      rw [BitVec.xor_assoc, ← BitVec.xor_assoc q q r]; simp
    rw [l, l] at this
    exact this
  have e1 := xor_shift_inj hx
  subst e1; subst e0
  have e2 : a2 = b2 := by
    have : (a2 ^^^ a0) = (b2 ^^^ a0) := by
      rw [BitVec.xor_comm a1, BitVec.xor_comm a1] at h1
      exact xor_right_inj h1
    exact xor_right_inj this
  subst e2
  have e3' := xor_right_inj e3
  subst e3'; rfl

theorem nextrand_zero : (nextrand ⟨0, 0, 0, 0⟩).2 = ⟨0, 0, 0, 0⟩ := by decide

/-- The state with all bits zero is never entered from another state. -/
theorem nextrand_nonzero (st : State) (h : st ≠ ⟨0, 0, 0, 0⟩) :
    (nextrand st).2 ≠ ⟨0, 0, 0, 0⟩ := fun he =>
  h (nextrand_injective _ _ (he.trans nextrand_zero.symm))

theorem advance_nonzero (k : Nat) (st : State) (h : st ≠ ⟨0, 0, 0, 0⟩) :
    advance k st ≠ ⟨0, 0, 0, 0⟩ := by
  induction k generalizing st with
  | zero => exact h
  | succ k ih => exact ih _ (nextrand_nonzero st h)

/-- C58.  Whatever the seeds and however many numbers have been drawn, the generator is not in the
all-zero state (in which it would yield zero forever). -/
theorem seeded_nonzero (n1 n2 : W) (k : Nat) : advance k (setseed n1 n2) ≠ ⟨0, 0, 0, 0⟩ := by
  apply advance_nonzero
  apply advance_nonzero
  intro h
  have : (0xff : W) = 0 := congrArg State.s1 h
  revert this; decide

/-- C58.  `math.random()` is a double in [0, 1), for every generator output. -/
theorem I2d_unit (x : W) : (I2d x).WF ∧ ∃ s, I2d x = .fin false s ∧ s < U := by
  have hlt : (x >>> 11).toNat < 2 ^ 53 := by
    rw [BitVec.toNat_ushiftRight, Nat.shiftRight_eq_div_pow]
    have := x.isLt
    omega
  refine ⟨⟨_, 1021, hlt, by omega, rfl⟩, _, rfl, ?_⟩
  have e : U = 2 ^ 53 * 2 ^ 1021 := by
    rw [← Nat.pow_add]; exact congrArg (2 ^ ·) (by decide : 1074 = 53 + 1021)
  rw [e]
  exact Nat.mul_lt_mul_of_pos_right hlt (Nat.two_pow_pos _)

/-- C58 fails for `math.randomseed` given the largest integer (or any number out of the integer
range): the argument is converted to a float and cast back, which is undefined. -/
theorem randomseed_undefined (n2 : W) :
    randomseed (ofInt 9223372036854775807) n2 = .ub ∧ randomseed .nan n2 = .ub ∧
      randomseed (.inf false) n2 = .ub := by
  refine ⟨?_, rfl, rfl⟩
  have h : castInt (ofInt 9223372036854775807) = .ub := by decide +kernel
  unfold randomseed; rw [h]; rfl

-- a first draw
example : (nextrand ⟨1, 0xff, 0, 0⟩).1 ≠ 0 := by decide +kernel

end Verif.Random
