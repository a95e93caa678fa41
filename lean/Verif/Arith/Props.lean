import Verif.Arith.Lemmas
/-!
C01 – C03: integer arithmetic.  Specification vocabulary: `Int.fdiv` / `Int.fmod` (floor division
and the matching remainder on mathematical integers), `BitVec.toInt` (value of a two's complement
word), `Int.bmod · (2^64)` (wrap-around to the signed 64-bit range).
-/
namespace Verif.Arith

theorem cDiv_ok {m n : LInt} (h0 : n ≠ 0) (h1 : n ≠ -1) : cDiv m n = .ok (m.sdiv n) := by
  unfold cDiv; rw [if_neg]; rintro (h | ⟨-, h⟩) <;> contradiction
theorem cMod_ok {m n : LInt} (h0 : n ≠ 0) (h1 : n ≠ -1) : cMod m n = .ok (m.srem n) := by
  unfold cMod; rw [if_neg]; rintro (h | ⟨-, h⟩) <;> contradiction

theorem ne_neg_one_toInt {n : LInt} (h1 : n ≠ -1) : n.toInt ≠ -1 := by
  intro h; apply h1; apply BitVec.eq_of_toInt_eq; rw [h]; decide

theorem toInt_sdiv' {m n : LInt} (h1 : n ≠ -1) : (m.sdiv n).toInt = m.toInt.tdiv n.toInt := by
  rw [BitVec.toInt_sdiv]
  have := toInt_range m
  have h := tdiv_range this.1 this.2 (ne_neg_one_toInt h1)
  exact bmod_id h.1 h.2

/-- **C01** (value).  For `n ≠ 0`, `m // n` is defined, and its value is the floor of the quotient,
wrapped to 64 bits (which matters only for `minint // -1`). -/
theorem idiv_floor (m n : LInt) (hn : n ≠ 0) :
    ∃ q, idiv m n = .ok q ∧ q.toInt = (m.toInt.fdiv n.toInt).bmod (2 ^ 64) := by
  unfold idiv
  have hm := toInt_range m
  by_cases h1 : n = -1
  · subst h1
    refine ⟨0 - m, by rw [if_pos (by decide), if_neg (by decide)], ?_⟩
    have : (-1 : LInt).toInt = -1 := by decide
    rw [this, BitVec.toInt_sub]
    simp [Int.fdiv_neg]
  · have hx : ¬ (n + 1 ≤ 1) := by rw [castS2U_test]; exact not_or.mpr ⟨hn, h1⟩
    simp only [hx, if_false, cDiv_ok hn h1, cMod_ok hn h1, Res.bind_ok, xor_neg]
    have hr := tdiv_range hm.1 hm.2 (ne_neg_one_toInt h1)
    have hz : (m.srem n ≠ 0) ↔ m.toInt.tmod n.toInt ≠ 0 := by
      rw [← BitVec.toInt_srem]
      constructor
      · exact toInt_ne_zero
      · intro h h'; rw [h'] at h; simp at h
    simp only [hz]
    rw [fdiv_of_tdiv (toInt_ne_zero hn)]
    by_cases hc : (¬ ((m.toInt < 0) ↔ (n.toInt < 0))) ∧ m.toInt.tmod n.toInt ≠ 0
    · have e := Int.mul_tdiv_add_tmod m.toInt n.toInt
      have hlow : -2 ^ 63 < m.toInt.tdiv n.toInt := by
        rcases Int.lt_or_le (-2 ^ 63) (m.toInt.tdiv n.toInt) with h | h
        · exact h
        · exfalso
          have heq : m.toInt.tdiv n.toInt = -2 ^ 63 := by omega
          have k := congrArg Int.natAbs heq
          rw [Int.natAbs_tdiv] at k
          have k2 : n.toInt.natAbs ≤ 1 := by
            rcases Nat.lt_or_ge 1 n.toInt.natAbs with h1 | h1
            · have : m.toInt.natAbs / n.toInt.natAbs ≤ m.toInt.natAbs / 2 :=
                Nat.div_le_div_left h1 (by decide)
              have h3 : m.toInt.natAbs ≤ 2 ^ 63 := by omega
              have h4 : (-2 ^ 63 : Int).natAbs = 2 ^ 63 := by decide
              rw [show m.toInt.natAbs / n.toInt.natAbs = _ from k, h4] at this
              omega
            · exact h1
          have k3 := toInt_ne_zero hn
          have : n.toInt = 1 ∨ n.toInt = -1 := by omega
          rcases this with h | h <;> rw [h] at hc <;> simp at hc
      have hov : BitVec.ssubOverflow (m.sdiv n) 1 = false := by
        have h1' : (1 : LInt).toInt = 1 := by decide
        simp only [BitVec.ssubOverflow, toInt_sdiv' h1, h1']
        simp
        omega
      refine ⟨m.sdiv n - 1, ?_, ?_⟩
      · rw [if_pos hc]; simp only [cSubS, hov]; rfl
      · rw [if_pos hc, BitVec.toInt_sub, toInt_sdiv' h1]; rfl
    · refine ⟨m.sdiv n, ?_, ?_⟩
      · rw [if_neg hc]; rfl
      · rw [if_neg hc, toInt_sdiv' h1, bmod_id hr.1 hr.2]

/-- **C01** (remainder). For `n ≠ 0`, `m % n` is defined and is exactly the floor remainder. -/
theorem mod_floor (m n : LInt) (hn : n ≠ 0) :
    ∃ r, mod m n = .ok r ∧ r.toInt = m.toInt.fmod n.toInt := by
  unfold mod
  by_cases h1 : n = -1
  · subst h1
    refine ⟨0, by rw [if_pos (by decide), if_neg (by decide)], ?_⟩
    have : (-1 : LInt).toInt = -1 := by decide
    rw [this, Int.fmod_def, show m.toInt.fdiv (-1) = -m.toInt by simp [Int.fdiv_neg]]
    show (0 : Int) = _; omega
  · have hx : ¬ (n + 1 ≤ 1) := by rw [castS2U_test]; exact not_or.mpr ⟨hn, h1⟩
    simp only [hx, if_false, cMod_ok hn h1, Res.bind_ok, xor_neg]
    have hz : (m.srem n ≠ 0) ↔ m.toInt.tmod n.toInt ≠ 0 := by
      rw [← BitVec.toInt_srem]
      constructor
      · exact toInt_ne_zero
      · intro h h'; rw [h'] at h; simp at h
    simp only [hz, BitVec.toInt_srem]
    rw [fmod_of_tmod (toInt_ne_zero hn)]
    have hnr := toInt_range n
    have hrr := toInt_range (m.srem n)
    rw [BitVec.toInt_srem] at hrr
    by_cases hc : m.toInt.tmod n.toInt ≠ 0 ∧ (¬ ((m.toInt.tmod n.toInt < 0) ↔ (n.toInt < 0)))
    · have hov : BitVec.saddOverflow (m.srem n) n = false := by
        simp only [BitVec.saddOverflow, BitVec.toInt_srem]
        simp
        omega
      refine ⟨m.srem n + n, ?_, ?_⟩
      · rw [if_pos hc]; simp only [cAddS, hov]; rfl
      · rw [if_pos hc, BitVec.toInt_add, BitVec.toInt_srem, bmod_id] <;> omega
    · refine ⟨m.srem n, ?_, ?_⟩
      · rw [if_neg hc]; rfl
      · rw [if_neg hc, BitVec.toInt_srem]


/-- **C01**: only `minint // -1` wraps; everywhere else `m // n` is the mathematical floor. -/
theorem idiv_exact (m n : LInt) (hn : n ≠ 0) (hne : ¬ (m = minInt ∧ n = -1)) :
    ∃ q, idiv m n = .ok q ∧ q.toInt = m.toInt.fdiv n.toInt := by
  obtain ⟨q, h1, h2⟩ := idiv_floor m n hn
  refine ⟨q, h1, ?_⟩
  rw [h2]
  have hm := toInt_range m
  by_cases h : n = -1
  · subst h
    have hm' : m.toInt ≠ -2 ^ 63 := by
      intro h0; apply hne; refine ⟨?_, rfl⟩
      apply BitVec.eq_of_toInt_eq; rw [h0]; decide
    rw [show (-1 : LInt).toInt = -1 by decide, Int.fdiv_neg (by decide)]
    simp only [Int.fdiv_one]
    apply bmod_id <;> omega
  · have hr := tdiv_range hm.1 hm.2 (ne_neg_one_toInt h)
    have hz : -2 ^ 63 ≤ m.toInt.fdiv n.toInt := by
      have : m.toInt.fdiv n.toInt = (m.toInt.fdiv n.toInt) := rfl
      rcases Int.lt_or_le n.toInt 0 with hneg | hpos
      · have hq : m.toInt.fdiv n.toInt = (-m.toInt) / (-n.toInt) := by
          rw [← Int.neg_fdiv_neg]; exact Int.fdiv_eq_ediv_of_nonneg _ (by omega)
        rw [hq]
        have hn1 := ne_neg_one_toInt h
        have hb : (-m.toInt) / (-n.toInt) ≥ -2 ^ 63 := by
          apply Int.le_ediv_of_mul_le (by omega)
          have : (-n.toInt) ≥ 1 := by omega
          have h4 : (2 ^ 63 : Int) * 1 ≤ 2 ^ 63 * (-n.toInt) := Int.mul_le_mul_of_nonneg_left this (by decide)
          have : (-2 ^ 63 : Int) * (-n.toInt) = -(2 ^ 63 * (-n.toInt)) := by rw [Int.neg_mul]
          omega
        exact hb
      · rw [Int.fdiv_eq_ediv_of_nonneg _ hpos]
        have := toInt_ne_zero hn
        apply Int.le_ediv_of_mul_le (by omega)
        have : n.toInt ≥ 1 := by omega
        have h4 : (2 ^ 63 : Int) * 1 ≤ 2 ^ 63 * n.toInt := Int.mul_le_mul_of_nonneg_left this (by decide)
        have : (-2 ^ 63 : Int) * n.toInt = -(2 ^ 63 * n.toInt) := by rw [Int.neg_mul]
        omega
    have hz2 : m.toInt.fdiv n.toInt < 2 ^ 63 := by
      rw [fdiv_of_tdiv (toInt_ne_zero hn)]; split <;> omega
    exact bmod_id hz hz2

/-- **C01**: the division law `m = (m // n) * n + m % n` in wrap-around arithmetic, sign and size of
the remainder; both operations return normally (no error, nothing undefined). -/
theorem division_law (m n : LInt) (hn : n ≠ 0) :
    ∃ q r, idiv m n = .ok q ∧ mod m n = .ok r ∧ m = q * n + r ∧
      (0 < n.toInt → 0 ≤ r.toInt ∧ r.toInt < n.toInt) ∧
      (n.toInt < 0 → n.toInt < r.toInt ∧ r.toInt ≤ 0) := by
  obtain ⟨q, h1, h2⟩ := idiv_floor m n hn
  obtain ⟨r, h3, h4⟩ := mod_floor m n hn
  refine ⟨q, r, h1, h3, ?_, ?_, ?_⟩
  · apply BitVec.eq_of_toInt_eq
    have e := Int.mul_fdiv_add_fmod m.toInt n.toInt
    rw [BitVec.toInt_add, BitVec.toInt_mul, h2, h4]
    simp only [Int.bmod_mul_bmod, Int.bmod_add_bmod]
    rw [Int.mul_comm, e]
    have := toInt_range m
    rw [bmod_id this.1 this.2]
  · intro h; rw [h4]; exact ⟨Int.fmod_nonneg_of_pos _ h, Int.fmod_lt_of_pos _ h⟩
  · intro h; rw [h4]
    have k1 := Int.fmod_nonneg_of_pos (-m.toInt) (b := -n.toInt) (by omega)
    have k2 := Int.fmod_lt_of_pos (-m.toInt) (b := -n.toInt) (by omega)
    rw [Int.neg_fmod_neg] at k1 k2
    omega

/-- **C01**: a zero divisor raises the Lua error, for every dividend. -/
theorem div_by_zero (m : LInt) :
    idiv m 0 = .err "attempt to divide by zero" ∧ mod m 0 = .err "attempt to perform 'n%%0'" := by
  constructor <;> rfl

example : idiv (-7 : LInt) 2 = .ok (-4) ∧ mod (-7 : LInt) 2 = .ok 1 ∧ (2 : LInt) ≠ 0 := by decide
example : idiv minInt (-1) = .ok minInt ∧ mod minInt (-1) = .ok 0 := by decide

/-- The meaning of a shift: bit `i` of `x` displaced by the mathematical integer `d` to the left. -/
def ShiftSpec (x : LInt) (d : Int) (r : LInt) : Prop :=
  ∀ i : Nat, i < 64 → r.getLsbD i = (decide (d ≤ (i : Int)) && x.getLsbD ((i : Int) - d).toNat)

/-- **C02**: `x << y` is the logical shift by `y` (to the right when `y < 0`), for every `x`, `y`;
no undefined C shift is executed. -/
theorem shl_spec (x y : LInt) : ∃ r, intarith .shl x y = .ok r ∧ ShiftSpec x y.toInt r := by
  show ∃ r, shiftl x y = .ok r ∧ _
  unfold shiftl ShiftSpec
  have hy := toInt_range y
  by_cases h : y.toInt < 0
  · rw [if_pos h]
    by_cases h2 : y.toInt ≤ -64
    · rw [if_pos h2]
      refine ⟨0, rfl, ?_⟩
      intro i hi
      have : x.getLsbD ((i : Int) - y.toInt).toNat = false :=
        BitVec.getLsbD_of_ge _ _ (by omega)
      simp [this]
    · rw [if_neg h2]
      have hm : y ≠ minInt := by
        intro h0; subst h0; revert h2; decide
      have hk : (-y).toInt = - y.toInt := by
        rw [BitVec.toInt_neg, bmod_id] <;> omega
      have hkn : (-y).toNat = (- y.toInt).toNat := by
        rw [← hk]
        have h3 : (-y).toInt = if 2 * (-y).toNat < 2 ^ 64 then ((-y).toNat : Int) else ((-y).toNat : Int) - 2 ^ 64 := by
          rw [BitVec.toInt_eq_toNat_cond]; rfl
        have := (-y).isLt
        rw [hk] at h3 ⊢
        split at h3 <;> omega
      refine ⟨x >>> (-y).toNat, ?_, ?_⟩
      · simp only [cNeg, if_neg hm, Res.bind_ok, cShrU, hk]
        rw [if_neg (by omega)]
      · intro i hi
        rw [BitVec.getLsbD_ushiftRight, hkn]
        have e : (- y.toInt).toNat + i = ((i : Int) - y.toInt).toNat := by omega
        rw [e]
        have : y.toInt ≤ (i : Int) := by omega
        simp [this]
  · rw [if_neg h]
    by_cases h2 : 64 ≤ y.toInt
    · rw [if_pos h2]
      refine ⟨0, rfl, ?_⟩
      intro i hi
      have : ¬ (y.toInt ≤ (i : Int)) := by omega
      simp [this]
    · rw [if_neg h2]
      have hkn : y.toNat = y.toInt.toNat := by
        have h3 : y.toInt = if 2 * y.toNat < 2 ^ 64 then (y.toNat : Int) else (y.toNat : Int) - 2 ^ 64 := by
          rw [BitVec.toInt_eq_toNat_cond]; rfl
        have := y.isLt
        split at h3 <;> omega
      refine ⟨x <<< y.toNat, ?_, ?_⟩
      · simp only [cShlU]
        rw [if_neg (by omega)]
      · intro i hi
        rw [BitVec.getLsbD_shiftLeft, hkn]
        by_cases h5 : i < y.toInt.toNat
        · have : ¬ (y.toInt ≤ (i : Int)) := by omega
          simp [h5, this]
        · have : (y.toInt ≤ (i : Int)) := by omega
          have e : i - y.toInt.toNat = ((i : Int) - y.toInt).toNat := by omega
          rw [e]
          simp [hi, h5, this]

/-- **C02** (what holds of `>>`): for every displacement except the smallest integer, `x >> y` is the
logical right shift.  Missing for the full claim: `y = minint`, see `shr_minint_undefined`. -/
theorem shr_spec_partial (x y : LInt) (hy : y ≠ minInt) :
    ∃ r, intarith .shr x y = .ok r ∧ ShiftSpec x (- y.toInt) r := by
  obtain ⟨r, h1, h2⟩ := shl_spec x (-y)
  have hr := toInt_range y
  have hk : (-y).toInt = - y.toInt := by
    have : y.toInt ≠ -2 ^ 63 := by
      intro h0; apply hy; apply BitVec.eq_of_toInt_eq; rw [h0]; decide
    rw [BitVec.toInt_neg, bmod_id] <;> omega
  rw [hk] at h2
  refine ⟨r, ?_, h2⟩
  simp only [intarith, cNeg, if_neg hy, Res.bind_ok]
  exact h1

/-- **C02** fails for `y = minint`: the code evaluates `-v2` in signed arithmetic first, which is
undefined in C for the smallest integer, whatever is being shifted. -/
theorem shr_minint_undefined (x : LInt) : intarith .shr x minInt = .ub := by rfl

example : ∃ r, intarith .shl (5 : LInt) (-1) = .ok r ∧ r = 2 := ⟨2, by decide, rfl⟩
example : intarith .shr (-1 : LInt) 60 = .ok 15 ∧ (60 : LInt) ≠ minInt := by decide

/-- value of a C03 operator on mathematical integers -/
def arithSpec : IntOp → Int → Int → Option Int
  | .add, a, b => some (a + b)
  | .sub, a, b => some (a - b)
  | .mul, a, b => some (a * b)
  | .unm, a, _ => some (- a)
  | _, _, _ => none

/-- **C03** (ring part): the result of `+ - *` and unary minus is congruent to the mathematical result
modulo `2^64` and lies in the signed 64-bit range. -/
theorem ring_ops (op : IntOp) (a b : LInt) (v : Int) (h : arithSpec op a.toInt b.toInt = some v) :
    ∃ r, intarith op a b = .ok r ∧ (∃ k : Int, r.toInt = v + k * 2 ^ 64) ∧
      -2 ^ 63 ≤ r.toInt ∧ r.toInt < 2 ^ 63 := by
  have main : ∀ w : Int, ∃ k : Int, w.bmod (2 ^ 64) = w + k * 2 ^ 64 := by
    intro w
    have := Int.bmod_def w (2 ^ 64)
    refine ⟨- Int.bdiv w (2 ^ 64), ?_⟩
    have := Int.bmod_add_bdiv w (2 ^ 64)
    have h2 : ((2 ^ 64 : Nat) : Int) = (2 ^ 64 : Int) := by norm_cast
    rw [h2, Int.mul_comm] at this
    rw [Int.neg_mul]
    omega
  cases op <;> simp only [arithSpec, Option.some.injEq, reduceCtorEq] at h <;> subst h
  · refine ⟨_, rfl, ?_, toInt_range _⟩; rw [BitVec.toInt_add]; exact main _
  · refine ⟨_, rfl, ?_, toInt_range _⟩; rw [BitVec.toInt_sub]; exact main _
  · refine ⟨_, rfl, ?_, toInt_range _⟩; rw [BitVec.toInt_mul]; exact main _
  · refine ⟨_, rfl, ?_, toInt_range _⟩
    rw [BitVec.toInt_sub]
    have := main (0 - a.toInt)
    simpa using this

/-- **C03** (bitwise part): `&`, `|`, `~` (xor) and `~` (not) act bit by bit. -/
theorem bit_ops (a b : LInt) :
    (∃ r, intarith .band a b = .ok r ∧ ∀ i, i < 64 → r.getLsbD i = (a.getLsbD i && b.getLsbD i)) ∧
    (∃ r, intarith .bor a b = .ok r ∧ ∀ i, i < 64 → r.getLsbD i = (a.getLsbD i || b.getLsbD i)) ∧
    (∃ r, intarith .bxor a b = .ok r ∧ ∀ i, i < 64 → r.getLsbD i = (a.getLsbD i ^^ b.getLsbD i)) ∧
    (∃ r, intarith .bnot a b = .ok r ∧ ∀ i, i < 64 → r.getLsbD i = !(a.getLsbD i)) := by
  refine ⟨⟨_, rfl, ?_⟩, ⟨_, rfl, ?_⟩, ⟨_, rfl, ?_⟩, ⟨_, rfl, ?_⟩⟩ <;> intro i hi
  · simp
  · simp
  · simp
  · simp only [BitVec.getLsbD_xor, BitVec.getLsbD_not, BitVec.getLsbD_zero, hi]; simp

example : arithSpec .mul (2 ^ 40 : LInt).toInt (2 ^ 40 : LInt).toInt = some (2 ^ 80) ∧
    intarith .mul (2 ^ 40 : LInt) (2 ^ 40) = .ok (2 ^ 80) := by decide

end Verif.Arith
