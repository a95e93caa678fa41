import Verif.Bit32.Model
/-!
# C39: the bit32 functions meet their 32-bit specification
-/
namespace Verif.Bit32

/-- The 32-bit value an integer stands for. -/
def u32 (x : Int) : Nat := (x % 2 ^ 32).toNat

/-- The signed reading of a 32-bit value. -/
def s32 (x : Int) : Int := if u32 x < 2 ^ 31 then u32 x else (u32 x : Int) - 2 ^ 32

theorem ALLONES_eq : ALLONES = 2 ^ 32 - 1 := by decide +kernel

theorem trim_eq (x : Nat) : trim x = x % 2 ^ 32 := by
  unfold trim; rw [ALLONES_eq, Nat.and_two_pow_sub_one_eq_mod]

theorem toU_lt (x : Int) : toU x < 2 ^ 64 := by unfold toU; omega

theorem trim_toU (x : Int) : trim (toU x) = u32 x := by
  rw [trim_eq]; unfold u32 toU; omega

theorem u32_lt (x : Int) : u32 x < 2 ^ 32 := by unfold u32; omega

theorem u32_bit (x : Int) (i : Nat) (hi : i < 32) : (u32 x).testBit i = (toU x).testBit i := by
  rw [← trim_toU, trim_eq, Nat.testBit_mod_two_pow]; simp [hi]

theorem unot_bit (x : Nat) (hx : x < 2 ^ 64) (i : Nat) (hi : i < 64) :
    (unot x).testBit i = !x.testBit i := by
  unfold unot
  rw [Nat.testBit_two_pow_sub_succ hx]; simp [hi]

theorem unot_lt (x : Nat) : unot x < 2 ^ 64 := by unfold unot; omega

theorem trim_bit (x i : Nat) : (trim x).testBit i = (decide (i < 32) && x.testBit i) := by
  rw [trim_eq, Nat.testBit_mod_two_pow]

theorem trim_lt (x : Nat) : trim x < 2 ^ 32 := by rw [trim_eq]; omega

/-! ## Bitwise operations on any number of arguments -/

theorem band_foldl (xs : List Int) (a i : Nat) :
    (xs.foldl (fun r x => r &&& toU x) a).testBit i =
      (a.testBit i && xs.all (fun x => (toU x).testBit i)) := by
  induction xs generalizing a with
  | nil => simp
  | cons x xs ih => rw [List.foldl_cons, ih, Nat.testBit_and, List.all_cons, Bool.and_assoc]

theorem bor_foldl (xs : List Int) (a i : Nat) :
    (xs.foldl (fun r x => r ||| toU x) a).testBit i =
      (a.testBit i || xs.any (fun x => (toU x).testBit i)) := by
  induction xs generalizing a with
  | nil => simp
  | cons x xs ih => rw [List.foldl_cons, ih, Nat.testBit_or, List.any_cons, Bool.or_assoc]

/-- The parity of the number of arguments having a bit set. -/
def odd (xs : List Int) (i : Nat) : Bool := (xs.filter (fun x => (u32 x).testBit i)).length % 2 = 1

theorem bxor_foldl (xs : List Int) (a i : Nat) (hi : i < 32) :
    (xs.foldl (fun r x => r ^^^ toU x) a).testBit i = (a.testBit i ^^ odd xs i) := by
  induction xs generalizing a with
  | nil => simp [odd]
  | cons x xs ih =>
    rw [List.foldl_cons, ih, Nat.testBit_xor, Bool.xor_assoc]
    congr 1
    unfold odd
    rw [List.filter_cons, u32_bit x i hi]
    cases (toU x).testBit i
    · simp
    · simp only [if_true, List.length_cons, Bool.true_xor]
      generalize (List.filter (fun x => (u32 x).testBit i) xs).length = n
      by_cases h : n % 2 = 1
      · have h2 : ¬ (n + 1) % 2 = 1 := by omega
        simp [h, h2]
      · have h2 : (n + 1) % 2 = 1 := by omega
        simp [h, h2]

/-- C39, `bit32.band`. -/
theorem band_correct (xs : List Int) : band xs < 2 ^ 32 ∧
    ∀ i, i < 32 → (band xs).testBit i = xs.all (fun x => (u32 x).testBit i) := by
  refine ⟨trim_lt _, fun i hi => ?_⟩
  unfold band
  rw [trim_bit, band_foldl, unot_bit 0 (by omega) i (by omega)]
  simp only [hi, decide_true, Bool.true_and, Nat.zero_testBit, Bool.not_false]
  congr 1; funext x; rw [u32_bit x i hi]

/-- C39, `bit32.bor`. -/
theorem bor_correct (xs : List Int) : bor xs < 2 ^ 32 ∧
    ∀ i, i < 32 → (bor xs).testBit i = xs.any (fun x => (u32 x).testBit i) := by
  refine ⟨trim_lt _, fun i hi => ?_⟩
  unfold bor
  rw [trim_bit, bor_foldl]
  simp only [hi, decide_true, Bool.true_and, Nat.zero_testBit, Bool.false_or]
  congr 1; funext x; rw [u32_bit x i hi]

/-- C39, `bit32.bxor`. -/
theorem bxor_correct (xs : List Int) : bxor xs < 2 ^ 32 ∧
    ∀ i, i < 32 → (bxor xs).testBit i = odd xs i := by
  refine ⟨trim_lt _, fun i hi => ?_⟩
  unfold bxor
  rw [trim_bit, bxor_foldl _ _ _ hi]
  simp [hi]

/-- C39, `bit32.bnot`. -/
theorem bnot_correct (x : Int) : bnot x = 2 ^ 32 - 1 - u32 x := by
  unfold bnot; rw [trim_eq]; unfold unot u32 toU; omega

/-- C39, `bit32.btest`. -/
theorem btest_correct (xs : List Int) :
    btest xs = true ↔ ∃ i, i < 32 ∧ ∀ x ∈ xs, (u32 x).testBit i = true := by
  obtain ⟨hlt, hb⟩ := band_correct xs
  have h : btest xs = true ↔ band xs ≠ 0 := by unfold btest; simp
  rw [h]
  constructor
  · intro hne
    obtain ⟨i, hi⟩ := Nat.exists_testBit_of_ne_zero hne
    have hi32 : i < 32 := by
      apply Classical.byContradiction
      intro hc
      have : 2 ^ 32 ≤ 2 ^ i := Nat.pow_le_pow_right (by omega) (by omega)
      have := Nat.ge_two_pow_of_testBit hi
      omega
    rw [hb i hi32, List.all_eq_true] at hi
    exact ⟨i, hi32, hi⟩
  · rintro ⟨i, hi32, hall⟩ h0
    have := hb i hi32
    rw [h0, Nat.zero_testBit, List.all_eq_true.2 hall] at this
    cases this

/-! ## Shifts -/

theorem shl_mod {r i : Nat} : ((r <<< i) % 2 ^ 64) % 2 ^ 32 = (r % 2 ^ 32 * 2 ^ i) % 2 ^ 32 := by
  rw [Nat.shiftLeft_eq, Nat.mod_mul_mod]
  exact Nat.mod_mod_of_dvd _ ⟨2 ^ 32, by decide⟩

/-- The intended meaning of a displacement: multiply or divide by a power of two. -/
def shiftSpec (x : Int) (i : Int) : Nat :=
  if 0 ≤ i then u32 x * 2 ^ i.toNat % 2 ^ 32 else u32 x / 2 ^ (-i).toNat

theorem mul_big (a : Nat) {i : Nat} (hi : 32 ≤ i) : a * 2 ^ i % 2 ^ 32 = 0 := by
  obtain ⟨k, rfl⟩ : ∃ k, i = 32 + k := ⟨i - 32, by omega⟩
  rw [Nat.pow_add, Nat.mul_left_comm, Nat.mul_mod_right]

theorem div_big {a i : Nat} (ha : a < 2 ^ 32) (hi : 32 ≤ i) : a / 2 ^ i = 0 := by
  have : 2 ^ 32 ≤ 2 ^ i := Nat.pow_le_pow_right (by omega) hi
  exact Nat.div_eq_of_lt (by omega)

theorem shift_spec (x i : Int) (hi : InI i) (hne : i ≠ minI) :
    shift (toU x) i = .ok (shiftSpec x i) := by
  unfold shift shiftSpec
  by_cases h : i < 0
  · rw [if_pos h, if_neg (by omega), sres_ok (by unfold InI minI at *; omega)]
    simp only [Res.bind_ok]
    by_cases h2 : -i ≥ 32
    · rw [if_pos h2, div_big (u32_lt x) (by omega)]; rfl
    · rw [if_neg h2]; unfold shr
      rw [if_pos (by omega), trim_toU, Nat.shiftRight_eq_div_pow]
  · rw [if_neg h, if_pos (by omega : 0 ≤ i)]
    by_cases h2 : i ≥ 32
    · rw [if_pos h2, mul_big _ (by omega)]; rfl
    · rw [if_neg h2]; unfold shl
      rw [if_pos (by omega)]
      simp only [Res.bind_ok, Res.pure_eq]
      rw [trim_eq, shl_mod, ← trim_eq (toU x), trim_toU]

/-- C39, `bit32.lshift`, except for the most negative displacement. -/
theorem lshift_partial (x i : Int) (hi : InI i) (hne : i ≠ minI) :
    lshift x i = .ok (shiftSpec x i) := shift_spec x i hi hne

/-- C39, `bit32.rshift`, except for the most negative displacement. -/
theorem rshift_partial (x i : Int) (hi : InI i) (hne : i ≠ minI) :
    rshift x i = .ok (shiftSpec x (-i)) := by
  unfold rshift
  rw [sres_ok (by unfold InI minI at *; omega)]
  simp only [Res.bind_ok]
  exact shift_spec x (-i) (by unfold InI minI at *; omega) (by unfold InI minI at *; omega)

/-- C39 fails at the most negative displacement: negating it is undefined, in each of the shift and
rotate functions that negates. -/
theorem shifts_undefined (x : Int) :
    lshift x minI = .ub ∧ rshift x minI = .ub ∧ arshift x minI = .ub ∧ rrotate x minI = .ub := by
  have h : sres (-minI) = .ub := by decide +kernel
  refine ⟨?_, ?_, ?_, ?_⟩
  · unfold lshift shift; rw [if_pos (by unfold minI; omega), h]; rfl
  · unfold rshift; rw [h]; rfl
  · unfold arshift; dsimp only; rw [if_pos (.inl (by unfold minI; omega)), h]; rfl
  · unfold rrotate; rw [h]; rfl

theorem bit31 (x : Int) : toU x &&& (1 <<< 31) = 0 ↔ u32 x < 2 ^ 31 := by
  have e : (1 : Nat) <<< 31 = 2 ^ 31 := by decide
  rw [e]
  have hand : toU x &&& 2 ^ 31 = 0 ↔ (toU x).testBit 31 = false := by
    constructor
    · intro h
      have := congrArg (fun z => z.testBit 31) h
      simp only [Nat.testBit_and, Nat.testBit_two_pow_self, Bool.and_true, Nat.zero_testBit] at this
      exact this
    · intro h
      apply Nat.eq_of_testBit_eq
      intro j
      rw [Nat.testBit_and, Nat.testBit_two_pow, Nat.zero_testBit]
      by_cases hj : 31 = j
      · subst hj; simp [h]
      · simp [hj]
  rw [hand]
  have : (toU x).testBit 31 = decide (2 ^ 31 ≤ u32 x) := by
    rw [← u32_bit x 31 (by omega), Nat.testBit_eq_decide_div_mod_eq]
    have := u32_lt x
    by_cases hc : 2 ^ 31 ≤ u32 x
    · have : u32 x / 2 ^ 31 % 2 = 1 := by omega
      simp [this, hc]
    · have : ¬ (u32 x / 2 ^ 31 % 2 = 1) := by omega
      simp [this, hc]
  rw [this]
  by_cases hc : 2 ^ 31 ≤ u32 x
  · simp [hc]
  · simp [hc]; omega

/-- C39, `bit32.arshift`, except for the most negative displacement: the signed 32-bit value is
divided by the power of two, rounding down; a negative displacement shifts left. -/
theorem arshift_partial (x i : Int) (hi : InI i) (hne : i ≠ minI) :
    arshift x i = .ok (if 0 ≤ i then u32 (s32 x / 2 ^ i.toNat) else shiftSpec x (-i)) := by
  have hs : sres (-i) = .ok (-i) := sres_ok (by unfold InI minI at *; omega)
  have hsp : shift (toU x) (-i) = .ok (shiftSpec x (-i)) :=
    shift_spec x (-i) (by unfold InI minI at *; omega) (by unfold InI minI at *; omega)
  have hlt := u32_lt x
  unfold arshift
  dsimp only
  by_cases hneg : i < 0
  · rw [if_pos (.inl hneg), if_neg (by omega), hs]; exact hsp
  rw [if_pos (by omega : 0 ≤ i)]
  obtain ⟨k, rfl⟩ : ∃ k : Nat, i = k := ⟨i.toNat, by omega⟩
  rw [Int.toNat_natCast]
  have ecast : ((2 ^ k : Nat) : Int) = (2 : Int) ^ k := by exact_mod_cast rfl
  by_cases hpos : toU x &&& (1 <<< 31) = 0
  · rw [if_pos (.inr hpos), hs]
    show shift (toU x) (-(k : Int)) = _
    rw [hsp]
    have h31 := (bit31 x).1 hpos
    have e1 : s32 x = u32 x := by unfold s32; rw [if_pos h31]
    have e2 : shiftSpec x (-(k : Int)) = u32 x / 2 ^ k := by
      unfold shiftSpec
      by_cases hk : k = 0
      · subst hk; rw [if_pos (by omega)]; simp; omega
      · rw [if_neg (by omega)]; simp
    rw [e1, e2, ← ecast, ← Int.natCast_ediv]
    have : u32 x / 2 ^ k ≤ u32 x := Nat.div_le_self _ _
    generalize u32 x / 2 ^ k = q at this ⊢
    congr 1
    unfold u32; omega
  · rw [if_neg (by intro h; rcases h with h | h; exact hneg h; exact hpos h)]
    have h31 : ¬ u32 x < 2 ^ 31 := fun h => hpos ((bit31 x).2 h)
    have e1 : s32 x = (u32 x : Int) - 2 ^ 32 := by unfold s32; rw [if_neg h31]
    by_cases hk : (k : Int) ≥ 32
    · rw [if_pos hk, ALLONES_eq]
      have hd : s32 x / 2 ^ k = -1 := by
        rw [e1, ← ecast]
        have hp : 2 ^ 32 ≤ 2 ^ k := Nat.pow_le_pow_right (by omega) (by omega)
        generalize 2 ^ k = p at hp ⊢
        have hp' : ((2 : Nat) ^ 32 : Nat) ≤ (p : Int) := by exact_mod_cast hp
        rw [Int.ediv_eq_iff_of_pos (by omega)]
        constructor <;> omega
      rw [hd]; rfl
    · rw [if_neg hk]
      unfold shr
      rw [if_pos (by omega), if_pos (by omega)]
      simp only [Res.bind_ok, Res.pure_eq]
      congr 1
      have hk32 : k < 32 := by omega
      -- as a natural number the quotient is the shifted value with ones on top
      have hval : u32 (s32 x / 2 ^ k) = u32 x / 2 ^ k + (2 ^ 32 - 2 ^ (32 - k)) := by
        have hsplit : (2 : Nat) ^ 32 = 2 ^ (32 - k) * 2 ^ k := by
          rw [← Nat.pow_add]; congr 1; omega
        have hq : s32 x / 2 ^ k = (u32 x / 2 ^ k : Nat) - ((2 ^ (32 - k) : Nat) : Int) := by
          rw [e1, ← ecast]
          have : (2 : Int) ^ 32 = ((2 ^ (32 - k) : Nat) : Int) * ((2 ^ k : Nat) : Int) := by
            rw [← Int.natCast_mul, ← hsplit]; rfl
          rw [this, Int.sub_mul_ediv_right _ _ (by have := Nat.two_pow_pos k; omega),
            Int.natCast_ediv]
        have hb : u32 x / 2 ^ k < 2 ^ (32 - k) := by
          rw [Nat.div_lt_iff_lt_mul (Nat.two_pow_pos k), ← hsplit]; exact hlt
        have hle : 2 ^ (32 - k) ≤ 2 ^ 32 := Nat.pow_le_pow_right (by omega) (by omega)
        rw [hq]
        generalize u32 x / 2 ^ k = q at hb ⊢
        generalize 2 ^ (32 - k) = p at hb hle ⊢
        unfold u32; omega
      rw [hval]
      have hor : u32 x / 2 ^ k + (2 ^ 32 - 2 ^ (32 - k)) =
          u32 x / 2 ^ k ||| (2 ^ 32 - 2 ^ (32 - k)) := by
        have hsplit : (2 : Nat) ^ 32 = 2 ^ (32 - k) * 2 ^ k := by
          rw [← Nat.pow_add]; congr 1; omega
        have hb : u32 x / 2 ^ k < 2 ^ (32 - k) := by
          rw [Nat.div_lt_iff_lt_mul (Nat.two_pow_pos k), ← hsplit]; exact hlt
        have e : 2 ^ 32 - 2 ^ (32 - k) = 2 ^ (32 - k) * (2 ^ k - 1) := by
          rw [Nat.mul_sub, ← hsplit, Nat.mul_one]
        rw [e, Nat.add_comm, Nat.two_pow_add_eq_or_of_lt hb, Nat.or_comm]
      rw [hor]
      apply Nat.eq_of_testBit_eq
      intro j
      rw [trim_bit, Nat.testBit_or, Nat.testBit_shiftRight, Nat.testBit_or,
        Nat.testBit_div_two_pow]
      have hones : (2 ^ 32 - 2 ^ (32 - k)).testBit j = (decide (j < 32) && decide (32 ≤ j + k)) := by
        have h1 : 2 ^ 32 - 2 ^ (32 - k) = 2 ^ 32 - ((2 ^ (32 - k) - 1) + 1) := by
          have := Nat.two_pow_pos (32 - k); omega
        have h2 : 2 ^ (32 - k) - 1 < 2 ^ 32 := by
          have : 2 ^ (32 - k) ≤ 2 ^ 32 := Nat.pow_le_pow_right (by omega) (by omega)
          omega
        rw [h1, Nat.testBit_two_pow_sub_succ h2, Nat.testBit_two_pow_sub_one]
        by_cases hj : j < 32
        · by_cases hjk : 32 ≤ j + k
          · have : ¬ j < 32 - k := by omega
            simp [hj, hjk, this]
          · have : j < 32 - k := by omega
            simp [hj, hjk, this]
        · simp [hj]
      rw [hones]
      by_cases hj : j < 32
      · have hsh : (trim (unot 0) >>> k) < 2 ^ 64 := by
          have := trim_lt (unot 0)
          have := Nat.shiftRight_le (trim (unot 0)) k
          omega
        rw [unot_bit _ hsh j (by omega), Nat.testBit_shiftRight, trim_bit,
          Nat.add_comm j k]
        by_cases hjk : k + j < 32
        · have h3 : ¬ 32 ≤ k + j := by omega
          have h4 : (unot 0).testBit (k + j) = true := by
            rw [unot_bit 0 (by omega) _ (by omega)]; simp
          rw [u32_bit x (k + j) hjk, h4]
          simp [hj, hjk, h3]
        · have h3 : 32 ≤ k + j := by omega
          simp [hj, hjk, h3]
      · have : (u32 x).testBit (j + k) = false := by
          apply Nat.testBit_lt_two_pow
          have : 2 ^ 32 ≤ 2 ^ (j + k) := Nat.pow_le_pow_right (by omega) (by omega)
          omega
        simp [hj, this]

/-! ## Rotations -/

/-- Rotation of a 32-bit value to the left. -/
def rotSpec (x d : Int) : Nat :=
  u32 x * 2 ^ (d % 32).toNat % 2 ^ 32 + u32 x / 2 ^ (32 - (d % 32).toNat)

theorem rot_spec (x d : Int) : rot x d = .ok (rotSpec x d) := by
  unfold rot rotSpec
  dsimp only
  have hi : (d % 32).toNat < 32 := by omega
  generalize (d % 32).toNat = i at hi ⊢
  have hlt := u32_lt x
  rw [trim_toU]
  by_cases h0 : i ≠ 0
  · rw [if_pos h0]
    unfold shl shr
    rw [if_pos (by omega), if_pos (by omega)]
    simp only [Res.bind_ok, Res.pure_eq]
    congr 1
    have hb : u32 x / 2 ^ (32 - i) < 2 ^ i := by
      rw [Nat.div_lt_iff_lt_mul (Nat.two_pow_pos _), ← Nat.pow_add]
      have : i + (32 - i) = 32 := by omega
      rw [this]; exact hlt
    have hmul : u32 x * 2 ^ i % 2 ^ 32 = 2 ^ i * (u32 x % 2 ^ (32 - i)) := by
      have : (2 : Nat) ^ 32 = 2 ^ i * 2 ^ (32 - i) := by
        rw [← Nat.pow_add]; congr 1; omega
      rw [this, Nat.mul_comm (u32 x), Nat.mul_mod_mul_left]
    rw [hmul, Nat.two_pow_add_eq_or_of_lt hb, ← hmul]
    apply Nat.eq_of_testBit_eq
    intro j
    rw [trim_bit, Nat.testBit_or, Nat.testBit_or, Nat.testBit_mod_two_pow, Nat.testBit_mod_two_pow,
      Nat.shiftLeft_eq, Nat.shiftRight_eq_div_pow]
    by_cases hj : j < 32
    · have : j < 64 := by omega
      simp [hj, this]
    · have : (u32 x / 2 ^ (32 - i)).testBit j = false := by
        apply Nat.testBit_lt_two_pow
        have : 2 ^ i ≤ 2 ^ j := Nat.pow_le_pow_right (by omega) (by omega)
        omega
      simp [hj, this]
  · have : i = 0 := by omega
    subst this
    rw [if_neg h0, trim_eq, Nat.mod_eq_of_lt hlt, Nat.pow_zero, Nat.mul_one, Nat.mod_eq_of_lt hlt,
      div_big hlt (by omega), Nat.add_zero]; rfl

/-- C39, `bit32.lrotate`, for every displacement. -/
theorem lrotate_correct (x d : Int) : lrotate x d = .ok (rotSpec x d) := rot_spec x d

/-- C39, `bit32.rrotate`, except for the most negative displacement. -/
theorem rrotate_partial (x d : Int) (hd : InI d) (hne : d ≠ minI) :
    rrotate x d = .ok (rotSpec x (-d)) := by
  unfold rrotate
  rw [sres_ok (by unfold InI minI at *; omega)]
  exact rot_spec x (-d)

/-! ## Fields -/

theorem mask_bit {w : Nat} (hw : 0 < w) (hw2 : w ≤ 32) :
    ∃ m, mask w = .ok m ∧ m < 2 ^ 64 ∧
      ∀ j, j < 64 → m.testBit j = (decide (j < w) || decide (32 + w ≤ j)) := by
  unfold mask shl
  rw [if_pos (by omega)]
  simp only [Res.bind_ok]
  rw [if_pos (by omega)]
  simp only [Res.bind_ok, Res.pure_eq]
  refine ⟨_, rfl, unot_lt _, ?_⟩
  intro j hj
  rw [unot_bit _ (Nat.mod_lt _ (by decide)) j hj, Nat.testBit_mod_two_pow, Nat.testBit_shiftLeft,
    Nat.testBit_mod_two_pow, Nat.testBit_shiftLeft, ALLONES_eq, Nat.testBit_two_pow_sub_one]
  by_cases h1 : j < w
  · by_cases h2 : j ≥ w - 1
    · have e : j - (w - 1) = 0 := by omega
      simp [h1, e]
    · have h2' : ¬ w - 1 ≤ j := by omega
      simp [h1, h2']
  · by_cases h2 : 32 + w ≤ j
    · have h3 : w - 1 ≤ j := by omega
      have h4 : ¬ j - (w - 1) - 1 < 32 := by omega
      have h5 : j - (w - 1) < 64 := by omega
      simp [h1, h2, h4]
    · have h3 : w - 1 ≤ j := by omega
      have h4 : j - (w - 1) - 1 < 32 := by omega
      have h5 : j - (w - 1) < 64 := by omega
      have h6 : 1 ≤ j - (w - 1) := by omega
      simp [h1, h2, h3, h4, h5, h6, hj]

theorem fieldargs_ok {f w : Int} (hf : 0 ≤ f) (hw : 0 < w) (h : f + w ≤ 32) :
    fieldargs f w = .ok (f.toNat, w.toNat) := by
  unfold fieldargs
  rw [if_pos hf, if_pos hw, sres_ok (by unfold InI; omega)]
  simp only [Res.bind_ok]
  rw [if_neg (by omega)]; rfl

/-- C39, `bit32.extract`: the `w` bits from bit `f`. -/
theorem extract_correct (x f w : Int) (hf : 0 ≤ f) (hw : 0 < w) (h : f + w ≤ 32) :
    extract x f w = .ok (u32 x / 2 ^ f.toNat % 2 ^ w.toNat) := by
  unfold extract
  rw [fieldargs_ok hf hw h]
  obtain ⟨m, hm, hm64, hmb⟩ := mask_bit (w := w.toNat) (by omega) (by omega)
  simp only [Res.bind_ok]
  unfold shr
  rw [if_pos (by omega), trim_toU]
  simp only [Res.bind_ok, hm, Res.pure_eq]
  congr 1
  have hlt := u32_lt x
  apply Nat.eq_of_testBit_eq
  intro j
  rw [Nat.testBit_and, Nat.testBit_mod_two_pow, Nat.testBit_div_two_pow, Nat.testBit_shiftRight,
    Nat.add_comm f.toNat j]
  by_cases hj : j + f.toNat < 32
  · rw [hmb j (by omega)]
    have : ¬ 32 + w.toNat ≤ j := by omega
    simp [this, Bool.and_comm]
  · have : (u32 x).testBit (j + f.toNat) = false := by
      apply Nat.testBit_lt_two_pow
      have : 2 ^ 32 ≤ 2 ^ (j + f.toNat) := Nat.pow_le_pow_right (by omega) (by omega)
      omega
    simp [this]

/-- C39, `bit32.replace`: bits `f … f+w-1` come from `v`, the others from `x`. -/
theorem replace_correct (x v f w : Int) (hf : 0 ≤ f) (hw : 0 < w) (h : f + w ≤ 32) :
    ∃ r, replace x v f w = .ok r ∧ r < 2 ^ 32 ∧ ∀ j, j < 32 → r.testBit j =
      if f.toNat ≤ j ∧ j < f.toNat + w.toNat then (u32 v).testBit (j - f.toNat)
      else (u32 x).testBit j := by
  unfold replace
  rw [fieldargs_ok hf hw h]
  obtain ⟨m, hm, hm64, hmb⟩ := mask_bit (w := w.toNat) (by omega) (by omega)
  simp only [Res.bind_ok, hm]
  unfold shl
  rw [if_pos (by omega), if_pos (by omega), trim_toU, trim_toU]
  simp only [Res.bind_ok, Res.pure_eq]
  have hW : 0 < w.toNat ∧ f.toNat + w.toNat ≤ 32 := by omega
  generalize f.toNat = F at *
  generalize w.toNat = W at *
  have hxlt := u32_lt x
  have hvlt := u32_lt v
  have hbit : ∀ j, ((u32 x &&& unot (m <<< F % 2 ^ 64)) ||| (u32 v &&& m) <<< F % 2 ^ 64).testBit j =
      if j < 32 then (if F ≤ j ∧ j < F + W then (u32 v).testBit (j - F) else (u32 x).testBit j)
      else false := by
    intro j
    rw [Nat.testBit_or, Nat.testBit_and, Nat.testBit_mod_two_pow, Nat.testBit_shiftLeft,
      Nat.testBit_and]
    by_cases hj : j < 32
    · rw [if_pos hj, unot_bit _ (Nat.mod_lt _ (by decide)) j (by omega), Nat.testBit_mod_two_pow,
        Nat.testBit_shiftLeft]
      have hj64 : j < 64 := by omega
      by_cases h1 : F ≤ j
      · have hmj := hmb (j - F) (by omega)
        by_cases h2 : j < F + W
        · have h3 : j - F < W := by omega
          rw [if_pos ⟨h1, h2⟩, hmj]
          simp [h1, h3, hj64]
        · have h3 : ¬ j - F < W := by omega
          have h4 : ¬ 32 + W ≤ j - F := by omega
          rw [if_neg (by omega), hmj]
          simp [h3, h4]
      · rw [if_neg (by omega)]
        simp [h1]
    · rw [if_neg hj]
      have hx : (u32 x).testBit j = false := by
        apply Nat.testBit_lt_two_pow
        have : 2 ^ 32 ≤ 2 ^ j := Nat.pow_le_pow_right (by omega) (by omega)
        omega
      rw [hx]
      by_cases h64 : j < 64
      · by_cases h1 : F ≤ j
        · rw [hmb (j - F) (by omega)]
          by_cases h2 : 32 + W ≤ j - F
          · have : (u32 v).testBit (j - F) = false := by
              apply Nat.testBit_lt_two_pow
              have : 2 ^ 32 ≤ 2 ^ (j - F) := Nat.pow_le_pow_right (by omega) (by omega)
              omega
            simp [this]
          · have h3 : ¬ j - F < W := by omega
            simp [h2, h3]
        · simp [h1]
      · simp [h64]
  refine ⟨_, rfl, ?_, ?_⟩
  · apply Nat.lt_pow_two_of_testBit
    intro j hj
    rw [hbit, if_neg (by omega)]
  · intro j hj
    rw [hbit, if_pos hj]

/-- Bad fields are errors. -/
theorem field_errors (x f w : Int) (hs : InI (f + w))
    (h : f < 0 ∨ w ≤ 0 ∨ f + w > 32) : ∃ m, extract x f w = .err m := by
  unfold extract fieldargs
  by_cases h1 : 0 ≤ f
  · rw [if_pos h1]
    by_cases h2 : 0 < w
    · rw [if_pos h2, sres_ok hs]
      simp only [Res.bind_ok]
      rw [if_pos (by omega)]; exact ⟨_, rfl⟩
    · rw [if_neg h2]; exact ⟨_, rfl⟩
  · rw [if_neg h1]; exact ⟨_, rfl⟩

/-- C39 fails for fields beyond the integer range: the check itself overflows. -/
theorem field_undefined (x v : Int) : extract x maxI 1 = .ub ∧ replace x v 1 maxI = .ub := by
  have h1 : fieldargs maxI 1 = .ub := by decide +kernel
  have h2 : fieldargs 1 maxI = .ub := by decide +kernel
  constructor
  · unfold extract; rw [h1]; rfl
  · unfold replace; rw [h2]; rfl

example : arshift (-8) 1 = .ok 0xfffffffc := by decide +kernel
example : lrotate 0x12345678 (-8) = .ok 0x78123456 := by decide +kernel
example : extract 0xabcd 4 8 = .ok 0xbc := by decide +kernel
example : replace 0xabcd 0x11 4 8 = .ok 0xa11d := by decide +kernel
example : band [0xff, 0x0ff0] = 0xf0 := by decide +kernel
example : InI 5 ∧ (5 : Int) ≠ minI := by unfold InI minI; omega

end Verif.Bit32
