import Verif.BitOp.Model

/-!
# Properties of the `bit` library (C94)

A bit of an integer is a bit of its two's complement: bit `i` of `x` is the parity of `x / 2^i`,
rounded down.
-/
namespace Verif.BitOp

/-- Bit `i` of the integer `x`. -/
def bit (x : Int) (i : Nat) : Bool := x / 2 ^ i % 2 == 1

/-- What the functions return: the integer from -2^31 to 2^31-1 whose low 32 bits are given by `f`. -/
def IsBits (r : Int) (f : Nat → Bool) : Prop :=
  -2147483648 ≤ r ∧ r < 2147483648 ∧ ∀ i < 32, bit r i = f i

/-- At most one integer fits. -/
theorem IsBits.unique {r r' : Int} {f} (h : IsBits r f) (h' : IsBits r' f) : r = r' := by
  have key : ∀ n : Nat, (∀ i < n, bit r i = bit r' i) → r % 2 ^ n = r' % 2 ^ n := by
    intro n
    induction n with
    | zero => intro _; simp [Int.emod_one]
    | succ n ih =>
      intro hb
      have h1 := ih fun i hi => hb i (by omega)
      have h2 := hb n (by omega)
      have e : ∀ x : Int, x % 2 ^ (n + 1) = x % 2 ^ n + 2 ^ n * (x / 2 ^ n % 2) := by
        intro x
        have hp : (0 : Int) < 2 ^ n := Int.pow_pos (by decide)
        have a1 := Int.mul_ediv_add_emod x (2 ^ n)
        have a2 := Int.mul_ediv_add_emod (x / 2 ^ n) 2
        have a3 := Int.emod_nonneg x (Int.ne_of_gt hp)
        have a4 := Int.emod_lt_of_pos x hp
        have a5 : x = (x % 2 ^ n + 2 ^ n * (x / 2 ^ n % 2)) + 2 ^ (n + 1) * (x / 2 ^ n / 2) := by
          rw [Int.pow_succ, Int.mul_assoc, Int.add_assoc, ← Int.mul_add, Int.add_comm (x / 2 ^ n % 2),
            a2, Int.add_comm, a1]
        conv => lhs; rw [a5]
        rw [Int.add_mul_emod_self_left]
        refine Int.emod_eq_of_lt ?_ ?_
        · rcases Int.emod_two_eq (x / 2 ^ n) with h | h <;> rw [h] <;> omega
        · rw [Int.pow_succ]
          rcases Int.emod_two_eq (x / 2 ^ n) with h | h <;> rw [h] <;> omega
      have p : ∀ x : Int, x / 2 ^ n % 2 = if bit x n then 1 else 0 := by
        intro x
        unfold bit
        rcases Int.emod_two_eq (x / 2 ^ n) with h | h <;> rw [h] <;> rfl
      rw [e, e, h1, p, p, h2]
  have := key 32 fun i hi => (h.2.2 i hi).trans (h'.2.2 i hi).symm
  obtain ⟨h1, h2, _⟩ := h
  obtain ⟨h3, h4, _⟩ := h'
  omega

theorem bit_barg (x : Int) (i : Nat) (hi : i < 32) : (barg x).getLsbD i = bit x i := by
  have h1 : ((barg x).toNat : Int) = x % 2 ^ 32 := by
    unfold barg
    rw [BitVec.toNat_ofInt]
    have := Int.emod_nonneg x (b := 2 ^ 32) (by decide)
    simp only [Nat.reducePow, Int.reducePow] at this ⊢
    omega
  have h2 : x / 2 ^ i % 2 = ((barg x).toNat / 2 ^ i % 2 : Nat) := by
    have hp : (0 : Int) < 2 ^ i := Int.pow_pos (by decide)
    have e : (2 : Int) ^ 32 = 2 ^ i * (2 * 2 ^ (31 - i)) := by
      rw [← Int.pow_succ', ← Int.pow_add]
      congr 1
      omega
    have a := Int.emod_add_mul_ediv x (2 ^ 32)
    rw [← h1, e, Int.mul_assoc] at a
    conv => lhs; rw [← a]
    rw [Int.add_mul_ediv_left _ _ (Int.ne_of_gt hp), Int.mul_assoc, Int.add_mul_emod_self_left]
    push_cast
    rfl
  have h3 : (barg x).getLsbD i = decide ((barg x).toNat / 2 ^ i % 2 = 1) := by
    rw [BitVec.getLsbD, Nat.testBit_eq_decide_div_mod_eq]
  rw [h3]
  unfold bit
  rw [h2]
  by_cases h : (barg x).toNat / 2 ^ i % 2 = 1
  · simp only [h]
    rfl
  · have : (barg x).toNat / 2 ^ i % 2 = 0 := by omega
    simp only [this]
    rfl

theorem bit_bret (b : UBits) (i : Nat) (hi : i < 32) : bit (bret b) i = b.getLsbD i := by
  rw [← bit_barg _ _ hi, barg, bret, BitVec.ofInt_toInt]

theorem isBits (b : UBits) {f} (h : ∀ i < 32, b.getLsbD i = f i) : IsBits (bret b) f := by
  refine ⟨?_, ?_, fun i hi => (bit_bret b i hi).trans (h i hi)⟩
  · have := BitVec.le_toInt b
    simpa [bret] using this
  · have := BitVec.toInt_lt (x := b)
    simpa [bret] using this

/-! ## C94: the functions of the library -/

/-- `bit.tobit`: the low 32 bits, as a signed number. -/
theorem tobit_bits (x : Int) : IsBits (tobit x) (bit x) :=
  isBits _ fun i hi => bit_barg x i hi

theorem bnot_bits (x : Int) : IsBits (bnot x) fun i => !bit x i := by
  refine isBits _ fun i hi => ?_
  rw [BitVec.getLsbD_not, bit_barg x i hi]
  simp [hi]

/-- The bits of a fold, whatever the order of the arguments. -/
theorem fold_bits {f : UBits → UBits → UBits} {g : Bool → Bool → Bool}
    (hf : ∀ a b i, i < 32 → (f a b).getLsbD i = g (a.getLsbD i) (b.getLsbD i)) {i : Nat} (hi : i < 32)
    (b : UBits) (xs : List Int) :
    (xs.foldl (fun b y => f b (barg y)) b).getLsbD i = (xs.map (bit · i)).foldl g (b.getLsbD i) := by
  induction xs generalizing b with
  | nil => rfl
  | cons x xs ih =>
    rw [List.foldl_cons, ih, hf _ _ _ hi, bit_barg _ _ hi, List.map_cons, List.foldl_cons]

theorem fold_and (b : Bool) (l : List Bool) : l.foldl (· && ·) b = (b && l.all id) := by
  induction l generalizing b with
  | nil => simp
  | cons a l ih => rw [List.foldl_cons, ih, List.all_cons, id, Bool.and_assoc]

theorem fold_or (b : Bool) (l : List Bool) : l.foldl (· || ·) b = (b || l.any id) := by
  induction l generalizing b with
  | nil => simp
  | cons a l ih => rw [List.foldl_cons, ih, List.any_cons, id, Bool.or_assoc]

theorem fold_xor (b : Bool) (l : List Bool) :
    l.foldl (· ^^ ·) b = (b ^^ (l.countP id % 2 == 1)) := by
  induction l generalizing b with
  | nil => simp
  | cons a l ih =>
    rw [List.foldl_cons, ih, List.countP_cons]
    cases a <;> cases b <;> rcases Nat.mod_two_eq_zero_or_one (l.countP id) with h | h <;>
      simp [h, Nat.add_mod]

/-- `bit.band`: a bit is set if it is set in all arguments. -/
theorem band_bits (x : Int) (xs : List Int) :
    IsBits (band x xs) fun i => (x :: xs).all (bit · i) := by
  refine isBits _ fun i hi => ?_
  rw [fold_bits (g := (· && ·)) (fun a b i _ => BitVec.getLsbD_and) hi, bit_barg _ _ hi, fold_and]
  simp [List.all_map]

/-- `bit.bor`: a bit is set if it is set in some argument. -/
theorem bor_bits (x : Int) (xs : List Int) :
    IsBits (bor x xs) fun i => (x :: xs).any (bit · i) := by
  refine isBits _ fun i hi => ?_
  rw [fold_bits (g := (· || ·)) (fun a b i _ => BitVec.getLsbD_or) hi, bit_barg _ _ hi, fold_or]
  simp [List.any_map]

/-- `bit.bxor`: a bit is set if it is set in an odd number of arguments. -/
theorem bxor_bits (x : Int) (xs : List Int) :
    IsBits (bxor x xs) fun i => (x :: xs).countP (bit · i) % 2 == 1 := by
  refine isBits _ fun i hi => ?_
  rw [fold_bits (g := (· ^^ ·)) (fun a b i _ => BitVec.getLsbD_xor) hi, bit_barg _ _ hi, fold_xor]
  rw [List.map_reverse, List.countP_reverse, List.countP_map, List.countP_cons]
  have : (id ∘ fun x => bit x i) = (bit · i) := rfl
  rw [this]
  cases bit x i <;> rcases Nat.mod_two_eq_zero_or_one (xs.countP (bit · i)) with h | h <;>
    simp [h, Nat.add_mod]

/-- Shift counts are taken modulo 32. -/
theorem count (n : Int) : (barg n &&& 31).toNat = (n % 32).toNat := by
  have h1 : ((barg n).toNat : Int) = n % 2 ^ 32 := by
    unfold barg
    rw [BitVec.toNat_ofInt]
    have := Int.emod_nonneg n (b := 2 ^ 32) (by decide)
    simp only [Nat.reducePow, Int.reducePow] at this ⊢
    omega
  have h2 : (barg n &&& 31).toNat = (barg n).toNat % 32 := by
    rw [BitVec.toNat_and]
    exact Nat.and_two_pow_sub_one_eq_mod (barg n).toNat 5
  rw [h2]
  simp only [Int.reducePow] at h1
  omega

theorem count_lt (n : Int) : (n % 32).toNat < 32 := by omega

/-- `bit.lshift`: bits move up, zeros come in. -/
theorem lshift_bits (x n : Int) : ∃ r, lshift x n = .ok r ∧
    IsBits r fun i => decide ((n % 32).toNat ≤ i) && bit x (i - (n % 32).toNat) := by
  have hk := count_lt n
  refine ⟨bret (barg x <<< (n % 32).toNat), by simp only [lshift, bitSh, bshl, count, hk, if_true, Res.bind_ok],
    isBits _ fun i hi => ?_⟩
  rw [BitVec.getLsbD_shiftLeft]
  by_cases h : (n % 32).toNat ≤ i
  · simp only [hi, h, decide_true, Bool.true_and, Nat.not_lt.2 h, decide_false, Bool.not_false]
    exact bit_barg _ _ (by omega)
  · simp [h, Nat.lt_of_not_le h]

/-- `bit.rshift`: bits move down, zeros come in. -/
theorem rshift_bits (x n : Int) : ∃ r, rshift x n = .ok r ∧
    IsBits r fun i => decide (i + (n % 32).toNat < 32) && bit x (i + (n % 32).toNat) := by
  have hk := count_lt n
  refine ⟨bret (barg x >>> (n % 32).toNat), by simp only [rshift, bitSh, bshr, count, hk, if_true, Res.bind_ok],
    isBits _ fun i hi => ?_⟩
  rw [BitVec.getLsbD_ushiftRight, Nat.add_comm]
  by_cases h : i + (n % 32).toNat < 32
  · rw [bit_barg _ _ h]
    simp [h]
  · simp [h, BitVec.getLsbD_of_ge _ _ (Nat.le_of_not_lt h)]

/-- `bit.arshift`: bits move down, copies of bit 31 come in. -/
theorem arshift_bits (x n : Int) : ∃ r, arshift x n = .ok r ∧
    IsBits r fun i => bit x (min (i + (n % 32).toNat) 31) := by
  have hk := count_lt n
  refine ⟨bret ((barg x).sshiftRight (n % 32).toNat), by simp only [arshift, bitSh, bsar, count, hk, if_true, Res.bind_ok],
    isBits _ fun i hi => ?_⟩
  rw [BitVec.getLsbD_sshiftRight]
  by_cases h : (n % 32).toNat + i < 32
  · rw [if_pos h, bit_barg _ _ h, Nat.min_eq_left (by omega), Nat.add_comm]
    simp [hi]
  · rw [if_neg h, Nat.min_eq_right (by omega), ← bit_barg _ _ (by decide : 31 < 32)]
    simp [hi, BitVec.msb_eq_getLsbD_last]

/-- `bit.rol` with a count that is not a multiple of 32: the bits go round. -/
theorem rol_bits_partial (x n : Int) (hn : n % 32 ≠ 0) : ∃ r, rol x n = .ok r ∧
    IsBits r fun i => bit x ((i + 32 - (n % 32).toNat) % 32) := by
  have hk := count_lt n
  have hk' : 32 - (n % 32).toNat < 32 := by omega
  refine ⟨bret (barg x <<< (n % 32).toNat ||| barg x >>> (32 - (n % 32).toNat)),
    by simp only [rol, bitSh, brol, bshl, bshr, count, hk, hk', if_true, Res.bind_ok],
    isBits _ fun i hi => ?_⟩
  rw [BitVec.getLsbD_or, BitVec.getLsbD_shiftLeft, BitVec.getLsbD_ushiftRight]
  by_cases h : (n % 32).toNat ≤ i
  · rw [BitVec.getLsbD_of_ge _ _ (show 32 ≤ 32 - (n % 32).toNat + i by omega), bit_barg _ _ (by omega),
      show (i + 32 - (n % 32).toNat) % 32 = i - (n % 32).toNat by omega]
    simp only [hi, Nat.not_lt.2 h, decide_true, decide_false, Bool.not_false, Bool.true_and, Bool.or_false]
  · rw [bit_barg _ (32 - (n % 32).toNat + i) (by omega),
      show (i + 32 - (n % 32).toNat) % 32 = 32 - (n % 32).toNat + i by omega]
    simp [h, Nat.lt_of_not_le h]

/-- `bit.ror` with a count that is not a multiple of 32. -/
theorem ror_bits_partial (x n : Int) (hn : n % 32 ≠ 0) : ∃ r, ror x n = .ok r ∧
    IsBits r fun i => bit x ((i + (n % 32).toNat) % 32) := by
  have hk := count_lt n
  have hk' : 32 - (n % 32).toNat < 32 := by omega
  refine ⟨bret (barg x <<< (32 - (n % 32).toNat) ||| barg x >>> (n % 32).toNat),
    by simp only [ror, bitSh, bror, bshl, bshr, count, hk, hk', if_true, Res.bind_ok],
    isBits _ fun i hi => ?_⟩
  rw [BitVec.getLsbD_or, BitVec.getLsbD_shiftLeft, BitVec.getLsbD_ushiftRight]
  by_cases h : 32 - (n % 32).toNat ≤ i
  · rw [BitVec.getLsbD_of_ge _ _ (show 32 ≤ (n % 32).toNat + i by omega), bit_barg _ _ (by omega),
      show (i + (n % 32).toNat) % 32 = i - (32 - (n % 32).toNat) by omega]
    simp [hi, h, Nat.not_lt.2 h]
  · rw [bit_barg _ ((n % 32).toNat + i) (by omega),
      show (i + (n % 32).toNat) % 32 = (n % 32).toNat + i by omega]
    simp [Nat.lt_of_not_le h]

/-- A rotation by a multiple of 32 shifts by 32 in C, which is undefined. -/
theorem rol_zero_ub (x n : Int) (hn : n % 32 = 0) : rol x n = .ub ∧ ror x n = .ub := by
  simp only [rol, ror, bitSh, brol, bror, bshl, bshr, count, hn]
  exact ⟨rfl, rfl⟩

/-- `bit.bswap`: the bytes in reverse order. -/
theorem bswap_bits (x : Int) : IsBits (bswap x) fun i => bit x (8 * (3 - i / 8) + i % 8) := by
  refine isBits _ fun i hi => ?_
  have : ∀ b : UBits, ∀ i < 32, ((b >>> 24) ||| ((b >>> 8) &&& 0xff00#32) ||| ((b &&& 0xff00#32) <<< 8) |||
      (b <<< 24)).getLsbD i = b.getLsbD (8 * (3 - i / 8) + i % 8) := by
    intro b i hi
    have hc : ∀ i < 32, (0xff00#32).getLsbD i = decide (8 ≤ i ∧ i < 16) := by decide
    simp only [BitVec.getLsbD_or, BitVec.getLsbD_and, BitVec.getLsbD_ushiftRight, BitVec.getLsbD_shiftLeft]
    rcases (by omega : i < 8 ∨ 8 ≤ i ∧ i < 16 ∨ 16 ≤ i ∧ i < 24 ∨ 24 ≤ i) with h | h | h | h
    · rw [show 8 * (3 - i / 8) + i % 8 = 24 + i by omega, hc i hi]
      simp [show i < 24 by omega, show ¬ 8 ≤ i by omega, show i < 8 from h]
    · rw [show 8 * (3 - i / 8) + i % 8 = 8 + i by omega, hc i hi, hc (i - 8) (by omega),
        BitVec.getLsbD_of_ge _ (24 + i) (by omega)]
      simp [show i < 24 by omega, h, show ¬ i < 8 by omega, show ¬ 8 ≤ i - 8 by omega]
    · rw [show 8 * (3 - i / 8) + i % 8 = i - 8 by omega, hc i hi, hc (i - 8) (by omega),
        BitVec.getLsbD_of_ge _ (24 + i) (by omega)]
      simp [show i < 24 by omega, show ¬ i < 16 by omega, show ¬ i < 8 by omega, hi,
        show 8 ≤ i - 8 by omega, show i - 8 < 16 by omega]
    · rw [show 8 * (3 - i / 8) + i % 8 = i - 24 by omega, hc i hi, hc (i - 8) (by omega),
        BitVec.getLsbD_of_ge _ (24 + i) (by omega)]
      simp [show ¬ i < 24 by omega, show ¬ i < 16 by omega, hi, show ¬ i - 8 < 16 by omega]
  rw [this _ i hi]
  exact bit_barg _ _ (by omega)

/-- Twice is nothing but `tobit`. -/
theorem bswap_bswap (x : Int) : bswap (bswap x) = tobit x := by
  refine (bswap_bits (bswap x)).unique ?_
  obtain ⟨h1, h2, h3⟩ := tobit_bits x
  refine ⟨h1, h2, fun i hi => ?_⟩
  rw [h3 i hi]
  refine Eq.trans ?_ ((bswap_bits x).2.2 _ (by omega)).symm
  dsimp only
  congr 1
  omega

/-! ### tohex -/

/-- A digit in base 16. -/
def IsDigit (up : Bool) (d : Nat) (c : Char) : Prop :=
  (if up then "0123456789ABCDEF" else "0123456789abcdef").toList[d]? = some c

theorem hexdigit_ok (up : Bool) : ∀ d < 16, IsDigit up d (hexdigit up d) := by
  intro d hd
  unfold IsDigit
  revert d
  cases up <;> decide

theorem fill_spec (up : Bool) (i : Nat) (b : UBits) (acc : List Char) :
    fill up i b acc =
      (List.range i).map (fun p => hexdigit up (b.toNat / 16 ^ (i - 1 - p) % 16)) ++ acc := by
  induction i generalizing b acc with
  | zero => rfl
  | succ i ih =>
    unfold fill
    rw [ih, List.range_succ, List.map_append, List.append_assoc]
    congr 1
    · refine List.map_congr_left fun p hp => ?_
      rw [List.mem_range] at hp
      rw [BitVec.toNat_ushiftRight, Nat.shiftRight_eq_div_pow, Nat.div_div_eq_div_mul,
        show i + 1 - 1 - p = i - 1 - p + 1 by omega, Nat.pow_succ 16, Nat.mul_comm]
    · have h2 : (b &&& 15).toNat = b.toNat % 16 := by
        rw [BitVec.toNat_and]
        exact Nat.and_two_pow_sub_one_eq_mod b.toNat 4
      rw [h2]
      simp

/-- `bit.tohex(x, n)`: the last `|n|` hexadecimal digits of `x`, at most 8, in capital letters if
`n` is negative; `n` itself is taken modulo 2^32.  (8 digits if there is no `n`.) -/
theorem tohex_digits_partial (x : Int) (n : Option Int) (m : Int)
    (hm : m = match n with | none => 8 | some n => tobit n) (h0 : m ≠ -2147483648) :
    ∃ s, tohex x n = .ok s ∧ s.length = min m.natAbs 8 ∧
      ∀ p c, s[p]? = some c → IsDigit (m < 0) (x / 16 ^ (s.length - 1 - p) % 16).toNat c := by
  have hx : ∀ k < 8, ((barg x).toNat / 16 ^ k % 16) = (x / 16 ^ k % 16).toNat := by
    intro k hk
    have h1 : ((barg x).toNat : Int) = x % 2 ^ 32 := by
      unfold barg
      rw [BitVec.toNat_ofInt]
      have := Int.emod_nonneg x (b := 2 ^ 32) (by decide)
      simp only [Nat.reducePow, Int.reducePow] at this ⊢
      omega
    simp only [Int.reducePow] at h1
    rcases (by omega : k = 0 ∨ k = 1 ∨ k = 2 ∨ k = 3 ∨ k = 4 ∨ k = 5 ∨ k = 6 ∨ k = 7) with
      rfl | rfl | rfl | rfl | rfl | rfl | rfl | rfl <;>
      simp only [Nat.reducePow, Int.reducePow, Int.pow_zero, Nat.pow_zero, Int.pow_one, Nat.pow_one] <;> omega
  have key : tohex x n = .ok (fill (m < 0) (min m.natAbs 8) (barg x) []) := by
    have : tohex x n = (do
        let n' ← if m < 0 then (if m = -2147483648 then Res.ub else .ok (-m)) else .ok m
        .ok (fill (m < 0) (if n' > 8 then 8 else n').toNat (barg x) [])) := by
      subst hm
      cases n <;> rfl
    rw [this]
    by_cases hneg : m < 0
    · simp only [hneg, h0, if_true, if_false, Res.bind_ok]
      congr 2
      split <;> omega
    · simp only [hneg, if_false, Res.bind_ok]
      congr 2
      split <;> omega
  refine ⟨_, key, ?_, ?_⟩
  · rw [fill_spec]
    simp
  · intro p c hc
    rw [fill_spec] at hc ⊢
    simp only [List.append_nil, List.getElem?_map, Option.map_eq_some_iff, List.length_map,
      List.length_range] at hc ⊢
    obtain ⟨q, hq, rfl⟩ := hc
    obtain ⟨hlt, rfl⟩ := List.getElem?_eq_some_iff.1 hq
    rw [List.length_range] at hlt
    rw [List.getElem_range, hx _ (by omega)]
    exact hexdigit_ok _ _ (by omega)

/-- `bit.tohex(x, -2^31)` negates -2^31 in 32 bits. -/
theorem tohex_ub (x n : Int) (h : tobit n = -2147483648) : tohex x (some n) = .ub := by
  have : bret (barg n) = -2147483648 := h
  unfold tohex
  simp only [this]
  rfl

/-! ### Examples -/

example : tohex 0x1234abcd (some (-6)) = .ok "34ABCD".toList := by decide +kernel
example : tobit (-5) ≠ -2147483648 := by decide +kernel
example : (-3 : Int) % 32 ≠ 0 := by decide
example : rol 0x12345678 4 = .ok 0x23456781 := by decide +kernel
example : bxor (-1) [0x0f, 0xf0] = -256 := by decide +kernel
example : tobit 0x80000000 = -2147483648 := by decide +kernel

end Verif.BitOp
