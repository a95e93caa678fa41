import Verif.Pack.Lemmas

/-!
# C24 — packed integers read back

For every size from 1 up, both byte orders and every integer: what `unpackint` returns is the number
the bytes stand for, or an error when it does not fit; `packint` writes the two's complement bytes;
reading back what was written gives the same integer.
-/
namespace Verif.Pack
open Verif.StrLib (rd wr mem rdN)

/-- The two's complement number with `size` bytes and unsigned value `v`. -/
def sval (size v : Nat) : Int := if 2 * v < 256 ^ size then v else (v : Int) - 256 ^ size

theorem pow8 : (256 : Nat) ^ 8 = 18446744073709551616 := by decide

theorem pow_split {size : Nat} (h : 8 ≤ size) : 256 ^ size = 18446744073709551616 * 256 ^ (size - 8) := by
  rw [← pow8, ← Nat.pow_add]; congr 1; omega

theorem pow_int (size : Nat) : ((256 ^ size : Nat) : Int) = (256 : Int) ^ size := by
  rw [Int.natCast_pow]; rfl

theorem pow_two {size : Nat} (h : 0 < size) : 256 ^ size = 2 * 2 ^ (size * 8 - 1) := by
  have : (256 : Nat) = 2 ^ 8 := rfl
  rw [this, ← Nat.pow_mul, Nat.mul_comm 2, ← Nat.pow_succ]; congr 1; omega

theorem toS_lo {n : Nat} (h : n < 9223372036854775808) : toS n = n := by
  unfold toS
  rw [Nat.mod_eq_of_lt (by omega), if_pos h]

theorem toS_hi {n : Nat} (h1 : 9223372036854775808 ≤ n) (h2 : n < 18446744073709551616) :
    toS n = (n : Int) - 18446744073709551616 := by
  unfold toS
  rw [Nat.mod_eq_of_lt h2, if_neg (by omega)]

section
variable {data : List UInt8} {pos size : Nat} {little : Bool}

theorem read_small (h : pos + size ≤ data.length) (h8 : size ≤ 8) :
    readLoop data pos little size size 0 = .ok (value (slice data pos little size)) := by
  rw [readLoop_spec h size 0 (Nat.le_refl _) h8 (Nat.pow_pos (by decide)), Nat.zero_mul, Nat.zero_add]
  rw [List.take_of_length_le (by rw [slice_length h]; exact Nat.le_refl _)]

theorem read_big (h : pos + size ≤ data.length) (h8 : 8 ≤ size) :
    readLoop data pos little size 8 0 = .ok (value ((slice data pos little size).take 8)) := by
  rw [readLoop_spec h 8 0 h8 (Nat.le_refl _) (Nat.pow_pos (by decide)), Nat.zero_mul, Nat.zero_add]

/-- The value of a long slice: the part that is read and the part that is checked. -/
theorem value_split (h : pos + size ≤ data.length) (h8 : 8 ≤ size) :
    value (slice data pos little size) = value ((slice data pos little size).take 8) +
      18446744073709551616 * value ((slice data pos little size).drop 8) ∧
    value ((slice data pos little size).take 8) < 18446744073709551616 ∧
    value ((slice data pos little size).drop 8) < 256 ^ (size - 8) ∧
    ((slice data pos little size).drop 8).length = size - 8 := by
  have hl := slice_length (little := little) h
  have hlt : ((slice data pos little size).take 8).length = 8 := by rw [List.length_take, hl]; omega
  have hld : ((slice data pos little size).drop 8).length = size - 8 := by rw [List.length_drop, hl]
  have e := value_append ((slice data pos little size).take 8) ((slice data pos little size).drop 8)
  rw [List.take_append_drop, hlt, pow8] at e
  have h1 := value_lt ((slice data pos little size).take 8)
  rw [hlt, pow8] at h1
  have h2 := value_lt ((slice data pos little size).drop 8)
  rw [hld] at h2
  exact ⟨e, h1, h2, hld⟩

theorem zeros_iff {l : List UInt8} : (∀ b ∈ l, b.toNat = 0) ↔ value l = 0 := by
  have : (0 : Nat) = (0 : UInt8).toNat := rfl
  rw [this, all_eq_iff, ← this]
  constructor
  · intro e; rw [e]; exact value_zeros _
  · intro e; exact value_inj (by simp) (by rw [e, value_zeros])

theorem ones_iff {l : List UInt8} : (∀ b ∈ l, b.toNat = MC) ↔ value l + 1 = 256 ^ l.length := by
  have : MC = (255 : UInt8).toNat := rfl
  rw [this, all_eq_iff]
  constructor
  · intro e
    have := value_ones l.length
    rw [← e] at this; exact this
  · intro e
    exact value_inj (by simp) (by have := value_ones l.length; omega)

/-- Reading a signed integer. -/
theorem unpack_signed (hs : 0 < size) (h : pos + size ≤ data.length) :
    unpackint data pos little size true =
      if InI (sval size (value (slice data pos little size)))
      then .ok (sval size (value (slice data pos little size)))
      else .err "integer does not fit into Lua Integer" := by
  have hl := slice_length (little := little) h
  have hv := value_lt (slice data pos little size)
  rw [hl] at hv
  unfold unpackint SZINT
  dsimp only
  rcases Nat.lt_trichotomy size 8 with h8 | h8 | h8
  · rw [if_pos (by omega), read_small h (by omega), Res.bind_ok, if_pos h8, if_pos rfl]
    generalize value (slice data pos little size) = v at hv
    have hp := pow_two hs
    rw [Nat.one_shiftLeft]
    have hm : 2 ^ (size * 8 - 1) ≤ 2 ^ 55 := Nat.pow_le_pow_right (by decide) (by omega)
    have hm0 : 0 < 2 ^ (size * 8 - 1) := Nat.pow_pos (by decide)
    have h55 : (2 : Nat) ^ 55 = 36028797018963968 := by decide
    rw [h55] at hm
    have hpi := pow_int size
    rcases Nat.lt_or_ge v (2 ^ (size * 8 - 1)) with hlo | hhi
    · have hsv : sval size v = v := by unfold sval; rw [if_pos (by omega)]
      rw [hsv, xor_pow_lo hlo, if_pos (by unfold InI; omega)]
      show Res.ok _ = _
      congr 1
      have : uw (2 ^ (size * 8 - 1) + v + (18446744073709551616 - 2 ^ (size * 8 - 1))) = v := by
        unfold uw; omega
      rw [this, toS_lo (by omega)]
    · have hsv : sval size v = (v : Int) - 256 ^ size := by unfold sval; rw [if_neg (by omega)]
      have hx := xor_pow_hi hhi (by rw [Nat.pow_succ]; omega)
      rw [hsv, hx, if_pos (by unfold InI; omega)]
      show Res.ok _ = _
      congr 1
      have : uw (v - 2 ^ (size * 8 - 1) + (18446744073709551616 - 2 ^ (size * 8 - 1))) =
          v + 18446744073709551616 - 256 ^ size := by
        unfold uw; omega
      rw [this, toS_hi (by omega) (by omega)]
      omega
  · subst h8
    rw [if_pos (Nat.le_refl _), read_small h (Nat.le_refl _), Res.bind_ok, if_neg (by omega), if_neg (by omega)]
    generalize value (slice data pos little 8) = v at hv
    have hpi := pow_int 8
    rw [pow8] at hv hpi
    rcases Nat.lt_or_ge v 9223372036854775808 with hlo | hhi
    · have hsv : sval 8 v = v := by unfold sval; rw [if_pos (by rw [pow8]; omega)]
      rw [hsv, if_pos (by unfold InI; omega), toS_lo hlo]; rfl
    · have hsv : sval 8 v = (v : Int) - 256 ^ 8 := by unfold sval; rw [if_neg (by rw [pow8]; omega)]
      rw [hsv, if_pos (by unfold InI; omega), toS_hi hhi hv]
      show Res.ok _ = _
      congr 1
  · rw [if_neg (by omega), read_big h (by omega), Res.bind_ok, if_neg (by omega), if_pos h8,
      checkLoop_spec h (size - 8) 8 (by omega)]
    obtain ⟨e1, e2, e3, e4⟩ := value_split (little := little) h (by omega)
    have hps := pow_split (size := size) (by omega)
    have hpi := pow_int size
    have hK : 1 ≤ 256 ^ (size - 8) := Nat.pow_pos (by decide)
    have hK' : 256 ≤ 256 ^ (size - 8) := by
      have := Nat.pow_le_pow_right (n := 256) (by decide) (show 1 ≤ size - 8 by omega)
      simpa using this
    have hones := ones_iff (l := (slice data pos little size).drop 8)
    rw [e4] at hones
    have hzeros := zeros_iff (l := (slice data pos little size).drop 8)
    rw [e1]
    generalize value ((slice data pos little size).take 8) = lo at *
    generalize value ((slice data pos little size).drop 8) = hi at *
    generalize hP : 256 ^ (size - 8) = K at *
    rcases Nat.lt_or_ge lo 9223372036854775808 with hlo | hhi
    · have hm : (true = false ∨ toS lo ≥ 0) := Or.inr (by rw [toS_lo hlo]; omega)
      rw [if_pos hm]
      by_cases hz : hi = 0
      · rw [if_pos (hzeros.2 hz), Res.bind_ok]
        have hsv : sval size (lo + 18446744073709551616 * hi) = lo := by
          unfold sval; rw [if_pos (by omega)]; omega
        rw [hsv, if_pos (by unfold InI; omega), toS_lo hlo]; rfl
      · rw [if_neg (fun q => hz (hzeros.1 q)), if_neg]
        · rfl
        · unfold InI sval
          split <;> omega
    · have hm : ¬ (true = false ∨ toS lo ≥ 0) := by
        rw [toS_hi hhi e2]
        rintro (q | q)
        · exact nomatch q
        · omega
      rw [if_neg hm]
      by_cases hz : hi + 1 = K
      · rw [if_pos (hones.2 hz), Res.bind_ok]
        have hsv : sval size (lo + 18446744073709551616 * hi) = (lo : Int) - 18446744073709551616 := by
          unfold sval; rw [if_neg (by omega)]; omega
        rw [hsv, if_pos (by unfold InI; omega), toS_hi hhi e2]; rfl
      · rw [if_neg (fun q => hz (hones.1 q)), if_neg]
        · rfl
        · unfold InI sval
          split <;> omega

/-- Reading an unsigned integer. -/
theorem unpack_unsigned (hs : 0 < size) (h : pos + size ≤ data.length) :
    unpackint data pos little size false =
      if value (slice data pos little size) < 18446744073709551616
      then .ok (toS (value (slice data pos little size)))
      else .err "integer does not fit into Lua Integer" := by
  have hl := slice_length (little := little) h
  have hv := value_lt (slice data pos little size)
  rw [hl] at hv
  unfold unpackint SZINT
  dsimp only
  rcases Nat.lt_or_ge 8 size with h8 | h8
  · rw [if_neg (by omega), read_big h (by omega), Res.bind_ok, if_neg (by omega), if_pos h8,
      checkLoop_spec h (size - 8) 8 (by omega), if_pos (Or.inl rfl)]
    obtain ⟨e1, e2, e3, e4⟩ := value_split (little := little) h (by omega)
    have hzeros := zeros_iff (l := (slice data pos little size).drop 8)
    rw [e1]
    generalize value ((slice data pos little size).take 8) = lo at *
    generalize value ((slice data pos little size).drop 8) = hi at *
    by_cases hz : hi = 0
    · rw [if_pos (hzeros.2 hz), Res.bind_ok, if_pos (by omega), hz]; rfl
    · rw [if_neg (fun q => hz (hzeros.1 q)), if_neg (by omega)]; rfl
  · rw [if_pos h8, read_small h h8, Res.bind_ok]
    have : 256 ^ size ≤ 256 ^ 8 := Nat.pow_le_pow_right (by decide) h8
    rw [pow8] at this
    have hvv : value (slice data pos little size) < 18446744073709551616 := by omega
    rcases Nat.lt_or_ge size 8 with h9 | h9
    · rw [if_pos h9, if_neg (by simp), if_pos hvv]; rfl
    · rw [if_neg (by omega), if_neg (by omega), if_pos hvv]; rfl

end

theorem toU_nonneg {n : Int} (h : InI n) (h0 : 0 ≤ n) : (toU n : Int) = n := by
  unfold toU InI at *; omega

theorem toU_neg {n : Int} (h : InI n) (h0 : n < 0) : (toU n : Int) = n + 18446744073709551616 := by
  unfold toU InI at *; omega

theorem toU_lt (n : Int) : toU n < 18446744073709551616 := by
  unfold toU; omega

theorem toS_toU {n : Int} (h : InI n) : toS (toU n) = n := by
  have h1 := toU_lt n
  by_cases h0 : 0 ≤ n
  · have := toU_nonneg h h0
    unfold InI at h
    rw [toS_lo (by omega)]; exact this
  · have := toU_neg h (by omega)
    unfold InI at h
    rw [toS_hi (by omega) h1]; omega

theorem pow_le8 {size : Nat} (h : size ≤ 8) : 256 ^ size ≤ 18446744073709551616 := by
  rw [← pow8]; exact Nat.pow_le_pow_right (by decide) h

theorem mod_pow_self {n size : Nat} (h : n < 18446744073709551616) (h8 : 8 ≤ size) : n % 256 ^ size = n := by
  apply Nat.mod_eq_of_lt
  rw [pow_split h8]
  have hK : 1 ≤ 256 ^ (size - 8) := Nat.pow_pos (by decide)
  generalize 256 ^ (size - 8) = K at *
  omega

/-- The bytes written for a signed integer that fits stand for that integer. -/
theorem packed_signed {n : Int} (h : InI n) {size : Nat} (hs : 0 < size)
    (hfit : -(2 ^ (size * 8 - 1) : Int) ≤ n ∧ n < 2 ^ (size * 8 - 1)) :
    sval size (value (packed (toU n) size (n < 0))) = n := by
  have hp := pow_two hs
  have hpi := pow_int size
  have hti : ((2 ^ (size * 8 - 1) : Nat) : Int) = (2 : Int) ^ (size * 8 - 1) := by rw [Int.natCast_pow]; rfl
  rw [← hti] at hfit
  generalize hM : 2 ^ (size * 8 - 1) = M at *
  have hlt := toU_lt n
  rcases Nat.lt_or_ge 8 size with h8 | h8
  · have hps := pow_split (size := size) (by omega)
    have hK : 256 ≤ 256 ^ (size - 8) := by
      have := Nat.pow_le_pow_right (n := 256) (by decide) (show 1 ≤ size - 8 by omega)
      simpa using this
    by_cases h0 : n < 0
    · have hv : value (packed (toU n) size (decide (n < 0))) = toU n + 18446744073709551616 * (256 ^ (size - 8) - 1) := by
        unfold packed
        rw [if_pos ⟨by simpa using h0, h8⟩, value_append, value_bytes, bytes_length, pow8, Nat.mod_eq_of_lt hlt]
        have := value_ones (size - 8)
        have e : value (List.replicate (size - 8) 255) = 256 ^ (size - 8) - 1 := by omega
        rw [e]
      have hu := toU_neg h h0
      unfold InI at h
      rw [hv]
      unfold sval
      generalize 256 ^ (size - 8) = K at *
      rw [if_neg (by omega)]; omega
    · have hv : value (packed (toU n) size (decide (n < 0))) = toU n := by
        unfold packed
        rw [if_neg (fun q => h0 (by simpa using q.1)), value_bytes]
        exact mod_pow_self hlt (by omega)
      have hu := toU_nonneg h (by omega)
      unfold InI at h
      rw [hv]
      unfold sval
      generalize 256 ^ (size - 8) = K at *
      rw [if_pos (by omega)]; omega
  · have hle := pow_le8 h8
    have hv : value (packed (toU n) size (decide (n < 0))) = toU n % 256 ^ size := by
      unfold packed
      rw [if_neg (fun q => by omega), value_bytes]
    rw [hv]
    have hdvd : 256 ^ size ∣ 18446744073709551616 := by
      rw [← pow8]; exact Nat.pow_dvd_pow 256 h8
    obtain ⟨q, hq⟩ := hdvd
    unfold sval
    by_cases h0 : n < 0
    · have hu := toU_neg h h0
      have hmod : toU n % 256 ^ size = (n + 256 ^ size).toNat := by
        have e : toU n = (n + 256 ^ size).toNat + 256 ^ size * (q - 1) := by
          have : 256 ^ size * q = 256 ^ size * (q - 1) + 256 ^ size := by
            rw [← Nat.mul_succ]; congr 1
            have : q ≠ 0 := by intro e; subst e; omega
            omega
          generalize 256 ^ size * (q - 1) = X at *
          generalize 256 ^ size = P at *
          omega
        rw [e, Nat.add_mul_mod_self_left]
        apply Nat.mod_eq_of_lt
        omega
      rw [hmod, if_neg (by omega)]; omega
    · have hu := toU_nonneg h (by omega)
      have hmod : toU n % 256 ^ size = toU n := Nat.mod_eq_of_lt (by omega)
      rw [hmod, if_pos (by omega)]; exact hu

/-- The bytes written for an unsigned integer that fits stand for that integer. -/
theorem packed_unsigned {n : Nat} (h : n < 18446744073709551616) {size : Nat} (hfit : size < 8 → n < 256 ^ size) :
    value (packed n size false) = n := by
  unfold packed
  rw [if_neg (fun q => nomatch q.1), value_bytes]
  rcases Nat.lt_or_ge size 8 with h8 | h8
  · exact Nat.mod_eq_of_lt (hfit h8)
  · exact mod_pow_self h h8

theorem slice_append (a b c : List UInt8) (little : Bool) (size : Nat) (hb : b.length = size) :
    slice (a ++ order little b ++ c) a.length little size = b := by
  unfold slice
  have : ((a ++ order little b ++ c).drop a.length).take size = order little b := by
    rw [List.append_assoc, List.drop_left, ← hb, ← order_length little b, List.take_left]
  rw [this, order_order]

/-- Signed round trip: any size from 1 on, both byte orders, any surrounding data. -/
theorem signed_roundtrip (n : Int) (h : InI n) (size : Nat) (hs : 0 < size) (little : Bool)
    (hfit : -(2 ^ (size * 8 - 1) : Int) ≤ n ∧ n < 2 ^ (size * 8 - 1)) (buff before after : List UInt8)
    (hb : buff.length = size) :
    ∃ b, packint (toU n) little size (n < 0) buff = .ok b ∧ b.length = size ∧
      unpackint (before ++ b ++ after) before.length little size true = .ok n := by
  refine ⟨_, packint_spec _ little size _ buff hs hb, by rw [order_length, packed_length], ?_⟩
  rw [unpack_signed hs (by rw [List.length_append, List.length_append, order_length, packed_length]; omega),
    slice_append _ _ _ _ _ (packed_length ..), packed_signed h hs hfit, if_pos h]

/-- Unsigned round trip: the integer is taken as a number below 2^64 and comes back as the same
Lua integer. -/
theorem unsigned_roundtrip (n : Int) (h : InI n) (size : Nat) (hs : 0 < size) (little : Bool)
    (hfit : size < 8 → toU n < 256 ^ size) (buff before after : List UInt8) (hb : buff.length = size) :
    ∃ b, packint (toU n) little size false buff = .ok b ∧ b.length = size ∧
      unpackint (before ++ b ++ after) before.length little size false = .ok n := by
  refine ⟨_, packint_spec _ little size _ buff hs hb, by rw [order_length, packed_length], ?_⟩
  rw [unpack_unsigned hs (by rw [List.length_append, List.length_append, order_length, packed_length]; omega),
    slice_append _ _ _ _ _ (packed_length ..), packed_unsigned (toU_lt n) hfit, if_pos (toU_lt n), toS_toU h]

/-- A case: -2 in 3 bytes, big-endian, and in 16 bytes. -/
example : InI (-2) ∧ (-(2 ^ (3 * 8 - 1) : Int) ≤ -2 ∧ (-2 : Int) < 2 ^ (3 * 8 - 1)) ∧
    packint (toU (-2)) false 3 true [0, 0, 0] = .ok [255, 255, 254] := by decide

end Verif.Pack
