import Verif.Pack.Model

/-! Bytes and numbers, and what `packint` and `unpackint` do with them. -/
namespace Verif.Pack
open Verif.StrLib (rd wr mem rdN)

/-- Least significant byte first, or last. -/
def order (little : Bool) (bs : List UInt8) : List UInt8 := if little then bs else bs.reverse

theorem order_length (little : Bool) (bs : List UInt8) : (order little bs).length = bs.length := by
  unfold order; split <;> simp

theorem order_order (little : Bool) (bs : List UInt8) : order little (order little bs) = bs := by
  unfold order; split <;> simp

theorem at_lt {little : Bool} {size i : Nat} (h : i < size) : at_ little size i < size := by
  unfold at_; split <;> omega

theorem at_at {little : Bool} {size i : Nat} (h : i < size) : at_ little size (at_ little size i) = i := by
  unfold at_; split <;> omega

theorem at_inj {little : Bool} {size i j : Nat} (hi : i < size) (hj : j < size) (h : at_ little size i = at_ little size j) :
    i = j := by
  rw [← at_at (little := little) hi, h, at_at hj]

theorem order_get {little : Bool} {bs : List UInt8} {i : Nat} (h : i < bs.length) :
    (order little bs)[at_ little bs.length i]? = bs[i]? := by
  unfold order at_
  cases little with
  | true => rfl
  | false =>
    simp only [Bool.false_eq_true, if_false]
    rw [List.getElem?_reverse (by omega)]
    congr 1; omega

theorem ext_at {little : Bool} {size : Nat} {a b : List UInt8} (ha : a.length = size) (hb : b.length = size)
    (h : ∀ i, i < size → a[at_ little size i]? = b[at_ little size i]?) : a = b := by
  apply List.ext_getElem?
  intro i
  by_cases hi : i < size
  · have := h (at_ little size i) (at_lt hi)
    rw [at_at hi] at this; exact this
  · rw [List.getElem?_eq_none (by omega), List.getElem?_eq_none (by omega)]

theorem bytes_length (k n : Nat) : (bytes k n).length = k := by
  induction k generalizing n with
  | zero => rfl
  | succ k ih => simp [bytes, ih]

theorem bytes_get {k n i : Nat} (h : i < k) : (bytes k n)[i]? = some (UInt8.ofNat ((n >>> (8 * i)) % 256)) := by
  induction k generalizing n i with
  | zero => omega
  | succ k ih =>
    cases i with
    | zero => simp [bytes]
    | succ i =>
      unfold bytes
      rw [List.getElem?_cons_succ, ih (by omega)]
      congr 3
      rw [Nat.shiftRight_eq_div_pow, Nat.shiftRight_eq_div_pow, Nat.mul_add, Nat.pow_add, Nat.mul_comm (2 ^ (8 * i)),
        ← Nat.div_div_eq_div_mul]

theorem value_append (a b : List UInt8) : value (a ++ b) = value a + 256 ^ a.length * value b := by
  induction a with
  | nil => simp [value]
  | cons x a ih =>
    simp only [List.cons_append, value, List.length_cons, ih, Nat.pow_succ]
    rw [Nat.mul_add, Nat.mul_comm (256 ^ a.length) 256, Nat.mul_assoc, Nat.add_assoc]

theorem value_lt (l : List UInt8) : value l < 256 ^ l.length := by
  induction l with
  | nil => simp [value]
  | cons b l ih =>
    have := b.toNat_lt
    simp only [value, List.length_cons, Nat.pow_succ]
    omega

theorem value_bytes (k n : Nat) : value (bytes k n) = n % 256 ^ k := by
  induction k generalizing n with
  | zero => simp [bytes, value, Nat.mod_one]
  | succ k ih =>
    simp only [bytes, value, ih]
    rw [Nat.pow_succ, Nat.mul_comm (256 ^ k) 256, Nat.mod_mul]
    have : (UInt8.ofNat (n % 256)).toNat = n % 256 := by
      rw [UInt8.toNat_ofNat']; omega
    rw [this]

theorem value_inj : ∀ {a b : List UInt8}, a.length = b.length → value a = value b → a = b := by
  intro a
  induction a with
  | nil => intro b h _; exact (List.length_eq_zero_iff.1 h.symm).symm
  | cons x a ih =>
    intro b h hv
    cases b with
    | nil => simp at h
    | cons y b =>
      simp only [value] at hv
      have h1 := x.toNat_lt
      have h2 := y.toNat_lt
      have h3 : x.toNat = y.toNat := by omega
      have h4 : value a = value b := by omega
      rw [UInt8.toNat_inj.1 h3, ih (by simpa using h) h4]

theorem value_zeros (k : Nat) : value (List.replicate k 0) = 0 := by
  induction k with
  | zero => rfl
  | succ k ih => rw [List.replicate_succ]; simp [value, ih]

theorem value_ones (k : Nat) : value (List.replicate k 255) + 1 = 256 ^ k := by
  induction k with
  | zero => rfl
  | succ k ih =>
    rw [List.replicate_succ]
    simp only [value, Nat.pow_succ]
    have : (255 : UInt8).toNat = 255 := rfl
    omega

theorem wr_ok {buff : List UInt8} {i : Nat} {b : UInt8} (h : i < buff.length) : wr buff i b = .ok (buff.set i b) := by
  unfold wr; rw [if_pos h]

theorem packLoop_spec (little : Bool) (size : Nat) : ∀ (k i n : Nat) (buff : List UInt8), i + k = size → buff.length = size →
    ∃ r, packLoop little size k i n buff = .ok r ∧ r.length = size ∧ ∀ j, j < size → r[at_ little size j]? =
      if j < i then buff[at_ little size j]? else some (UInt8.ofNat ((n >>> (8 * (j - i + 1))) % 256)) := by
  intro k
  induction k with
  | zero =>
    intro i n buff hi hb
    exact ⟨buff, rfl, hb, fun j hj => by rw [if_pos (by omega)]⟩
  | succ k ih =>
    intro i n buff hi hb
    have hai : at_ little size i < buff.length := by rw [hb]; exact at_lt (by omega)
    unfold packLoop
    dsimp only
    rw [wr_ok hai, Res.bind_ok]
    obtain ⟨r, r1, r2, r3⟩ := ih (i + 1) (n >>> 8) (buff.set (at_ little size i) (UInt8.ofNat (n >>> 8 &&& MC)))
      (by omega) (by rw [List.length_set]; exact hb)
    refine ⟨r, r1, r2, ?_⟩
    intro j hj
    rw [r3 j hj]
    by_cases h1 : j < i
    · rw [if_pos (by omega), if_pos h1, List.getElem?_set_ne]
      intro e
      have := at_inj (by omega) hj e
      omega
    · rw [if_neg h1]
      by_cases h2 : j = i
      · subst h2
        rw [if_pos (by omega), List.getElem?_set_self hai]
        have : MC = 2 ^ 8 - 1 := rfl
        rw [this, Nat.and_two_pow_sub_one_eq_mod, Nat.sub_self]
      · rw [if_neg (by omega), ← Nat.shiftRight_add, show 8 + 8 * (j - (i + 1) + 1) = 8 * (j - i + 1) by omega]

theorem extLoop_spec (little : Bool) (size : Nat) : ∀ (k i : Nat) (buff : List UInt8), i + k = size → buff.length = size →
    ∃ r, extLoop little size k i buff = .ok r ∧ r.length = size ∧ ∀ j, j < size → r[at_ little size j]? =
      if j < i then buff[at_ little size j]? else some 255 := by
  intro k
  induction k with
  | zero =>
    intro i buff hi hb
    exact ⟨buff, rfl, hb, fun j hj => by rw [if_pos (by omega)]⟩
  | succ k ih =>
    intro i buff hi hb
    have hai : at_ little size i < buff.length := by rw [hb]; exact at_lt (by omega)
    unfold extLoop
    rw [wr_ok hai, Res.bind_ok]
    obtain ⟨r, r1, r2, r3⟩ := ih (i + 1) (buff.set (at_ little size i) (UInt8.ofNat MC))
      (by omega) (by rw [List.length_set]; exact hb)
    refine ⟨r, r1, r2, ?_⟩
    intro j hj
    rw [r3 j hj]
    by_cases h1 : j < i
    · rw [if_pos (by omega), if_pos h1, List.getElem?_set_ne]
      intro e
      have := at_inj (by omega) hj e
      omega
    · rw [if_neg h1]
      by_cases h2 : j = i
      · subst h2
        rw [if_pos (by omega), List.getElem?_set_self hai]; rfl
      · rw [if_neg (by omega)]

/-- The bytes of a packed integer, least significant first. -/
def packed (n size : Nat) (neg : Bool) : List UInt8 :=
  if neg ∧ size > 8 then bytes 8 n ++ List.replicate (size - 8) 255 else bytes size n

theorem packed_length (n size : Nat) (neg : Bool) : (packed n size neg).length = size := by
  unfold packed
  split
  · next h => rw [List.length_append, bytes_length, List.length_replicate]; omega
  · exact bytes_length _ _

theorem packint_spec (n : Nat) (little : Bool) (size : Nat) (neg : Bool) (buff : List UInt8) (hs : 0 < size)
    (hb : buff.length = size) : packint n little size neg buff = .ok (order little (packed n size neg)) := by
  have hai : at_ little size 0 < buff.length := by rw [hb]; exact at_lt hs
  unfold packint
  rw [wr_ok hai, Res.bind_ok]
  obtain ⟨r, r1, r2, r3⟩ := packLoop_spec little size (size - 1) 1 n (buff.set (at_ little size 0) (UInt8.ofNat (n &&& MC)))
    (by omega) (by rw [List.length_set]; exact hb)
  rw [r1, Res.bind_ok]
  have hr : ∀ j, j < size → r[at_ little size j]? = some (UInt8.ofNat ((n >>> (8 * j)) % 256)) := by
    intro j hj
    rw [r3 j hj]
    by_cases h0 : j = 0
    · subst h0
      rw [if_pos (by omega), List.getElem?_set_self hai]
      have : MC = 2 ^ 8 - 1 := rfl
      rw [this, Nat.and_two_pow_sub_one_eq_mod]; simp
    · rw [if_neg (by omega)]
      congr 5; omega
  have hord : ∀ j, j < size → (order little (packed n size neg))[at_ little size j]? = (packed n size neg)[j]? := by
    intro j hj
    have := order_get (little := little) (bs := packed n size neg) (i := j) (by rw [packed_length]; exact hj)
    rw [packed_length] at this; exact this
  by_cases hc : neg = true ∧ size > SZINT
  · rw [if_pos hc]
    have hc' : neg = true ∧ size > 8 := hc
    obtain ⟨q, q1, q2, q3⟩ := extLoop_spec little size (size - SZINT) SZINT r (by have := hc.2; omega) r2
    rw [q1]
    congr 1
    refine ext_at q2 (by rw [order_length, packed_length]) (little := little) ?_
    intro j hj
    rw [hord j hj, q3 j hj]
    have hS : SZINT = 8 := rfl
    unfold packed
    rw [if_pos hc', hS]
    by_cases h8 : j < 8
    · rw [if_pos h8, hr j hj, List.getElem?_append_left (by rw [bytes_length]; exact h8), bytes_get h8]
    · rw [if_neg h8, List.getElem?_append_right (by rw [bytes_length]; omega), bytes_length, List.getElem?_replicate,
        if_pos (by omega)]
  · rw [if_neg hc]
    have hc' : ¬ (neg = true ∧ size > 8) := hc
    show Res.ok r = _
    congr 1
    refine ext_at r2 (by rw [order_length, packed_length]) (little := little) ?_
    intro j hj
    rw [hord j hj, hr j hj]
    unfold packed
    rw [if_neg hc', bytes_get hj]

/-! ### Reading -/

/-- The bytes of the item at `pos`, least significant first. -/
def slice (data : List UInt8) (pos : Nat) (little : Bool) (size : Nat) : List UInt8 :=
  order little ((data.drop pos).take size)

theorem slice_length {data : List UInt8} {pos size : Nat} {little : Bool} (h : pos + size ≤ data.length) :
    (slice data pos little size).length = size := by
  unfold slice; rw [order_length, List.length_take, List.length_drop]; omega

theorem rd_slice {data : List UInt8} {pos size i : Nat} {little : Bool} (h : pos + size ≤ data.length) (hi : i < size) :
    ∃ b, (slice data pos little size)[i]? = some b ∧ rd (mem data) (pos + at_ little size i) = .ok b := by
  have hl := slice_length (little := little) h
  have hb : i < (slice data pos little size).length := by rw [hl]; exact hi
  refine ⟨(slice data pos little size)[i], List.getElem?_eq_getElem hb, ?_⟩
  have hat := at_lt (little := little) hi
  have hg := order_get (little := little) (bs := slice data pos little size) hb
  rw [hl] at hg
  have e : order little (slice data pos little size) = (data.drop pos).take size := by
    unfold slice; rw [order_order]
  rw [e, List.getElem?_take, if_pos hat, List.getElem?_drop, List.getElem?_eq_getElem hb] at hg
  unfold rd mem
  rw [List.getElem?_append_left (by omega), hg]

theorem value_take_succ {l : List UInt8} {i : Nat} {b : UInt8} (h : l[i]? = some b) :
    value (l.take (i + 1)) = value (l.take i) + 256 ^ i * b.toNat := by
  have hi : i < l.length := (List.getElem?_eq_some_iff.1 h).1
  rw [List.take_add_one, h, value_append, List.length_take, Nat.min_eq_left (by omega)]
  simp [value]

theorem readLoop_spec {data : List UInt8} {pos size : Nat} {little : Bool} (h : pos + size ≤ data.length) :
    ∀ (i res : Nat), i ≤ size → i ≤ 8 → res < 256 ^ (8 - i) →
    readLoop data pos little size i res = .ok (res * 256 ^ i + value ((slice data pos little size).take i)) := by
  intro i
  induction i with
  | zero => intro res _ _ _; simp [readLoop, value]
  | succ i ih =>
    intro res hi h8 hres
    obtain ⟨b, b1, b2⟩ := rd_slice (little := little) h (i := i) (by omega)
    unfold readLoop
    rw [b2, Res.bind_ok]
    have hb := b.toNat_lt
    have hpow : 256 ^ (8 - i) = 256 ^ (8 - (i + 1)) * 256 := by
      rw [← Nat.pow_succ]; congr 1; omega
    have hle : 256 ^ (8 - i) ≤ 18446744073709551616 := by
      have : (18446744073709551616 : Nat) = 256 ^ 8 := by decide
      rw [this]; exact Nat.pow_le_pow_right (by decide) (by omega)
    have hsh : uw (res <<< 8) = res * 256 := by
      unfold uw
      rw [Nat.shiftLeft_eq, Nat.mod_eq_of_lt]
      have : (2 : Nat) ^ 8 = 256 := rfl
      rw [this]; omega
    have hor : uw (res <<< 8) ||| b.toNat = res * 256 + b.toNat := by
      rw [hsh]
      have : res * 256 = res <<< 8 := by rw [Nat.shiftLeft_eq]
      rw [this, Nat.shiftLeft_add_eq_or_of_lt (by simpa using hb)]
    rw [hor, ih (res * 256 + b.toNat) (by omega) (by omega) (by omega), value_take_succ b1]
    congr 1
    rw [Nat.pow_succ, Nat.add_mul, Nat.mul_assoc, Nat.mul_comm 256 (256 ^ i), Nat.mul_comm b.toNat]
    omega

theorem checkLoop_spec {data : List UInt8} {pos size mask : Nat} {little : Bool} (h : pos + size ≤ data.length) :
    ∀ (k i : Nat), i + k = size →
    checkLoop data pos little size mask k i =
      if ∀ b ∈ (slice data pos little size).drop i, b.toNat = mask then .ok ()
      else .err "integer does not fit into Lua Integer" := by
  intro k
  induction k with
  | zero =>
    intro i hi
    have hd : (slice data pos little size).drop i = [] := List.drop_eq_nil_of_le (by rw [slice_length h]; omega)
    rw [hd, if_pos (fun b hb => nomatch hb)]; rfl
  | succ k ih =>
    intro i hi
    obtain ⟨b, b1, b2⟩ := rd_slice (little := little) h (i := i) (by omega)
    unfold checkLoop
    rw [b2, Res.bind_ok]
    obtain ⟨hlt, b1'⟩ := List.getElem?_eq_some_iff.1 b1
    have hd : (slice data pos little size).drop i = b :: (slice data pos little size).drop (i + 1) := by
      rw [List.drop_eq_getElem_cons hlt, b1']
    rw [hd]
    by_cases hb : b.toNat = mask
    · rw [if_neg (by simpa using hb), ih (i + 1) (by omega)]
      by_cases hall : ∀ x ∈ (slice data pos little size).drop (i + 1), x.toNat = mask
      · rw [if_pos hall, if_pos]
        intro x hx
        rcases List.mem_cons.1 hx with e | e
        · rw [e]; exact hb
        · exact hall x e
      · rw [if_neg hall, if_neg]
        intro hh
        exact hall (fun x hx => hh x (List.mem_cons_of_mem _ hx))
    · rw [if_pos hb, if_neg]
      intro hh
      exact hb (hh b (List.mem_cons_self ..))

theorem all_eq_iff {l : List UInt8} {m : UInt8} : (∀ b ∈ l, b.toNat = m.toNat) ↔ l = List.replicate l.length m := by
  rw [List.eq_replicate_iff]
  constructor
  · intro h; exact ⟨rfl, fun b hb => UInt8.toNat_inj.1 (h b hb)⟩
  · intro h b hb; rw [h.2 b hb]

theorem xor_pow_lo {a k : Nat} (h : a < 2 ^ k) : a ^^^ 2 ^ k = 2 ^ k + a := by
  apply Nat.eq_of_testBit_eq
  intro i
  rw [Nat.testBit_xor, Nat.testBit_two_pow]
  by_cases h1 : i = k
  · subst h1
    rw [Nat.testBit_two_pow_add_eq, Nat.testBit_lt_two_pow h]; simp
  · by_cases h2 : i < k
    · rw [Nat.testBit_two_pow_add_gt h2, decide_eq_false (by omega)]; simp
    · have hk : 2 ^ (k + 1) ≤ 2 ^ i := Nat.pow_le_pow_right (by decide) (by omega)
      rw [Nat.pow_succ] at hk
      rw [Nat.testBit_lt_two_pow (show a < 2 ^ i by omega), Nat.testBit_lt_two_pow (show 2 ^ k + a < 2 ^ i by omega),
        decide_eq_false (by omega)]
      rfl

theorem xor_pow_hi {a k : Nat} (h1 : 2 ^ k ≤ a) (h2 : a < 2 ^ (k + 1)) : a ^^^ 2 ^ k = a - 2 ^ k := by
  have h3 : a - 2 ^ k < 2 ^ k := by rw [Nat.pow_succ] at h2; omega
  have := xor_pow_lo h3
  have e : a = (a - 2 ^ k) ^^^ 2 ^ k := by rw [this]; omega
  rw [e, Nat.xor_assoc, Nat.xor_self, Nat.xor_zero, ← e]

end Verif.Pack
