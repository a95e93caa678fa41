import Verif.Utf8.Model
/-!
Property C21 (UTF-8 encoding and decoding are inverse) and C54 (functions of the `utf8` library).
-/
namespace Verif.Utf8

theorem u8_forall {p : UInt8 → Prop} (h : ∀ n : Fin 256, p (UInt8.ofNat n.val)) (c : UInt8) : p c := by
  have := h ⟨c.toNat, UInt8.toNat_lt c⟩
  simpa using this

/-! ### specification -/

/-- continuation bytes carrying the lowest `6k` bits of `x` -/
def contBytes : Nat → Nat → List UInt8
  | 0, _ => []
  | k + 1, x => UInt8.ofNat (128 + x / 64 ^ k % 64) :: contBytes k x

/-- number of continuation bytes of the shortest encoding -/
def conts (x : Nat) : Nat :=
  if x < 0x80 then 0 else if x < 0x800 then 1 else if x < 0x10000 then 2 else if x < 0x200000 then 3 else if x < 0x4000000 then 4 else 5

/-- marker bits of the first byte -/
def base : Nat → Nat
  | 0 => 0
  | 1 => 192
  | 2 => 224
  | 3 => 240
  | 4 => 248
  | _ => 252

/-- the (extended, up to 31 bits) UTF-8 encoding of a code point -/
def enc (x : Nat) : List UInt8 := UInt8.ofNat (base (conts x) + x / 64 ^ conts x) :: contBytes (conts x) x

/-- encoding of a sequence of code points -/
def encs (xs : List Nat) : List UInt8 := (xs.map enc).flatten

/-- Unicode scalar values: the only ones accepted in strict mode -/
def Valid (x : Nat) : Prop := x ≤ 0x10FFFF ∧ ¬ (0xD800 ≤ x ∧ x ≤ 0xDFFF)

example : enc 0x20AC = [0xE2, 0x82, 0xAC] := by decide +kernel
example : enc 0x1F600 = [0xF0, 0x9F, 0x98, 0x80] := by decide +kernel

/-! ### encoding -/

theorem lowbits (x : Nat) : 128 ||| (x &&& 63) = 128 + x % 64 := by
  have h : x &&& 63 = x % 64 := Nat.and_two_pow_sub_one_eq_mod x 6
  rw [h]
  have := (Nat.two_pow_add_eq_or_of_lt (i := 7) (b := x % 64) (by omega) 1).symm
  simpa using this

theorem firstbyte (m : Nat) (x : Nat) (hm : m = 31 ∨ m = 15 ∨ m = 7 ∨ m = 3 ∨ m = 1) (hx : x ≤ m) :
    UInt8.ofNat ((((4294967295 - m) <<< 1) % 4294967296) ||| x) = UInt8.ofNat (256 - 2 * (m + 1) + x) := by
  have key : ∀ m ∈ [31, 15, 7, 3, 1], ∀ x : Fin 32, x.val ≤ m →
      UInt8.ofNat ((((4294967295 - m) <<< 1) % 4294967296) ||| x.val) = UInt8.ofNat (256 - 2 * (m + 1) + x.val) := by decide +kernel
  refine key m ?_ ⟨x, ?_⟩ hx
  · simp; omega
  · omega

theorem wr_ok (buff : List UInt8) (n : Nat) (b : Nat) (hb : buff.length = 8) (h1 : 1 ≤ n) (h2 : n ≤ 8) :
    wr buff ((buffSz : Int) - n) b = .ok (buff.set (8 - n) (UInt8.ofNat b)) := by
  unfold wr buffSz
  rw [if_pos (by omega), show (((8 : Nat) : Int) - (n : Int)).toNat = 8 - n by omega]

theorem set_drop (buff : List UInt8) (n : Nat) (b : UInt8) (hb : buff.length = 8) (h1 : 1 ≤ n) (h2 : n ≤ 8) :
    (buff.set (8 - n) b).drop (8 - n) = b :: buff.drop (8 - (n - 1)) := by
  rw [List.drop_eq_getElem_cons (by simp; omega), List.getElem_set_self, List.drop_set_of_lt (by omega)]
  congr 2; omega

theorem div_pow_succ (a b j : Nat) : a / b / b ^ j = a / b ^ (j + 1) := by rw [Nat.div_div_eq_div_mul, Nat.pow_succ']

theorem contBytes_snoc (k : Nat) : ∀ x, contBytes (k + 1) x = contBytes k (x / 64) ++ [UInt8.ofNat (128 + x % 64)] := by
  induction k with
  | zero => intro x; simp [contBytes]
  | succ k ih =>
    intro x
    rw [show contBytes (k + 1 + 1) x = UInt8.ofNat (128 + x / 64 ^ (k + 1) % 64) :: contBytes (k + 1) x from rfl, ih]
    rw [show contBytes (k + 1) (x / 64) = UInt8.ofNat (128 + x / 64 / 64 ^ k % 64) :: contBytes k (x / 64) from rfl, div_pow_succ]
    rfl

/-- `m / 2` is one of the masks of a first byte -/
def Mask (m : Nat) : Prop := m = 31 ∨ m = 15 ∨ m = 7 ∨ m = 3 ∨ m = 1

/-- loop of `luaO_utf8esc` writing `k + 1` continuation bytes and the first byte -/
theorem escLoop_spec (k : Nat) : ∀ (fuel : Nat) (buff : List UInt8) (n x m : Nat), buff.length = 8 → k < fuel → 1 ≤ n → n + k + 1 ≤ 8 →
    Mask (m / 2 ^ (k + 1)) →
    x / 64 ^ (k + 1) ≤ m / 2 ^ (k + 1) → (∀ j, j < k → m / 2 ^ (j + 1) < x / 64 ^ (j + 1)) →
    ∃ buff', escLoop fuel buff n x m = .ok (buff', n + k + 1) ∧
      buff'.drop (8 - (n + k + 1)) = UInt8.ofNat (256 - 2 * (m / 2 ^ (k + 1) + 1) + x / 64 ^ (k + 1)) :: contBytes (k + 1) x ++ buff.drop (8 - (n - 1)) := by
  induction k with
  | zero =>
    intro fuel buff n x m hb hf h1 h2 hm hle _
    obtain ⟨fuel, rfl⟩ : ∃ f, fuel = f + 1 := ⟨fuel - 1, by omega⟩
    unfold escLoop
    rw [wr_ok buff n _ hb h1 (by omega), Res.bind_ok]
    simp only [Nat.zero_add, Nat.pow_one] at hle hm
    dsimp only
    have e6 : x >>> 6 = x / 64 := Nat.shiftRight_eq_div_pow x 6
    have e1 : m >>> 1 = m / 2 := Nat.shiftRight_eq_div_pow m 1
    rw [e6, e1, if_neg (by omega), wr_ok _ (n + 1) _ (by simp [hb]) (by omega) (by omega), Res.bind_ok]
    refine ⟨_, rfl, ?_⟩
    rw [show n + 0 + 1 = n + 1 from rfl, set_drop _ (n + 1) _ (by simp [hb]) (by omega) (by omega), show n + 1 - 1 = n by omega, set_drop _ n _ hb h1 (by omega)]
    rw [firstbyte (m / 2) (x / 64) hm hle, lowbits]
    simp [contBytes]
  | succ k ih =>
    intro fuel buff n x m hb hf h1 h2 hm hle hlt
    obtain ⟨fuel, rfl⟩ : ∃ f, fuel = f + 1 := ⟨fuel - 1, by omega⟩
    unfold escLoop
    rw [wr_ok buff n _ hb h1 (by omega), Res.bind_ok]
    dsimp only
    have e6 : x >>> 6 = x / 64 := Nat.shiftRight_eq_div_pow x 6
    have e1 : m >>> 1 = m / 2 := Nat.shiftRight_eq_div_pow m 1
    have hgt := hlt 0 (by omega)
    simp only [Nat.zero_add, Nat.pow_one] at hgt
    rw [e6, e1, if_pos hgt]
    obtain ⟨buff', g1, g2⟩ := ih fuel (buff.set (8 - n) (UInt8.ofNat (128 ||| (x &&& 63)))) (n + 1) (x / 64) (m / 2) (by simp [hb]) (by omega)
      (by omega) (by omega) (by rw [div_pow_succ]; exact hm)
      (by rw [div_pow_succ, div_pow_succ]; exact hle) (fun j hj => by rw [div_pow_succ, div_pow_succ]; exact hlt (j + 1) (by omega))
    refine ⟨buff', by rw [g1, show n + 1 + k + 1 = n + (k + 1) + 1 by omega], ?_⟩
    rw [show n + (k + 1) + 1 = n + 1 + k + 1 by omega, g2, div_pow_succ, div_pow_succ]
    rw [show n + 1 - 1 = n by omega, set_drop _ n _ hb h1 (by omega), lowbits, contBytes_snoc (k + 1) x]
    simp

/-- **C21.** `utf8.char(x)` for every code point below `2^31` is the shortest encoding, of 1 to 6 bytes. -/
theorem char_enc (garbage : List UInt8) (hg : garbage.length = 8) (x : Nat) (hx : x < 2 ^ 31) : charBytes garbage x = .ok (enc x) := by
  unfold charBytes utf8esc
  by_cases h0 : x < 0x80
  · rw [if_pos h0, show ((buffSz : Int) - 1) = (buffSz : Int) - ((1 : Nat) : Int) from rfl, wr_ok garbage 1 x hg (by omega) (by omega)]
    simp only [Res.bind_ok, Res.pure_eq]
    have := set_drop garbage 1 (UInt8.ofNat x) hg (by omega) (by omega)
    unfold buffSz
    rw [this]
    simp [enc, conts, h0, base, contBytes, hg]
  · rw [if_neg h0]
    have main : ∀ k, k ≤ 4 → conts x = k + 1 → x / 64 ^ (k + 1) ≤ 63 / 2 ^ (k + 1) → (∀ j, j < k → 63 / 2 ^ (j + 1) < x / 64 ^ (j + 1)) →
        256 - 2 * (63 / 2 ^ (k + 1) + 1) = base (k + 1) →
        (do let (buff, n) ← escLoop 8 garbage 1 x 63; return buff.drop (buffSz - n) : Res (List UInt8)) = .ok (enc x) := by
      intro k hk hc hle hlt hb
      obtain ⟨b', g1, g2⟩ := escLoop_spec k 8 garbage 1 x 63 hg (by omega) (by omega) (by omega)
        (by rcases (by omega : k = 0 ∨ k = 1 ∨ k = 2 ∨ k = 3 ∨ k = 4) with rfl | rfl | rfl | rfl | rfl <;> (unfold Mask; omega)) hle hlt
      rw [g1]
      simp only [Res.bind_ok, Res.pure_eq]
      unfold buffSz
      rw [g2, hb]
      unfold enc
      rw [hc]
      simp [hg]
    unfold conts at main
    rw [if_neg h0] at main
    by_cases h1 : x < 0x800
    · exact main 0 (by omega) (by rw [if_pos h1]) (by omega) (by omega) rfl
    · rw [if_neg h1] at main
      by_cases h2 : x < 0x10000
      · exact main 1 (by omega) (by rw [if_pos h2]) (by omega) (by intro j hj; obtain rfl : j = 0 := by omega
                                                                   omega) rfl
      · rw [if_neg h2] at main
        by_cases h3 : x < 0x200000
        · exact main 2 (by omega) (by rw [if_pos h3]) (by omega)
            (by intro j hj; rcases (by omega : j = 0 ∨ j = 1) with rfl | rfl <;> omega) rfl
        · rw [if_neg h3] at main
          by_cases h4 : x < 0x4000000
          · exact main 3 (by omega) (by rw [if_pos h4]) (by omega)
              (by intro j hj; rcases (by omega : j = 0 ∨ j = 1 ∨ j = 2) with rfl | rfl | rfl <;> omega) rfl
          · rw [if_neg h4] at main
            exact main 4 (by omega) rfl (by omega)
              (by intro j hj; rcases (by omega : j = 0 ∨ j = 1 ∨ j = 2 ∨ j = 3) with rfl | rfl | rfl | rfl <;> omega) rfl

/-! ### decoding -/

/-- number of continuation bytes announced by a first byte -/
def lead (c : Nat) : Nat :=
  if c < 192 then 0 else if c < 224 then 1 else if c < 240 then 2 else if c < 248 then 3 else if c < 252 then 4 else if c < 254 then 5 else if c < 255 then 6 else 7

def IsCont (b : UInt8) : Prop := 128 ≤ b.toNat ∧ b.toNat < 192

instance (b : UInt8) : Decidable (IsCont b) := by unfold IsCont; infer_instance

theorem cont_test (b : UInt8) : (b.toNat &&& 0xC0 ≠ 0x80 ↔ ¬ IsCont b) ∧ b.toNat &&& 0x3F = b.toNat % 64 := by
  refine ⟨?_, Nat.and_two_pow_sub_one_eq_mod b.toNat 6⟩
  revert b; apply u8_forall; decide +kernel

theorem lead_bits (c : Nat) (h1 : 128 ≤ c) (h2 : c < 256) : ∀ j, j ≤ lead c → ((c * 2 ^ j) &&& 0x40 ≠ 0 ↔ j < lead c) := by
  have key : ∀ c : Fin 256, 128 ≤ c.val → ∀ j : Fin 8, j.val ≤ lead c.val → ((c.val * 2 ^ j.val) &&& 0x40 ≠ 0 ↔ j.val < lead c.val) := by decide +kernel
  intro j hj
  have : lead c ≤ 7 := by unfold lead; repeat' split
                          all_goals omega
  exact key ⟨c, h2⟩ h1 ⟨j, by omega⟩ hj

theorem lead_le (c : Nat) : lead c ≤ 7 := by
  unfold lead; repeat' split
  all_goals omega

/-- value accumulated from continuation bytes (32-bit) -/
def acc (a : Nat) (bs : List UInt8) : Nat := bs.foldl (fun a b => ((a <<< 6) % 4294967296) ||| (b.toNat &&& 0x3F)) a

/-- what the loop does: reads up to `lead c - j` continuation bytes -/
theorem contLoop_spec (c : Nat) (h1 : 128 ≤ c) (h2 : c < 256) : ∀ (k j fuel a : Nat) (l : List UInt8), j + k = lead c → k < fuel →
    (∃ bs rest, l = bs ++ rest ∧ bs.length = k ∧ (∀ b ∈ bs, IsCont b) ∧ contLoop fuel (c * 2 ^ j) j a l = .ok (some (c * 2 ^ lead c, lead c, acc a bs, rest))) ∨
    (∃ bs b rest, l = bs ++ b :: rest ∧ bs.length < k ∧ (∀ b ∈ bs, IsCont b) ∧ ¬ IsCont b ∧ contLoop fuel (c * 2 ^ j) j a l = .ok none) ∨
    (l.length < k ∧ (∀ b ∈ l, IsCont b) ∧ contLoop fuel (c * 2 ^ j) j a l = .ub)
  | 0, j, fuel, a, l, hj, hf => by
    obtain ⟨fuel, rfl⟩ : ∃ f, fuel = f + 1 := ⟨fuel - 1, by omega⟩
    refine .inl ⟨[], l, rfl, rfl, by simp, ?_⟩
    unfold contLoop
    rw [if_neg (by rw [lead_bits c h1 h2 j (by omega)]; omega), show j = lead c by omega]
    rfl
  | k + 1, j, fuel, a, l, hj, hf => by
    obtain ⟨fuel, rfl⟩ : ∃ f, fuel = f + 1 := ⟨fuel - 1, by omega⟩
    have hl := lead_le c
    unfold contLoop
    rw [if_pos ((lead_bits c h1 h2 j (by omega)).2 (by omega))]
    cases l with
    | nil => exact .inr (.inr ⟨by simp, by simp, rfl⟩)
    | cons b l =>
      dsimp only
      by_cases hb : IsCont b
      · rw [if_neg (by rw [(cont_test b).1]; exact fun h => h hb)]
        have hc : (c * 2 ^ j) <<< 1 % 4294967296 = c * 2 ^ (j + 1) := by
          rw [Nat.shiftLeft_eq, Nat.mul_assoc, ← Nat.pow_succ, Nat.mod_eq_of_lt]
          have : 2 ^ (j + 1) ≤ 2 ^ 8 := Nat.pow_le_pow_right (by omega) (by omega)
          calc c * 2 ^ (j + 1) < 256 * 2 ^ (j + 1) := Nat.mul_lt_mul_of_pos_right h2 (Nat.pow_pos (by omega))
            _ ≤ 256 * 2 ^ 8 := Nat.mul_le_mul_left _ this
            _ < 4294967296 := by decide
        rw [hc]
        rcases contLoop_spec c h1 h2 k (j + 1) fuel (((a <<< 6) % 4294967296) ||| (b.toNat &&& 0x3F)) l (by omega) (by omega) with
          ⟨bs, rest, g1, g2, g3, g4⟩ | ⟨bs, b', rest, g1, g2, g3, g4, g5⟩ | ⟨g1, g2, g3⟩
        · refine .inl ⟨b :: bs, rest, by rw [g1]; rfl, by simp [g2], ?_, g4⟩
          intro x hx
          rcases List.mem_cons.1 hx with rfl | hx
          · exact hb
          · exact g3 x hx
        · refine .inr (.inl ⟨b :: bs, b', rest, by rw [g1]; rfl, by simp; omega, ?_, g4, g5⟩)
          intro x hx
          rcases List.mem_cons.1 hx with rfl | hx
          · exact hb
          · exact g3 x hx
        · refine .inr (.inr ⟨by simp; omega, ?_, g3⟩)
          intro x hx
          rcases List.mem_cons.1 hx with rfl | hx
          · exact hb
          · exact g2 x hx
      · rw [if_pos ((cont_test b).1.2 hb)]
        exact .inr (.inl ⟨[], b, l, rfl, by simp, by simp, hb, rfl⟩)

/-- value of continuation bytes -/
def cval (a : Nat) (bs : List UInt8) : Nat := bs.foldl (fun a b => a * 64 + b.toNat % 64) a

theorem cval_bound : ∀ (bs : List UInt8) (a : Nat), cval a bs < (a + 1) * 64 ^ bs.length
  | [], a => by simp [cval]
  | b :: bs, a => by
    have := cval_bound bs (a * 64 + b.toNat % 64)
    have h2 : (a * 64 + b.toNat % 64 + 1) * 64 ^ bs.length ≤ (a + 1) * 64 * 64 ^ bs.length := Nat.mul_le_mul_right _ (by omega)
    rw [List.length_cons, Nat.pow_succ', ← Nat.mul_assoc]
    exact Nat.lt_of_lt_of_le this h2

theorem or_low (a b : Nat) (hb : b < 64) : (a * 64) ||| b = a * 64 + b := by
  have := Nat.two_pow_add_eq_or_of_lt (i := 6) (b := b) hb a
  rw [Nat.mul_comm a 64]
  exact this.symm

theorem acc_eq : ∀ (bs : List UInt8) (a : Nat), (a + 1) * 64 ^ bs.length ≤ 4294967296 → acc a bs = cval a bs
  | [], _, _ => rfl
  | b :: bs, a, h => by
    have hb : b.toNat % 64 < 64 := Nat.mod_lt _ (by decide)
    rw [List.length_cons, Nat.pow_succ', ← Nat.mul_assoc] at h
    have hp : 1 ≤ 64 ^ bs.length := Nat.pow_pos (by decide)
    have h64 : (a + 1) * 64 ≤ 4294967296 := Nat.le_trans (by
      have := Nat.mul_le_mul_left ((a + 1) * 64) hp
      simpa using this) h
    have step : ((a <<< 6) % 4294967296) ||| (b.toNat &&& 0x3F) = a * 64 + b.toNat % 64 := by
      rw [(cont_test b).2, Nat.shiftLeft_eq, Nat.mod_eq_of_lt (by omega), or_low _ _ hb]
    show acc (((a <<< 6) % 4294967296) ||| (b.toNat &&& 0x3F)) bs = cval (a * 64 + b.toNat % 64) bs
    rw [step]
    refine acc_eq bs _ (Nat.le_trans ?_ h)
    exact Nat.mul_le_mul_right _ (by omega)

theorem cval_cont (k : Nat) : ∀ x a, cval a (contBytes k x) = a * 64 ^ k + x % 64 ^ k := by
  induction k with
  | zero => intro x a; simp [contBytes, cval, Nat.mod_one]
  | succ k ih =>
    intro x a
    have hb : (UInt8.ofNat (128 + x / 64 ^ k % 64)).toNat % 64 = x / 64 ^ k % 64 := by
      rw [UInt8.toNat_ofNat']
      have : x / 64 ^ k % 64 < 64 := Nat.mod_lt _ (by decide)
      omega
    show cval (a * 64 + (UInt8.ofNat (128 + x / 64 ^ k % 64)).toNat % 64) (contBytes k x) = _
    rw [hb, ih]
    have e : x % 64 ^ (k + 1) = x % 64 ^ k + 64 ^ k * (x / 64 ^ k % 64) := by
      rw [Nat.pow_succ, Nat.mod_mul]
    rw [e, Nat.pow_succ, Nat.add_mul, Nat.mul_assoc, Nat.mul_comm 64 (64 ^ k), Nat.mul_comm (x / 64 ^ k % 64)]
    omega

theorem contBytes_isCont (k : Nat) : ∀ x, ∀ b ∈ contBytes k x, IsCont b := by
  induction k with
  | zero => intro x b hb; simp [contBytes] at hb
  | succ k ih =>
    intro x b hb
    rcases List.mem_cons.1 hb with rfl | hb
    · unfold IsCont
      rw [UInt8.toNat_ofNat']
      have : x / 64 ^ k % 64 < 64 := Nat.mod_lt _ (by decide)
      omega
    · exact ih x b hb

theorem contBytes_length (k : Nat) : ∀ x, (contBytes k x).length = k := by
  induction k with
  | zero => intro x; rfl
  | succ k ih => intro x; simp [contBytes, ih]

theorem contBytes_mod (k : Nat) : ∀ x y, x % 64 ^ k = y % 64 ^ k → contBytes k x = contBytes k y := by
  induction k with
  | zero => intro x y _; rfl
  | succ k ih =>
    intro x y h
    have e1 : x / 64 ^ k % 64 = y / 64 ^ k % 64 := by
      rw [Nat.pow_succ] at h
      have := congrArg (· / 64 ^ k) h
      simpa [Nat.mod_mul_right_div_self] using this
    have e2 : x % 64 ^ k = y % 64 ^ k := by
      have hd : 64 ^ k ∣ 64 ^ (k + 1) := ⟨64, by rw [Nat.pow_succ]⟩
      have := congrArg (· % 64 ^ k) h
      simpa [Nat.mod_mod_of_dvd _ hd] using this
    show _ :: _ = _ :: _
    rw [e1, ih x y e2]

/-- continuation bytes are determined by their value -/
theorem contBytes_cval : ∀ (bs : List UInt8) (a : Nat), (∀ b ∈ bs, IsCont b) → contBytes bs.length (cval a bs) = bs
  | [], _, _ => rfl
  | b :: bs, a, h => by
    have hb := h b (by simp)
    have ih := contBytes_cval bs (a * 64 + b.toNat % 64) (fun x hx => h x (by simp [hx]))
    have hc : cval a (b :: bs) = cval (a * 64 + b.toNat % 64) bs := rfl
    have hv : ∀ (bs : List UInt8) a, cval a bs = a * 64 ^ bs.length + cval 0 bs := by
      intro bs
      induction bs with
      | nil => intro a; simp [cval]
      | cons y bs ihy =>
        intro a
        show cval (a * 64 + y.toNat % 64) bs = _ + cval (0 * 64 + y.toNat % 64) bs
        rw [ihy, ihy (0 * 64 + y.toNat % 64), List.length_cons, Nat.pow_succ', Nat.add_mul, Nat.add_mul, ← Nat.mul_assoc]
        omega
    rw [hc]
    show UInt8.ofNat (128 + cval (a * 64 + b.toNat % 64) bs / 64 ^ bs.length % 64) :: contBytes bs.length _ = _
    rw [ih, hv bs (a * 64 + b.toNat % 64)]
    have hlt := cval_bound bs 0
    simp only [Nat.zero_add, Nat.one_mul] at hlt
    have hp : 0 < 64 ^ bs.length := Nat.pow_pos (by decide)
    have hq : ((a * 64 + b.toNat % 64) * 64 ^ bs.length + cval 0 bs) / 64 ^ bs.length = a * 64 + b.toNat % 64 := by
      rw [Nat.add_comm, Nat.add_mul_div_right _ _ hp, Nat.div_eq_of_lt hlt, Nat.zero_add]
    rw [hq]
    have : 128 + (a * 64 + b.toNat % 64) % 64 = b.toNat := by unfold IsCont at hb; omega
    rw [this]
    simp

/-- bits of the first byte -/
theorem first_bits (c : Nat) (h2 : c < 256) (h1 : 192 ≤ c) (h3 : c < 254) :
    ((c * 2 ^ lead c) &&& 0x7F) <<< (lead c * 5) % 4294967296 = (c - base (lead c)) * 64 ^ lead c ∧ base (lead c) ≤ c ∧ 1 ≤ lead c ∧ lead c ≤ 5 ∧
      c - base (lead c) < (if lead c = 5 then 2 else 2 ^ (6 - lead c)) ∧ c = base (lead c) + (c - base (lead c)) := by
  have key : ∀ c : Fin 256, 192 ≤ c.val → c.val < 254 → ((c.val * 2 ^ lead c.val) &&& 0x7F) <<< (lead c.val * 5) % 4294967296 = (c.val - base (lead c.val)) * 64 ^ lead c.val ∧
      base (lead c.val) ≤ c.val ∧ 1 ≤ lead c.val ∧ lead c.val ≤ 5 ∧ c.val - base (lead c.val) < (if lead c.val = 5 then 2 else 2 ^ (6 - lead c.val)) ∧ c.val = base (lead c.val) + (c.val - base (lead c.val)) := by
    decide +kernel
  exact key ⟨c, h2⟩ h1 h3

theorem or_high (a b k : Nat) (hb : b < 64 ^ k) : b ||| (a * 64 ^ k) = a * 64 ^ k + b := by
  have e : (64 : Nat) ^ k = 2 ^ (6 * k) := by rw [Nat.pow_mul]
  rw [e] at hb ⊢
  have := Nat.two_pow_add_eq_or_of_lt (i := 6 * k) (b := b) hb a
  rw [Nat.or_comm, Nat.mul_comm a]
  exact this.symm

/-- a code point with `k` continuation bytes exactly when it is at least the `k`-th limit and below the next -/
theorem conts_iff (k x : Nat) (hk : 1 ≤ k ∧ k ≤ 5) (hx : x < 2 ^ 31) (hlt : k = 5 ∨ x < (if k = 1 then 0x800 else if k = 2 then 0x10000 else if k = 3 then 0x200000 else 0x4000000)) :
    ∃ lim, limits[k]? = some lim ∧ (x < lim ↔ conts x ≠ k) := by
  rcases (by omega : k = 1 ∨ k = 2 ∨ k = 3 ∨ k = 4 ∨ k = 5) with rfl | rfl | rfl | rfl | rfl
  · exact ⟨0x80, rfl, by simp at hlt; unfold conts; repeat' split
                         all_goals omega⟩
  · exact ⟨0x800, rfl, by simp at hlt; unfold conts; repeat' split
                          all_goals omega⟩
  · exact ⟨0x10000, rfl, by simp at hlt; unfold conts; repeat' split
                            all_goals omega⟩
  · exact ⟨0x200000, rfl, by simp at hlt; unfold conts; repeat' split
                             all_goals omega⟩
  · exact ⟨0x4000000, rfl, by unfold conts; repeat' split
                              all_goals omega⟩

/-- shape of the input behind a first byte `c` -/
inductive Shape (k : Nat) (l : List UInt8) : Prop
  | full (bs rest : List UInt8) : l = bs ++ rest → bs.length = k → (∀ b ∈ bs, IsCont b) → Shape k l
  | bad (bs : List UInt8) (b : UInt8) (rest : List UInt8) : l = bs ++ b :: rest → bs.length < k → (∀ b ∈ bs, IsCont b) → ¬ IsCont b → Shape k l
  | short : l.length < k → (∀ b ∈ l, IsCont b) → Shape k l

/-- decoding a multi-byte sequence whose continuation bytes are all there -/
theorem decode_multi (strict : Bool) (c : UInt8) (h1 : 192 ≤ c.toNat) (h3 : c.toNat < 254) (bs rest : List UInt8) (hl : bs.length = lead c.toNat)
    (hb : ∀ b ∈ bs, IsCont b) :
    decode strict (c :: (bs ++ rest)) =
      (let x := (c.toNat - base (lead c.toNat)) * 64 ^ lead c.toNat + cval 0 bs
       if conts x = lead c.toNat then decodeEnd strict x rest else .ok none) ∧
    (c.toNat - base (lead c.toNat)) * 64 ^ lead c.toNat + cval 0 bs < 2 ^ 31 := by
  have h2 := UInt8.toNat_lt c
  obtain ⟨f1, f2, f3, f4, f5, -⟩ := first_bits c.toNat h2 h1 h3
  have hcv := cval_bound bs 0
  rw [hl] at hcv
  simp only [Nat.zero_add, Nat.one_mul] at hcv
  generalize hk : lead c.toNat = k at *
  have hx : (c.toNat - base k) * 64 ^ k + cval 0 bs < 2 ^ 31 ∧
      (k = 5 ∨ (c.toNat - base k) * 64 ^ k + cval 0 bs < (if k = 1 then 0x800 else if k = 2 then 0x10000 else if k = 3 then 0x200000 else 0x4000000)) := by
    rcases (by omega : k = 1 ∨ k = 2 ∨ k = 3 ∨ k = 4 ∨ k = 5) with rfl | rfl | rfl | rfl | rfl <;> simp at f5 hcv ⊢ <;> omega
  refine ⟨?_, hx.1⟩
  unfold decode
  dsimp only
  rw [if_neg (by omega)]
  rcases contLoop_spec c.toNat (by omega) h2 k 0 8 0 (bs ++ rest) (by omega) (by omega) with
    ⟨bs', rest', g1, g2, g3, g4⟩ | ⟨bs', b', rest', g1, g2, g3, g4, g5⟩ | ⟨g1, g2, g3⟩
  · have hbs : bs = bs' ∧ rest = rest' := List.append_inj g1 (by omega)
    obtain ⟨rfl, rfl⟩ := hbs
    rw [hk] at g4
    simp only [Nat.pow_zero, Nat.mul_one] at g4
    rw [g4, Res.bind_ok]
    dsimp only
    rw [if_neg (by omega)]
    have hacc : acc 0 bs = cval 0 bs := acc_eq bs 0 (by
      rw [g2]
      have : 64 ^ k ≤ 64 ^ 5 := Nat.pow_le_pow_right (by decide) f4
      omega)
    rw [hacc, f1, or_high _ _ _ hcv, if_neg (by omega)]
    obtain ⟨lim, k1, k2⟩ := conts_iff k _ ⟨f3, f4⟩ hx.1 hx.2
    rw [k1]
    dsimp only
    by_cases hc : conts ((c.toNat - base k) * 64 ^ k + cval 0 bs) = k
    · rw [if_neg (by rw [k2]; exact fun h => h hc), if_pos hc]
    · rw [if_pos (k2.2 hc), if_neg hc]; rfl
  · exfalso
    have hlt : bs'.length < bs.length := by omega
    have : (bs ++ rest)[bs'.length]? = some b' := by rw [g1]; simp
    rw [List.getElem?_append_left hlt, List.getElem?_eq_getElem hlt] at this
    exact g4 (Option.some.inj this ▸ hb _ (List.getElem_mem hlt))
  · simp only [List.length_append] at g1; omega

theorem strict_iff (strict : Bool) (x : Nat) : strictOk strict x = true ↔ (strict = true → Valid x) := by
  unfold strictOk Valid
  cases strict
  · simp
  · simp; omega

theorem decodeEnd_some (strict : Bool) (x y : Nat) (l r : List UInt8) : decodeEnd strict x l = .ok (some (y, r)) ↔ y = x ∧ r = l ∧ (strict = true → Valid x) := by
  unfold decodeEnd
  by_cases h : strictOk strict x = true
  · rw [if_pos h]
    constructor
    · intro e; cases e; exact ⟨rfl, rfl, (strict_iff strict _).1 h⟩
    · rintro ⟨rfl, rfl, _⟩; rfl
  · rw [if_neg h, strict_iff] at *
    simp
    intro _ _
    simpa using h

/-- the first byte of a long encoding announces its length -/
theorem enc_first (x : Nat) (hx : x < 2 ^ 31) (h0 : 0x80 ≤ x) :
    ∃ c : UInt8, enc x = c :: contBytes (conts x) x ∧ 192 ≤ c.toNat ∧ c.toNat < 254 ∧ lead c.toNat = conts x ∧ c.toNat = base (conts x) + x / 64 ^ conts x := by
  have hn : ∀ n, n < 256 → (UInt8.ofNat n).toNat = n := fun n h => by rw [UInt8.toNat_ofNat']; omega
  have key : ∀ k, 1 ≤ k → conts x = k → base k + x / 64 ^ k < 254 → 192 ≤ base k + x / 64 ^ k → lead (base k + x / 64 ^ k) = k →
      ∃ c : UInt8, enc x = c :: contBytes (conts x) x ∧ 192 ≤ c.toNat ∧ c.toNat < 254 ∧ lead c.toNat = conts x ∧ c.toNat = base (conts x) + x / 64 ^ conts x := by
    intro k _ hc h1 h2 h3
    refine ⟨UInt8.ofNat (base k + x / 64 ^ k), ?_, ?_, ?_, ?_, ?_⟩
    · unfold enc; rw [hc]
    all_goals rw [hn _ (by omega)]
    · exact h2
    · exact h1
    · rw [hc]; exact h3
    · rw [hc]
  unfold conts at key ⊢
  rw [if_neg (by omega)] at key ⊢
  by_cases h1 : x < 0x800
  · rw [if_pos h1] at key ⊢
    refine key 1 (by omega) rfl ?_ ?_ ?_ <;> simp only [base, Nat.pow_one] <;> first | omega | (unfold lead; repeat' split) <;> omega
  · rw [if_neg h1] at key ⊢
    by_cases h2 : x < 0x10000
    · rw [if_pos h2] at key ⊢
      refine key 2 (by omega) rfl ?_ ?_ ?_ <;> simp only [base] <;> first | omega | (unfold lead; repeat' split) <;> omega
    · rw [if_neg h2] at key ⊢
      by_cases h3 : x < 0x200000
      · rw [if_pos h3] at key ⊢
        refine key 3 (by omega) rfl ?_ ?_ ?_ <;> simp only [base] <;> first | omega | (unfold lead; repeat' split) <;> omega
      · rw [if_neg h3] at key ⊢
        by_cases h4 : x < 0x4000000
        · rw [if_pos h4] at key ⊢
          refine key 4 (by omega) rfl ?_ ?_ ?_ <;> simp only [base] <;> first | omega | (unfold lead; repeat' split) <;> omega
        · rw [if_neg h4] at key ⊢
          refine key 5 (by omega) rfl ?_ ?_ ?_ <;> simp only [base] <;> first | omega | (unfold lead; repeat' split) <;> omega

/-- **C21.** Decoding the encoding of `x`, followed by anything, gives back `x` and stops exactly behind it; in strict mode if and only if `x` is a Unicode
scalar value. -/
theorem decode_enc (strict : Bool) (x : Nat) (hx : x < 2 ^ 31) (rest : List UInt8) :
    decode strict (enc x ++ rest) = decodeEnd strict x rest := by
  by_cases h0 : x < 0x80
  · have hn : (UInt8.ofNat x).toNat = x := by rw [UInt8.toNat_ofNat']; omega
    simp only [enc, conts, if_pos h0, base, Nat.pow_zero, Nat.div_one, Nat.zero_add, contBytes, List.cons_append, List.nil_append]
    unfold decode
    dsimp only
    rw [hn, if_pos h0]
  · obtain ⟨c, e, h1, h2, h3, h4⟩ := enc_first x hx (by omega)
    rw [e, List.cons_append, (decode_multi strict c h1 h2 (contBytes (conts x) x) rest (by rw [contBytes_length, h3]) (contBytes_isCont _ _)).1]
    dsimp only
    rw [h3, cval_cont, show c.toNat - base (conts x) = x / 64 ^ conts x by rw [h4]; exact Nat.add_sub_cancel_left .., Nat.zero_mul, Nat.zero_add,
      show x / 64 ^ conts x * 64 ^ conts x + x % 64 ^ conts x = x by rw [Nat.mul_comm]; exact Nat.div_add_mod _ _, if_pos rfl]

theorem decode_enc_valid (strict : Bool) (x : Nat) (hx : x < 2 ^ 31) (rest : List UInt8) (h : strict = true → Valid x) :
    decode strict (enc x ++ rest) = .ok (some (x, rest)) := by
  rw [decode_enc strict x hx]
  exact (decodeEnd_some strict x x rest rest).2 ⟨rfl, rfl, h⟩

/-- **C21.** Whatever is accepted is the encoding of the result: no overlong form, no value of `2^31` or more, and in strict mode no surrogate and nothing
above `0x10FFFF`. -/
theorem decode_sound (strict : Bool) (s : List UInt8) (x : Nat) (rest : List UInt8) (h : decode strict s = .ok (some (x, rest))) :
    s = enc x ++ rest ∧ x < 2 ^ 31 ∧ (strict = true → Valid x) := by
  cases s with
  | nil => simp [decode] at h
  | cons c l =>
    by_cases h0 : c.toNat < 0x80
    · unfold decode at h
      dsimp only at h
      rw [if_pos h0, decodeEnd_some] at h
      obtain ⟨rfl, rfl, hv⟩ := h
      refine ⟨?_, by omega, hv⟩
      simp [enc, conts, h0, base, contBytes]
    · have h2 := UInt8.toNat_lt c
      by_cases hlow : c.toNat < 192
      · -- a lone continuation byte
        exfalso
        have hl : lead c.toNat = 0 := by unfold lead; rw [if_pos hlow]
        unfold decode at h
        dsimp only at h
        rw [if_neg h0] at h
        rcases contLoop_spec c.toNat (by omega) h2 0 0 8 0 l (by omega) (by omega) with
          ⟨bs, rest', g1, g2, g3, g4⟩ | ⟨bs', b', rest', g1, g2, g3, g4, g5⟩ | ⟨g1, g2, g3⟩
        · rw [hl] at g4
          simp only [Nat.pow_zero, Nat.mul_one] at g4
          have hbs : bs = [] := List.length_eq_zero_iff.1 g2
          subst hbs
          rw [g4, Res.bind_ok] at h
          dsimp only at h
          have hr : (acc 0 [] ||| (c.toNat &&& 127) <<< (0 * 5) % 4294967296) < 4294967295 := by
            have : ∀ c : Fin 256, (acc 0 [] ||| (c.val &&& 127) <<< (0 * 5) % 4294967296) < 4294967295 := by decide +kernel
            exact this ⟨c.toNat, h2⟩
          rw [if_neg (by omega)] at h
          split at h
          · cases h
          · simp only [limits, List.getElem?_cons_zero] at h
            rw [if_pos hr] at h
            cases h
        · omega
        · omega
      · by_cases hhi : c.toNat < 254
        · by_cases hfull : ∃ bs rest', l = bs ++ rest' ∧ bs.length = lead c.toNat ∧ ∀ b ∈ bs, IsCont b
          · obtain ⟨bs, rest', rfl, g2, g3⟩ := hfull
            obtain ⟨m1, m2⟩ := decode_multi strict c (by omega) hhi bs rest' g2 g3
            rw [m1] at h
            dsimp only at h
            obtain ⟨f1, f2, f3, f4, f5, f6⟩ := first_bits c.toNat h2 (by omega) hhi
            generalize hxv : (c.toNat - base (lead c.toNat)) * 64 ^ lead c.toNat + cval 0 bs = xv at *
            by_cases hc : conts xv = lead c.toNat
            · rw [if_pos hc, decodeEnd_some] at h
              obtain ⟨rfl, rfl, hv⟩ := h
              refine ⟨?_, m2, hv⟩
              have hcv := cval_bound bs 0
              rw [g2] at hcv
              simp only [Nat.zero_add, Nat.one_mul] at hcv
              have hp : 0 < 64 ^ lead c.toNat := Nat.pow_pos (by decide)
              unfold enc
              rw [hc]
              have hd : x / 64 ^ lead c.toNat = c.toNat - base (lead c.toNat) := by
                rw [← hxv, Nat.add_comm, Nat.add_mul_div_right _ _ hp, Nat.div_eq_of_lt hcv, Nat.zero_add]
              rw [hd, ← f6]
              have hm : contBytes (lead c.toNat) x = bs := by
                rw [contBytes_mod _ x (cval 0 bs) (by rw [← hxv, Nat.add_comm, Nat.add_mul_mod_self_right]), ← g2, contBytes_cval bs 0 g3]
              rw [hm]
              simp
            · rw [if_neg hc] at h; cases h
          · exfalso
            unfold decode at h
            dsimp only at h
            rw [if_neg h0] at h
            rcases contLoop_spec c.toNat (by omega) h2 (lead c.toNat) 0 8 0 l (by omega) (by have := lead_le c.toNat; omega) with
              ⟨bs, rest', g1, g2, g3, g4⟩ | ⟨bs', b', rest', g1, g2, g3, g4, g5⟩ | ⟨g1, g2, g3⟩
            · exact hfull ⟨bs, rest', g1, g2, g3⟩
            · simp only [Nat.pow_zero, Nat.mul_one] at g5
              rw [g5] at h; cases h
            · simp only [Nat.pow_zero, Nat.mul_one] at g3
              rw [g3] at h; cases h
        · exfalso
          unfold decode at h
          dsimp only at h
          rw [if_neg h0] at h
          have hl : 6 ≤ lead c.toNat := by
            rcases (by omega : c.toNat = 254 ∨ c.toNat = 255) with e | e <;> rw [e] <;> decide
          rcases contLoop_spec c.toNat (by omega) h2 (lead c.toNat) 0 8 0 l (by omega) (by have := lead_le c.toNat; omega) with
            ⟨bs, rest', g1, g2, g3, g4⟩ | ⟨bs', b', rest', g1, g2, g3, g4, g5⟩ | ⟨g1, g2, g3⟩
          · simp only [Nat.pow_zero, Nat.mul_one] at g4
            rw [g4, Res.bind_ok] at h
            dsimp only at h
            split at h
            · cases h
            · rw [if_pos (.inl (by omega))] at h; cases h
          · simp only [Nat.pow_zero, Nat.mul_one] at g5
            rw [g5] at h; cases h
          · simp only [Nat.pow_zero, Nat.mul_one] at g3
            rw [g3] at h; cases h

/-- **C21.** On a string object (bytes followed by the terminating zero) decoding stays inside the object.  The only undefined behaviour is a
shift by 35 of a 32-bit integer, for the byte `0xFF` followed by seven continuation bytes. -/
theorem decode_total (strict : Bool) (s : List UInt8) :
    (∃ r, decode strict (s ++ [0]) = .ok r) ∨
    (decode strict (s ++ [0]) = .ub ∧ ∃ bs rest, s = 255 :: (bs ++ rest) ∧ bs.length = 7 ∧ ∀ b ∈ bs, IsCont b) := by
  have h0c : ¬ IsCont 0 := by decide
  have hend : ∀ x l, ∃ r, decodeEnd strict x l = .ok r := by
    intro x l; unfold decodeEnd; split <;> exact ⟨_, rfl⟩
  cases s with
  | nil => left; unfold decode; dsimp only [List.nil_append]; rw [if_pos (by decide)]; exact hend _ _
  | cons c l =>
    have h2 := UInt8.toNat_lt c
    rw [List.cons_append]
    unfold decode
    dsimp only
    by_cases h0 : c.toNat < 0x80
    · rw [if_pos h0]; left; exact hend _ _
    · rw [if_neg h0]
      rcases contLoop_spec c.toNat (by omega) h2 (lead c.toNat) 0 8 0 (l ++ [0]) (by omega) (by have := lead_le c.toNat; omega) with
        ⟨bs, rest', g1, g2, g3, g4⟩ | ⟨bs', b', rest', g1, g2, g3, g4, g5⟩ | ⟨g1, g2, g3⟩
      · simp only [Nat.pow_zero, Nat.mul_one] at g4
        rw [g4, Res.bind_ok]
        dsimp only
        by_cases hs : 32 ≤ lead c.toNat * 5
        · rw [if_pos hs]
          right
          refine ⟨rfl, ?_⟩
          have h7 : lead c.toNat = 7 := by have := lead_le c.toNat; omega
          have hff : c = 255 := by
            have : c.toNat = 255 := by
              unfold lead at h7
              by_cases h : c.toNat < 255
              · exfalso; revert h7; repeat' split
                all_goals omega
              · omega
            exact UInt8.toNat_inj.1 this
          rw [h7] at g2
          have hlen : bs.length ≤ l.length := by
            rcases Nat.lt_or_ge l.length bs.length with hgt | hle
            · exfalso
              have hidx : l.length < bs.length := hgt
              have : (l ++ [0])[l.length]? = some 0 := by simp
              rw [g1, List.getElem?_append_left hidx, List.getElem?_eq_getElem hidx] at this
              exact h0c (Option.some.inj this ▸ g3 _ (List.getElem_mem hidx))
            · exact hle
          refine ⟨bs, l.drop bs.length, ?_, g2, g3⟩
          have : bs = l.take bs.length := by
            have := congrArg (List.take bs.length) g1
            rw [List.take_append_of_le_length hlen] at this
            simpa using this.symm
          rw [hff]
          congr 1
          conv => lhs; rw [← List.take_append_drop bs.length l]
          rw [← this]
        · rw [if_neg hs]
          left
          split
          · exact ⟨_, rfl⟩
          · rename_i hn
            have : lead c.toNat < limits.length := by simp [limits]; omega
            rw [List.getElem?_eq_getElem this]
            dsimp only
            split
            · exact ⟨_, rfl⟩
            · exact hend _ _
      · simp only [Nat.pow_zero, Nat.mul_one] at g5
        left; rw [g5]; exact ⟨_, rfl⟩
      · exfalso; exact h0c (g2 0 (by simp))

/-- the undefined shift is reachable from Lua: `utf8.len("\xff\x80\x80\x80\x80\x80\x80\x80")` -/
theorem decode_undefined_shift : ∃ s : List UInt8, decode true (s ++ [0]) = .ub ∧ utflen s 1 (-1) false = .ub :=
  ⟨[0xff, 0x80, 0x80, 0x80, 0x80, 0x80, 0x80, 0x80], by decide +kernel, by decide +kernel⟩

example : decode true [0xE2, 0x82, 0xAC, 0] = .ok (some (0x20AC, [0])) := decode_enc_valid true 0x20AC (by decide) [0] (fun _ => by unfold Valid; omega)
example : decode false (enc 0x7FFFFFFF ++ [0]) = .ok (some (0x7FFFFFFF, [0])) := decode_enc_valid false _ (by decide) _ (by simp)
/-- overlong encoding of "/" -/
example : decode false [0xC0, 0xAF, 0] = .ok none := by decide +kernel

end Verif.Utf8
