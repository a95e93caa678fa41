import Verif.Pack.Ints

/-! Lemmas about the format engine of `string.pack`/`string.unpack`. -/
namespace Verif.Pack
open Verif.StrLib (rd wr mem rdN posrelatI)

theorem digit_le {c : UInt8} (h : digit c = true) : c.toNat - 48 ≤ 9 := by
  unfold digit at h
  rw [Bool.and_eq_true, decide_eq_true_eq, decide_eq_true_eq] at h
  omega

theorem getnumLoop_ok : ∀ (fmt : List UInt8) (a : Nat), a ≤ 2147483647 →
    ∃ n rest, getnumLoop a fmt = .ok (n, rest) ∧ n ≤ 2147483647 ∧ rest.length ≤ fmt.length := by
  intro fmt
  induction fmt with
  | nil => intro a h; exact ⟨a, [], rfl, h, Nat.le_refl _⟩
  | cons c cs ih =>
    intro a h
    unfold getnumLoop
    split
    · rename_i hc
      rw [Bool.and_eq_true, decide_eq_true_eq] at hc
      have hd := digit_le hc.1
      have h2 := hc.2
      unfold MAXSIZE at h2
      have hb : a * 10 + (c.toNat - 48) ≤ 2147483647 := by omega
      obtain ⟨n, rest, e, h1, h2⟩ := ih _ hb
      refine ⟨n, rest, ?_, h1, by rw [List.length_cons]; omega⟩
      unfold int32
      rw [if_pos hb, Res.bind_ok, e]
    · exact ⟨a, c :: cs, rfl, h, Nat.le_refl _⟩

theorem getnum_ok (fmt : List UInt8) : ∃ n rest, getnum fmt = .ok (n, rest) ∧ (∀ k, n = some k → k ≤ 2147483647) ∧
    rest.length ≤ fmt.length := by
  unfold getnum
  split
  · exact ⟨none, _, rfl, nofun, Nat.le_refl _⟩
  · split
    · obtain ⟨n, rest, e, h1, h2⟩ := getnumLoop_ok (_ :: _) 0 (by omega)
      rw [e, Res.bind_ok]
      exact ⟨some n, rest, rfl, fun k q => by injection q with q; omega, h2⟩
    · exact ⟨none, _, rfl, nofun, Nat.le_refl _⟩

theorem getnumlimit_ok (fmt : List UInt8) (df : Nat) :
    (∃ n rest, getnumlimit fmt df = .ok (n, rest) ∧ 0 < n ∧ n ≤ 16 ∧ rest.length ≤ fmt.length) ∨
    (∃ e, getnumlimit fmt df = .err e) := by
  obtain ⟨n, rest, e, _, h2⟩ := getnum_ok fmt
  unfold getnumlimit MAXINTSIZE
  rw [e, Res.bind_ok]
  dsimp only
  by_cases h : n.getD df > 16 ∨ n.getD df = 0
  · rw [if_pos h]; exact Or.inr ⟨_, rfl⟩
  · rw [if_neg h]; exact Or.inl ⟨_, _, rfl, by omega, by omega, h2⟩

/-- The sizes each option can have. -/
def SizeOk : KOption → Nat → Prop
  | .int, n | .uint, n | .string, n => 0 < n ∧ n ≤ 16
  | .float, n => n = 4 ∨ n = 8
  | .char, n => n ≤ 2147483647
  | .padding, n => n = 1
  | .zstr, n | .paddalign, n | .nop, n => n = 0

def HdrOk (h : Header) : Prop := 0 < h.maxalign ∧ h.maxalign ≤ 16

theorem getoption_ok (native : Bool) (h : Header) (hh : HdrOk h) (fmt : List UInt8) (hf : fmt ≠ []) :
    (∃ opt size h' rest, getoption native h fmt = .ok (opt, size, h', rest) ∧ SizeOk opt size ∧ HdrOk h' ∧
      rest.length < fmt.length) ∨ (∃ e, getoption native h fmt = .err e) := by
  cases fmt with
  | nil => exact absurd rfl hf
  | cons c fmt =>
    have hl : fmt.length < (c :: fmt).length := by simp
    have lim : ∀ (f : Nat → KOption × Nat × Header) (df : Nat),
        (∀ n, 0 < n → n ≤ 16 → SizeOk (f n).1 (f n).2.1 ∧ HdrOk (f n).2.2) →
        (∃ opt size h' rest, (do let (sz, fmt) ← getnumlimit fmt df
                                 pure ((f sz).1, (f sz).2.1, (f sz).2.2, fmt) : Res _) = .ok (opt, size, h', rest) ∧
          SizeOk opt size ∧ HdrOk h' ∧ rest.length < (c :: fmt).length) ∨
        (∃ e, (do let (sz, fmt) ← getnumlimit fmt df
                  pure ((f sz).1, (f sz).2.1, (f sz).2.2, fmt) : Res (KOption × Nat × Header × List UInt8)) = .err e) := by
      intro f df hfn
      rcases getnumlimit_ok fmt df with ⟨n, rest, e, h1, h2, h3⟩ | ⟨e, he⟩
      · refine Or.inl ⟨_, _, _, rest, by rw [e]; rfl, (hfn n h1 h2).1, (hfn n h1 h2).2, by omega⟩
      · exact Or.inr ⟨e, by rw [he]; rfl⟩
    unfold getoption
    dsimp only
    split
    · exact Or.inl ⟨_, _, _, _, rfl, by simp [SizeOk], hh, hl⟩
    · exact Or.inl ⟨_, _, _, _, rfl, by simp [SizeOk], hh, hl⟩
    · exact Or.inl ⟨_, _, _, _, rfl, by simp [SizeOk], hh, hl⟩
    · exact Or.inl ⟨_, _, _, _, rfl, by simp [SizeOk], hh, hl⟩
    · exact Or.inl ⟨_, _, _, _, rfl, by simp [SizeOk], hh, hl⟩
    · exact Or.inl ⟨_, _, _, _, rfl, by simp [SizeOk], hh, hl⟩
    · exact Or.inl ⟨_, _, _, _, rfl, by simp [SizeOk], hh, hl⟩
    · exact Or.inl ⟨_, _, _, _, rfl, by simp [SizeOk], hh, hl⟩
    · exact Or.inl ⟨_, _, _, _, rfl, by simp [SizeOk], hh, hl⟩
    · exact Or.inl ⟨_, _, _, _, rfl, by simp [SizeOk], hh, hl⟩
    · exact Or.inl ⟨_, _, _, _, rfl, by simp [SizeOk], hh, hl⟩
    · exact Or.inl ⟨_, _, _, _, rfl, by simp [SizeOk], hh, hl⟩
    · exact lim (fun n => (.int, n, h)) 4 (fun n a b => ⟨⟨a, b⟩, hh⟩)
    · exact lim (fun n => (.uint, n, h)) 4 (fun n a b => ⟨⟨a, b⟩, hh⟩)
    · exact lim (fun n => (.string, n, h)) 8 (fun n a b => ⟨⟨a, b⟩, hh⟩)
    · obtain ⟨n, rest, e, h1, h2⟩ := getnum_ok fmt
      rw [e, Res.bind_ok]
      cases n with
      | none => exact Or.inr ⟨_, rfl⟩
      | some n => exact Or.inl ⟨_, _, _, rest, rfl, h1 n rfl, hh, by omega⟩
    · exact Or.inl ⟨_, _, _, _, rfl, by simp [SizeOk], hh, hl⟩
    · exact Or.inl ⟨_, _, _, _, rfl, by simp [SizeOk], hh, hl⟩
    · exact Or.inl ⟨_, _, _, _, rfl, by simp [SizeOk], hh, hl⟩
    · exact Or.inl ⟨_, _, _, _, rfl, by simp [SizeOk], hh, hl⟩
    · exact Or.inl ⟨_, _, _, _, rfl, by simp [SizeOk], hh, hl⟩
    · exact Or.inl ⟨_, _, _, _, rfl, by simp [SizeOk], hh, hl⟩
    · exact Or.inl ⟨_, _, _, _, rfl, by simp [SizeOk], hh, hl⟩
    · exact lim (fun n => (.nop, 0, { h with maxalign := n })) MAXALIGN (fun n a b => ⟨rfl, a, b⟩)
    · exact Or.inr ⟨_, rfl⟩

theorem pow2_small : ∀ a : Nat, a ≤ 16 → 0 < a → a &&& (a - 1) = 0 → ∃ k, a = 2 ^ k := by
  intro a h h0 ha
  have : ∀ b : Fin 17, 0 < b.val → b.val &&& (b.val - 1) = 0 → ∃ k : Fin 5, b.val = 2 ^ k.val := by decide
  obtain ⟨k, hk⟩ := this ⟨a, by omega⟩ h0 ha
  exact ⟨k, hk⟩

theorem pad_spec (k total : Nat) : (2 ^ k - (total &&& (2 ^ k - 1))) &&& (2 ^ k - 1) < 2 ^ k ∧
    (total + ((2 ^ k - (total &&& (2 ^ k - 1))) &&& (2 ^ k - 1))) % 2 ^ k = 0 := by
  rw [Nat.and_two_pow_sub_one_eq_mod, Nat.and_two_pow_sub_one_eq_mod]
  have hp : 0 < 2 ^ k := Nat.pow_pos (by decide)
  have h1 := Nat.mod_lt total hp
  refine ⟨Nat.mod_lt _ hp, ?_⟩
  rw [Nat.add_mod, Nat.mod_mod]
  by_cases h0 : total % 2 ^ k = 0
  · rw [h0, Nat.sub_zero, Nat.mod_self, Nat.zero_add, Nat.zero_mod]
  · rw [Nat.mod_eq_of_lt (a := 2 ^ k - total % 2 ^ k) (by omega)]
    have : total % 2 ^ k + (2 ^ k - total % 2 ^ k) = 2 ^ k := by omega
    rw [this, Nat.mod_self]

/-- Whether the alignment is accepted does not depend on the offset; the padding is less than the
alignment and brings the offset to a multiple of it. -/
theorem alignment_ok (h : Header) (hh : HdrOk h) (opt : KOption) (align : Nat) :
    (∃ f : Nat → Nat, ∀ total, alignment h opt align total = .ok (f total) ∧ f total < 16 ∧
      (align ≤ 1 ∨ opt = .char → f total = 0) ∧
      (¬ (align ≤ 1 ∨ opt = .char) → f total < min align h.maxalign ∧ (total + f total) % min align h.maxalign = 0)) ∨
    (∃ e, ∀ total, alignment h opt align total = .err e) := by
  unfold alignment
  by_cases hc : align ≤ 1 ∨ opt = .char
  · exact Or.inl ⟨fun _ => 0, fun t => ⟨if_pos hc, Nat.zero_lt_succ 15, fun _ => rfl, fun n => absurd hc n⟩⟩
  · have hm : (if align > h.maxalign then h.maxalign else align) = min align h.maxalign := by
      split <;> omega
    dsimp only
    rw [hm]
    by_cases hp : min align h.maxalign &&& (min align h.maxalign - 1) ≠ 0
    · refine Or.inr ⟨"format asks for alignment not power of 2", fun t => ?_⟩
      rw [if_neg hc, if_pos hp]
    · have hmx := hh.1
      have hmx2 := hh.2
      obtain ⟨k, hk⟩ := pow2_small (min align h.maxalign) (by omega) (by omega) (Classical.not_not.1 hp)
      have h16 : 2 ^ k ≤ 16 := by rw [← hk]; omega
      rw [hk]
      refine Or.inl ⟨fun t => (2 ^ k - (t &&& (2 ^ k - 1))) &&& (2 ^ k - 1), fun t => ⟨?_, ?_, fun q => absurd q hc, fun _ => ?_⟩⟩
      · rw [if_neg hc, if_neg (by rw [← hk]; exact hp)]
      · have := (pad_spec k t).1; dsimp only; omega
      · exact pad_spec k t

/-- One step of the format: success, option, size and the rest do not depend on the offset. -/
theorem getdetails_ok (native : Bool) (h : Header) (hh : HdrOk h) (fmt : List UInt8) (hf : fmt ≠ []) :
    (∃ opt size h' rest, ∃ f : Nat → Nat, (∀ total, getdetails native h total fmt = .ok (opt, size, f total, h', rest) ∧
        f total < 16 ∧ (opt = .char → f total = 0) ∧
        (opt ≠ .char → opt ≠ .paddalign → 1 < size → f total < min size h'.maxalign ∧
          (total + f total) % min size h'.maxalign = 0)) ∧
      SizeOk opt size ∧ HdrOk h' ∧ rest.length < fmt.length) ∨
    (∃ e, ∀ total, getdetails native h total fmt = .err e) := by
  unfold getdetails
  rcases getoption_ok native h hh fmt hf with ⟨opt, size, h', rest, e, hs, hh', hl⟩ | ⟨e, he⟩
  · rw [e]
    simp only [Res.bind_ok]
    by_cases hp : opt = .paddalign
    · by_cases hr : rest = []
      · refine Or.inr ⟨"invalid next option for option 'X'", fun t => ?_⟩
        rw [if_pos hp, if_pos hr]
      · rcases getoption_ok native h' hh' rest hr with ⟨o2, a2, h2, r2, e2, hs2, hh2, hl2⟩ | ⟨e2, he2⟩
        · rw [e2]
          simp only [Res.bind_ok]
          by_cases hc : o2 = .char ∨ a2 = 0
          · refine Or.inr ⟨"invalid next option for option 'X'", fun t => ?_⟩
            rw [if_pos hp, if_neg hr, if_pos hc]
          · rcases alignment_ok h2 hh2 opt a2 with ⟨f, hfa⟩ | ⟨e3, he3⟩
            · refine Or.inl ⟨opt, size, h2, r2, f, fun t => ⟨?_, (hfa t).2.1, fun q => ?_, fun _ q => absurd hp q⟩, hs, hh2, by omega⟩
              · rw [if_pos hp, if_neg hr, if_neg hc, (hfa t).1]; rfl
              · exact (hfa t).2.2.1 (Or.inr q)
            · refine Or.inr ⟨e3, fun t => ?_⟩
              rw [if_pos hp, if_neg hr, if_neg hc, he3 t]; rfl
        · refine Or.inr ⟨e2, fun t => ?_⟩
          rw [if_pos hp, if_neg hr, he2]; rfl
    · rcases alignment_ok h' hh' opt size with ⟨f, hfa⟩ | ⟨e3, he3⟩
      · refine Or.inl ⟨opt, size, h', rest, f, fun t => ⟨?_, (hfa t).2.1, fun q => ?_, fun q _ q2 => ?_⟩, hs, hh', hl⟩
        · rw [if_neg hp, (hfa t).1]; rfl
        · exact (hfa t).2.2.1 (Or.inr q)
        · exact (hfa t).2.2.2 (by rintro (q3 | q3); · omega
                                  · exact q q3)
      · refine Or.inr ⟨e3, fun t => ?_⟩
        rw [if_neg hp, he3 t]; rfl
  · exact Or.inr ⟨e, fun t => by rw [he]; rfl⟩

theorem rdN_ok {data : List UInt8} {pos n : Nat} (h : pos + n ≤ data.length) :
    rdN (mem data) pos n = .ok ((data.drop pos).take n) := by
  unfold rdN mem
  rw [if_pos (by rw [List.length_append]; simp; omega), List.drop_append_of_le_length (by omega),
    List.take_append_of_le_length (by rw [List.length_drop]; omega)]

theorem rdN_append (a b c : List UInt8) : rdN (mem (a ++ b ++ c)) a.length b.length = .ok b := by
  rw [rdN_ok (by simp), List.append_assoc, List.drop_left, List.take_left]

theorem rev_ofRepr (M : Machine) (size bits : Nat) (little : Bool) (h : bits < 256 ^ size) :
    ofRepr M (copywithendian M (copywithendian M (repr M size bits) little) little) = bits := by
  have : copywithendian M (copywithendian M (repr M size bits) little) little = repr M size bits := by
    unfold copywithendian
    split
    · rfl
    · rw [List.reverse_reverse]
  rw [this]
  unfold ofRepr repr
  split
  · rw [value_bytes, Nat.mod_eq_of_lt h]
  · rw [List.reverse_reverse, value_bytes, Nat.mod_eq_of_lt h]

theorem copy_length (M : Machine) (src : List UInt8) (little : Bool) : (copywithendian M src little).length = src.length := by
  unfold copywithendian; split <;> simp

theorem repr_length (M : Machine) (size bits : Nat) : (repr M size bits).length = size := by
  unfold repr; split <;> simp [bytes_length]

theorem shl_pow (size : Nat) : 1 <<< (size * 8) = 256 ^ size := by
  rw [Nat.one_shiftLeft, Nat.mul_comm, Nat.pow_mul]

theorem szsub_ok {a b : Nat} (h : b ≤ a) (ha : a < 18446744073709551616) : szsub a b = a - b := by
  unfold szsub uw; omega

end Verif.Pack
