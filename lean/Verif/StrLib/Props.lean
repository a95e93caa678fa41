import Verif.StrLib.Model
/-!
Properties C22 (`string.sub`, `string.byte`, `string.char`), C23 (`string.rep`) and C26 (plain `string.find`).
-/
namespace Verif.StrLib

/-! ### C22 -/

/-- translation of negative indices (reference manual §6.4) -/
def tr (len : Nat) (x : Int) : Int := if x < 0 then len + x + 1 else x

/-- Specification: the bytes whose (1-based) position `k` lies between the two translated indices. -/
def slice (s : List UInt8) (i j : Int) : List UInt8 :=
  ((s.zipIdx 1).filter (fun p => decide (tr s.length i ≤ (p.2 : Int) ∧ (p.2 : Int) ≤ tr s.length j))).map Prod.fst

theorem filter_zipIdx (p q : Int) : ∀ (s : List UInt8) (b : Nat),
    ((s.zipIdx b).filter (fun x => decide (p ≤ (x.2 : Int) ∧ (x.2 : Int) ≤ q))).map Prod.fst =
      (s.drop (p - b).toNat).take ((q + 1 - max p b).toNat)
  | [], b => by simp
  | c :: s, b => by
    rw [List.zipIdx_cons, List.filter_cons]
    have ih := filter_zipIdx p q s (b + 1)
    by_cases h : p ≤ (b : Int) ∧ (b : Int) ≤ q
    · rw [if_pos (by simpa using h), List.map_cons, ih]
      have e1 : (p - ((b + 1 : Nat) : Int)).toNat = 0 := by omega
      have e2 : (p - (b : Int)).toNat = 0 := by omega
      have e3 : (q + 1 - max p (b : Int)).toNat = (q + 1 - max p ((b + 1 : Nat) : Int)).toNat + 1 := by omega
      rw [e1, e2, e3]
      simp
    · rw [if_neg (by simpa using h), ih]
      by_cases h2 : p ≤ (b : Int)
      · have hq : q < b := by omega
        have e3 : (q + 1 - max p (b : Int)).toNat = 0 := by omega
        have e4 : (q + 1 - max p ((b + 1 : Nat) : Int)).toNat = 0 := by omega
        rw [e3, e4]; simp
      · have e1 : (p - (b : Int)).toNat = (p - ((b + 1 : Nat) : Int)).toNat + 1 := by omega
        have e3 : (q + 1 - max p (b : Int)).toNat = (q + 1 - max p ((b + 1 : Nat) : Int)).toNat := by omega
        rw [e1, e3]; simp

/-- a string object exists only with a length that fits `lua_Integer` -/
def IsStr (s : List UInt8) : Prop := (s.length : Int) ≤ 9223372036854775807

theorem posrelatI_eq (i : Int) (len : Nat) (hi : InI i) (hl : (len : Int) ≤ 9223372036854775807) :
    (posrelatI i len : Int) = max (tr len i) 1 := by
  unfold InI at hi
  unfold posrelatI tr toU uw
  split
  · rw [if_neg (by omega)]; omega
  · split
    · rw [if_neg (by omega)]; omega
    · split
      · rw [if_pos (by omega)]; omega
      · rw [if_pos (by omega)]; omega

theorem getendpos_eq (j : Int) (len : Nat) (hj : InI j) (hl : (len : Int) ≤ 9223372036854775807) :
    (getendpos j len : Int) = max (min (tr len j) len) 0 := by
  unfold InI at hj
  unfold getendpos tr toU uw
  split
  · rw [if_neg (by omega)]; omega
  · split
    · rw [if_neg (by omega)]; omega
    · split
      · rw [if_pos (by omega)]; omega
      · rw [if_pos (by omega)]; omega

theorem slice_eq (s : List UInt8) (i j : Int) (hi : InI i) (hj : InI j) (hs : IsStr s) :
    slice s i j = (s.drop (posrelatI i s.length - 1)).take (getendpos j s.length + 1 - posrelatI i s.length) := by
  have h1 := posrelatI_eq i s.length hi hs
  have h2 := getendpos_eq j s.length hj hs
  unfold slice
  rw [filter_zipIdx]
  have e1 : (tr s.length i - ((1 : Nat) : Int)).toNat = posrelatI i s.length - 1 := by omega
  rw [e1]
  by_cases hle : tr s.length j ≤ s.length
  · have e2 : (tr s.length j + 1 - max (tr s.length i) ((1 : Nat) : Int)).toNat = getendpos j s.length + 1 - posrelatI i s.length := by omega
    rw [e2]
  · rw [List.take_of_length_le (by rw [List.length_drop]; omega), List.take_of_length_le (by rw [List.length_drop]; omega)]

/-- **C22.** For every string and all 64-bit `i`, `j`: `string.sub(s, i, j)` reads only bytes of `s` and returns exactly those at the
positions between the translated indices. -/
theorem sub_correct (s : List UInt8) (i j : Int) (hi : InI i) (hj : InI j) (hs : IsStr s) : sub s i j = .ok (slice s i j) := by
  have h1 := posrelatI_eq i s.length hi hs
  have h2 := getendpos_eq j s.length hj hs
  rw [slice_eq s i j hi hj hs]
  unfold sub
  dsimp only
  by_cases h : posrelatI i s.length ≤ getendpos j s.length
  · rw [if_pos h]
    unfold rdN mem
    rw [if_pos (by simp; omega)]
    congr 1
    rw [show getendpos j s.length - posrelatI i s.length + 1 = getendpos j s.length + 1 - posrelatI i s.length by omega]
    rw [List.drop_append_of_le_length (by omega), List.take_append_of_le_length (by rw [List.length_drop]; omega)]
  · rw [if_neg h]
    rw [show getendpos j s.length + 1 - posrelatI i s.length = 0 by omega]
    simp

theorem byteLoop_eq (s : List UInt8) (posi : Nat) (hp : 1 ≤ posi) : ∀ (n i : Nat), posi + i + n ≤ s.length + 1 →
    byteLoop s posi i n = .ok (((s.drop (posi + i - 1)).take n).map (fun b => (b.toNat : Int)))
  | 0, i, _ => by simp [byteLoop]
  | n + 1, i, h => by
    unfold byteLoop
    have hlt : posi + i - 1 < s.length := by omega
    have hr : rd (mem s) (posi + i - 1) = .ok s[posi + i - 1] := by
      unfold rd mem
      rw [List.getElem?_append_left hlt, List.getElem?_eq_getElem hlt]
    rw [hr, Res.bind_ok, byteLoop_eq s posi hp n (i + 1) (by omega), Res.bind_ok]
    rw [List.drop_eq_getElem_cons hlt]
    rw [show posi + (i + 1) - 1 = posi + i - 1 + 1 by omega, List.take_succ_cons, List.map_cons]
    rfl

/-- **C22.** `string.byte(s, i, j)` (`j` defaults to `i`) returns the codes of the same bytes, in order; it fails only when there are
too many values for the stack. -/
theorem byte_correct (room : Nat) (s : List UInt8) (i : Int) (j : Option Int) (hi : InI i) (hj : ∀ x, j = some x → InI x) (hs : IsStr s) :
    byte room s i j = .ok ((slice s i (j.getD i)).map (fun b => (b.toNat : Int))) ∨
    (∃ m, byte room s i j = .err m) ∧ min room 2147483647 < (slice s i (j.getD i)).length := by
  have hj' : InI (j.getD i) := by
    cases j with
    | none => exact hi
    | some x => exact hj x rfl
  have h1 := posrelatI_eq i s.length hi hs
  have h2 := getendpos_eq (j.getD i) s.length hj' hs
  rw [slice_eq s i _ hi hj' hs]
  unfold byte
  dsimp only
  by_cases h : getendpos (j.getD i) s.length < posrelatI i s.length
  · left
    rw [if_pos h, show getendpos (j.getD i) s.length + 1 - posrelatI i s.length = 0 by omega]
    simp
  · rw [if_neg h]
    by_cases h3 : 2147483647 ≤ getendpos (j.getD i) s.length - posrelatI i s.length
    · right
      rw [if_pos h3]
      exact ⟨⟨_, rfl⟩, by rw [List.length_take, List.length_drop]; omega⟩
    · rw [if_neg h3]
      by_cases h4 : room < getendpos (j.getD i) s.length - posrelatI i s.length + 1
      · right
        rw [if_pos h4]
        exact ⟨⟨_, rfl⟩, by rw [List.length_take, List.length_drop]; omega⟩
      · left
        rw [if_neg h4, byteLoop_eq s _ (by omega) _ 0 (by omega)]
        rw [show posrelatI i s.length + 0 - 1 = posrelatI i s.length - 1 by omega,
          show getendpos (j.getD i) s.length - posrelatI i s.length + 1 = getendpos (j.getD i) s.length + 1 - posrelatI i s.length by omega]

theorem charLoop_ok : ∀ (rest done buff : List UInt8) (i : Nat), i = done.length + 1 → buff.length = rest.length →
    charLoop (rest.map (fun b => (b.toNat : Int))) i (done ++ buff) = .ok (done ++ rest)
  | [], done, buff, i, _, hb => by
    have : buff = [] := List.length_eq_zero_iff.1 (by simpa using hb)
    simp [charLoop, this]
  | b :: rest, done, buff, i, hi, hb => by
    obtain ⟨c, buff, rfl⟩ : ∃ c buff', buff = c :: buff' := by
      cases buff with
      | nil => simp at hb
      | cons c b => exact ⟨c, b, rfl⟩
    have hlt := UInt8.toNat_lt b
    have ht : toU (b.toNat : Int) = b.toNat := by unfold toU; omega
    rw [List.map_cons]
    unfold charLoop
    simp only [ht]
    rw [if_neg (by omega)]
    have hw : wr (done ++ c :: buff) (i - 1) (UInt8.ofNat b.toNat) = .ok (done ++ [b] ++ buff) := by
      unfold wr
      rw [if_pos (by simp; omega), hi]
      simp
    rw [hw, Res.bind_ok, charLoop_ok rest (done ++ [b]) buff (i + 1) (by simp [hi]) (by simpa using hb)]
    simp

/-- an argument outside `0..255` makes the loop of `string.char` raise an error -/
theorem charLoop_err : ∀ (args : List Int) (i : Nat) (buff : List UInt8), 1 ≤ i → i - 1 + args.length ≤ buff.length → (∀ c ∈ args, InI c) →
    (∃ c ∈ args, c < 0 ∨ 255 < c) → charLoop args i buff = .err "value out of range"
  | [], _, _, _, _, _, h => by simp at h
  | c :: args, i, buff, hi, hb, hin, h => by
    have hc := hin c (by simp)
    unfold charLoop
    dsimp only
    by_cases hbad : c < 0 ∨ 255 < c
    · rw [if_pos]
      unfold toU; unfold InI at hc; omega
    · rw [if_neg (by unfold toU; omega)]
      have hlt : i - 1 < buff.length := by simp only [List.length_cons] at hb; omega
      have hw : ∀ b, wr buff (i - 1) b = .ok (buff.set (i - 1) b) := fun b => by unfold wr; rw [if_pos hlt]
      rw [hw, Res.bind_ok]
      apply charLoop_err args (i + 1) _ (by omega) (by simp only [List.length_set, List.length_cons] at *; omega) (fun x hx => hin x (by simp [hx]))
      obtain ⟨x, hx, hx2⟩ := h
      rcases List.mem_cons.1 hx with rfl | hx
      · exact absurd hx2 hbad
      · exact ⟨x, hx, hx2⟩

/-- **C22.** `string.char` of integers: the string of exactly these byte values, or an error if any argument is outside `0..255`. -/
theorem char_correct (garbage : Nat → UInt8) (args : List Int) (hin : ∀ c ∈ args, InI c) :
    ((∀ c ∈ args, 0 ≤ c ∧ c ≤ 255) → char garbage args = .ok (args.map (fun c => UInt8.ofNat c.toNat))) ∧
    ((∃ c ∈ args, c < 0 ∨ 255 < c) → char garbage args = .err "value out of range") := by
  constructor
  · intro h
    have e : args = (args.map (fun c => UInt8.ofNat c.toNat)).map (fun b => (b.toNat : Int)) := by
      rw [List.map_map]
      refine (List.map_id args).symm.trans (List.map_congr_left fun c hc => ?_)
      have := h c hc
      simp only [id, Function.comp, UInt8.toNat_ofNat']
      omega
    have := charLoop_ok (args.map (fun c => UInt8.ofNat c.toNat)) [] ((List.range args.length).map garbage) 1 rfl (by simp)
    rw [← e] at this
    simp only [List.nil_append] at this
    unfold char
    rw [this, Res.bind_ok, List.take_of_length_le (by simp)]
    rfl
  · intro h
    unfold char
    rw [charLoop_err args 1 _ (by omega) (by simp) hin h]
    rfl

/-- **C22.** `string.char(string.byte(s, 1, -1)) = s` whenever `string.byte` succeeds. -/
theorem char_byte_roundtrip (garbage : Nat → UInt8) (room : Nat) (s : List UInt8) (hs : IsStr s) (codes : List Int)
    (h : byte room s 1 (some (-1)) = .ok codes) : char garbage codes = .ok s := by
  have hi : InI 1 := by decide
  have hj : ∀ x, some (-1 : Int) = some x → InI x := by intro x hx; cases hx; decide
  have e : slice s 1 (-1) = s := by
    rw [slice_eq s 1 (-1) hi (hj _ rfl) hs]
    have h1 := posrelatI_eq 1 s.length hi hs
    have h2 := getendpos_eq (-1) s.length (hj _ rfl) hs
    unfold tr at h1 h2
    rw [if_neg (by omega)] at h1
    rw [if_pos (by omega)] at h2
    rw [show posrelatI 1 s.length = 1 by omega, show getendpos (-1) s.length = s.length by omega]
    simp
  rcases byte_correct room s 1 (some (-1)) hi hj hs with hb | ⟨⟨m, hb⟩, -⟩
  · rw [hb] at h
    simp only [Option.getD_some, e, Res.ok.injEq] at h
    subst h
    unfold char
    have := charLoop_ok s [] ((List.range s.length).map garbage) 1 rfl (by simp)
    simp only [List.nil_append] at this
    simp only [List.length_map]
    rw [this]
    simp
  · rw [hb] at h; simp at h

theorem reverseLoop_eq (s : List UInt8) : ∀ (n i : Nat) (buff : List UInt8), i + n = s.length → buff.length = s.length →
    reverseLoop s s.length i n buff = .ok (buff.take i ++ (s.take n).reverse)
  | 0, i, buff, h, hb => by
    simp only [reverseLoop, List.take_zero, List.reverse_nil, List.append_nil]
    rw [List.take_of_length_le (by omega)]
  | n + 1, i, buff, h, hb => by
    unfold reverseLoop
    have hlt : s.length - i - 1 < s.length := by omega
    have hr : rd (mem s) (s.length - i - 1) = .ok s[s.length - i - 1] := by
      unfold rd mem
      rw [List.getElem?_append_left hlt, List.getElem?_eq_getElem hlt]
    have hw : wr buff i s[s.length - i - 1] = .ok (buff.set i s[s.length - i - 1]) := by
      unfold wr; rw [if_pos (by omega)]
    rw [hr, Res.bind_ok, hw, Res.bind_ok, reverseLoop_eq s n (i + 1) _ (by omega) (by simpa using hb)]
    congr 1
    have e : s.length - i - 1 = n := by omega
    have hn : n < s.length := by omega
    rw [List.take_set, List.take_succ_eq_append_getElem (by omega), List.take_succ_eq_append_getElem hn]
    simp only [e]
    have hl : (buff.take i).length = i := by rw [List.length_take]; omega
    rw [List.set_append_right _ _ (by omega), hl, Nat.sub_self, List.reverse_append]
    simp only [List.set_cons_zero, List.reverse_cons, List.reverse_nil, List.nil_append, List.append_assoc]

/-- **C22.** `string.reverse` returns the bytes in reverse order. -/
theorem reverse_correct (garbage : Nat → UInt8) (s : List UInt8) : reverse garbage s = .ok s.reverse := by
  unfold reverse
  rw [reverseLoop_eq s s.length 0 _ (by omega) (by simp)]
  simp

/-! ### C23 -/

/-- Specification: `n` copies of `s` with `sep` between them. -/
def repeated (s : List UInt8) (n : Nat) (sep : List UInt8) : List UInt8 := List.flatten (List.intersperse sep (List.replicate n s))

theorem repeated_succ (s sep : List UInt8) (n : Nat) : repeated s (n + 2) sep = s ++ sep ++ repeated s (n + 1) sep := by
  simp [repeated, List.replicate_succ]

theorem repeated_length (s sep : List UInt8) : ∀ n, (repeated s (n + 1) sep).length = (n + 1) * s.length + n * sep.length
  | 0 => by simp [repeated, List.replicate]
  | n + 1 => by
    rw [repeated_succ, List.length_append, List.length_append, repeated_length s sep n]
    have e1 : (n + 1 + 1) * s.length = (n + 1) * s.length + s.length := Nat.succ_mul _ _
    have e2 : (n + 1) * sep.length = n * sep.length + sep.length := Nat.succ_mul _ _
    omega

theorem memcpy_spec (a b c s : List UInt8) (h : b.length = s.length) : memcpy (a ++ b ++ c) a.length s = .ok (a ++ s ++ c) := by
  unfold memcpy
  rw [if_pos (by simp; omega)]
  congr 1
  have e : (a ++ b ++ c).drop (a.length + s.length) = c := by
    rw [← h, ← List.length_append, List.drop_left]
  rw [e, List.append_assoc a b c, List.take_left]

theorem memcpy_spec' (a b s : List UInt8) (h : s.length ≤ b.length) :
    memcpy (a ++ b) a.length s = .ok (a ++ s ++ b.drop s.length) := by
  have := memcpy_spec a (b.take s.length) (b.drop s.length) s (by simp [h])
  rwa [List.append_assoc a (b.take _), List.take_append_drop] at this

theorem repLoop_spec (s sep : List UInt8) : ∀ (n : Nat) (done buff : List UInt8), buff.length = (repeated s (n + 1) sep).length →
    repLoop s sep n (done ++ buff) done.length = .ok (done ++ repeated s (n + 1) sep)
  | 0, done, buff, h => by
    have e : repeated s 1 sep = s := by simp [repeated, List.replicate]
    rw [e] at h ⊢
    unfold repLoop
    rw [memcpy_spec' done buff s (by omega), List.drop_of_length_le (by omega)]
    simp
  | n + 1, done, buff, h => by
    rw [repeated_succ] at h ⊢
    simp only [List.length_append] at h
    unfold repLoop
    rw [memcpy_spec' done buff s (by omega), Res.bind_ok]
    dsimp only
    by_cases hs : 0 < sep.length
    · rw [if_pos hs, ← List.length_append, memcpy_spec' (done ++ s) (buff.drop s.length) sep (by rw [List.length_drop]; omega), Res.bind_ok,
        ← List.length_append, repLoop_spec s sep n (done ++ s ++ sep) _ (by rw [List.length_drop, List.length_drop]; omega)]
      simp
    · have hz : sep = [] := List.length_eq_zero_iff.1 (by omega)
      rw [if_neg hs, ← List.length_append, repLoop_spec s sep n (done ++ s) _ (by rw [List.length_drop]; omega)]
      simp [hz]

/-- **C23.** For all strings and every 64-bit count, `string.rep` either returns exactly the repeated string — the computed size is the
number of bytes written — or raises an error, which happens only when `n * (#s + #sep)` exceeds `MAXSIZE`. -/
theorem rep_correct (garbage : Nat → UInt8) (s : List UInt8) (n : Int) (sep : List UInt8) (hn : InI n) (hs : IsStr s) (hsep : IsStr sep) :
    (n * (s.length + sep.length) ≤ 2147483647 → rep garbage s n sep = .ok (repeated s n.toNat sep)) ∧
    (2147483647 < n * (s.length + sep.length) → rep garbage s n sep = .err "resulting string too large") := by
  unfold InI at hn
  unfold IsStr at hs hsep
  have huw : uw (s.length + sep.length) = s.length + sep.length := by unfold uw; omega
  by_cases h0 : n ≤ 0
  · have e : n.toNat = 0 := by omega
    have hr : rep garbage s n sep = .ok (repeated s n.toNat sep) := by
      unfold rep; dsimp only; rw [if_pos h0, e]; rfl
    refine ⟨fun _ => hr, fun h => ?_⟩
    have : n * (s.length + sep.length) ≤ 0 := Int.mul_nonpos_of_nonpos_of_nonneg h0 (by omega)
    omega
  · obtain ⟨k, rfl⟩ : ∃ k : Nat, n = (k : Int) + 1 := ⟨(n - 1).toNat, by omega⟩
    have et : toU ((k : Int) + 1) = k + 1 := by unfold toU; omega
    have et' : toU ((k : Int) + 1 - 1) = k := by unfold toU; omega
    have hcond : (uw (s.length + sep.length) < s.length ∨ maxSize / toU ((k : Int) + 1) < uw (s.length + sep.length)) ↔
        2147483647 < (k + 1) * (s.length + sep.length) := by
      rw [huw, et]
      have := Nat.div_lt_iff_lt_mul (x := maxSize) (y := s.length + sep.length) (Nat.succ_pos k)
      rw [Nat.mul_comm (k + 1)]
      unfold maxSize at this ⊢
      constructor
      · rintro (h | h)
        · omega
        · exact this.1 h
      · exact fun h => .inr (this.2 h)
    have hcast : ((k : Int) + 1) * (s.length + sep.length) = (((k + 1) * (s.length + sep.length) : Nat) : Int) := by
      push_cast; rfl
    rw [hcast]
    unfold rep
    dsimp only
    rw [if_neg h0]
    refine ⟨fun h => ?_, fun h => if_pos (hcond.2 (by omega))⟩
    rw [if_neg (fun hc => by have := hcond.1 hc; omega), et, et']
    have hlen := repeated_length s sep k
    have hmul : (k + 1) * (s.length + sep.length) = (k + 1) * s.length + (k * sep.length + sep.length) := by
      rw [Nat.mul_add, Nat.succ_mul k sep.length]
    have htot : uw (uw ((k + 1) * s.length) + uw (k * sep.length)) = (repeated s (k + 1) sep).length := by
      rw [hlen]
      unfold uw
      generalize (k + 1) * s.length = a at *
      generalize k * sep.length = b at *
      omega
    rw [htot]
    have := repLoop_spec s sep k [] ((List.range (repeated s (k + 1) sep).length).map garbage) (by simp)
    simp only [List.nil_append, List.length_nil] at this
    rw [show ((k : Int) + 1).toNat - 1 = k by omega, this]
    rfl

/-! ### C26 -/

/-- `p` occurs in `s` after `k` bytes -/
def Occurs (s p : List UInt8) (k : Nat) : Prop := ∃ a b, s = a ++ p ++ b ∧ a.length = k

theorem occurs_iff (s p : List UInt8) (k : Nat) : Occurs s p k ↔ k + p.length ≤ s.length ∧ (s.drop k).take p.length = p := by
  constructor
  · rintro ⟨a, b, rfl, rfl⟩
    refine ⟨by simp, ?_⟩
    rw [List.append_assoc, List.drop_left, List.take_left]
  · rintro ⟨h1, h2⟩
    refine ⟨s.take k, (s.drop k).drop p.length, ?_, by simp; omega⟩
    conv => rhs; rw [List.append_assoc]; arg 2; arg 1; rw [← h2]
    rw [List.take_append_drop, List.take_append_drop]

theorem rd_mem (s : List UInt8) (i : Nat) (h : i < s.length) : rd (mem s) i = .ok s[i] := by
  unfold rd mem
  rw [List.getElem?_append_left h, List.getElem?_eq_getElem h]

theorem memchr_spec (s : List UInt8) (c : UInt8) : ∀ (n off : Nat), off + n ≤ s.length →
    (memchr (mem s) c off n = .ok none ∧ ∀ k, (h : k < s.length) → off ≤ k → k < off + n → s[k] ≠ c) ∨
    (∃ k, memchr (mem s) c off n = .ok (some k) ∧ off ≤ k ∧ k < off + n ∧ (∃ h : k < s.length, s[k] = c) ∧
      ∀ j, (h : j < s.length) → off ≤ j → j < k → s[j] ≠ c)
  | 0, off, h => by left; exact ⟨rfl, by intro k _ h1 h2; omega⟩
  | n + 1, off, h => by
    have hlt : off < s.length := by omega
    unfold memchr
    rw [rd_mem s off hlt, Res.bind_ok]
    by_cases hc : s[off] = c
    · right
      rw [if_pos hc]
      exact ⟨off, rfl, Nat.le_refl _, by omega, ⟨hlt, hc⟩, by intro j _ h1 h2; omega⟩
    · rw [if_neg hc]
      rcases memchr_spec s c n (off + 1) (by omega) with ⟨h1, h2⟩ | ⟨k, h1, h2, h3, h4, h5⟩
      · left
        refine ⟨h1, fun k hk hk1 hk2 => ?_⟩
        by_cases e : k = off
        · subst e; exact hc
        · exact h2 k hk (by omega) (by omega)
      · right
        refine ⟨k, h1, by omega, by omega, h4, fun j hj hj1 hj2 => ?_⟩
        by_cases e : j = off
        · subst e; exact hc
        · exact h5 j hj (by omega) hj2

theorem take_drop_cons (s p : List UInt8) (c : UInt8) (k : Nat) (hk : k < s.length) :
    (s.drop k).take (c :: p).length = c :: p ↔ s[k] = c ∧ (s.drop (k + 1)).take p.length = p := by
  rw [List.drop_eq_getElem_cons hk, List.length_cons, List.take_succ_cons, List.cons.injEq]

theorem memfindLoop_spec (s : List UInt8) (c : UInt8) (p : List UInt8) : ∀ (fuel s1 l1 : Nat), l1 < fuel → s1 + l1 + p.length ≤ s.length →
    (memfindLoop (mem s) (mem (c :: p)) p.length fuel s1 l1 = .ok none ∧ ∀ k, s1 ≤ k → k < s1 + l1 → ¬ Occurs s (c :: p) k) ∨
    (∃ k, memfindLoop (mem s) (mem (c :: p)) p.length fuel s1 l1 = .ok (some k) ∧ s1 ≤ k ∧ Occurs s (c :: p) k ∧
      ∀ j, s1 ≤ j → j < k → ¬ Occurs s (c :: p) j)
  | 0, _, _, h, _ => by omega
  | fuel + 1, s1, l1, hf, hl => by
    unfold memfindLoop
    by_cases h0 : 0 < l1
    · rw [if_pos h0]
      have hc : rd (mem (c :: p)) 0 = .ok c := rfl
      rw [hc, Res.bind_ok]
      rcases memchr_spec s c l1 s1 (by omega) with ⟨h1, h2⟩ | ⟨k, h1, h2, h3, ⟨h4, h4'⟩, h5⟩
      · left
        rw [h1]
        refine ⟨rfl, fun k hk1 hk2 ho => ?_⟩
        rw [occurs_iff] at ho
        have hk : k < s.length := by omega
        exact h2 k hk hk1 hk2 ((take_drop_cons s p c k hk).1 ho.2).1
      · rw [h1, Res.bind_ok]
        dsimp only
        have hm : memeq (mem s) (k + 1) (mem (c :: p)) 1 p.length = .ok (decide ((s.drop (k + 1)).take p.length = p)) := by
          unfold memeq rdN mem
          rw [if_pos (by simp; omega), Res.bind_ok, if_pos (by simp; omega), Res.bind_ok, Res.pure_eq]
          have e1 : ((s ++ [0]).drop (k + 1)).take p.length = (s.drop (k + 1)).take p.length := by
            rw [List.drop_append_of_le_length (by omega), List.take_append_of_le_length (by rw [List.length_drop]; omega)]
          have e2 : (((c :: p) ++ [0]).drop 1).take p.length = p := by simp
          rw [e1, e2]
        have hno : ∀ j, s1 ≤ j → j < k → ¬ Occurs s (c :: p) j := by
          intro j hj1 hj2 ho
          rw [occurs_iff] at ho
          have hj : j < s.length := by omega
          exact h5 j hj hj1 hj2 ((take_drop_cons s p c j hj).1 ho.2).1
        rw [hm, Res.bind_ok]
        by_cases he : (s.drop (k + 1)).take p.length = p
        · right
          refine ⟨k, by simp [he], h2, ?_, hno⟩
          rw [occurs_iff]
          exact ⟨by simp; omega, (take_drop_cons s p c k h4).2 ⟨h4', he⟩⟩
        · rw [if_neg (by simpa using he)]
          have hnk : ¬ Occurs s (c :: p) k := by
            intro ho
            rw [occurs_iff] at ho
            exact he ((take_drop_cons s p c k h4).1 ho.2).2
          rcases memfindLoop_spec s c p fuel (k + 1) (l1 - (k + 1 - s1)) (by omega) (by omega) with ⟨g1, g2⟩ | ⟨k', g1, g2, g3, g4⟩
          · left
            refine ⟨g1, fun j hj1 hj2 => ?_⟩
            rcases Nat.lt_trichotomy j k with h | h | h
            · exact hno j hj1 h
            · subst h; exact hnk
            · exact g2 j (by omega) (by omega)
          · right
            refine ⟨k', g1, by omega, g3, fun j hj1 hj2 => ?_⟩
            rcases Nat.lt_trichotomy j k with h | h | h
            · exact hno j hj1 h
            · subst h; exact hnk
            · exact g4 j (by omega) hj2
    · left
      rw [if_neg h0]
      exact ⟨rfl, by intro k h1 h2; omega⟩

/-- **C26.** Plain `string.find(s, p, init)`: never reads outside the strings; if it returns positions they are those of the first
occurrence of `p` at or after the translated `init`; if it returns nil there is no such occurrence. -/
theorem findPlain_correct (s p : List UInt8) (i : Int) (hi : InI i) (hs : IsStr s) :
    (∃ k : Nat, findPlain s p i = .ok (some ((k : Int) + 1, (k : Int) + p.length)) ∧ Occurs s p k ∧ tr s.length i ≤ (k : Int) + 1 ∧
      ∀ j : Nat, tr s.length i ≤ (j : Int) + 1 → Occurs s p j → k ≤ j) ∨
    (findPlain s p i = .ok none ∧ ∀ j : Nat, tr s.length i ≤ (j : Int) + 1 → ¬ Occurs s p j) := by
  have h1 := posrelatI_eq i s.length hi hs
  generalize hpr : posrelatI i s.length = pr at h1
  unfold findPlain
  dsimp only
  rw [hpr]
  by_cases hl : s.length < pr - 1
  · right
    rw [if_pos hl]
    refine ⟨rfl, fun j hj ho => ?_⟩
    rw [occurs_iff] at ho
    omega
  · rw [if_neg hl]
    unfold lmemfind
    cases p with
    | nil =>
      left
      refine ⟨pr - 1, by simp, ?_, by omega, fun j hj _ => by omega⟩
      rw [occurs_iff]; exact ⟨by simp; omega, by simp⟩
    | cons c p =>
      rw [if_neg (by simp)]
      by_cases hlt : s.length - (pr - 1) < (c :: p).length
      · right
        rw [if_pos hlt]
        refine ⟨rfl, fun j hj ho => ?_⟩
        rw [occurs_iff] at ho
        omega
      · rw [if_neg hlt]
        simp only [List.length_cons] at hlt
        rw [show (c :: p).length - 1 = p.length by simp]
        rcases memfindLoop_spec s c p (s.length - (pr - 1) + 1) (pr - 1) (s.length - (pr - 1) - p.length) (by omega) (by omega) with
          ⟨g1, g2⟩ | ⟨k, g1, g2, g3, g4⟩
        · right
          rw [g1]
          refine ⟨rfl, fun j hj ho => ?_⟩
          have ho' := (occurs_iff _ _ _).1 ho
          simp only [List.length_cons] at ho'
          exact g2 j (by omega) (by omega) ho
        · left
          rw [g1]
          refine ⟨k, rfl, g3, by omega, fun j hj ho => ?_⟩
          by_cases hjk : j < k
          · exact absurd ho (g4 j (by omega) hjk)
          · omega

/-! ### concrete instances -/

example : sub [104, 101, 108, 108, 111] (-3) 4 = .ok [108, 108] := by
  rw [sub_correct _ _ _ (by decide) (by decide) (by unfold IsStr; simp)]; decide
example : sub [104, 101, 108] (-9223372036854775808) 9223372036854775807 = .ok [104, 101, 108] := by
  rw [sub_correct _ _ _ (by decide) (by decide) (by unfold IsStr; simp)]; decide
example : rep (fun _ => 0) [97, 98] 3 [45] = .ok [97, 98, 45, 97, 98, 45, 97, 98] := by
  rw [(rep_correct _ _ _ _ (by decide) (by unfold IsStr; simp) (by unfold IsStr; simp)).1 (by decide)]; decide
example : findPlain [97, 98, 97, 97, 98] [97, 98] 2 = .ok (some (4, 5)) := by decide

end Verif.StrLib
