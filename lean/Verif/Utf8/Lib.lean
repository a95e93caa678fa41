import Verif.Utf8.Props
/-!
Property C54: `utf8.char`, `utf8.len`, `utf8.codepoint` and `utf8.codes` agree with the list of code points a string encodes.
-/
namespace Verif.Utf8

theorem enc_ne_nil (x : Nat) : 1 ≤ (enc x).length := by simp [enc]

theorem encs_cons (x : Nat) (xs : List Nat) : encs (x :: xs) = enc x ++ encs xs := rfl

/-- all code points acceptable in the given mode -/
def Good (strict : Bool) (xs : List Nat) : Prop := ∀ x ∈ xs, x < 2 ^ 31 ∧ (strict = true → Valid x)

theorem Good.tail {strict : Bool} {x : Nat} {xs : List Nat} (h : Good strict (x :: xs)) : Good strict xs := fun y hy => h y (by simp [hy])

/-- **C54.** `utf8.char` of any code points concatenates their encodings; an argument outside `0..2^31-1` is an error. -/
theorem char_correct (garbage : List UInt8) (hg : garbage.length = 8) : ∀ (cs : List Int), (∀ c ∈ cs, InI c) →
    ((∀ c ∈ cs, 0 ≤ c ∧ c < 2 ^ 31) → utfchar garbage cs = .ok (encs (cs.map Int.toNat))) ∧
    ((∃ c ∈ cs, c < 0 ∨ 2 ^ 31 ≤ c) → utfchar garbage cs = .err "value out of range")
  | [], _ => ⟨fun _ => rfl, fun h => by simp at h⟩
  | c :: cs, hin => by
    have ih := char_correct garbage hg cs (fun x hx => hin x (by simp [hx]))
    have hc := hin c (by simp)
    unfold InI at hc
    unfold utfchar
    dsimp only
    constructor
    · intro h
      have h1 := h c (by simp)
      have e : toU c = c.toNat := by unfold toU; omega
      rw [e, if_pos (by omega), char_enc garbage hg _ (by omega), Res.bind_ok, ih.1 (fun x hx => h x (by simp [hx])), Res.bind_ok]
      rfl
    · intro h
      by_cases hbad : c < 0 ∨ 2 ^ 31 ≤ c
      · rw [if_neg]
        unfold toU; omega
      · have e : toU c = c.toNat := by unfold toU; omega
        obtain ⟨x, hx, hx2⟩ := h
        rcases List.mem_cons.1 hx with rfl | hx
        · exact absurd hx2 hbad
        · rw [e, if_pos (by omega), char_enc garbage hg _ (by omega), Res.bind_ok, ih.2 ⟨x, hx, hx2⟩]
          rfl

theorem drop_pre (pre t : List UInt8) : (pre ++ t ++ [0]).drop pre.length = t ++ [0] := by
  rw [List.append_assoc, List.drop_left]

theorem lenLoop_encs (strict : Bool) : ∀ (xs : List Nat) (pre : List UInt8) (fuel n : Nat), Good strict xs → (encs xs).length < fuel →
    lenLoop (pre ++ encs xs) strict ((pre ++ encs xs).length - 1) fuel pre.length n = .ok (.count (n + xs.length))
  | [], pre, fuel, n, _, hf => by
    obtain ⟨fuel, rfl⟩ : ∃ f, fuel = f + 1 := ⟨fuel - 1, by omega⟩
    unfold lenLoop
    rw [if_neg]
    · rfl
    · simp [encs]; omega
  | x :: xs, pre, fuel, n, hg, hf => by
    obtain ⟨fuel, rfl⟩ : ∃ f, fuel = f + 1 := ⟨fuel - 1, by omega⟩
    have hx := hg x (by simp)
    have h1 := enc_ne_nil x
    rw [encs_cons] at hf ⊢
    simp only [List.length_append] at hf
    unfold lenLoop
    rw [if_pos (by simp only [List.length_append]; omega), if_neg (by omega), Int.toNat_natCast, drop_pre, List.append_assoc (enc x),
      decode_enc_valid strict x hx.1 _ hx.2, Res.bind_ok]
    dsimp only
    have e : ((pre ++ (enc x ++ encs xs)).length : Int) + 1 - ((encs xs ++ [0]).length : Nat) = ((pre ++ enc x).length : Nat) := by
      simp only [List.length_append, List.length_singleton]; omega
    rw [e, ← List.append_assoc, lenLoop_encs strict xs (pre ++ enc x) fuel (n + 1) hg.tail (by omega)]
    simp only [List.length_cons]
    congr 2; omega

theorem posrelat_pos (pos : Int) (len : Nat) (h : 0 ≤ pos) : posrelat pos len = pos := by unfold posrelat; rw [if_pos h]

theorem posrelat_neg1 (len : Nat) : posrelat (-1) len = len := by
  unfold posrelat
  rw [if_neg (by omega)]
  have : toU (- -1) = 1 := by decide
  rw [this]
  split
  · omega
  · omega

/-- **C54.** `utf8.len` of a valid string is its number of code points. -/
theorem len_correct (lax : Bool) (xs : List Nat) (hg : Good (!lax) xs) : utflen (encs xs) 1 (-1) lax = .ok (.count xs.length) := by
  unfold utflen
  dsimp only
  rw [posrelat_neg1, posrelat_pos 1 _ (by decide), if_pos (by omega), if_pos (by omega)]
  have := lenLoop_encs (!lax) xs [] ((encs xs).length + 1) 0 hg (by omega)
  simpa using this

theorem lenLoop_sound (strict : Bool) (s : List UInt8) : ∀ (fuel : Nat) (pre t : List UInt8) (xs : List Nat) (r : Len), s = pre ++ t → pre = encs xs → Good strict xs →
    lenLoop s strict ((s.length : Int) - 1) fuel pre.length xs.length = .ok r →
    (∃ ys, r = .count ys.length ∧ s = encs ys ∧ Good strict ys) ∨
    (∃ ys u, r = .invalid ((encs ys).length + 1) ∧ s = encs ys ++ u ∧ u ≠ [] ∧ Good strict ys ∧ ∀ y v, Good strict [y] → u ≠ enc y ++ v)
  | 0, _, _, _, _, _, _, _, h => by simp [lenLoop] at h
  | fuel + 1, pre, t, xs, r, hs, hp, hg, h => by
    have hlen : s.length = pre.length + t.length := by rw [hs]; simp
    unfold lenLoop at h
    cases t with
    | nil =>
      rw [if_neg (by simp at hlen; omega)] at h
      left
      exact ⟨xs, (Res.ok.inj h).symm, by rw [hs, hp]; simp, hg⟩
    | cons b t =>
      simp only [List.length_cons] at hlen
      rw [if_pos (by omega), if_neg (by omega), Int.toNat_natCast] at h
      have hd : (s ++ [0]).drop pre.length = (b :: t) ++ [0] := by rw [hs, drop_pre]
      rw [hd] at h
      cases hdec : decode strict ((b :: t) ++ [0]) with
      | ub => rw [hdec] at h; cases h
      | err m => rw [hdec] at h; cases h
      | ok o =>
        rw [hdec, Res.bind_ok] at h
        cases o with
        | none =>
          right
          refine ⟨xs, b :: t, ?_, by rw [hs, hp], by simp, hg, ?_⟩
          · rw [← hp]; exact (Res.ok.inj h).symm
          · intro y v hy e
            have hy1 := hy y (by simp)
            have := decode_enc_valid strict y hy1.1 (v ++ [0]) hy1.2
            rw [← List.append_assoc, ← e, hdec] at this
            cases this
        | some q =>
          obtain ⟨x, l⟩ := q
          dsimp only at h
          obtain ⟨d1, d2, d3⟩ := decode_sound strict _ _ _ hdec
          -- the terminator cannot have been consumed
          have hl : ∃ t', l = t' ++ [0] ∧ b :: t = enc x ++ t' := by
            rcases List.eq_nil_or_concat l with rfl | ⟨t', z, rfl⟩
            · exfalso
              rw [List.append_nil] at d1
              by_cases h0 : x < 0x80
              · have he : enc x = [UInt8.ofNat x] := by simp [enc, conts, h0, base, contBytes]
                rw [he] at d1
                have := congrArg List.length d1
                simp at this
              · obtain ⟨c, e, -, -, -, -⟩ := enc_first x d2 (by omega)
                have hlast : (enc x).getLast? = some 0 := by rw [← d1, List.getLast?_append]; rfl
                have hne : contBytes (conts x) x ≠ [] := by
                  intro hn
                  have := congrArg List.length hn
                  rw [contBytes_length] at this
                  unfold conts at this
                  rw [if_neg h0] at this
                  revert this
                  repeat' split
                  all_goals simp
                rw [e, List.getLast?_cons_of_ne_nil hne] at hlast
                have := contBytes_isCont _ _ 0 (List.mem_of_getLast? hlast)
                exact absurd this (by decide)
            · rw [List.concat_eq_append, ← List.append_assoc] at d1
              have h1 := List.append_inj' d1 rfl
              have hz : z = 0 := by simpa using h1.2.symm
              exact ⟨t', by rw [hz, List.concat_eq_append], h1.1⟩
          obtain ⟨t', rfl, ht'⟩ := hl
          have hs' : s = (pre ++ enc x) ++ t' := by rw [hs, ht', List.append_assoc]
          have e : (s.length : Int) + 1 - ((t' ++ [0]).length : Nat) = ((pre ++ enc x).length : Nat) := by
            rw [hs']; simp only [List.length_append, List.length_singleton]; omega
          rw [e] at h
          have hencs : pre ++ enc x = encs (xs ++ [x]) := by rw [hp]; simp [encs]
          refine lenLoop_sound strict s fuel (pre ++ enc x) t' (xs ++ [x]) r hs' hencs ?_ ?_
          · intro y hy
            rcases List.mem_append.1 hy with hy | hy
            · exact hg y hy
            · rw [List.mem_singleton.1 hy]; exact ⟨d2, d3⟩
          · rw [← h]; simp

/-- **C54.** Conversely, if `utf8.len` returns a number, the string is an encoding of that many code points; if it reports position `p`, everything before
`p` is valid and no encoding starts at `p`. -/
theorem len_sound (lax : Bool) (s : List UInt8) (r : Len) (h : utflen s 1 (-1) lax = .ok r) :
    (∃ xs, r = .count xs.length ∧ s = encs xs ∧ Good (!lax) xs) ∨
    (∃ xs u, r = .invalid ((encs xs).length + 1) ∧ s = encs xs ++ u ∧ u ≠ [] ∧ Good (!lax) xs ∧ ∀ y v, Good (!lax) [y] → u ≠ enc y ++ v) := by
  unfold utflen at h
  dsimp only at h
  rw [posrelat_neg1, posrelat_pos 1 _ (by decide), if_pos (by omega), if_pos (by omega)] at h
  exact lenLoop_sound (!lax) s (s.length + 1) [] s [] r rfl rfl (fun x hx => by simp at hx) (by simpa using h)

theorem cpLoop_encs (strict : Bool) : ∀ (xs : List Nat) (pre : List UInt8) (fuel : Nat), Good strict xs → (encs xs).length < fuel →
    cpLoop (pre ++ encs xs) strict (pre ++ encs xs).length fuel pre.length = .ok xs
  | [], pre, fuel, _, hf => by
    obtain ⟨fuel, rfl⟩ : ∃ f, fuel = f + 1 := ⟨fuel - 1, by omega⟩
    unfold cpLoop
    rw [if_neg]
    simp [encs]
  | x :: xs, pre, fuel, hg, hf => by
    obtain ⟨fuel, rfl⟩ : ∃ f, fuel = f + 1 := ⟨fuel - 1, by omega⟩
    have hx := hg x (by simp)
    have h1 := enc_ne_nil x
    rw [encs_cons] at hf ⊢
    simp only [List.length_append] at hf
    unfold cpLoop
    rw [if_pos (by simp only [List.length_append]; omega), if_neg (by omega), Int.toNat_natCast, drop_pre, List.append_assoc (enc x),
      decode_enc_valid strict x hx.1 _ hx.2, Res.bind_ok]
    dsimp only
    have e : ((pre ++ (enc x ++ encs xs)).length : Int) + 1 - ((encs xs ++ [0]).length : Nat) = ((pre ++ enc x).length : Nat) := by
      simp only [List.length_append, List.length_singleton]; omega
    rw [e, ← List.append_assoc, cpLoop_encs strict xs (pre ++ enc x) fuel hg.tail (by omega)]
    rfl

/-- **C54.** `utf8.codepoint(s, 1, -1)` returns the code points of a valid string (which `utf8.char` turns back into the string), given stack space. -/
theorem codepoint_correct (room : Nat) (lax : Bool) (xs : List Nat) (hg : Good (!lax) xs) (hroom : (encs xs).length ≤ room) (hint : (encs xs).length ≤ 2147483647) :
    codepoint room (encs xs) 1 (some (-1)) lax = .ok xs := by
  unfold codepoint
  dsimp only [Option.getD_some]
  rw [posrelat_neg1, posrelat_pos 1 _ (by decide), if_pos (by omega), if_pos (by omega)]
  cases xs with
  | nil => rw [if_pos (by simp [encs])]
  | cons x xs =>
    have h1 := enc_ne_nil x
    have hl : (encs (x :: xs)).length = (enc x).length + (encs xs).length := by rw [encs_cons, List.length_append]
    rw [if_neg (by omega), if_neg (by omega), if_neg (by omega)]
    have := cpLoop_encs (!lax) (x :: xs) [] ((encs (x :: xs)).length + 1) hg (by omega)
    simpa using this

/-- iterating `utf8.codes` from a control value: the pairs (position, code point) delivered, at most `fuel` of them -/
def codes (s : List UInt8) (strict : Bool) : Nat → Int → Res (List (Int × Nat))
  | 0, _ => .ub
  | fuel + 1, n => do
    let r ← iterAux s n strict
    match r with
    | none => return []
    | some (p, c) => do
      let rest ← codes s strict fuel p
      return (p, c) :: rest

/-- byte positions (from 1) at which the code points of a string start -/
def positions : Nat → List Nat → List (Int × Nat)
  | _, [] => []
  | p, x :: xs => ((p : Int) + 1, x) :: positions (p + (enc x).length) xs

theorem enc_head (x : Nat) (hx : x < 2 ^ 31) : ∃ c, enc x = c :: contBytes (conts x) x ∧ iscont c = false := by
  by_cases h0 : x < 0x80
  · refine ⟨UInt8.ofNat x, by simp [enc, conts, h0, base, contBytes], ?_⟩
    have : ∀ n : Fin 128, iscont (UInt8.ofNat n.val) = false := by decide +kernel
    exact this ⟨x, h0⟩
  · obtain ⟨c, e, h1, h2, -, -⟩ := enc_first x hx (by omega)
    refine ⟨c, e, ?_⟩
    have : ∀ c : UInt8, 192 ≤ c.toNat → iscont c = false := by apply u8_forall; decide +kernel
    exact this c h1

theorem iscont_iff (b : UInt8) : iscont b = true ↔ IsCont b := by
  revert b; apply u8_forall; decide +kernel

theorem skipCont_spec : ∀ (bs : List UInt8) (c : UInt8) (l : List UInt8), (∀ b ∈ bs, IsCont b) → iscont c = false → skipCont (bs ++ c :: l) = .ok (c :: l)
  | [], c, l, _, hc => by simp [skipCont, hc]
  | b :: bs, c, l, h, hc => by
    rw [List.cons_append]
    unfold skipCont
    rw [if_pos ((iscont_iff b).2 (h b (by simp)))]
    exact skipCont_spec bs c l (fun x hx => h x (by simp [hx])) hc

/-- what follows an encoding in a valid string does not start with a continuation byte -/
theorem next_head (xs : List Nat) (strict : Bool) (hg : Good strict xs) : ∃ c l, encs xs ++ [0] = c :: l ∧ iscont c = false := by
  cases xs with
  | nil => exact ⟨0, [], rfl, by decide +kernel⟩
  | cons x xs =>
    obtain ⟨c, e, hc⟩ := enc_head x (hg x (by simp)).1
    exact ⟨c, contBytes (conts x) x ++ (encs xs ++ [0]), by rw [encs_cons, e]; simp, hc⟩

/-- the step from a control value to the next code point -/
theorem iterAux_next (strict : Bool) (pre : List UInt8) (x : Nat) (xs : List Nat) (hx : x < 2 ^ 31) (hg : Good strict xs) (hmax : (pre ++ enc x ++ encs xs).length < 2 ^ 62) :
    iterAux (pre ++ enc x ++ encs xs) (pre.length + 1) strict =
      match xs with
      | [] => .ok none
      | y :: _ => .ok (some ((pre ++ enc x).length + 1, y)) := by
  unfold iterAux
  have h1 := enc_ne_nil x
  have hs : sres ((pre.length : Int) + 1 - 1) = .ok (pre.length : Int) := by
    rw [show (pre.length : Int) + 1 - 1 = (pre.length : Int) by omega]
    apply sres_ok; unfold InI; simp only [List.length_append] at hmax; omega
  rw [hs]
  dsimp only
  rw [if_neg (by omega), if_pos (by simp only [List.length_append]; omega)]
  obtain ⟨c, l, hcl, hc⟩ := next_head xs strict hg
  obtain ⟨c0, e0, -⟩ := enc_head x hx
  have hd : (pre ++ enc x ++ encs xs ++ [0]).drop ((pre.length : Int).toNat + 1) = contBytes (conts x) x ++ c :: l := by
    rw [← hcl, Int.toNat_natCast, List.append_assoc pre, List.append_assoc pre, ← List.drop_drop, List.drop_left, e0]
    simp
  rw [hd, skipCont_spec _ c l (contBytes_isCont _ _) hc, Res.bind_ok]
  simp only [Res.pure_eq, Res.bind_ok]
  have hl : (c :: l).length = (encs xs).length + 1 := by rw [← hcl]; simp
  have e : ((pre ++ enc x ++ encs xs).length : Int) + 1 - ((c :: l).length : Nat) = ((pre ++ enc x).length : Nat) := by
    rw [hl]; simp only [List.length_append]; omega
  rw [e]
  cases xs with
  | nil => rw [if_pos (by simp [encs])]
  | cons y ys =>
    have hy := hg y (by simp)
    have := enc_ne_nil y
    rw [if_neg (by rw [encs_cons]; simp only [List.length_append]; omega), Int.toNat_natCast, drop_pre, encs_cons, List.append_assoc,
      decode_enc_valid strict y hy.1 _ hy.2]
    rfl

theorem codes_from (strict : Bool) : ∀ (xs : List Nat) (pre : List UInt8) (x : Nat) (fuel : Nat), x < 2 ^ 31 → Good strict xs → (pre ++ enc x ++ encs xs).length < 2 ^ 62 →
    xs.length < fuel → codes (pre ++ enc x ++ encs xs) strict fuel (pre.length + 1) = .ok (positions (pre ++ enc x).length xs)
  | [], pre, x, fuel, hx, hg, hmax, hf => by
    obtain ⟨fuel, rfl⟩ : ∃ f, fuel = f + 1 := ⟨fuel - 1, by omega⟩
    unfold codes
    rw [iterAux_next strict pre x [] hx hg hmax]
    rfl
  | y :: ys, pre, x, fuel, hx, hg, hmax, hf => by
    obtain ⟨fuel, rfl⟩ : ∃ f, fuel = f + 1 := ⟨fuel - 1, by omega⟩
    unfold codes
    rw [iterAux_next strict pre x (y :: ys) hx hg hmax]
    simp only [Res.bind_ok]
    have e : pre ++ enc x ++ encs (y :: ys) = (pre ++ enc x) ++ enc y ++ encs ys := by rw [encs_cons]; simp
    rw [e] at hmax ⊢
    rw [codes_from strict ys (pre ++ enc x) y fuel (hg y (by simp)).1 hg.tail hmax (by simp at hf; omega)]
    simp [positions, Nat.add_assoc]

/-- **C54.** `for p, c in utf8.codes(s)` over a valid string delivers every code point once, in order, with its byte position. -/
theorem codes_correct_partial (strict : Bool) (xs : List Nat) (hg : Good strict xs) (hmax : (encs xs).length < 2 ^ 62) (fuel : Nat) (hf : xs.length < fuel) :
    codes (encs xs) strict fuel 0 = .ok (positions 0 xs) := by
  obtain ⟨fuel, rfl⟩ : ∃ f, fuel = f + 1 := ⟨fuel - 1, by omega⟩
  have hs : sres ((0 : Int) - 1) = .ok (-1) := by decide
  unfold codes iterAux
  rw [hs]
  dsimp only
  rw [if_pos (by decide), Res.bind_ok]
  cases xs with
  | nil => rfl
  | cons x xs =>
    have hx := hg x (by simp)
    have := enc_ne_nil x
    rw [if_neg (by rw [encs_cons]; simp only [List.length_append]; omega)]
    simp only [Int.toNat_zero, List.drop_zero]
    rw [encs_cons, List.append_assoc, decode_enc_valid strict x hx.1 _ hx.2]
    simp only [Res.bind_ok, Res.pure_eq]
    have := codes_from strict xs [] x fuel hx.1 hg.tail (by rw [encs_cons] at hmax; simpa using hmax) (by simp at hf; omega)
    simp only [List.nil_append, List.length_nil] at this
    rw [show (0 : Int) + 1 = ((0 : Nat) : Int) + 1 from rfl, this]
    simp [positions]

/-- The converse fails: the manual says that `utf8.codes` "raises an error if it meets any invalid byte sequence", but continuation bytes after a valid
character are skipped silently (lutf8lib.c 232).  The string "a\x80b" is rejected by `utf8.len` and accepted by `utf8.codes`. -/
theorem codes_skips_invalid : ∃ s : List UInt8, codes s true 4 0 = .ok [(1, 97), (3, 98)] ∧ utflen s 1 (-1) false = .ok (.invalid 2) ∧
    ∀ xs, Good true xs → s ≠ encs xs := by
  refine ⟨[97, 0x80, 98], by decide +kernel, by decide +kernel, fun xs hg e => ?_⟩
  have h := len_correct false xs hg
  rw [← e, show utflen [97, 0x80, 98] 1 (-1) false = .ok (.invalid 2) by decide +kernel] at h
  cases h

example : utflen (encs [0x41, 0x20AC, 0x1F600]) 1 (-1) false = .ok (.count 3) :=
  len_correct false _ (by intro x hx; simp at hx; unfold Valid; omega)

end Verif.Utf8
