import Verif.Utf8.Lib
/-!
Property C54, continued: `utf8.offset`, and the ranges of `utf8.len` and `utf8.codepoint`.
-/
namespace Verif.Utf8

/-! ### the model -/

/-- `s[p]`, with the `\0` after the string; the argument of `iscont` in `byteoffset`, lutf8lib.c 193, 196, 202 -/
def byteAt (s : List UInt8) (p : Nat) : Res UInt8 :=
  match (s ++ [0])[p]? with
  | some b => .ok b
  | none => .ub

/-- `while (posi > 0 && iscont(s + posi)) posi--`, lutf8lib.c 193 and 202 -/
def backCont (s : List UInt8) : Nat → Res Nat
  | 0 => .ok 0
  | p + 1 => do
    let b ← byteAt s (p + 1)
    if iscont b then backCont s p else .ok (p + 1)

/-- the loop for negative `n`, lutf8lib.c 199-204, `m` is `-n`: what is left of it, and the position -/
def backChars (s : List UInt8) : Nat → Nat → Res (Nat × Nat)
  | 0, p => .ok (0, p)
  | m + 1, 0 => .ok (m + 1, 0)
  | m + 1, p + 1 => do
    let q ← backCont s p
    backChars s m q

/-- the loop for positive `n`, lutf8lib.c 208-213 -/
def fwdChars (s : List UInt8) : Nat → Nat → Res (Nat × Nat)
  | 0, p => .ok (0, p)
  | m + 1, p =>
    if p < s.length then do
      let l ← skipCont ((s ++ [0]).drop (p + 1))
      fwdChars s m (s.length + 1 - l.length)
    else .ok (m + 1, p)

/-- `byteoffset`, lutf8lib.c 183-221: the position, or nil -/
def byteoffset (s : List UInt8) (n : Int) (i : Option Int) : Res (Option Int) :=
  let posi : Int := if n ≥ 0 then 1 else s.length + 1
  let posi := posrelat (i.getD posi) s.length
  if 1 ≤ posi ∧ posi - 1 ≤ s.length then
    let p := (posi - 1).toNat
    if n = 0 then do
      let q ← backCont s p
      return some ((q : Int) + 1)
    else do
      let b ← byteAt s p
      if iscont b then .err "initial position is a continuation byte"
      else
        let (m, q) ← if n < 0 then backChars s (-n).toNat p else fwdChars s (n.toNat - 1) p
        return if m = 0 then some ((q : Int) + 1) else none
  else .err "position out of bounds"

/-! ### positions in a valid string -/

/-- encodable code points -/
def Enc (xs : List Nat) : Prop := ∀ x ∈ xs, x < 2 ^ 31

theorem Enc.good {xs : List Nat} (h : Enc xs) : Good false xs := fun x hx => ⟨h x hx, fun e => by cases e⟩

theorem encs_append (xs ys : List Nat) : encs (xs ++ ys) = encs xs ++ encs ys := by
  unfold encs; rw [List.map_append, List.flatten_append]

theorem Enc.left {xs ys : List Nat} (h : Enc (xs ++ ys)) : Enc xs := fun x hx => h x (by simp [hx])
theorem Enc.right {xs ys : List Nat} (h : Enc (xs ++ ys)) : Enc ys := fun x hx => h x (by simp [hx])

theorem byteAt_start {ys zs : List Nat} (h : Enc (ys ++ zs)) : ∃ b, byteAt (encs (ys ++ zs)) (encs ys).length = .ok b ∧ iscont b = false := by
  obtain ⟨c, l, e, hc⟩ := next_head zs false h.right.good
  refine ⟨c, ?_, hc⟩
  unfold byteAt
  rw [encs_append, List.append_assoc, e, List.getElem?_append_right (Nat.le_refl _), Nat.sub_self]
  rfl

theorem byteAt_inside {ys zs : List Nat} {x : Nat} (h : Enc (ys ++ x :: zs)) {d : Nat} (h0 : 0 < d) (hd : d < (enc x).length) :
    ∃ b, byteAt (encs (ys ++ x :: zs)) ((encs ys).length + d) = .ok b ∧ iscont b = true := by
  obtain ⟨c, e, hc⟩ := enc_head x (h x (by simp))
  obtain ⟨d, rfl⟩ : ∃ d', d = d' + 1 := ⟨d - 1, by omega⟩
  rw [e, List.length_cons] at hd
  have hd : d < (contBytes (conts x) x).length := by omega
  refine ⟨(contBytes (conts x) x)[d], ?_, (iscont_iff _).2 (contBytes_isCont _ _ _ (List.getElem_mem hd))⟩
  unfold byteAt
  rw [encs_append, encs_cons, e, List.append_assoc, List.getElem?_append_right (by omega), Nat.add_sub_cancel_left]
  rw [List.cons_append, List.cons_append, List.getElem?_cons_succ, List.append_assoc, List.getElem?_append_left hd, List.getElem?_eq_getElem hd]

/-- from inside a character back to its start -/
theorem backCont_inside {ys zs : List Nat} {x : Nat} (h : Enc (ys ++ x :: zs)) : ∀ d, d < (enc x).length →
    backCont (encs (ys ++ x :: zs)) ((encs ys).length + d) = .ok (encs ys).length := by
  intro d
  induction d with
  | zero =>
    intro _
    obtain ⟨b, h1, h2⟩ := byteAt_start (ys := ys) (zs := x :: zs) h
    rw [Nat.add_zero]
    cases hp : (encs ys).length with
    | zero => rfl
    | succ p =>
      rw [hp] at h1
      unfold backCont
      rw [h1, Res.bind_ok, h2]
      rfl
  | succ d ih =>
    intro hd
    obtain ⟨b, h1, h2⟩ := byteAt_inside h (d := d + 1) (by omega) hd
    rw [← Nat.add_assoc] at h1 ⊢
    unfold backCont
    rw [h1, Res.bind_ok, h2]
    exact ih (by omega)

theorem backCont_end {xs : List Nat} (h : Enc xs) : backCont (encs xs) (encs xs).length = .ok (encs xs).length := by
  obtain ⟨b, h1, h2⟩ := byteAt_start (ys := xs) (zs := []) (by simpa using h)
  rw [List.append_nil] at h1
  cases hp : (encs xs).length with
  | zero => rfl
  | succ p =>
    rw [hp] at h1
    unfold backCont
    rw [h1, Res.bind_ok, h2]
    rfl

theorem encs_snoc_length (ys : List Nat) (y : Nat) : (encs (ys ++ [y])).length = (encs ys).length + (enc y).length := by
  rw [encs_append, List.length_append]; simp [encs]

theorem take_snoc (ys : List Nat) (y m : Nat) : (ys ++ [y]).take (ys.length + 1 - (m + 1)) = ys.take (ys.length - m) := by
  rw [Nat.add_sub_add_right, List.take_append_of_le_length (by omega)]

theorem backChars_spec : ∀ (m : Nat) (ys zs : List Nat), Enc (ys ++ zs) →
    backChars (encs (ys ++ zs)) m (encs ys).length = .ok (m - ys.length, (encs (ys.take (ys.length - m))).length) := by
  intro m
  induction m with
  | zero => intro ys zs h; simp [backChars]
  | succ m ih =>
    intro ys zs h
    rcases List.eq_nil_or_concat ys with rfl | ⟨ys', y, rfl⟩
    · simp [backChars, encs]
    · rw [List.concat_eq_append] at h ⊢
      have h1 := enc_ne_nil y
      have e : (encs (ys' ++ [y])).length = ((encs ys').length + ((enc y).length - 1)) + 1 := by
        rw [encs_snoc_length]; omega
      rw [e]
      unfold backChars
      rw [List.append_assoc] at h ⊢
      rw [List.singleton_append] at h ⊢
      rw [backCont_inside h _ (by omega), Res.bind_ok, ih ys' (y :: zs) h, List.length_append, List.length_singleton, take_snoc]
      congr 2
      omega

theorem fwdChars_spec : ∀ (m : Nat) (ys zs : List Nat), Enc (ys ++ zs) →
    fwdChars (encs (ys ++ zs)) m (encs ys).length = .ok (m - zs.length, (encs (ys ++ zs.take m)).length) := by
  intro m
  induction m with
  | zero => intro ys zs h; simp [fwdChars]
  | succ m ih =>
    intro ys zs h
    unfold fwdChars
    cases zs with
    | nil => rw [if_neg (by simp)]; simp
    | cons z zs =>
      have h1 := enc_ne_nil z
      rw [if_pos (by rw [encs_append, encs_cons]; simp only [List.length_append]; omega)]
      obtain ⟨c, e, hc⟩ := enc_head z (h z (by simp))
      obtain ⟨c', l, e', hc'⟩ := next_head zs false (fun x hx => ⟨h x (by simp [hx]), fun e => by cases e⟩)
      have hd : (encs (ys ++ z :: zs) ++ [0]).drop ((encs ys).length + 1) = contBytes (conts z) z ++ c' :: l := by
        rw [encs_append, encs_cons, List.append_assoc, List.append_assoc, e', e]
        rw [show encs ys ++ (c :: contBytes (conts z) z ++ c' :: l) = (encs ys ++ [c]) ++ (contBytes (conts z) z ++ c' :: l) from by simp]
        rw [show (encs ys).length + 1 = (encs ys ++ [c]).length from by simp, List.drop_left]
      rw [hd, skipCont_spec _ _ _ (contBytes_isCont _ _) hc', Res.bind_ok]
      have hl : (c' :: l).length = (encs zs).length + 1 := by rw [← e']; simp
      have e2 : (encs (ys ++ z :: zs)).length + 1 - (c' :: l).length = (encs (ys ++ [z])).length := by
        rw [hl, encs_snoc_length, encs_append, encs_cons]
        simp only [List.length_append]
        omega
      rw [e2, show ys ++ z :: zs = (ys ++ [z]) ++ zs from by simp, ih (ys ++ [z]) zs (by simpa using h)]
      simp

/-! ### `utf8.offset` -/

/-- the index `i`, positive or negative, is that of the byte after `a` in a string `a ++ b` -/
def Index (a b : List UInt8) (i : Int) : Prop := i = a.length + 1 ∨ (b ≠ [] ∧ i = -b.length)

theorem Index.rel {a b : List UInt8} {i : Int} (h : Index a b i) (hs : (a ++ b).length < 2 ^ 63) : posrelat i (a ++ b).length = a.length + 1 := by
  rw [List.length_append] at hs ⊢
  rcases h with rfl | ⟨h, rfl⟩
  · exact posrelat_pos _ _ (by omega)
  · have := List.length_pos_iff.2 h
    unfold posrelat
    rw [if_neg (by omega), if_neg]
    · omega
    · unfold toU
      omega

theorem byteoffset_start {ys zs : List Nat} (h : Enc (ys ++ zs)) {i : Int} (hi : Index (encs ys) (encs zs) i) (hs : (encs (ys ++ zs)).length < 2 ^ 63) {n : Int} (hn : n ≠ 0) :
    byteoffset (encs (ys ++ zs)) n (some i) =
      ((if n < 0 then backChars (encs (ys ++ zs)) (-n).toNat (encs ys).length else fwdChars (encs (ys ++ zs)) (n.toNat - 1) (encs ys).length) >>=
        fun r => (pure (if r.1 = 0 then some ((r.2 : Int) + 1) else none) : Res (Option Int))) := by
  have e := encs_append ys zs
  rw [e] at hs
  have hr := hi.rel hs
  rw [← e] at hr
  unfold byteoffset
  dsimp only [Option.getD_some]
  rw [hr, if_pos ⟨by omega, by rw [e, List.length_append]; omega⟩, if_neg hn, show ((encs ys).length + 1 - 1 : Int).toNat = (encs ys).length from by omega]
  obtain ⟨b, h1, h2⟩ := byteAt_start h
  rw [h1, Res.bind_ok, h2, if_neg (by decide)]
  split <;> rfl

/-- **C83.** `utf8.offset(s, n, i)` with positive `n`, `i` being the start of a character: the start of the `n`-th character from there, counting this one as the first;
the end of the string counts as a start; nil if there are not that many. -/
theorem offset_forward (ys zs : List Nat) (h : Enc (ys ++ zs)) (hs : (encs (ys ++ zs)).length < 2 ^ 63) (i : Int) (hi : Index (encs ys) (encs zs) i) (n : Nat) :
    byteoffset (encs (ys ++ zs)) (n + 1) (some i) = .ok (if n ≤ zs.length then some ((encs (ys ++ zs.take n)).length + 1) else none) := by
  rw [byteoffset_start h hi hs (by omega), if_neg (by omega), show ((n : Int) + 1).toNat - 1 = n from by omega, fwdChars_spec n ys zs h, Res.bind_ok]
  dsimp only
  by_cases hn : n ≤ zs.length
  · rw [if_pos hn, if_pos (by omega)]; rfl
  · rw [if_neg hn, if_neg (by omega)]; rfl

/-- **C83.** `utf8.offset(s, -n, i)` with positive `n`: the start of the `n`-th character before `i`, nil if there are not that many. -/
theorem offset_backward (ys zs : List Nat) (h : Enc (ys ++ zs)) (hs : (encs (ys ++ zs)).length < 2 ^ 63) (i : Int) (hi : Index (encs ys) (encs zs) i) (n : Nat) (hn : 0 < n) :
    byteoffset (encs (ys ++ zs)) (-n) (some i) = .ok (if n ≤ ys.length then some ((encs (ys.take (ys.length - n))).length + 1) else none) := by
  rw [byteoffset_start h hi hs (by omega), if_pos (by omega), show (- -(n : Int)).toNat = n from by omega, backChars_spec n ys zs h, Res.bind_ok]
  dsimp only
  by_cases hn : n ≤ ys.length
  · rw [if_pos hn, if_pos (by omega)]; rfl
  · rw [if_neg hn, if_neg (by omega)]; rfl

/-- **C83.** Without an index, positive `n` counts from the start of the string, negative `n` from its end. -/
theorem offset_default (xs : List Nat) (h : Enc xs) (hs : (encs xs).length < 2 ^ 63) (n : Nat) :
    byteoffset (encs xs) (n + 1) none = .ok (if n ≤ xs.length then some ((encs (xs.take n)).length + 1) else none) ∧
    byteoffset (encs xs) (-(n + 1 : Nat)) none = .ok (if n + 1 ≤ xs.length then some ((encs (xs.take (xs.length - (n + 1)))).length + 1) else none) := by
  constructor
  · have := offset_forward [] xs (by simpa using h) (by simpa using hs) 1 (Or.inl rfl) n
    rw [List.nil_append] at this
    rw [List.nil_append] at this
    rw [← this]
    unfold byteoffset
    dsimp only [Option.getD_some, Option.getD_none]
    rw [if_pos (show (n : Int) + 1 ≥ 0 by omega)]
  · have := offset_backward xs [] (by simpa using h) (by simpa using hs) ((encs xs).length + 1) (Or.inl rfl) (n + 1) (by omega)
    rw [List.append_nil] at this
    rw [← this]
    unfold byteoffset
    dsimp only [Option.getD_some, Option.getD_none]
    rw [if_neg (show ¬(-((n + 1 : Nat) : Int) ≥ 0) by omega)]

/-- **C83.** `utf8.offset(s, 0, i)` is the start of the character with the byte `i`. -/
theorem offset_zero (ys zs : List Nat) (x : Nat) (h : Enc (ys ++ x :: zs)) (u v : List UInt8) (e : enc x = u ++ v) (hv : v ≠ []) (hs : (encs (ys ++ x :: zs)).length < 2 ^ 63)
    (i : Int) (hi : Index (encs ys ++ u) (v ++ encs zs) i) : byteoffset (encs (ys ++ x :: zs)) 0 (some i) = .ok (some ((encs ys).length + 1)) := by
  have e2 : encs (ys ++ x :: zs) = (encs ys ++ u) ++ (v ++ encs zs) := by rw [encs_append, encs_cons, e]; simp
  rw [e2] at hs
  have hr := hi.rel hs
  rw [← e2] at hr
  have hvl := List.length_pos_iff.2 hv
  unfold byteoffset
  dsimp only [Option.getD_some]
  rw [hr, List.length_append, if_pos ⟨by omega, by rw [e2]; simp only [List.length_append]; omega⟩, if_pos rfl]
  rw [show ((((encs ys).length + u.length : Nat) : Int) + 1 - 1).toNat = (encs ys).length + u.length from by omega]
  rw [backCont_inside h _ (by rw [e, List.length_append]; omega)]
  rfl

/-- **C83.** An index inside a character is an error unless `n` is 0. -/
theorem offset_inside (ys zs : List Nat) (x : Nat) (h : Enc (ys ++ x :: zs)) (u v : List UInt8) (e : enc x = u ++ v) (hu : u ≠ []) (hv : v ≠ [])
    (hs : (encs (ys ++ x :: zs)).length < 2 ^ 63) (i : Int) (hi : Index (encs ys ++ u) (v ++ encs zs) i) (n : Int) (hn : n ≠ 0) :
    byteoffset (encs (ys ++ x :: zs)) n (some i) = .err "initial position is a continuation byte" := by
  have e2 : encs (ys ++ x :: zs) = (encs ys ++ u) ++ (v ++ encs zs) := by rw [encs_append, encs_cons, e]; simp
  rw [e2] at hs
  have hr := hi.rel hs
  rw [← e2] at hr
  have hul := List.length_pos_iff.2 hu
  have hvl := List.length_pos_iff.2 hv
  unfold byteoffset
  dsimp only [Option.getD_some]
  rw [hr, List.length_append, if_pos ⟨by omega, by rw [e2]; simp only [List.length_append]; omega⟩, if_neg hn]
  rw [show ((((encs ys).length + u.length : Nat) : Int) + 1 - 1).toNat = (encs ys).length + u.length from by omega]
  obtain ⟨b, h1, h2⟩ := byteAt_inside h (d := u.length) hul (by rw [e, List.length_append]; omega)
  rw [h1, Res.bind_ok, h2]
  rfl

/-! ### no read outside the string, whatever its bytes -/

theorem byteAt_ok (s : List UInt8) {p : Nat} (h : p ≤ s.length) : ∃ b, byteAt s p = .ok b := by
  unfold byteAt
  rw [List.getElem?_eq_getElem (by simp; omega)]
  exact ⟨_, rfl⟩

theorem backCont_ok (s : List UInt8) : ∀ p, p ≤ s.length → ∃ q, backCont s p = .ok q ∧ q ≤ p
  | 0, _ => ⟨0, rfl, Nat.le_refl _⟩
  | p + 1, h => by
    obtain ⟨b, hb⟩ := byteAt_ok s h
    unfold backCont
    rw [hb, Res.bind_ok]
    split
    · obtain ⟨q, h1, h2⟩ := backCont_ok s p (by omega)
      exact ⟨q, h1, by omega⟩
    · exact ⟨_, rfl, Nat.le_refl _⟩

theorem backChars_ok (s : List UInt8) : ∀ m p, p ≤ s.length → ∃ r, backChars s m p = .ok r
  | 0, p, _ => ⟨_, rfl⟩
  | m + 1, 0, _ => ⟨_, rfl⟩
  | m + 1, p + 1, h => by
    obtain ⟨q, h1, h2⟩ := backCont_ok s p (by omega)
    unfold backChars
    rw [h1, Res.bind_ok]
    exact backChars_ok s m q (by omega)

theorem skipCont_ok : ∀ l : List UInt8, ∃ r, skipCont (l ++ [0]) = .ok r ∧ r ≠ [] ∧ r.length ≤ l.length + 1
  | [] => ⟨[0], by decide +kernel, by simp, by simp⟩
  | b :: l => by
    rw [List.cons_append]
    unfold skipCont
    split
    · obtain ⟨r, h1, h2, h3⟩ := skipCont_ok l
      exact ⟨r, h1, h2, by rw [List.length_cons]; omega⟩
    · exact ⟨_, rfl, by simp, by simp⟩

theorem fwdChars_ok (s : List UInt8) : ∀ m p, p ≤ s.length → ∃ r, fwdChars s m p = .ok r
  | 0, p, _ => ⟨_, rfl⟩
  | m + 1, p, h => by
    unfold fwdChars
    split
    · rename_i hp
      rw [List.drop_append_of_le_length (by omega)]
      obtain ⟨r, h1, h2, h3⟩ := skipCont_ok (s.drop (p + 1))
      rw [h1, Res.bind_ok]
      have := List.length_pos_iff.2 h2
      exact fwdChars_ok s m _ (by omega)
    · exact ⟨_, rfl⟩

/-- **C83.** `utf8.offset` reads no byte outside the string, whatever the string and the arguments. -/
theorem offset_in_bounds (s : List UInt8) (n : Int) (i : Option Int) : byteoffset s n i ≠ .ub := by
  unfold byteoffset
  dsimp only
  generalize posrelat _ _ = posi
  split
  · rename_i hp
    have hle : (posi - 1).toNat ≤ s.length := by omega
    split
    · obtain ⟨q, h1, -⟩ := backCont_ok s _ hle
      rw [h1]
      exact nofun
    · obtain ⟨b, hb⟩ := byteAt_ok s hle
      rw [hb, Res.bind_ok]
      split
      · exact nofun
      · split
        · obtain ⟨r, h1⟩ := backChars_ok s (-n).toNat _ hle
          rw [h1]
          exact nofun
        · obtain ⟨r, h1⟩ := fwdChars_ok s (n.toNat - 1) _ hle
          rw [h1]
          exact nofun
  · exact nofun

/-! ### ranges -/

/-- the characters `ms` from position `p + 1` on are those that start up to position `j` -/
def Range (p : Nat) (ms : List Nat) (j : Int) : Prop :=
  j < p + (encs ms).length + 1 ∧ ∀ ms' x, ms = ms' ++ [x] → (p : Int) + (encs ms').length + 1 ≤ j

theorem Range.first {p x : Nat} {ms : List Nat} {j : Int} (h : Range p (x :: ms) j) : (p : Int) + 1 ≤ j := by
  rcases List.eq_nil_or_concat (x :: ms) with e | ⟨l, y, e⟩
  · cases e
  · rw [List.concat_eq_append] at e
    have := h.2 l y e
    omega

theorem Range.tail {p x : Nat} {ms : List Nat} {j : Int} (h : Range p (x :: ms) j) : Range (p + (enc x).length) ms j := by
  have h1 := h.1
  rw [encs_cons, List.length_append] at h1
  refine ⟨by omega, fun ms' y e => ?_⟩
  have := h.2 (x :: ms') y (by rw [e]; rfl)
  rw [encs_cons, List.length_append] at this
  omega

theorem lenLoop_range (strict : Bool) (j : Int) (post : List UInt8) : ∀ (ms : List Nat) (pre : List UInt8) (fuel n : Nat), Good strict ms → (encs ms).length < fuel →
    Range pre.length ms j → lenLoop (pre ++ encs ms ++ post) strict (j - 1) fuel pre.length n = .ok (.count (n + ms.length))
  | [], pre, fuel, n, _, hf, hr => by
    obtain ⟨fuel, rfl⟩ : ∃ f, fuel = f + 1 := ⟨fuel - 1, by omega⟩
    have := hr.1
    simp only [encs, List.map_nil, List.flatten_nil, List.length_nil] at this
    unfold lenLoop
    rw [if_neg (by omega)]
    rfl
  | x :: xs, pre, fuel, n, hg, hf, hr => by
    obtain ⟨fuel, rfl⟩ : ∃ f, fuel = f + 1 := ⟨fuel - 1, by omega⟩
    have hx := hg x (by simp)
    have h1 := enc_ne_nil x
    have h2 := hr.first
    rw [encs_cons] at hf ⊢
    simp only [List.length_append] at hf
    unfold lenLoop
    rw [if_pos (by omega), if_neg (by omega), Int.toNat_natCast, List.append_assoc pre, drop_pre, List.append_assoc (enc x), List.append_assoc (enc x),
      decode_enc_valid strict x hx.1 _ hx.2, Res.bind_ok]
    dsimp only
    have e : ((pre ++ (enc x ++ (encs xs ++ post))).length : Int) + 1 - ((encs xs ++ post ++ [0]).length : Nat) = ((pre ++ enc x).length : Nat) := by
      simp only [List.length_append, List.length_singleton]; omega
    rw [e, ← List.append_assoc, ← List.append_assoc, lenLoop_range strict j post xs (pre ++ enc x) fuel (n + 1) hg.tail (by omega) (by rw [List.length_append]; exact hr.tail)]
    simp only [List.length_cons]
    congr 2; omega

theorem cpLoop_range (strict : Bool) (j : Int) (post : List UInt8) : ∀ (ms : List Nat) (pre : List UInt8) (fuel : Nat), Good strict ms → (encs ms).length < fuel →
    Range pre.length ms j → cpLoop (pre ++ encs ms ++ post) strict j fuel pre.length = .ok ms
  | [], pre, fuel, _, hf, hr => by
    obtain ⟨fuel, rfl⟩ : ∃ f, fuel = f + 1 := ⟨fuel - 1, by omega⟩
    have := hr.1
    simp only [encs, List.map_nil, List.flatten_nil, List.length_nil] at this
    unfold cpLoop
    rw [if_neg (by omega)]
  | x :: xs, pre, fuel, hg, hf, hr => by
    obtain ⟨fuel, rfl⟩ : ∃ f, fuel = f + 1 := ⟨fuel - 1, by omega⟩
    have hx := hg x (by simp)
    have h1 := enc_ne_nil x
    have h2 := hr.first
    rw [encs_cons] at hf ⊢
    simp only [List.length_append] at hf
    unfold cpLoop
    rw [if_pos (by omega), if_neg (by omega), Int.toNat_natCast, List.append_assoc pre, drop_pre, List.append_assoc (enc x), List.append_assoc (enc x),
      decode_enc_valid strict x hx.1 _ hx.2, Res.bind_ok]
    dsimp only
    have e : ((pre ++ (enc x ++ (encs xs ++ post))).length : Int) + 1 - ((encs xs ++ post ++ [0]).length : Nat) = ((pre ++ enc x).length : Nat) := by
      simp only [List.length_append, List.length_singleton]; omega
    rw [e, ← List.append_assoc, ← List.append_assoc, cpLoop_range strict j post xs (pre ++ enc x) fuel hg.tail (by omega) (by rw [List.length_append]; exact hr.tail)]
    rfl

/-- **C83.** `utf8.len(s, i, j)` counts the characters that start between the positions `i` and `j`, both positive or negative, whatever stands outside the range. -/
theorem len_range (lax : Bool) (pre : List UInt8) (ms : List Nat) (post : List UInt8) (hg : Good (!lax) ms) (hs : (pre ++ encs ms ++ post).length < 2 ^ 63)
    (i j : Int) (hi : Index pre (encs ms ++ post) i) (hj : posrelat j (pre ++ encs ms ++ post).length ≤ (pre ++ encs ms ++ post).length)
    (hr : Range pre.length ms (posrelat j (pre ++ encs ms ++ post).length)) :
    utflen (pre ++ encs ms ++ post) i j lax = .ok (.count ms.length) := by
  have hri : posrelat i (pre ++ encs ms ++ post).length = pre.length + 1 := by
    rw [List.append_assoc] at hs ⊢
    exact hi.rel hs
  unfold utflen
  dsimp only
  rw [hri, if_pos ⟨by omega, by simp only [List.length_append]; omega⟩, if_pos (by omega), show (pre.length : Int) + 1 - 1 = pre.length from by omega]
  rw [lenLoop_range (!lax) _ post ms pre _ 0 hg (by simp only [List.length_append]; omega) hr]
  simp

/-- **C83.** `utf8.codepoint(s, i, j)` returns the code points of the characters that start between the positions `i` and `j`. -/
theorem codepoint_range (room : Nat) (lax : Bool) (pre : List UInt8) (ms : List Nat) (post : List UInt8) (hg : Good (!lax) ms) (hs : (pre ++ encs ms ++ post).length ≤ 2147483647)
    (hroom : (pre ++ encs ms ++ post).length ≤ room) (i j : Int) (hi : Index pre (encs ms ++ post) i)
    (hj : posrelat j (pre ++ encs ms ++ post).length ≤ (pre ++ encs ms ++ post).length) (hr : Range pre.length ms (posrelat j (pre ++ encs ms ++ post).length)) :
    codepoint room (pre ++ encs ms ++ post) i (some j) lax = .ok ms := by
  have hri : posrelat i (pre ++ encs ms ++ post).length = pre.length + 1 := by
    rw [List.append_assoc] at hs ⊢
    exact hi.rel (by omega)
  unfold codepoint
  dsimp only [Option.getD_some]
  rw [hri, if_pos (by omega), if_pos hj]
  have hl := cpLoop_range (!lax) _ post ms pre ((pre ++ encs ms ++ post).length + 1) hg (by simp only [List.length_append]; omega) hr
  cases ms with
  | nil =>
    have := hr.1
    simp only [encs, List.map_nil, List.flatten_nil, List.length_nil] at this
    rw [if_pos (by simp only [encs, List.map_nil, List.flatten_nil]; omega)]
  | cons x xs =>
    have := hr.first
    rw [if_neg (by omega), if_neg (by omega), if_neg (by omega), show (pre.length : Int) + 1 - 1 = pre.length from by omega, hl]

/-- **C83.** `utf8.codepoint(s, i)` returns the code point of the character that starts at `i`. -/
theorem codepoint_one (room : Nat) (lax : Bool) (pre : List UInt8) (x : Nat) (post : List UInt8) (hg : Good (!lax) [x]) (hs : (pre ++ enc x ++ post).length ≤ 2147483647)
    (hroom : 0 < room) (i : Int) (hi : Index pre (enc x ++ post) i) : codepoint room (pre ++ enc x ++ post) i none lax = .ok [x] := by
  have h1 := enc_ne_nil x
  have hri : posrelat i (pre ++ enc x ++ post).length = pre.length + 1 := by
    rw [List.append_assoc] at hs ⊢
    exact hi.rel (by omega)
  have he : encs [x] = enc x := by simp [encs]
  unfold codepoint
  dsimp only [Option.getD_none]
  rw [hri, posrelat_pos _ _ (by omega), if_pos (by omega), if_pos (by simp only [List.length_append]; omega), if_neg (by omega), if_neg (by omega), if_neg (by omega),
    show (pre.length : Int) + 1 - 1 = pre.length from by omega]
  have := cpLoop_range (!lax) (pre.length + 1) post [x] pre ((pre ++ enc x ++ post).length + 1) hg (by rw [he]; simp only [List.length_append]; omega) ⟨by rw [he]; omega, ?_⟩
  · rw [he] at this
    exact this
  · intro ms' y e
    have : ms' = [] := by
      have := congrArg List.length e
      simp only [List.length_append, List.length_singleton] at this
      exact List.length_eq_zero_iff.1 (by omega)
    subst this
    simp [encs]

/-! ### the hypotheses are met: "aéx€", bytes 61 C3A9 78 E282AC -/

example : byteoffset (encs [97, 233, 120, 8364]) 2 (some 2) = .ok (some 4) ∧ byteoffset (encs [97, 233, 120, 8364]) (-1) none = .ok (some 5) ∧
    byteoffset (encs [97, 233, 120, 8364]) 0 (some (-1)) = .ok (some 5) ∧ byteoffset (encs [97, 233, 120, 8364]) 1 (some 3) = .err "initial position is a continuation byte" ∧
    byteoffset (encs [97, 233, 120, 8364]) (-3) (some 4) = .ok none := by decide +kernel

example : Enc ([97, 233] ++ [120, 8364]) := by intro x hx; simp at hx; omega

example : Index (encs [97, 233]) (encs [120, 8364]) 4 ∧ Index (encs [97, 233]) (encs [120, 8364]) (-4) := ⟨Or.inl (by decide +kernel), Or.inr ⟨by decide +kernel, by decide +kernel⟩⟩

/-- in the range from byte 2 to byte 5 start the three characters é, x and € -/
example : Range 1 [233, 120, 8364] 5 := by
  refine ⟨by decide +kernel, fun ms' x e => ?_⟩
  obtain ⟨rfl, -⟩ := List.append_inj' (show [233, 120] ++ [8364] = ms' ++ [x] from e) rfl
  decide +kernel

example : utflen (encs [97, 233, 120, 8364]) 2 5 false = .ok (.count 3) ∧ codepoint 100 (encs [97, 233, 120, 8364]) 2 (some 5) false = .ok [233, 120, 8364] := by decide +kernel

end Verif.Utf8
