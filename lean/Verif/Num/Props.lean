import Verif.Num.Model
/-!
Property C20: integers and strings.
-/
namespace Verif.Num

theorem u8_forall {p : UInt8 → Prop} (h : ∀ n : Fin 256, p (UInt8.ofNat n.val)) (c : UInt8) : p c := by
  have := h ⟨c.toNat, UInt8.toNat_lt c⟩
  simpa using this

/-- the transcribed table classifies exactly the ASCII digits, hexadecimal digits and white space -/
theorem ctype_classes (c : UInt8) :
    (isDigit c = true ↔ 48 ≤ c.toNat ∧ c.toNat ≤ 57) ∧
    (isSpace c = true ↔ c.toNat = 32 ∨ (9 ≤ c.toNat ∧ c.toNat ≤ 13)) ∧
    (isXdigit c = true ↔ (48 ≤ c.toNat ∧ c.toNat ≤ 57) ∨ (65 ≤ c.toNat ∧ c.toNat ≤ 70) ∨ (97 ≤ c.toNat ∧ c.toNat ≤ 102)) := by
  revert c
  apply u8_forall
  decide +kernel

/-! ### specification -/

/-- value of a string of decimal digits -/
def decVal (ds : List UInt8) : Nat := ds.foldl (fun a c => a * 10 + (c.toNat - 48)) 0

/-- value of one digit in a base up to 36: `0-9`, then letters of either case -/
def digitVal (c : UInt8) : Nat :=
  if c.toNat ≤ 57 then c.toNat - 48 else if c.toNat ≤ 90 then c.toNat - 55 else c.toNat - 87

/-- value of a string of digits in a base -/
def baseVal (b : Nat) (ds : List UInt8) : Nat := ds.foldl (fun a c => a * b + digitVal c) 0

def Spaces (l : List UInt8) : Prop := ∀ c ∈ l, c.toNat = 32 ∨ (9 ≤ c.toNat ∧ c.toNat ≤ 13)

/-- a sign, and whether it is a minus -/
inductive Sign : List UInt8 → Bool → Prop
  | none : Sign [] false
  | plus : Sign [43] false
  | minus : Sign [45] true

/-- apply a sign -/
def signed (neg : Bool) (n : Nat) : Int := if neg then -(n : Int) else n

/-- strings denoting integers: decimal numerals in range, hexadecimal numerals modulo `2^64` -/
inductive Numeral : List UInt8 → Int → Prop
  | dec (pre sign ds post : List UInt8) (neg : Bool) : Spaces pre → Spaces post → Sign sign neg →
      ds ≠ [] → (∀ c ∈ ds, 48 ≤ c.toNat ∧ c.toNat ≤ 57) → InI (signed neg (decVal ds)) →
      Numeral (pre ++ sign ++ ds ++ post) (signed neg (decVal ds))
  | hex (pre sign ds post : List UInt8) (neg : Bool) (x : UInt8) : Spaces pre → Spaces post → Sign sign neg →
      ds ≠ [] → (∀ c ∈ ds, (48 ≤ c.toNat ∧ c.toNat ≤ 57) ∨ (65 ≤ c.toNat ∧ c.toNat ≤ 70) ∨ (97 ≤ c.toNat ∧ c.toNat ≤ 102)) →
      (x = 120 ∨ x = 88) →
      Numeral (pre ++ sign ++ [48, x] ++ ds ++ post) (Int.bmod (signed neg (baseVal 16 ds)) (2 ^ 64))

/-! ### pieces -/

theorem skip_sound (p : UInt8 → Bool) (h0 : p 0 = false) : ∀ s : List UInt8,
    ∃ pre t, skip p (s ++ [0]) = .ok (t ++ [0]) ∧ s = pre ++ t ∧ ∀ c ∈ pre, p c = true
  | [] => ⟨[], [], by simp [skip, h0], rfl, by simp⟩
  | c :: l => by
    rw [List.cons_append]
    unfold skip
    by_cases hc : p c
    · obtain ⟨pre, t, h1, h2, h3⟩ := skip_sound p h0 l
      refine ⟨c :: pre, t, by rw [if_pos hc, h1], by rw [h2]; rfl, ?_⟩
      intro x hx
      rcases List.mem_cons.1 hx with rfl | hx
      · exact hc
      · exact h3 x hx
    · exact ⟨[], c :: l, by rw [if_neg hc]; rfl, rfl, by simp⟩

theorem skip_complete (p : UInt8 → Bool) : ∀ (pre : List UInt8) (c : UInt8) (l : List UInt8), (∀ c ∈ pre, p c = true) → p c = false →
    skip p (pre ++ c :: l) = .ok (c :: l)
  | [], c, l, _, hc => by simp [skip, hc]
  | x :: pre, c, l, h, hc => by
    rw [List.cons_append]
    unfold skip
    rw [if_pos (h x (by simp)), skip_complete p pre c l (fun y hy => h y (by simp [hy])) hc]

theorem isneg_sound (s : List UInt8) : ∃ b sign t, isneg (s ++ [0]) = .ok (b, t ++ [0]) ∧ s = sign ++ t ∧ Sign sign b := by
  cases s with
  | nil => exact ⟨false, [], [], by simp [isneg], rfl, .none⟩
  | cons c l =>
    rw [List.cons_append]
    unfold isneg
    by_cases h1 : c = 45
    · subst h1
      exact ⟨true, [45], l, by simp, rfl, .minus⟩
    · by_cases h2 : c = 43
      · subst h2
        exact ⟨false, [43], l, by simp, rfl, .plus⟩
      · exact ⟨false, [], c :: l, by simp [h1, h2], rfl, .none⟩

theorem isneg_complete {sign : List UInt8} {b : Bool} (h : Sign sign b) (c : UInt8) (l : List UInt8) (hc : c ≠ 45 ∧ c ≠ 43) :
    isneg (sign ++ c :: l) = .ok (b, c :: l) := by
  cases h <;> simp [isneg, hc.1, hc.2]

theorem digitVal_hexavalue (c : UInt8) (h : isXdigit c = true) : hexavalue c = digitVal c := by
  revert c
  apply u8_forall
  decide +kernel

/-- folding in a base from an accumulator -/
def fold (b : Nat) (a : Nat) (ds : List UInt8) : Nat := ds.foldl (fun a c => a * b + digitVal c) a

theorem fold_mod (b : Nat) : ∀ (ds : List UInt8) (a a' : Nat), a % 2 ^ 64 = a' % 2 ^ 64 → fold b a ds % 2 ^ 64 = fold b a' ds % 2 ^ 64
  | [], a, a', h => h
  | c :: ds, a, a', h => by
    apply fold_mod b ds
    rw [Nat.add_mod, Nat.mul_mod, h, ← Nat.mul_mod, ← Nat.add_mod]

theorem hexLoop_sound : ∀ (s : List UInt8) (a : Nat) (e : Bool), a < 2 ^ 64 →
    ∃ ds t a', hexLoop (s ++ [0]) a e = .ok (a', e && ds.isEmpty, t ++ [0]) ∧ s = ds ++ t ∧ (∀ c ∈ ds, isXdigit c = true) ∧ a' = fold 16 a ds % 2 ^ 64
  | [], a, e, ha => ⟨[], [], a, by simp [hexLoop, show isXdigit 0 = false by decide +kernel], rfl, by simp, by simp [fold, Nat.mod_eq_of_lt ha]⟩
  | c :: s, a, e, ha => by
    rw [List.cons_append]
    unfold hexLoop
    by_cases hc : isXdigit c = true
    · obtain ⟨ds, t, a', h1, h2, h3, h4⟩ := hexLoop_sound s (uw (a * 16 + hexavalue c)) false (Nat.mod_lt _ (by decide))
      refine ⟨c :: ds, t, a', by rw [if_pos hc, h1]; simp, by rw [h2]; rfl, ?_, ?_⟩
      · intro x hx
        rcases List.mem_cons.1 hx with rfl | hx
        · exact hc
        · exact h3 x hx
      · rw [h4]
        refine fold_mod 16 ds _ _ ?_
        unfold uw
        rw [digitVal_hexavalue c hc]
        exact Nat.mod_mod _ _
    · exact ⟨[], c :: s, a, by rw [if_neg hc]; simp, rfl, by simp, by simp [fold, Nat.mod_eq_of_lt ha]⟩

theorem hexLoop_complete : ∀ (ds : List UInt8) (c : UInt8) (l : List UInt8) (a : Nat) (e : Bool), (∀ c ∈ ds, isXdigit c = true) → isXdigit c = false →
    a < 2 ^ 64 → hexLoop (ds ++ c :: l) a e = .ok (fold 16 a ds % 2 ^ 64, e && ds.isEmpty, c :: l)
  | [], c, l, a, e, _, hc, ha => by simp [hexLoop, hc, fold, Nat.mod_eq_of_lt ha]
  | x :: ds, c, l, a, e, h, hc, ha => by
    rw [List.cons_append]
    unfold hexLoop
    rw [if_pos (h x (by simp)), hexLoop_complete ds c l (uw (a * 16 + hexavalue x)) _ (fun y hy => h y (by simp [hy])) hc (Nat.mod_lt _ (by decide))]
    have : fold 16 (uw (a * 16 + hexavalue x)) ds % 2 ^ 64 = fold 16 a (x :: ds) % 2 ^ 64 := by
      refine fold_mod 16 ds _ _ ?_
      unfold uw
      rw [digitVal_hexavalue x (h x (by simp))]
      exact Nat.mod_mod _ _
    rw [this]
    simp

def dfold (a : Nat) (ds : List UInt8) : Nat := ds.foldl (fun a c => a * 10 + (c.toNat - 48)) a

theorem dfold_le : ∀ (ds : List UInt8) (a : Nat), a ≤ dfold a ds
  | [], _ => Nat.le_refl _
  | c :: ds, a => Nat.le_trans (by omega) (dfold_le ds (a * 10 + (c.toNat - 48)))

/-- the decimal loop accepts exactly the values up to `2^63 - 1`, or `2^63` after a minus sign -/
theorem decLoop_complete (neg : Nat) (hneg : neg ≤ 1) : ∀ (ds : List UInt8) (c : UInt8) (l : List UInt8) (a : Nat) (e : Bool), (∀ c ∈ ds, isDigit c = true) →
    isDigit c = false → a ≤ 9223372036854775807 + neg →
    decLoop neg (ds ++ c :: l) a e = .ok (if dfold a ds ≤ 9223372036854775807 + neg then some (dfold a ds, e && ds.isEmpty, c :: l) else none)
  | [], c, l, a, e, _, hc, ha => by simp [decLoop, hc, dfold, ha]
  | x :: ds, c, l, a, e, h, hc, ha => by
    rw [List.cons_append]
    unfold decLoop
    have hd := (ctype_classes x).1.1 (h x (by simp))
    rw [if_pos (h x (by simp))]
    dsimp only
    have hf : dfold a (x :: ds) = dfold (a * 10 + (x.toNat - 48)) ds := rfl
    have hle := dfold_le ds (a * 10 + (x.toNat - 48))
    unfold maxBy10 maxLastD
    by_cases hov : 922337203685477580 ≤ a ∧ (922337203685477580 < a ∨ 7 + neg < x.toNat - 48)
    · rw [if_pos hov, hf, if_neg (by omega)]
    · rw [if_neg hov]
      have : uw (a * 10 + (x.toNat - 48)) = a * 10 + (x.toNat - 48) := Nat.mod_eq_of_lt (by omega)
      rw [this, decLoop_complete neg hneg ds c l _ _ (fun y hy => h y (by simp [hy])) hc (by omega), hf]
      simp

theorem decLoop_sound (neg : Nat) (hneg : neg ≤ 1) (s : List UInt8) :
    ∃ ds t, s = ds ++ t ∧ (∀ c ∈ ds, isDigit c = true) ∧
      decLoop neg (s ++ [0]) 0 true = .ok (if dfold 0 ds ≤ 9223372036854775807 + neg then some (dfold 0 ds, ds.isEmpty, t ++ [0]) else none) := by
  have key : ∀ s : List UInt8, ∃ ds c t, s ++ [0] = ds ++ c :: t ∧ (∀ c ∈ ds, isDigit c = true) ∧ isDigit c = false ∧ ∃ t', s = ds ++ t' ∧ c :: t = t' ++ [0] := by
    intro s
    induction s with
    | nil => exact ⟨[], 0, [], rfl, by simp, by decide +kernel, [], rfl, rfl⟩
    | cons x s ih =>
      by_cases hx : isDigit x = true
      · obtain ⟨ds, c, t, h1, h2, h3, t', h4, h5⟩ := ih
        refine ⟨x :: ds, c, t, by rw [List.cons_append, h1]; rfl, ?_, h3, t', by rw [h4]; rfl, h5⟩
        intro y hy
        rcases List.mem_cons.1 hy with rfl | hy
        · exact hx
        · exact h2 y hy
      · exact ⟨[], x, s ++ [0], rfl, by simp, by simpa using hx, x :: s, rfl, rfl⟩
  obtain ⟨ds, c, t, h1, h2, h3, t', h4, h5⟩ := key s
  refine ⟨ds, t', h4, h2, ?_⟩
  rw [h1, decLoop_complete neg hneg ds c t 0 true h2 h3 (by omega), h5]
  simp

theorem toS_bmod (neg : Bool) (n : Nat) :
    toS (if neg then uw (18446744073709551616 - n % 2 ^ 64) else n % 2 ^ 64) = Int.bmod (signed neg n) (2 ^ 64) := by
  unfold toS signed uw Int.bmod
  cases neg <;> simp <;> omega

theorem toS_small (neg : Bool) (n : Nat) (h : n ≤ 9223372036854775807 + (if neg then 1 else 0)) :
    toS (if neg then uw (18446744073709551616 - n) else n) = signed neg n ∧ InI (signed neg n) := by
  unfold toS signed uw InI
  cases neg <;> simp at * <;> omega

theorem spaces_iff (l : List UInt8) : Spaces l ↔ ∀ c ∈ l, isSpace c = true :=
  forall_congr' fun c => imp_congr_right fun _ => (ctype_classes c).2.1.symm

theorem ite_some {α : Type} {c : Prop} [Decidable c] {a b : α} (h : (if c then none else some a) = some b) : ¬ c ∧ a = b := by
  by_cases hc : c
  · rw [if_pos hc] at h; cases h
  · rw [if_neg hc] at h; exact ⟨hc, Option.some.inj h⟩

/-- the final part of `l_str2int`: trailing spaces and the terminator -/
theorem tail_sound (v : Int) (empty : Bool) (t : List UInt8) :
    ∃ post u, t = post ++ u ∧ Spaces post ∧
    finish v empty (t ++ [0]) = .ok (if empty = true ∨ (u ++ [0]).head? ≠ some 0 then none else some (v, u ++ [0])) := by
  obtain ⟨post, u, h1, h2, h3⟩ := skip_sound isSpace (by decide +kernel) t
  refine ⟨post, u, h2, (spaces_iff _).2 h3, ?_⟩
  unfold finish
  rw [h1, Res.bind_ok]
  cases u with
  | nil =>
    simp only [List.nil_append, List.head?_cons]
    cases empty <;> simp
  | cons c u =>
    simp only [List.cons_append, List.head?_cons]
    by_cases hc : c = 0 <;> cases empty <;> simp [hc]

/-- `str2int` never runs out of the string, and what it accepts is a numeral -/
theorem str2int_sound (s : List UInt8) : ∃ r, str2int s = .ok r ∧ ∀ i, r = some i → Numeral s i := by
  obtain ⟨pre, s1, h1, e1, hpre⟩ := skip_sound isSpace (by decide +kernel) s
  obtain ⟨neg, sign, s2, h2, e2, hsign⟩ := isneg_sound s1
  have hpre' := (spaces_iff _).2 hpre
  unfold str2int lStr2int
  rw [h1, Res.bind_ok, h2, Res.bind_ok]
  dsimp only
  have hhex : ∃ b, isHex (s2 ++ [0]) = .ok b ∧ (b = true → ∃ x t, s2 = 48 :: x :: t ∧ (x = 120 ∨ x = 88)) := by
    cases s2 with
    | nil => exact ⟨false, by simp [isHex], by simp⟩
    | cons c t =>
      rw [List.cons_append]
      unfold isHex
      dsimp only
      by_cases hc : c = 48
      · subst hc
        rw [if_pos rfl]
        cases t with
        | nil => exact ⟨false, by simp, by simp⟩
        | cons x t =>
          refine ⟨decide (x = 120 ∨ x = 88), rfl, fun hb => ⟨x, t, rfl, by simpa using hb⟩⟩
      · rw [if_neg hc]; exact ⟨false, rfl, by simp⟩
  obtain ⟨b, hb, hb'⟩ := hhex
  unfold digits
  rw [hb, Res.bind_ok]
  cases b with
  | true =>
    obtain ⟨x, t, rfl, hx⟩ := hb' rfl
    obtain ⟨ds, t', a', g1, g2, g3, g4⟩ := hexLoop_sound t 0 true (by decide)
    simp only [if_true, List.cons_append, List.drop_succ_cons, List.drop_zero]
    rw [g1, Res.bind_ok]
    simp only [Res.bind_ok, Res.pure_eq]
    obtain ⟨post, u, k1, k2, k3⟩ := tail_sound (toS (if neg then uw (18446744073709551616 - a') else a')) (true && ds.isEmpty) t'
    rw [k3, Res.bind_ok]
    by_cases hcond : (true && ds.isEmpty) = true ∨ (u ++ [0]).head? ≠ some 0
    · rw [if_pos hcond]; exact ⟨none, rfl, by simp⟩
    · rw [if_neg hcond]
      refine ⟨_, rfl, fun i hi => ?_⟩
      have hu : u = [] := by
        by_cases hl : (u ++ [0]).length = 1
        · simpa using hl
        · rw [if_neg hl] at hi; cases hi
      subst hu
      simp only [List.nil_append, List.length_singleton, if_true, Option.some.injEq] at hi
      have hds : ds ≠ [] := by
        intro e; apply hcond; left; simp [e]
      rw [← hi, g4, toS_bmod, e1, e2, g2, k1]
      have := Numeral.hex pre sign ds post neg x hpre' k2 hsign hds (fun c hc => (ctype_classes c).2.2.1 (g3 c hc)) hx
      simpa [List.append_assoc, baseVal, fold] using this
  | false =>
    simp only [Bool.false_eq_true, if_false]
    obtain ⟨ds, t, g1, g2, g3⟩ := decLoop_sound (if neg then 1 else 0) (by split <;> omega) s2
    rw [g3, Res.bind_ok]
    by_cases hle : dfold 0 ds ≤ 9223372036854775807 + (if neg then 1 else 0)
    · rw [if_pos hle]
      dsimp only
      obtain ⟨post, u, k1, k2, k3⟩ := tail_sound (toS (if neg then uw (18446744073709551616 - dfold 0 ds) else dfold 0 ds)) ds.isEmpty t
      rw [k3, Res.bind_ok]
      by_cases hcond : ds.isEmpty = true ∨ (u ++ [0]).head? ≠ some 0
      · rw [if_pos hcond]; exact ⟨none, rfl, by simp⟩
      · rw [if_neg hcond]
        refine ⟨_, rfl, fun i hi => ?_⟩
        have hu : u = [] := by
          by_cases hl : (u ++ [0]).length = 1
          · simpa using hl
          · rw [if_neg hl] at hi; cases hi
        subst hu
        simp only [List.nil_append, List.length_singleton, if_true, Option.some.injEq] at hi
        have hds : ds ≠ [] := by
          intro e; apply hcond; left; simp [e]
        obtain ⟨q1, q2⟩ := toS_small neg (dfold 0 ds) hle
        rw [← hi, q1, e1, e2, g1, k1]
        have := Numeral.dec pre sign ds post neg hpre' k2 hsign hds (fun c hc => (ctype_classes c).1.1 (g2 c hc)) q2
        simpa [List.append_assoc, decVal, dfold] using this
    · rw [if_neg hle]; exact ⟨none, rfl, by simp⟩

theorem not_sign (c : UInt8) (h : isXdigit c = true) : c ≠ 45 ∧ c ≠ 43 := by
  constructor
  · rintro rfl; exact absurd h (by decide +kernel)
  · rintro rfl; exact absurd h (by decide +kernel)

theorem digit_classes (c : UInt8) : (isDigit c = true → isXdigit c = true) ∧ (isXdigit c = true → isSpace c = false) ∧ (isSpace c = true → isXdigit c = false ∧ isDigit c = false) := by
  revert c; apply u8_forall; decide +kernel

/-- `post ++ [0]` starts with a character that is no digit -/
theorem post_head (post : List UInt8) (h : Spaces post) : ∃ c l, post ++ [0] = c :: l ∧ isXdigit c = false ∧ isDigit c = false ∧ c ≠ 120 ∧ c ≠ 88 := by
  cases post with
  | nil => exact ⟨0, [], rfl, by decide +kernel, by decide +kernel, by decide, by decide⟩
  | cons c l =>
    have hc := (spaces_iff _).1 h c (by simp)
    refine ⟨c, l ++ [0], rfl, ((digit_classes c).2.2 hc).1, ((digit_classes c).2.2 hc).2, ?_, ?_⟩
    · rintro rfl; exact absurd hc (by decide +kernel)
    · rintro rfl; exact absurd hc (by decide +kernel)

/-- prefix of the conversion: leading spaces and sign -/
theorem head_complete (pre sign rest : List UInt8) (c : UInt8) (neg : Bool) (hpre : Spaces pre) (hs : Sign sign neg) (hc : isXdigit c = true) :
    ∃ m, skip isSpace (pre ++ (sign ++ c :: rest)) = .ok m ∧ isneg m = .ok (neg, c :: rest) := by
  have hp := (spaces_iff _).1 hpre
  have hsp := (digit_classes c).2.1 hc
  have hns := not_sign c hc
  refine ⟨sign ++ c :: rest, ?_, isneg_complete hs c rest hns⟩
  cases hs with
  | none => exact skip_complete _ pre c rest hp hsp
  | plus => exact skip_complete _ pre 43 (c :: rest) hp (by decide +kernel)
  | minus => exact skip_complete _ pre 45 (c :: rest) hp (by decide +kernel)

theorem tail_complete (v : Int) (empty : Bool) (post : List UInt8) (hpost : Spaces post) (he : empty = false) :
    finish v empty (post ++ [0]) = .ok (some (v, [0])) := by
  unfold finish
  rw [skip_complete isSpace post 0 [] ((spaces_iff _).1 hpost) (by decide +kernel), Res.bind_ok, he]
  simp

/-- decimal numerals -/
theorem str2int_dec (pre sign ds post : List UInt8) (neg : Bool) (hpre : Spaces pre) (hpost : Spaces post) (hs : Sign sign neg) (hne : ds ≠ [])
    (hds : ∀ c ∈ ds, 48 ≤ c.toNat ∧ c.toNat ≤ 57) :
    str2int (pre ++ sign ++ ds ++ post) = .ok (if InI (signed neg (decVal ds)) then some (signed neg (decVal ds)) else none) := by
  have hdig : ∀ c ∈ ds, isDigit c = true := fun c hc => (ctype_classes c).1.2 (hds c hc)
  obtain ⟨c0, l0, hp0, -, hp1, hp2⟩ := post_head post hpost
  obtain ⟨c, ds', rfl⟩ : ∃ c ds', ds = c :: ds' := List.exists_cons_of_ne_nil hne
  obtain ⟨m, h1, h2⟩ := head_complete pre sign (ds' ++ c0 :: l0) c neg hpre hs ((digit_classes c).1 (hdig c (by simp)))
  unfold str2int lStr2int
  have e : pre ++ sign ++ (c :: ds') ++ post ++ [0] = pre ++ (sign ++ c :: (ds' ++ c0 :: l0)) := by
    rw [← hp0]; simp [List.append_assoc]
  rw [e, h1, Res.bind_ok, h2, Res.bind_ok]
  dsimp only
  have hhex : isHex (c :: (ds' ++ c0 :: l0)) = .ok false := by
    unfold isHex
    dsimp only
    by_cases hc : c = 48
    · rw [if_pos hc]
      cases ds' with
      | nil => simp [hp2.1, hp2.2]
      | cons x t =>
        have := hds x (by simp)
        have hx1 : x ≠ 120 := by rintro rfl; exact absurd this (by decide)
        have hx2 : x ≠ 88 := by rintro rfl; exact absurd this (by decide)
        simp [hx1, hx2]
    · rw [if_neg hc]
  unfold digits
  rw [hhex, Res.bind_ok]
  simp only [Bool.false_eq_true, if_false]
  have hd := decLoop_complete (if neg then 1 else 0) (by split <;> omega) (c :: ds') c0 l0 0 true hdig hp1 (by omega)
  rw [List.cons_append] at hd
  rw [hd, Res.bind_ok]
  have hdv : decVal (c :: ds') = dfold 0 (c :: ds') := rfl
  by_cases hle : dfold 0 (c :: ds') ≤ 9223372036854775807 + (if neg then 1 else 0)
  · rw [if_pos hle]
    dsimp only
    rw [← hp0, tail_complete _ (true && (c :: ds').isEmpty) post hpost rfl, Res.bind_ok]
    obtain ⟨q1, q2⟩ := toS_small neg _ hle
    rw [q1, hdv, if_pos q2]
    simp
  · rw [if_neg hle, hdv, if_neg]
    · simp
    · unfold InI signed
      cases neg <;> simp at * <;> omega

/-- hexadecimal numerals -/
theorem str2int_hex (pre sign ds post : List UInt8) (neg : Bool) (x : UInt8) (hpre : Spaces pre) (hpost : Spaces post) (hs : Sign sign neg) (hne : ds ≠ [])
    (hds : ∀ c ∈ ds, (48 ≤ c.toNat ∧ c.toNat ≤ 57) ∨ (65 ≤ c.toNat ∧ c.toNat ≤ 70) ∨ (97 ≤ c.toNat ∧ c.toNat ≤ 102)) (hx : x = 120 ∨ x = 88) :
    str2int (pre ++ sign ++ [48, x] ++ ds ++ post) = .ok (some (Int.bmod (signed neg (baseVal 16 ds)) (2 ^ 64))) := by
  have hdig : ∀ c ∈ ds, isXdigit c = true := fun c hc => (ctype_classes c).2.2.2 (hds c hc)
  obtain ⟨c0, l0, hp0, hp1, -⟩ := post_head post hpost
  obtain ⟨m, h1, h2⟩ := head_complete pre sign (x :: (ds ++ c0 :: l0)) 48 neg hpre hs (by decide +kernel)
  unfold str2int lStr2int
  have e : pre ++ sign ++ [48, x] ++ ds ++ post ++ [0] = pre ++ (sign ++ 48 :: x :: (ds ++ c0 :: l0)) := by
    rw [← hp0]; simp [List.append_assoc]
  rw [e, h1, Res.bind_ok, h2, Res.bind_ok]
  dsimp only
  have hhex : isHex (48 :: x :: (ds ++ c0 :: l0)) = .ok true := by
    unfold isHex
    dsimp only
    rw [if_pos rfl]
    simp [hx]
  unfold digits
  rw [hhex, Res.bind_ok]
  simp only [if_true, List.drop_succ_cons, List.drop_zero]
  rw [hexLoop_complete ds c0 l0 0 true hdig hp1 (by decide), Res.bind_ok]
  simp only [Res.pure_eq, Res.bind_ok]
  have ht := tail_complete (toS (if neg then uw (18446744073709551616 - fold 16 0 ds % 2 ^ 64) else fold 16 0 ds % 2 ^ 64)) (true && ds.isEmpty) post hpost
    (by simp [hne])
  rw [← hp0, ht, Res.bind_ok, toS_bmod]
  simp [baseVal, fold]

/-- **C20.** `tonumber(s)` yields an integer exactly for the strings denoting one (decimal numerals in range, hexadecimal numerals modulo `2^64`, with
optional sign and surrounding white space), and that integer is the one denoted; every other string is rejected without reading past its end. -/
theorem str2int_exact (s : List UInt8) : ∃ r, str2int s = .ok r ∧ ∀ i, r = some i ↔ Numeral s i := by
  obtain ⟨r, h1, h2⟩ := str2int_sound s
  refine ⟨r, h1, fun i => ⟨h2 i, fun h => ?_⟩⟩
  cases h with
  | dec pre sign ds post neg a b c d e f =>
    rw [str2int_dec pre sign ds post neg a b c d e, if_pos f] at h1
    exact (Res.ok.inj h1).symm
  | hex pre sign ds post neg x a b c d e f =>
    rw [str2int_hex pre sign ds post neg x a b c d e f] at h1
    exact (Res.ok.inj h1).symm

/-! ### printing -/

theorem decDigits_spec (n : Nat) : decDigits n ≠ [] ∧ (∀ c ∈ decDigits n, 48 ≤ c.toNat ∧ c.toNat ≤ 57) ∧ decVal (decDigits n) = n := by
  induction n using Nat.strongRecOn with
  | ind n ih =>
    have hdg : ∀ k, k < 10 → (UInt8.ofNat (48 + k)).toNat = 48 + k := fun k hk => by
      rw [UInt8.toNat_ofNat']; omega
    rw [decDigits]
    split
    · rename_i h
      refine ⟨by simp, ?_, ?_⟩
      · intro c hc
        rw [List.mem_singleton.1 hc, hdg n h]; omega
      · simp only [decVal, List.foldl_cons, List.foldl_nil]
        rw [hdg n h]; omega
    · rename_i h
      obtain ⟨i1, i2, i3⟩ := ih (n / 10) (by omega)
      refine ⟨by simp, ?_, ?_⟩
      · intro c hc
        rcases List.mem_append.1 hc with hc | hc
        · exact i2 c hc
        · rw [List.mem_singleton.1 hc, hdg _ (Nat.mod_lt _ (by decide))]; omega
      · unfold decVal at *
        rw [List.foldl_append, i3]
        simp only [List.foldl_cons, List.foldl_nil]
        rw [hdg _ (Nat.mod_lt _ (by decide))]; omega

theorem decDigits_length : ∀ (k n : Nat), n < 10 ^ (k + 1) → (decDigits n).length ≤ k + 1
  | 0, n, h => by rw [decDigits, dif_pos (by simpa using h)]; simp
  | k + 1, n, h => by
    rw [decDigits]
    split
    · simp
    · rw [List.length_append]
      have := decDigits_length k (n / 10) (by rw [Nat.pow_succ] at h; omega)
      simp; omega

/-- **C20.** Converting any integer to a string and back gives the same integer. -/
theorem int2str_roundtrip (i : Int) (h : InI i) : str2int (int2str i) = .ok (some i) := by
  obtain ⟨h1, h2, h3⟩ := decDigits_spec i.natAbs
  unfold int2str
  by_cases hi : i < 0
  · have := str2int_dec [] [45] (decDigits i.natAbs) [] true (by simp [Spaces]) (by simp [Spaces]) .minus h1 h2
    rw [h3, show signed true i.natAbs = i by unfold signed; simp; omega, if_pos h] at this
    rw [if_pos hi]
    simpa using this
  · have := str2int_dec [] [] (decDigits i.natAbs) [] false (by simp [Spaces]) (by simp [Spaces]) .none h1 h2
    rw [h3, show signed false i.natAbs = i by unfold signed; simp; omega, if_pos h] at this
    rw [if_neg hi]
    simpa using this

/-- **C20.** The text of an integer fits the conversion buffer of `MAXNUMBER2STR` (50) bytes, terminator included (lobject.c 381). -/
theorem int2str_fits (i : Int) (h : InI i) : (int2str i).length + 1 ≤ 50 := by
  have := decDigits_length 18 i.natAbs (by unfold InI at h; omega)
  unfold int2str
  split <;> simp <;> omega

example : str2int [32, 45, 48, 120, 49, 48, 9] = .ok (some (-16)) := by decide +kernel
example : str2int (int2str (-9223372036854775808)) = .ok (some (-9223372036854775808)) := int2str_roundtrip _ (by decide)
/-- one more than the largest integer is not converted to an integer -/
example : str2int [57,50,50,51,51,55,50,48,51,54,56,53,52,55,55,53,56,48,56] = .ok none := by decide +kernel

/-! ### `tonumber(s, base)` -/

/-- strings denoting integers in a given base -/
inductive BaseNumeral (b : Nat) : List UInt8 → Int → Prop
  | mk (pre sign ds post : List UInt8) (neg : Bool) : Spaces pre → Spaces post → Sign sign neg → ds ≠ [] →
      (∀ c ∈ ds, ((48 ≤ c.toNat ∧ c.toNat ≤ 57) ∨ (65 ≤ c.toNat ∧ c.toNat ≤ 90) ∨ (97 ≤ c.toNat ∧ c.toNat ≤ 122)) ∧ digitVal c < b) →
      BaseNumeral b (pre ++ sign ++ ds ++ post) (Int.bmod (signed neg (baseVal b ds)) (2 ^ 64))

theorem bclasses (c : UInt8) :
    (isAlnum c = true ↔ (48 ≤ c.toNat ∧ c.toNat ≤ 57) ∨ (65 ≤ c.toNat ∧ c.toNat ≤ 90) ∨ (97 ≤ c.toNat ∧ c.toNat ≤ 122)) ∧
    (spaceChars.contains c = true ↔ c.toNat = 32 ∨ (9 ≤ c.toNat ∧ c.toNat ≤ 13)) ∧ (isAlnum c = true → bdigit c = digitVal c) := by
  revert c; apply u8_forall; decide +kernel

theorem bspaces_iff (l : List UInt8) : Spaces l ↔ ∀ c ∈ l, spaceChars.contains c = true :=
  forall_congr' fun c => imp_congr_right fun _ => (bclasses c).2.1.symm

theorem bLoop_sound (b : Nat) : ∀ (s : List UInt8) (c : UInt8) (n : Nat), isAlnum c = true →
    bLoop b (c :: s ++ [0]) n = .ok none ∨
    ∃ ds t, c :: s = ds ++ t ∧ ds ≠ [] ∧ (∀ c ∈ ds, isAlnum c = true ∧ digitVal c < b) ∧ bLoop b (c :: s ++ [0]) n = .ok (some (fold b n ds % 2 ^ 64, t ++ [0]))
  | [], c, n, hc => by
    unfold bLoop
    simp only [List.cons_append, List.nil_append]
    rw [(bclasses c).2.2 hc]
    by_cases hb : b ≤ digitVal c
    · rw [if_pos hb]; exact .inl rfl
    · rw [if_neg hb]
      refine .inr ⟨[c], [], rfl, by simp, ?_, ?_⟩
      · intro x hx; rw [List.mem_singleton.1 hx]; exact ⟨hc, by omega⟩
      · have : isAlnum 0 = false := by decide +kernel
        simp [this, fold, uw]
  | c' :: s, c, n, hc => by
    rw [List.cons_append]
    unfold bLoop
    rw [(bclasses c).2.2 hc]
    by_cases hb : b ≤ digitVal c
    · rw [if_pos hb]; exact .inl rfl
    · rw [if_neg hb]
      simp only [List.cons_append]
      by_cases hc' : isAlnum c' = true
      · rw [if_pos hc']
        rcases bLoop_sound b s c' (uw (n * b + digitVal c)) hc' with h | ⟨ds, t, h1, h2, h3, h4⟩
        · exact .inl h
        · refine .inr ⟨c :: ds, t, by rw [h1]; rfl, by simp, ?_, ?_⟩
          · intro x hx
            rcases List.mem_cons.1 hx with rfl | hx
            · exact ⟨hc, by omega⟩
            · exact h3 x hx
          · rw [List.cons_append] at h4
            rw [h4, fold_mod b ds (uw (n * b + digitVal c)) (n * b + digitVal c) (Nat.mod_mod _ _)]
            rfl
      · rw [if_neg hc']
        refine .inr ⟨[c], c' :: s, rfl, by simp, ?_, ?_⟩
        · intro x hx; rw [List.mem_singleton.1 hx]; exact ⟨hc, by omega⟩
        · simp [fold, uw]

theorem bLoop_complete (b : Nat) : ∀ (ds : List UInt8) (c d : UInt8) (l : List UInt8) (n : Nat), (∀ x ∈ c :: ds, isAlnum x = true ∧ digitVal x < b) →
    isAlnum d = false → bLoop b (c :: ds ++ d :: l) n = .ok (some (fold b n (c :: ds) % 2 ^ 64, d :: l))
  | [], c, d, l, n, h, hd => by
    have hc := h c (by simp)
    simp only [List.cons_append, List.nil_append]
    unfold bLoop
    rw [(bclasses c).2.2 hc.1, if_neg (by omega)]
    simp [hd, fold, uw]
  | c' :: ds, c, d, l, n, h, hd => by
    have hc := h c (by simp)
    have hc' := h c' (by simp)
    rw [List.cons_append]
    unfold bLoop
    rw [(bclasses c).2.2 hc.1, if_neg (by omega)]
    simp only [List.cons_append]
    rw [if_pos hc'.1]
    have := bLoop_complete b ds c' d l (uw (n * b + digitVal c)) (fun x hx => h x (List.mem_cons_of_mem _ hx)) hd
    rw [List.cons_append] at this
    rw [this, fold_mod b (c' :: ds) (uw (n * b + digitVal c)) (n * b + digitVal c) (Nat.mod_mod _ _)]
    rfl

/-- **C20.** `tonumber(s, base)` yields an integer exactly for the strings of digits of that base (with optional sign and surrounding white
space); the integer is the value modulo `2^64`. -/
theorem tonumberBase_exact (s : List UInt8) (b : Int) (hb : 2 ≤ b ∧ b ≤ 36) :
    ∃ r, tonumberBase s b = .ok r ∧ ∀ i, r = some i ↔ BaseNumeral b.toNat s i := by
  have sound : ∃ r, tonumberBase s b = .ok r ∧ ∀ i, r = some i → BaseNumeral b.toNat s i := by
    obtain ⟨pre, s1, h1, e1, hpre⟩ := skip_sound (fun c => spaceChars.contains c) (by decide +kernel) s
    obtain ⟨neg, sign, s2, h2, e2, hsign⟩ := isneg_sound s1
    have hpre' := (bspaces_iff _).2 hpre
    unfold tonumberBase bStr2int
    rw [if_pos hb, h1, Res.bind_ok, h2, Res.bind_ok]
    dsimp only
    cases s2 with
    | nil => exact ⟨none, by simp [show isAlnum 0 = false by decide +kernel], by simp⟩
    | cons c t =>
      simp only [List.cons_append]
      by_cases hc : isAlnum c = true
      · rw [if_neg (by simp [hc])]
        rcases bLoop_sound b.toNat t c 0 hc with h | ⟨ds, u, g1, g2, g3, g4⟩
        · rw [List.cons_append] at h
          rw [h]; exact ⟨none, rfl, by simp⟩
        · rw [List.cons_append] at g4
          rw [g4, Res.bind_ok]
          dsimp only
          obtain ⟨post, v, k1, k2, k3⟩ := skip_sound (fun c => spaceChars.contains c) (by decide +kernel) u
          rw [k1, Res.bind_ok]
          refine ⟨_, rfl, fun i hi => ?_⟩
          have hv : v = [] := by
            by_cases hl : (v ++ [0]).length = 1
            · simpa using hl
            · rw [if_neg hl] at hi; cases hi
          subst hv
          simp only [List.nil_append, List.length_singleton, if_true, Option.some.injEq] at hi
          rw [← hi, toS_bmod, e1, e2, g1, k2]
          have := BaseNumeral.mk (b := b.toNat) pre sign ds post neg hpre' ((bspaces_iff _).2 k3) hsign g2
            (fun c hc => ⟨(bclasses c).1.1 (g3 c hc).1, (g3 c hc).2⟩)
          simpa [List.append_assoc, baseVal, fold] using this
      · rw [if_pos hc]; exact ⟨none, rfl, by simp⟩
  obtain ⟨r, h1, h2⟩ := sound
  refine ⟨r, h1, fun i => ⟨h2 i, fun h => ?_⟩⟩
  suffices tonumberBase s b = .ok (some i) by rw [h1] at this; exact Res.ok.inj this
  obtain ⟨pre, sign, ds, post, neg, hpre, hpost, hs, hne, hds⟩ := h
  obtain ⟨c, ds', rfl⟩ : ∃ c ds', ds = c :: ds' := List.exists_cons_of_ne_nil hne
  have hal : ∀ x ∈ c :: ds', isAlnum x = true ∧ digitVal x < b.toNat := fun x hx => ⟨(bclasses x).1.2 (hds x hx).1, (hds x hx).2⟩
  have hc := (hal c (by simp)).1
  have hcl : ∀ x : UInt8, (isAlnum x = true → spaceChars.contains x = false ∧ x ≠ 45 ∧ x ≠ 43) ∧ (spaceChars.contains x = true → isAlnum x = false) := by
    apply u8_forall; decide +kernel
  obtain ⟨d, l, hp0, hp1⟩ : ∃ d l, post ++ [0] = d :: l ∧ isAlnum d = false := by
    cases post with
    | nil => exact ⟨0, [], rfl, by decide +kernel⟩
    | cons x l => exact ⟨x, l ++ [0], rfl, (hcl x).2 ((bspaces_iff _).1 hpost x (by simp))⟩
  have hp := (bspaces_iff _).1 hpre
  have e : pre ++ sign ++ (c :: ds') ++ post ++ [0] = pre ++ (sign ++ c :: (ds' ++ d :: l)) := by
    rw [← hp0]; simp [List.append_assoc]
  have hskip : skip (fun c => spaceChars.contains c) (pre ++ (sign ++ c :: (ds' ++ d :: l))) = .ok (sign ++ c :: (ds' ++ d :: l)) := by
    cases hs with
    | none => exact skip_complete _ pre c _ hp ((hcl c).1 hc).1
    | plus => exact skip_complete _ pre 43 (c :: (ds' ++ d :: l)) hp (by decide +kernel)
    | minus => exact skip_complete _ pre 45 (c :: (ds' ++ d :: l)) hp (by decide +kernel)
  unfold tonumberBase bStr2int
  rw [if_pos hb, e, hskip, Res.bind_ok, isneg_complete hs c _ ((hcl c).1 hc).2, Res.bind_ok]
  dsimp only
  rw [if_neg (by simp [hc])]
  have hl := bLoop_complete b.toNat ds' c d l 0 hal hp1
  rw [List.cons_append] at hl
  rw [hl, Res.bind_ok]
  dsimp only
  rw [← hp0, skip_complete _ post 0 [] ((bspaces_iff _).1 hpost) (by decide +kernel), Res.bind_ok]
  simp only [Res.pure_eq, Res.bind_ok, List.length_singleton, if_true]
  rw [toS_bmod]
  rfl

/-- `tonumber("7fffffffffffffff", 16)` and, one digit more, a value wrapping to -16 -/
example : tonumberBase [55,102,102,102,102,102,102,102,102,102,102,102,102,102,102,102] 16 = .ok (some 9223372036854775807) := by decide +kernel
example : tonumberBase [45, 90, 122] 36 = .ok (some (-1295)) := by decide +kernel

end Verif.Num
