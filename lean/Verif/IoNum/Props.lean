import Verif.IoNum.Model

/-!
# C108: reading a numeral takes white space and the numeral, and stays in its buffer
-/
namespace Verif.IoNum

/-- Nothing is lost, the buffer is not left, and the text is thrown away only if the buffer is full. -/
structure Inv (all : List Nat) (s : S) : Prop where
  keep : s.buff ++ s.file = all
  fits : s.buff.length ≤ 200
  bad : s.bad = true → s.buff.length = 200

theorem Inv.nextc {all : List Nat} {s : S} (h : Inv all s) {c : Nat} {rest : List Nat}
    (hf : s.file = c :: rest) : Inv all (nextc s c rest).2 := by
  unfold IoNum.nextc MAXLEN
  have := h.fits
  split
  · exact ⟨h.keep, h.fits, fun _ => by simp only; omega⟩
  · refine ⟨?_, by simp; omega, fun hb => ?_⟩
    · rw [← h.keep, hf]; simp
    · have := h.bad hb; omega

theorem Inv.test2 {all : List Nat} {s : S} (h : Inv all s) (a b : Nat) : Inv all (test2 s a b).2 := by
  unfold IoNum.test2
  split
  · rename_i c rest hf
    split
    · exact h.nextc hf
    · exact h
  · exact h

theorem Inv.digitsLoop {all : List Nat} (p : Nat → Bool) (k : Nat) {s : S} (h : Inv all s) (n : Nat) :
    Inv all (digitsLoop p k s n).2 := by
  induction k generalizing s n with
  | zero => exact h
  | succ k ih =>
    simp only [IoNum.digitsLoop]
    split
    · rename_i c rest hf
      split
      · split
        · exact ih (h.nextc hf) _
        · exact h.nextc hf
      · exact h
    · exact h

/-- Reading a numeral: the bytes taken from the file are white space and what is in the buffer, at
most 200 bytes; the text is thrown away only if 200 bytes were not enough. -/
theorem readNumber_keeps (file : List Nat) :
    ∃ ws, (∀ x ∈ ws, isspace x = true) ∧ file = ws ++ (readNumber file).buff ++ (readNumber file).file ∧
      (readNumber file).buff.length ≤ 200 ∧
      (text (readNumber file) = (readNumber file).buff ∨
        text (readNumber file) = [] ∧ (readNumber file).buff.length = 200) := by
  have key : Inv (file.dropWhile isspace) (readNumber file) := by
    have h0 : Inv (file.dropWhile isspace) ⟨[], false, file.dropWhile isspace⟩ := ⟨rfl, by simp, by simp⟩
    have dg : ∀ (p : Nat → Bool) (s : S), Inv (file.dropWhile isspace) s →
        Inv (file.dropWhile isspace) (digits p s).2 := fun p s h => h.digitsLoop p _ 0
    unfold readNumber
    dsimp only
    have h1 := (h0.test2 45 43).test2 48 48
    generalize test2 (test2 ⟨[], false, file.dropWhile isspace⟩ 45 43).2 48 48 = z at h1 ⊢
    have h2 : Inv (file.dropWhile isspace)
        (if z.1 = true then (if (test2 z.2 120 88).1 = true then (true, 0, (test2 z.2 120 88).2)
          else (false, 1, (test2 z.2 120 88).2)) else (false, 0, z.2) : Bool × Nat × S).2.2 := by
      split
      · split
        · exact h1.test2 _ _
        · exact h1.test2 _ _
      · exact h1
    generalize (if z.1 = true then (if (test2 z.2 120 88).1 = true then (true, 0, (test2 z.2 120 88).2)
          else (false, 1, (test2 z.2 120 88).2)) else (false, 0, z.2) : Bool × Nat × S) = y at h2 ⊢
    have h3 := (dg (if y.1 = true then isxdigit else isdigit) _ h2).test2 46 46
    generalize test2 (digits (if y.1 = true then isxdigit else isdigit) y.2.2).2 46 46 = d at h3 ⊢
    have h4 : Inv (file.dropWhile isspace)
        (if d.1 = true then (y.2.1 + (digits (if y.1 = true then isxdigit else isdigit) y.2.2).1 +
            (digits (if y.1 = true then isxdigit else isdigit) d.2).1,
            (digits (if y.1 = true then isxdigit else isdigit) d.2).2)
          else (y.2.1 + (digits (if y.1 = true then isxdigit else isdigit) y.2.2).1, d.2) : Nat × S).2 := by
      split
      · exact dg _ _ h3
      · exact h3
    generalize (if d.1 = true then (y.2.1 + (digits (if y.1 = true then isxdigit else isdigit) y.2.2).1 +
            (digits (if y.1 = true then isxdigit else isdigit) d.2).1,
            (digits (if y.1 = true then isxdigit else isdigit) d.2).2)
          else (y.2.1 + (digits (if y.1 = true then isxdigit else isdigit) y.2.2).1, d.2) : Nat × S) = w at h4 ⊢
    split
    · have h5 : Inv (file.dropWhile isspace)
          (if y.1 = true then test2 w.2 112 80 else test2 w.2 101 69).2 := by
        split <;> exact h4.test2 _ _
      generalize (if y.1 = true then test2 w.2 112 80 else test2 w.2 101 69) = v at h5 ⊢
      split
      · exact dg _ _ (h5.test2 _ _)
      · exact h5
    · exact h4
  refine ⟨file.takeWhile isspace, ?_, ?_, key.fits, ?_⟩
  · intro x hx
    have : ∀ l : List Nat, x ∈ l.takeWhile isspace → isspace x = true := by
      intro l
      induction l with
      | nil => intro h; cases h
      | cons c l ih =>
        intro h
        by_cases hc : isspace c = true
        · rw [List.takeWhile_cons_of_pos hc, List.mem_cons] at h
          rcases h with rfl | h
          · exact hc
          · exact ih h
        · rw [List.takeWhile_cons_of_neg hc] at h; cases h
    exact this file hx
  · rw [List.append_assoc, key.keep, List.takeWhile_append_dropWhile]
  · unfold text
    by_cases hb : (readNumber file).bad = true
    · exact .inr ⟨by rw [if_pos hb], key.bad hb⟩
    · exact .inl (by rw [if_neg hb])

theorem test2_no (s : S) (a b : Nat) (h : ∀ c rest, s.file = c :: rest → c ≠ a ∧ c ≠ b) :
    test2 s a b = (false, s) := by
  unfold test2
  split
  · rename_i c rest hf
    have := h c rest hf
    rw [if_neg (fun e => e.elim this.1 this.2)]
  · rfl

theorem test2_yes (s : S) (a b c : Nat) (rest : List Nat) (hf : s.file = c :: rest) (h : c = a ∨ c = b)
    (hl : s.buff.length < 200) : test2 s a b = (true, { s with buff := s.buff ++ [c], file := rest }) := by
  unfold test2
  rw [hf]
  dsimp only
  rw [if_pos h]
  unfold nextc MAXLEN
  rw [if_neg (by omega)]

theorem digitsLoop_all (p : Nat → Bool) (ds rest : List Nat) (k : Nat) (s : S) (n : Nat)
    (hf : s.file = ds ++ rest) (hd : ∀ d ∈ ds, p d = true) (hr : ∀ c, rest.head? = some c → p c = false)
    (hl : s.buff.length + ds.length ≤ 200) (hk : ds.length ≤ k) :
    digitsLoop p k s n = (n + ds.length, { s with buff := s.buff ++ ds, file := rest }) := by
  induction ds generalizing k s n with
  | nil =>
    simp only [List.nil_append] at hf
    have hs : ({ s with buff := s.buff ++ [], file := rest } : S) = s := by
      rw [List.append_nil, ← hf]
    rw [hs]
    cases k with
    | zero => rfl
    | succ k =>
      simp only [digitsLoop]
      split
      · rename_i c r he
        rw [hf] at he
        rw [if_neg]
        · rfl
        · rw [hr c (by rw [he]; rfl)]; simp
      · rfl
  | cons d ds ih =>
    simp only [List.length_cons] at hl hk
    obtain ⟨k, rfl⟩ : ∃ k', k = k' + 1 := ⟨k - 1, by omega⟩
    simp only [digitsLoop, hf, List.cons_append]
    rw [if_pos (hd d (by simp))]
    have hnx : nextc s d (ds ++ rest) = (true, { s with buff := s.buff ++ [d], file := ds ++ rest }) := by
      unfold nextc MAXLEN
      rw [if_neg (by omega)]
    rw [hnx]
    dsimp only
    rw [if_pos rfl, ih k _ _ rfl (fun x hx => hd x (by simp [hx])) (by simp; omega) (by omega)]
    simp only [List.length_cons, List.append_assoc, List.singleton_append]
    congr 1
    omega

theorem dropWhile_space (ws l : List Nat) (hw : ∀ x ∈ ws, isspace x = true)
    (hl : ∀ c, l.head? = some c → isspace c = false) : (ws ++ l).dropWhile isspace = l := by
  induction ws with
  | nil =>
    cases l with
    | nil => rfl
    | cons c l =>
      rw [List.nil_append, List.dropWhile_cons_of_neg]
      rw [hl c rfl]
      simp
  | cons w ws ih =>
    rw [List.cons_append, List.dropWhile_cons_of_pos (hw w (by simp))]
    exact ih fun x hx => hw x (by simp [hx])

/-- What may follow a decimal integer for it to be read as such. -/
def Ends (rest : List Nat) : Prop :=
  ∀ c, rest.head? = some c → isdigit c = false ∧ c ≠ 46 ∧ c ≠ 101 ∧ c ≠ 69 ∧ c ≠ 120 ∧ c ≠ 88

/-- An integer in decimal of at most 200 bytes, with or without a sign and after any white space, is
read exactly: the text is the numeral, and the rest of the file is what follows it. -/
theorem readNumber_integer (ws sign ds rest : List Nat) (hw : ∀ x ∈ ws, isspace x = true)
    (hs : sign = [] ∨ sign = [45] ∨ sign = [43]) (hd : ∀ d ∈ ds, isdigit d = true) (hne : ds ≠ [])
    (hl : sign.length + ds.length ≤ 200) (he : Ends rest) :
    text (readNumber (ws ++ (sign ++ ds ++ rest))) = sign ++ ds ∧
      (readNumber (ws ++ (sign ++ ds ++ rest))).file = rest := by
  obtain ⟨d, ds', rfl⟩ := List.exists_cons_of_ne_nil hne
  have hd0 := hd d (by simp)
  have hdr : 48 ≤ d ∧ d ≤ 57 := by simpa [isdigit] using hd0
  have hdrop : (ws ++ (sign ++ (d :: ds') ++ rest)).dropWhile isspace = sign ++ (d :: ds') ++ rest := by
    apply dropWhile_space ws _ hw
    intro c hc
    rcases hs with rfl | rfl | rfl
    · simp only [List.nil_append, List.cons_append, List.head?_cons, Option.some.injEq] at hc
      subst hc
      unfold isspace
      simp
      omega
    · simp at hc; subst hc; rfl
    · simp at hc; subst hc; rfl
  have h1 : (test2 ⟨[], false, sign ++ (d :: ds') ++ rest⟩ 45 43).2 = ⟨sign, false, d :: (ds' ++ rest)⟩ := by
    rcases hs with rfl | rfl | rfl
    · rw [test2_no]
      · simp
      · intro c r hc
        simp only [List.nil_append, List.cons_append, List.cons.injEq] at hc
        omega
    · rw [test2_yes _ 45 43 45 (d :: (ds' ++ rest)) (by simp) (.inl rfl) (by simp)]
      simp
    · rw [test2_yes _ 45 43 43 (d :: (ds' ++ rest)) (by simp) (.inr rfl) (by simp)]
      simp
  have hrd : ∀ c, rest.head? = some c → isdigit c = false := fun c hc => (he c hc).1
  have hend : ∀ (b : List Nat) (x y : Nat), (x = 46 ∧ y = 46 ∨ x = 101 ∧ y = 69) →
      test2 ⟨b, false, rest⟩ x y = (false, ⟨b, false, rest⟩) := by
    intro b x y hxy
    apply test2_no
    intro c r hc
    have hc' : rest.head? = some c := by
      have : rest = c :: r := hc
      rw [this]; rfl
    have := he c hc'
    omega
  simp only [List.length_cons] at hl
  unfold readNumber
  rw [hdrop]
  dsimp only
  rw [h1]
  by_cases h0 : d = 48
  · subst h0
    rw [test2_yes ⟨sign, false, 48 :: (ds' ++ rest)⟩ 48 48 48 (ds' ++ rest) rfl (.inl rfl) (by simp only; omega)]
    dsimp only
    have hx : test2 ⟨sign ++ [48], false, ds' ++ rest⟩ 120 88 = (false, ⟨sign ++ [48], false, ds' ++ rest⟩) := by
      apply test2_no
      intro c r hc
      cases ds' with
      | nil =>
        have hc' : rest = c :: r := by simpa using hc
        have := he c (by rw [hc']; rfl)
        omega
      | cons d' ds' =>
        simp only [List.cons_append, List.cons.injEq] at hc
        have : isdigit d' = true := hd d' (by simp)
        have : 48 ≤ d' ∧ d' ≤ 57 := by simpa [isdigit] using this
        omega
    rw [hx]
    simp only [if_true, Bool.false_eq_true, if_false]
    have hdig : digits isdigit ⟨sign ++ [48], false, ds' ++ rest⟩
        = (0 + ds'.length, ⟨sign ++ [48] ++ ds', false, rest⟩) :=
      digitsLoop_all isdigit ds' rest _ _ 0 rfl (fun x hx => hd x (by simp [hx])) hrd (by simp; omega) (by simp)
    rw [hdig]
    simp only [hend _ 46 46 (.inl ⟨rfl, rfl⟩), hend _ 101 69 (.inr ⟨rfl, rfl⟩), Bool.false_eq_true, if_false]
    rw [if_pos (by omega)]
    simp [text]
  · have hz : test2 ⟨sign, false, d :: (ds' ++ rest)⟩ 48 48 = (false, ⟨sign, false, d :: (ds' ++ rest)⟩) := by
      apply test2_no
      intro c r hc
      simp only [List.cons.injEq] at hc
      omega
    rw [hz]
    simp only [Bool.false_eq_true, if_false]
    have hdig : digits isdigit ⟨sign, false, d :: (ds' ++ rest)⟩
        = (0 + (d :: ds').length, ⟨sign ++ d :: ds', false, rest⟩) :=
      digitsLoop_all isdigit (d :: ds') rest _ _ 0 rfl hd hrd (by simp; omega) (by simp)
    rw [hdig]
    simp only [hend _ 46 46 (.inl ⟨rfl, rfl⟩), hend _ 101 69 (.inr ⟨rfl, rfl⟩), Bool.false_eq_true, if_false]
    rw [if_pos (by simp)]
    simp [text]

theorem nextc_bad (s : S) (c : Nat) (rest : List Nat) (h : s.bad = true) : (nextc s c rest).2.bad = true := by
  unfold nextc
  split
  · rfl
  · exact h

theorem test2_bad (s : S) (a b : Nat) (h : s.bad = true) : (test2 s a b).2.bad = true := by
  unfold test2
  split
  · split
    · exact nextc_bad _ _ _ h
    · exact h
  · exact h

theorem digitsLoop_bad (p : Nat → Bool) (k : Nat) (s : S) (n : Nat) (h : s.bad = true) :
    (digitsLoop p k s n).2.bad = true := by
  induction k generalizing s n with
  | zero => exact h
  | succ k ih =>
    simp only [digitsLoop]
    split
    · split
      · split
        · exact ih _ _ (nextc_bad _ _ _ h)
        · exact nextc_bad _ _ _ h
      · exact h
    · exact h

theorem digitsLoop_over (p : Nat → Bool) (ds rest : List Nat) (k : Nat) (s : S) (n : Nat)
    (hf : s.file = ds ++ rest) (hd : ∀ d ∈ ds, p d = true) (hb : s.buff.length ≤ 200)
    (hl : 200 < s.buff.length + ds.length) (hk : ds.length ≤ k) : (digitsLoop p k s n).2.bad = true := by
  induction ds generalizing k s n with
  | nil => simp at hl; omega
  | cons d ds ih =>
    simp only [List.length_cons] at hl hk
    obtain ⟨k, rfl⟩ : ∃ k', k = k' + 1 := ⟨k - 1, by omega⟩
    simp only [digitsLoop, hf, List.cons_append]
    rw [if_pos (hd d (by simp))]
    by_cases h200 : s.buff.length = 200
    · have hnx : nextc s d (ds ++ rest) = (false, { s with bad := true }) := by
        unfold nextc MAXLEN
        rw [if_pos (by omega)]
      rw [hnx]
      rfl
    · have hnx : nextc s d (ds ++ rest) = (true, { s with buff := s.buff ++ [d], file := ds ++ rest }) := by
        unfold nextc MAXLEN
        rw [if_neg (by omega)]
      rw [hnx]
      dsimp only
      rw [if_pos rfl]
      exact ih k _ _ rfl (fun x hx => hd x (by simp [hx])) (by simp; omega) (by simp; omega) (by omega)

/-- A row of more than 200 digits is refused: the text is empty. -/
theorem readNumber_long (ws ds rest : List Nat) (hw : ∀ x ∈ ws, isspace x = true)
    (hd : ∀ d ∈ ds, isdigit d = true) (hl : 200 < ds.length) : text (readNumber (ws ++ (ds ++ rest))) = [] := by
  have hne : ds ≠ [] := by rintro rfl; simp at hl
  obtain ⟨d, ds', rfl⟩ := List.exists_cons_of_ne_nil hne
  have hrange : ∀ x ∈ d :: ds', 48 ≤ x ∧ x ≤ 57 := fun x hx => by simpa [isdigit] using hd x hx
  have hd0 := hrange d (by simp)
  have hdrop : (ws ++ ((d :: ds') ++ rest)).dropWhile isspace = (d :: ds') ++ rest := by
    apply dropWhile_space ws _ hw
    intro c hc
    simp only [List.cons_append, List.head?_cons, Option.some.injEq] at hc
    subst hc
    unfold isspace
    simp
    omega
  have h1 : (test2 ⟨[], false, (d :: ds') ++ rest⟩ 45 43).2 = ⟨[], false, d :: (ds' ++ rest)⟩ := by
    rw [test2_no]
    · rfl
    · intro c r hc
      simp only [List.cons_append, List.cons.injEq] at hc
      omega
  simp only [List.length_cons] at hl
  have fin : ∀ (count : Nat) (s : S), (digits isdigit s).2.bad = true →
      text (
        let (n, s) := digits isdigit s
        let count := count + n
        let (dot, s) := test2 s 46 46
        let (count, s) :=
          if dot then
            let (n, s) := digits isdigit s
            (count + n, s)
          else (count, s)
        if count > 0 then
          let (e, s) := test2 s 101 69
          if e then (digits isdigit (test2 s 45 43).2).2 else s
        else s) = [] := by
    intro count s hb
    have dg : ∀ s : S, s.bad = true → (digits isdigit s).2.bad = true := fun s h => digitsLoop_bad _ _ _ _ h
    dsimp only
    generalize digits isdigit s = q at hb ⊢
    have h3 := test2_bad q.2 46 46 hb
    generalize test2 q.2 46 46 = t at h3 ⊢
    have h4 : (if t.1 = true then (count + q.1 + (digits isdigit t.2).1, (digits isdigit t.2).2)
        else (count + q.1, t.2) : Nat × S).2.bad = true := by
      split
      · exact dg _ h3
      · exact h3
    generalize (if t.1 = true then (count + q.1 + (digits isdigit t.2).1, (digits isdigit t.2).2)
        else (count + q.1, t.2) : Nat × S) = w at h4 ⊢
    unfold text
    rw [if_pos]
    split
    · split
      · exact dg _ (test2_bad _ _ _ (test2_bad _ _ _ h4))
      · exact test2_bad _ _ _ h4
    · exact h4
  unfold readNumber
  rw [hdrop]
  dsimp only
  rw [h1]
  by_cases h0 : d = 48
  · subst h0
    rw [test2_yes ⟨[], false, 48 :: (ds' ++ rest)⟩ 48 48 48 (ds' ++ rest) rfl (.inl rfl) (by simp)]
    dsimp only
    have hx : test2 ⟨[] ++ [48], false, ds' ++ rest⟩ 120 88 = (false, ⟨[] ++ [48], false, ds' ++ rest⟩) := by
      apply test2_no
      intro c r hc
      cases ds' with
      | nil => simp at hl
      | cons d' ds' =>
        simp only [List.cons_append, List.cons.injEq] at hc
        have := hrange d' (by simp)
        omega
    rw [hx]
    simp only [if_true, Bool.false_eq_true, if_false]
    exact fin 1 _ (digitsLoop_over isdigit ds' rest _ _ 0 rfl (fun x hx => hd x (by simp [hx])) (by simp)
      (by simp; omega) (by simp))
  · have hz : test2 ⟨[], false, d :: (ds' ++ rest)⟩ 48 48 = (false, ⟨[], false, d :: (ds' ++ rest)⟩) := by
      apply test2_no
      intro c r hc
      simp only [List.cons.injEq] at hc
      omega
    rw [hz]
    simp only [Bool.false_eq_true, if_false]
    exact fin 0 _ (digitsLoop_over isdigit (d :: ds') rest _ _ 0 rfl hd (by simp) (by simp; omega) (by simp))

/-- ` -12,`: the text is `-12`, the comma is next. -/
example : readNumber [32, 45, 49, 50, 44] = ⟨[45, 49, 50], false, [44]⟩ := by decide
/-- `0x1p-4z`. -/
example : readNumber [48, 120, 49, 112, 45, 52, 122] = ⟨[48, 120, 49, 112, 45, 52], false, [122]⟩ := by decide
/-- 201 digits are refused, and 200 of them are gone. -/
example : text (readNumber (List.replicate 201 49)) = [] ∧
    (readNumber (List.replicate 201 49)).file = [49] := by decide +kernel

end Verif.IoNum
