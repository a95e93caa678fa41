import Verif.IoRead.Model

/-!
# C107: reading from a file gives its bytes, all of them, once
-/
namespace Verif.IoRead

/-- The first line of a text, without its end. -/
def firstLine (s : List Nat) : List Nat := s.takeWhile (· ≠ 10)

theorem firstLine_self (file : List Nat) (h : 10 ∉ file) : firstLine file = file := by
  induction file with
  | nil => rfl
  | cons b file ih =>
    rw [List.mem_cons, not_or] at h
    have hb : b ≠ 10 := fun e => h.1 e.symm
    have : firstLine (b :: file) = b :: firstLine file := by simp [firstLine, hb]
    rw [this, ih h.2]

theorem firstLine_no_newline (file : List Nat) : 10 ∉ firstLine file := by
  induction file with
  | nil => simp [firstLine]
  | cons b file ih =>
    by_cases hb : b = 10
    · simp [firstLine, hb]
    · have : firstLine (b :: file) = b :: firstLine file := by simp [firstLine, hb]
      rw [this, List.mem_cons, not_or]
      exact ⟨fun e => hb e.symm, ih⟩

theorem inner_spec (k : Nat) (file acc : List Nat) (c : C) :
    ((firstLine file).length < k ∧ inner k file acc c =
      (acc ++ firstLine file, if 10 ∈ file then .byte 10 else .eof, file.drop ((firstLine file).length + 1))) ∨
    (k ≤ (firstLine file).length ∧ (k = 0 ∨ ∃ b, b ≠ 10 ∧ (inner k file acc c).2.1 = .byte b) ∧
      (inner k file acc c).1 = acc ++ file.take k ∧ (inner k file acc c).2.2 = file.drop k) := by
  induction k generalizing file acc c with
  | zero => exact .inr ⟨by omega, .inl rfl, by simp [inner], by simp [inner]⟩
  | succ k ih =>
    cases file with
    | nil => exact .inl ⟨by simp [firstLine], by simp [inner, firstLine]⟩
    | cons b file =>
      by_cases hb : b = 10
      · subst hb
        exact .inl ⟨by simp [firstLine], by simp [inner, firstLine]⟩
      · have hfl : firstLine (b :: file) = b :: firstLine file := by simp [firstLine, hb]
        have hmem : (10 ∈ b :: file) ↔ 10 ∈ file := by
          rw [List.mem_cons]
          constructor
          · rintro (h | h)
            · exact absurd h.symm hb
            · exact h
          · exact .inr
        simp only [inner]
        rw [if_neg hb, hfl]
        rcases ih file (acc ++ [b]) (.byte b) with ⟨h1, h2⟩ | ⟨h1, h2, h3, h4⟩
        · refine .inl ⟨by simp; omega, ?_⟩
          rw [h2]
          simp only [hmem, List.append_assoc, List.singleton_append, List.length_cons, List.drop_succ_cons]
        · refine .inr ⟨by simp; omega, .inr ?_, ?_, ?_⟩
          · rcases h2 with rfl | h2
            · exact ⟨b, hb, rfl⟩
            · exact h2
          · rw [h3]; simp
          · rw [h4]; simp

theorem firstLine_drop (k : Nat) (file : List Nat) (h : k ≤ (firstLine file).length) :
    firstLine file = file.take k ++ firstLine (file.drop k) ∧ (10 ∈ file.drop k ↔ 10 ∈ file) := by
  induction k generalizing file with
  | zero => simp
  | succ k ih =>
    cases file with
    | nil => simp [firstLine] at h
    | cons b file =>
      by_cases hb : b = 10
      · simp [firstLine, hb] at h
      · have hfl : firstLine (b :: file) = b :: firstLine file := by simp [firstLine, hb]
        rw [hfl] at h ⊢
        obtain ⟨k1, k2⟩ := ih file (by simpa using h)
        refine ⟨by simpa using k1, ?_⟩
        rw [List.drop_succ_cons, k2, List.mem_cons]
        constructor
        · exact .inr
        · rintro (h | h)
          · exact absurd h.symm hb
          · exact h

theorem outer_spec (B : Nat) (hB : 0 < B) (f : Nat) (file acc : List Nat) (b : Nat) (hb : b ≠ 10)
    (hf : file.length + 1 < f) :
    outer B f file acc (.byte b) = .ok (acc ++ firstLine file, if 10 ∈ file then .byte 10 else .eof,
      file.drop ((firstLine file).length + 1)) := by
  induction f generalizing file acc b with
  | zero => omega
  | succ f ih =>
    simp only [outer]
    rw [if_pos ⟨by simp, by simpa using hb⟩]
    rcases inner_spec B file acc (.byte b) with ⟨_, h2⟩ | ⟨h1, h2, h3, h4⟩
    · rw [h2]
      dsimp only
      obtain ⟨f, rfl⟩ : ∃ f', f = f' + 1 := ⟨f - 1, by omega⟩
      simp only [outer]
      rw [if_neg]
      split <;> simp
    · rcases h2 with h2 | ⟨b', hb', h2⟩
      · omega
      · obtain ⟨e1, e2⟩ := firstLine_drop B file h1
        have hle : (firstLine file).length ≤ file.length := (List.takeWhile_sublist _).length_le
        rw [h2, h3, h4, ih _ _ b' hb' (by rw [List.length_drop]; omega)]
        have e3 : (firstLine file).length = B + (firstLine (file.drop B)).length := by
          rw [e1, List.length_append, List.length_take]
          omega
        rw [List.append_assoc, ← e1, List.drop_drop, e3]
        simp only [e2]
        rw [Nat.add_assoc]

/-- Reading a line, for every size of the buffer: the bytes before the first newline, and with `L`
the newline too if there is one; the line and its newline are taken from the file; it fails exactly at
the end of the file. -/
theorem readLine_exact (B : Nat) (hB : 0 < B) (chop : Bool) (file : List Nat) :
    readLine B chop file = .ok (decide (file ≠ []),
      firstLine file ++ (if chop = false ∧ 10 ∈ file then [10] else []),
      file.drop ((firstLine file).length + 1)) := by
  simp only [readLine, outer_spec B hB (file.length + 2) file [] 0 (by decide) (by omega), Res.bind_ok,
    List.nil_append]
  by_cases h : 10 ∈ file
  · have hne : file ≠ [] := by rintro rfl; cases h
    cases chop <;> simp [h, hne]
  · rw [firstLine_self file h]
    cases file with
    | nil => cases chop <;> simp
    | cons b file => cases chop <;> simp [h]

theorem readAll_spec (B : Nat) (hB : 0 < B) (f : Nat) (file acc : List Nat) (hf : file.length < f) :
    readAll B f file acc = .ok (acc ++ file, []) := by
  induction f generalizing file acc with
  | zero => omega
  | succ f ih =>
    simp only [readAll]
    by_cases h : min B file.length = B
    · rw [if_pos h, ih _ _ (by rw [List.length_drop]; omega), List.append_assoc, List.take_append_drop]
    · rw [if_neg h, List.take_of_length_le (by omega), List.drop_eq_nil_of_le (by omega)]

/-- Reading all gives the rest of the file, for every size of the buffer. -/
theorem readAll_exact (B : Nat) (hB : 0 < B) (file : List Nat) :
    readOne B .all file = .ok (true, file, []) := by
  simp only [readOne, readAll_spec B hB (file.length + 1) file [] (by omega), Res.bind_ok, List.nil_append]

/-- Reading a number of bytes gives that many, or what there is; it fails exactly at the end of the
file, also for the number 0. -/
theorem readCount_exact (B n : Nat) (file : List Nat) :
    readOne B (.count n) file = .ok (decide (file ≠ []), file.take n, file.drop n) := by
  simp only [readOne]
  by_cases h : n = 0
  · subst h
    simp [testEof]
  · rw [if_neg h]
    unfold readChars
    cases file with
    | nil => simp
    | cons b file =>
      have : 0 < min n (b :: file).length := by simp; omega
      simp only [gt_iff_lt, this, decide_true]
      simp

theorem firstLine_split (file : List Nat) :
    file = firstLine file ++ (if 10 ∈ file then [10] else []) ++ file.drop ((firstLine file).length + 1) := by
  induction file with
  | nil => simp [firstLine]
  | cons b file ih =>
    by_cases hb : b = 10
    · subst hb; simp [firstLine]
    · have hfl : firstLine (b :: file) = b :: firstLine file := by simp [firstLine, hb]
      have hm : (10 ∈ b :: file) ↔ 10 ∈ file := by
        rw [List.mem_cons]
        exact ⟨fun h => h.resolve_left (fun e => hb e.symm), .inr⟩
      rw [hfl]
      simp only [hm, List.length_cons, List.drop_succ_cons, List.cons_append]
      rw [← ih]

/-- One format that does not cut newlines: what is read and the rest are the file; failure is exactly
at the end of the file for all but `a`. -/
theorem readOne_keeps (B : Nat) (hB : 0 < B) (fmt : Fmt) (hl : fmt ≠ .line) (file : List Nat) :
    ∃ ok s rest, readOne B fmt file = .ok (ok, s, rest) ∧ file = s ++ rest ∧
      (ok = false ↔ file = [] ∧ fmt ≠ .all) := by
  cases fmt with
  | count n =>
    exact ⟨_, _, _, readCount_exact B n file, (List.take_append_drop n file).symm, by simp⟩
  | line => exact absurd rfl hl
  | lineNL =>
    refine ⟨_, _, _, readLine_exact B hB false file, ?_, by simp⟩
    simpa using firstLine_split file
  | all => exact ⟨_, _, _, readAll_exact B hB file, by simp, by simp⟩

/-- Any list of formats that do not cut newlines: the strings returned, one after another, and the
rest of the file are the file; there is a result for every format unless one is nil, nil is only the
last result, and then the file is at its end. -/
theorem gread_exact (B : Nat) (hB : 0 < B) (fmts : List Fmt) (hl : .line ∉ fmts) (file : List Nat) :
    ∃ (ss : List (List Nat)) (failed : Bool) (rest : List Nat),
      gread B fmts file = .ok (ss.map some ++ (if failed then [none] else []), rest) ∧
      file = ss.flatten ++ rest ∧ (failed = false → ss.length = fmts.length) ∧
      (failed = true → ss.length < fmts.length ∧ rest = []) := by
  induction fmts generalizing file with
  | nil => exact ⟨[], false, file, rfl, by simp, by simp, by simp⟩
  | cons fmt fmts ih =>
    rw [List.mem_cons, not_or] at hl
    obtain ⟨ok, s, rest, k1, k2, k3⟩ := readOne_keeps B hB fmt (Ne.symm hl.1) file
    cases ok with
    | false =>
      have hnil := (k3.1 rfl).1
      rw [hnil] at k2
      have hr : s = [] ∧ rest = [] := List.append_eq_nil_iff.1 k2.symm
      refine ⟨[], true, rest, ?_, by rw [hnil, hr.2]; rfl, by simp, fun _ => ⟨by simp, hr.2⟩⟩
      simp only [gread, k1, Res.bind_ok]
      simp
    | true =>
      obtain ⟨ss, failed, rest', j1, j2, j3, j4⟩ := ih hl.2 rest
      refine ⟨s :: ss, failed, rest', ?_, ?_, ?_, ?_⟩
      · simp only [gread, k1, Res.bind_ok, j1, if_true]
        simp
      · rw [k2, j2]; simp
      · intro h; simpa using j3 h
      · intro h; simpa using j4 h

/-- The lines of a file, read with `l` until it fails. -/
def allLines (B : Nat) : Nat → List Nat → Res (List (List Nat))
  | 0, _ => .ub
  | f + 1, file => do
    let (ok, s, rest) ← readLine B true file
    if ok then do
      let ls ← allLines B f rest
      .ok (s :: ls)
    else .ok []

/-- `io.lines` ends; no line has a newline; and the lines, each with a newline behind it, are the
file, with a newline added if its last line has none. -/
theorem allLines_exact (B : Nat) (hB : 0 < B) (f : Nat) (file : List Nat) (hf : file.length < f) :
    ∃ ls, allLines B f file = .ok ls ∧ (∀ l ∈ ls, 10 ∉ l) ∧
      ls.flatMap (· ++ [10]) = if file = [] ∨ file.getLast? = some 10 then file else file ++ [10] := by
  induction f generalizing file with
  | zero => omega
  | succ f ih =>
    simp only [allLines, readLine_exact B hB true file, Res.bind_ok]
    by_cases hne : file = []
    · subst hne
      exact ⟨[], by simp, by simp, by simp⟩
    · have hpos := List.length_pos_iff.2 hne
      obtain ⟨ls, k1, k2, k3⟩ := ih (file.drop ((firstLine file).length + 1)) (by
        rw [List.length_drop]; omega)
      have hfl := firstLine_no_newline file
      have hs := firstLine_split file
      refine ⟨firstLine file :: ls, ?_, ?_, ?_⟩
      · rw [if_pos (by simpa using hne), k1]
        simp
      · intro l hl
        rcases List.mem_cons.1 hl with rfl | hl
        · exact hfl
        · exact k2 l hl
      · rw [List.flatMap_cons]
        by_cases hm : 10 ∈ file
        · rw [if_pos hm] at hs
          rw [k3]
          generalize hrest : file.drop ((firstLine file).length + 1) = rest at hs ⊢
          by_cases hr : rest = []
          · subst hr
            have : file.getLast? = some 10 := by rw [hs]; simp
            rw [if_pos (.inl rfl), if_pos (.inr this)]
            exact hs.symm
          · have hlast : file.getLast? = rest.getLast? := by
              rw [hs, List.getLast?_append]
              cases hg : rest.getLast? with
              | none => exact absurd (List.getLast?_eq_none_iff.1 hg) hr
              | some x => rfl
            rw [hlast]
            by_cases hl : rest.getLast? = some 10
            · rw [if_pos (.inr hl), if_pos (.inr hl)]
              exact hs.symm
            · rw [if_neg (not_or.2 ⟨hr, hl⟩), if_neg (not_or.2 ⟨hne, hl⟩), ← List.append_assoc, ← hs]
        · have hdrop : file.drop ((firstLine file).length + 1) = [] := by
            rw [firstLine_self file hm]
            exact List.drop_eq_nil_of_le (by omega)
          obtain ⟨f', rfl⟩ : ∃ f', f = f' + 1 := ⟨f - 1, by omega⟩
          have hls : ls = [] := by
            rw [hdrop] at k1
            simp only [allLines, readLine_exact B hB true [], Res.bind_ok] at k1
            simpa using k1.symm
          have hl : file.getLast? ≠ some 10 := fun h => hm (List.mem_of_getLast? h)
          rw [if_neg (not_or.2 ⟨hne, hl⟩)]
          rw [hdrop, if_neg hm] at hs
          rw [hls]
          simp only [List.append_nil, List.flatMap_nil] at hs ⊢
          rw [← hs]

/-- A buffer of two bytes; `abc\nd`. -/
example : gread 2 [.lineNL, .count 0, .all, .count 1] [97, 98, 99, 10, 100]
    = .ok ([some [97, 98, 99, 10], some [], some [100], none], []) := by decide

end Verif.IoRead
