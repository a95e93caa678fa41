import Verif.Path.Model
import Mathlib.Data.List.SplitOn

/-!
# C105: the search for modules tries exactly the files that the path describes
-/
namespace Verif.Path

/-- `out` is `s` with the occurrences of `p`, from the left and without overlaps, replaced by `r`. -/
inductive Replaced (p r : List Nat) : List Nat → List Nat → Prop
  | none (s : List Nat) (h : ∀ a b, s ≠ a ++ p ++ b) : Replaced p r s s
  | first (a b out : List Nat) (h : ∀ a' b', a ++ p ++ b = a' ++ p ++ b' → a.length ≤ a'.length)
      (hb : Replaced p r b out) : Replaced p r (a ++ p ++ b) (a ++ r ++ out)

theorem strstr_some (p s a b : List Nat) (h : strstr p s = some (a, b)) :
    s = a ++ p ++ b ∧ ∀ a' b', s = a' ++ p ++ b' → a.length ≤ a'.length := by
  induction s generalizing a b with
  | nil =>
    simp only [strstr] at h
    split at h
    · rename_i hp
      cases h
      simp [hp]
    · cases h
  | cons c s ih =>
    simp only [strstr] at h
    split at h
    · rename_i hp
      cases h
      rw [List.isPrefixOf_iff_prefix] at hp
      obtain ⟨t, ht⟩ := hp
      refine ⟨?_, by simp⟩
      rw [← ht]
      simp
    · rename_i hp
      cases hs : strstr p s with
      | none => rw [hs] at h; cases h
      | some x =>
        rw [hs] at h
        cases h
        obtain ⟨k1, k2⟩ := ih x.1 x.2 hs
        refine ⟨by rw [k1]; simp, ?_⟩
        intro a' b' he
        cases a' with
        | nil =>
          exfalso
          apply hp
          rw [List.isPrefixOf_iff_prefix]
          exact ⟨b', by simpa using he.symm⟩
        | cons d a' =>
          have := k2 a' b' (by simpa using (List.cons.inj he).2)
          simp only [List.length_cons]
          omega

theorem strstr_none (p s : List Nat) (h : strstr p s = none) : ∀ a b, s ≠ a ++ p ++ b := by
  induction s with
  | nil =>
    intro a b he
    simp only [strstr] at h
    split at h
    · cases h
    · rename_i hp
      apply hp
      have := congrArg List.length he
      simp at this
      exact List.length_eq_zero_iff.1 (by omega)
  | cons c s ih =>
    intro a b he
    simp only [strstr] at h
    split at h
    · cases h
    · rename_i hp
      have hs : strstr p s = none := by simpa using h
      cases a with
      | nil =>
        apply hp
        rw [List.isPrefixOf_iff_prefix]
        exact ⟨b, by simpa using he.symm⟩
      | cons d a => exact ih hs a b (by simpa using (List.cons.inj he).2)

theorem addgsub_spec (p r : List Nat) (hp : p ≠ []) (f : Nat) (s acc : List Nat) (hf : s.length < f) :
    ∃ out, addgsub p r f s acc = .ok (acc ++ out) ∧ Replaced p r s out := by
  induction f generalizing s acc with
  | zero => omega
  | succ f ih =>
    cases hs : strstr p s with
    | none => exact ⟨s, by simp only [addgsub, hs], .none s (strstr_none p s hs)⟩
    | some x =>
      obtain ⟨a, b⟩ := x
      obtain ⟨k1, k2⟩ := strstr_some p s a b hs
      have hpl := List.length_pos_iff.2 hp
      have hl : b.length < f := by
        have := congrArg List.length k1
        simp only [List.length_append] at this
        omega
      obtain ⟨out, j1, j2⟩ := ih b (acc ++ a ++ r) hl
      refine ⟨a ++ r ++ out, ?_, ?_⟩
      · simp only [addgsub, hs, j1]
        simp
      · rw [k1]
        rw [k1] at k2
        exact .first a b out k2 j2

/-- `luaL_gsub` with a pattern that is not empty ends, and replaces the occurrences of the pattern
from the left, without overlaps, without a look at what it put in. -/
theorem gsub_replaces (s p r : List Nat) (hp : p ≠ []) :
    ∃ out, gsub s p r = .ok out ∧ Replaced p r s out := by
  obtain ⟨out, h1, h2⟩ := addgsub_spec p r hp (s.length + 1) s [] (by omega)
  exact ⟨out, by simpa [gsub] using h1, h2⟩

/-- With an empty pattern its loop never ends. -/
theorem addgsub_empty (r s acc : List Nat) (f : Nat) : addgsub [] r f s acc = .ub := by
  induction f generalizing acc with
  | zero => rfl
  | succ f ih =>
    have : strstr [] s = some ([], s) := by cases s <;> simp [strstr]
    simp only [addgsub, this]
    exact ih _

/-- What the replacement is, is not in question. -/
theorem Replaced.unique {p r s o1 o2 : List Nat} (h1 : Replaced p r s o1) (h2 : Replaced p r s o2) :
    o1 = o2 := by
  induction h1 generalizing o2 with
  | none s h =>
    cases h2 with
    | none _ _ => rfl
    | first a b out h' hb => exact absurd rfl (h a b)
  | first a b out h hb ih =>
    generalize hs : a ++ p ++ b = s at h2
    cases h2 with
    | none _ h' => exact absurd hs.symm (h' a b)
    | first a' b' out' h' hb' =>
      have l1 := h a' b' hs
      have l2 := h' a b hs.symm
      have hl : a.length = a'.length := by omega
      rw [List.append_assoc, List.append_assoc] at hs
      obtain ⟨e1, e2⟩ := List.append_inj hs hl
      subst e1
      have e3 := List.append_cancel_left e2
      subst e3
      rw [ih hb']

/-- For a pattern of one byte, replacement is byte by byte. -/
theorem replaced_byte (c : Nat) (r s : List Nat) :
    Replaced [c] r s (s.flatMap fun x => if x = c then r else [x]) := by
  have key : ∀ (n : Nat) (s : List Nat), s.length ≤ n →
      Replaced [c] r s (s.flatMap fun x => if x = c then r else [x]) := by
    intro n
    induction n with
    | zero =>
      intro s hs
      have : s = [] := List.length_eq_zero_iff.1 (by omega)
      subst this
      exact .none [] (by simp)
    | succ n ih =>
      intro s hs
      have hnot : ∀ l : List Nat, c ∉ l → (l.flatMap fun x => if x = c then r else [x]) = l := by
        intro l hl
        induction l with
        | nil => rfl
        | cons d l ihl =>
          rw [List.mem_cons, not_or] at hl
          rw [List.flatMap_cons, if_neg (Ne.symm hl.1), ihl hl.2]
          rfl
      by_cases hc : c ∈ s
      · obtain ⟨a, b, rfl, ha⟩ := List.eq_append_cons_of_mem hc
        have e : a ++ c :: b = a ++ [c] ++ b := by simp
        have hb := ih b (by simp at hs; omega)
        have := Replaced.first (p := [c]) (r := r) a b _ (by
          intro a' b' he
          refine Nat.le_of_not_lt fun hlt => ?_
          have h1 : (a ++ [c] ++ b)[a'.length]? = some c := by
            rw [he]
            simp
          rw [List.append_assoc, List.getElem?_append_left hlt] at h1
          exact ha (List.mem_of_getElem? h1)) hb
        rw [e, List.flatMap_append, List.flatMap_append, hnot a ha]
        simpa using this
      · rw [hnot s hc]
        refine .none s ?_
        intro a b he
        apply hc
        rw [he]
        simp
  exact key _ s (Nat.le_refl _)

/-- Replacement of one byte. -/
theorem gsub_byte (s : List Nat) (c : Nat) (r : List Nat) :
    gsub s [c] r = .ok (s.flatMap fun x => if x = c then r else [x]) := by
  obtain ⟨out, h1, h2⟩ := gsub_replaces s [c] r (by simp)
  rw [h1, h2.unique (replaced_byte c r s)]

/-- The templates of a path: its parts between semicolons that are not empty. -/
def templates (path : List Nat) : List (List Nat) := (path.splitOn SEP).filter (· ≠ [])

theorem templates_sep (path : List Nat) : templates (SEP :: path) = templates path := by
  unfold templates
  simp [List.splitOn, List.splitOnP_cons_eq_if_modifyHead]

theorem templates_drop (path : List Nat) : templates (path.dropWhile (· = SEP)) = templates path := by
  induction path with
  | nil => rfl
  | cons c path ih =>
    by_cases hc : c = SEP
    · subst hc
      rw [templates_sep, ← ih]
      simp
    · simp [hc]

theorem splitOn_take (path : List Nat) :
    path.splitOn SEP = (path.takeWhile (· ≠ SEP)) ::
      (match path.dropWhile (· ≠ SEP) with | [] => [] | _ :: rest => rest.splitOn SEP) := by
  induction path with
  | nil => simp [List.splitOn]
  | cons c path ih =>
    by_cases hc : c = SEP
    · subst hc
      simp [List.splitOn, List.splitOnP_cons_eq_if_modifyHead]
    · have h1 : (c :: path).splitOn SEP = (path.splitOn SEP).modifyHead (List.cons c) := by
        simp [List.splitOn, List.splitOnP_cons_eq_if_modifyHead, hc]
      rw [h1, ih]
      simp [hc]

theorem next_none (path : List Nat) (h : nextTemplate path = none) : templates path = [] := by
  unfold nextTemplate at h
  dsimp only at h
  split at h
  · rename_i hd
    rw [← templates_drop, hd]
    simp [templates, List.splitOn]
  · cases h

theorem next_some (path t rest : List Nat) (h : nextTemplate path = some (t, rest)) :
    templates path = t :: templates rest ∧ rest.length < path.length := by
  unfold nextTemplate at h
  dsimp only at h
  split at h
  · cases h
  · rename_i hd
    have hle : (path.dropWhile (· = SEP)).length ≤ path.length := (List.dropWhile_sublist _).length_le
    rw [← templates_drop]
    generalize hq : path.dropWhile (fun x => decide (x = SEP)) = q at *
    cases h
    cases q with
    | nil => exact absurd rfl hd
    | cons c q =>
      have hc : c ≠ SEP := by
        intro hc
        have := List.head?_dropWhile_not (fun x => decide (x = SEP)) path
        rw [hq] at this
        simp [hc] at this
      constructor
      · rw [show templates (c :: q) = ((c :: q).splitOn SEP).filter (· ≠ []) from rfl, splitOn_take]
        have h2 : (c :: q).takeWhile (fun x => decide (x ≠ SEP)) ≠ [] := by simp [hc]
        rw [List.filter_cons_of_pos (by simpa using h2)]
        congr 1
        generalize hr : (c :: q).dropWhile (fun x => decide (x ≠ SEP)) = r
        cases r with
        | nil => simp [templates, List.splitOn]
        | cons d r =>
          have hd : d = SEP := by
            have := List.head?_dropWhile_not (fun x => decide (x ≠ SEP)) (c :: q)
            rw [hr] at this
            simpa using this
          subst hd
          rw [templates_sep]
          rfl
      · have : ((c :: q).dropWhile (fun x => decide (x ≠ SEP))).length ≤ q.length := by
          rw [List.dropWhile_cons_of_pos (by simpa using hc)]
          exact (List.dropWhile_sublist _).length_le
        simp only [List.length_cons] at hle
        omega

/-- The name of the file for a template. -/
def fileOf (name t : List Nat) : List Nat := t.flatMap fun x => if x = MARK then name else [x]

theorem searchLoop_spec (readable : List Nat → Bool) (name : List Nat) (f : Nat) (path msg : List Nat)
    (hf : path.length < f) :
    searchLoop readable name f path msg
      = .ok (match ((templates path).map (fileOf name)).find? readable with
        | some file => .file file
        | none => .message (msg ++ ((templates path).map (fileOf name)).flatMap noFile)) := by
  induction f generalizing path msg with
  | zero => omega
  | succ f ih =>
    cases hn : nextTemplate path with
    | none =>
      simp only [searchLoop, hn, next_none path hn]
      simp
    | some x =>
      obtain ⟨t, rest⟩ := x
      obtain ⟨k1, k2⟩ := next_some path t rest hn
      simp only [searchLoop, hn, gsub_byte, Res.bind_ok, k1, List.map_cons]
      show (if readable (fileOf name t) = true then Res.ok (Found.file (fileOf name t)) else
        searchLoop readable name f rest (msg ++ noFile (fileOf name t))) = _
      by_cases hr : readable (fileOf name t) = true
      · rw [if_pos hr, List.find?_cons_of_pos hr]
      · rw [if_neg hr, List.find?_cons_of_neg hr, ih rest _ (by omega)]
        rw [List.flatMap_cons, List.append_assoc]

/-- The bytes of a text. -/
def chars (s : String) : List Nat := s.toList.map Char.toNat

/-- The files that a path describes for a name: for each part of the path between semicolons that is
not empty, in order, the part with the name in place of each `?`. -/
def files (name path : List Nat) : List (List Nat) :=
  ((path.splitOn ';'.toNat).filter (· ≠ [])).map fun t => t.flatMap fun x => if x = '?'.toNat then name else [x]

/-- The entry of the message for a file. -/
def entry (file : List Nat) : List Nat := chars "\n\tno file '" ++ file ++ chars "'"

theorem files_eq (name path : List Nat) : (templates path).map (fileOf name) = files name path := rfl

theorem noFile_eq : noFile = entry := by
  have h1 : chars "\n\tno file '" = [10, 9, 110, 111, 32, 102, 105, 108, 101, 32, 39] := by decide
  have h2 : chars "'" = [39] := by decide
  funext f
  unfold entry
  rw [h1, h2]
  rfl

/-- The search: it always ends; in the name the separator (if it is not empty) is replaced; then the
files that the path describes are tried in order; the first one that can be read is the
result, and otherwise a message with an entry for each file, in order. -/
theorem searchpath_exact (readable : List Nat → Bool) (name path sep dirsep : List Nat) :
    ∃ name', (if sep = [] then name' = name else Replaced sep dirsep name name') ∧
      searchpath readable name path sep dirsep
        = .ok (match (files name' path).find? readable with
          | some file => .file file
          | none => .message ((files name' path).flatMap entry)) := by
  by_cases hs : sep = []
  · refine ⟨name, by rw [if_pos hs], ?_⟩
    unfold searchpath
    rw [if_neg (by simpa using hs)]
    simp only [Res.bind_ok]
    rw [searchLoop_spec _ _ _ _ _ (by omega), files_eq, noFile_eq]
    simp only [List.nil_append]
  · obtain ⟨out, h1, h2⟩ := gsub_replaces name sep dirsep hs
    refine ⟨out, by rw [if_neg hs]; exact h2, ?_⟩
    unfold searchpath
    rw [if_pos hs, h1]
    simp only [Res.bind_ok]
    rw [searchLoop_spec _ _ _ _ _ (by omega), files_eq, noFile_eq]
    simp only [List.nil_append]

/-- `require` (separator `.`): each dot of the name becomes the directory separator. -/
theorem searchpath_dot (readable : List Nat → Bool) (name path dirsep : List Nat) :
    searchpath readable name path (chars ".") dirsep
      = .ok (match (files (name.flatMap fun x => if x = '.'.toNat then dirsep else [x]) path).find? readable with
          | some file => .file file
          | none => .message
            ((files (name.flatMap fun x => if x = '.'.toNat then dirsep else [x]) path).flatMap entry)) := by
  have hc : chars "." = ['.'.toNat] := by decide
  rw [hc]
  obtain ⟨n, h1, h2⟩ := searchpath_exact readable name path ['.'.toNat] dirsep
  rw [if_neg (by simp)] at h1
  rw [h2, h1.unique (replaced_byte '.'.toNat dirsep name)]

/-- A name with a zero byte is cut there: `package.searchpath` then finds another module's file. -/
theorem zero_byte_cut (readable : List Nat → Bool) (name more path sep dirsep : List Nat) :
    llSearchpath readable (name ++ 0 :: more) path sep dirsep = llSearchpath readable name path sep dirsep := by
  have : cstr (name ++ 0 :: more) = cstr name := by
    unfold cstr
    induction name with
    | nil => simp
    | cons c name ih =>
      by_cases hc : c = 0
      · simp [hc]
      · simp only [List.cons_append]
        rw [List.takeWhile_cons_of_pos (by simpa using hc), List.takeWhile_cons_of_pos (by simpa using hc), ih]
  unfold llSearchpath
  rw [this]

/-- `a.b` in `;;?.x;?/y`: tried are `a/b.x` and `a/b/y`. -/
example : searchpath (· = [97, 47, 98, 47, 121]) [97, 46, 98] [59, 59, 63, 46, 120, 59, 63, 47, 121] [46] [47]
    = .ok (.file [97, 47, 98, 47, 121]) := by decide
example : gsub [1, 1, 1] [1, 1] [1] = .ok [1, 1] := by decide

end Verif.Path
