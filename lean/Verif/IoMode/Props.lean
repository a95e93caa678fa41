import Verif.IoMode.Model

/-!
# C109: which modes `io.open` accepts
-/
namespace Verif.IoMode

/-- The bytes of a text. -/
def chars (s : String) : List Nat := s.toList.map Char.toNat

theorem strspnB_all (m : List Nat) : (strspnB m == m.length) = true ↔ m = List.replicate m.length 98 := by
  rw [beq_iff_eq]
  induction m with
  | nil => simp [strspnB]
  | cons c m ih =>
    simp only [strspnB, List.length_cons, List.replicate_succ]
    by_cases hc : c = 98
    · rw [if_pos hc, List.cons.injEq]
      constructor
      · intro h
        exact ⟨hc, ih.1 (by omega)⟩
      · rintro ⟨_, h⟩
        have := ih.2 h
        omega
    · rw [if_neg hc]
      constructor
      · intro h; omega
      · intro h
        exact absurd (List.cons.inj h).1 hc

/-- `io.open` accepts exactly the modes that begin with `r`, `w` or `a`, then may have a `+`, and then
have any number of `b`. -/
theorem checkmode_exact (mode : List Nat) :
    checkmode mode = true ↔ ∃ first ∈ ["r", "w", "a"], ∃ plus ∈ ["", "+"], ∃ n : Nat,
      mode = chars first ++ chars plus ++ List.replicate n 'b'.toNat := by
  have hr : chars "r" = [114] := by decide
  have hw : chars "w" = [119] := by decide
  have ha : chars "a" = [97] := by decide
  have he : chars "" = [] := by decide
  have hp : chars "+" = [43] := by decide
  have hb : 'b'.toNat = 98 := by decide
  rw [hb]
  simp only [List.mem_cons, List.not_mem_nil, or_false, exists_eq_or_imp, exists_eq_left, hr, hw, ha, he, hp]
  cases mode with
  | nil => simp [checkmode]
  | cons c mode =>
    have hrest : ((strspnB (skipPlus mode) == (skipPlus mode).length) = true) ↔
        ∃ n : Nat, mode = List.replicate n 98 ∨ mode = 43 :: List.replicate n 98 := by
      rw [strspnB_all]
      cases mode with
      | nil => simp [skipPlus]
      | cons d m =>
        simp only [skipPlus]
        by_cases hd : d = 43
        · rw [if_pos hd]
          constructor
          · intro h; exact ⟨m.length, .inr (by rw [← h, hd])⟩
          · rintro ⟨n, h | h⟩
            · cases n with
              | zero => cases h
              | succ n => rw [List.replicate_succ] at h; have := (List.cons.inj h).1; omega
            · rw [(List.cons.inj h).2]; simp
        · rw [if_neg hd]
          constructor
          · intro h; exact ⟨(d :: m).length, .inl h⟩
          · rintro ⟨n, h | h⟩
            · rw [h]; simp
            · exact absurd (List.cons.inj h).1 hd
    unfold checkmode
    rw [Bool.and_eq_true, hrest]
    simp only [List.contains_iff_mem, List.mem_cons, List.not_mem_nil, or_false, List.cons_append,
      List.nil_append, List.cons.injEq, List.append_nil]
    constructor
    · rintro ⟨hc, n, h⟩
      rcases hc with rfl | rfl | rfl <;> rcases h with h | h <;> grind
    · grind

/-- `r+bb` is accepted, although the manual allows one `b`; `br` is not. -/
example : checkmode (chars "r+bb") = true ∧ checkmode (chars "br") = false := by decide

end Verif.IoMode
