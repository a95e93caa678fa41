import Verif.Dump.RoundTrip

/-! Reading a chunk piece by piece. -/
namespace Verif.Dump

/-- the input a reader delivers: everything up to its first empty piece -/
def delivered (pieces : List (List Byte)) : List Byte :=
  (pieces.takeWhile fun b => decide (b ≠ [])).flatten

/-- the input still unread -/
def unread (buf : List Byte) (rest : List (List Byte)) : List Byte := buf ++ delivered rest

theorem fill_none {rest : List (List Byte)} (h : fill rest = none) : delivered rest = [] := by
  unfold fill at h
  split at h
  · rfl
  · split at h
    · rename_i b _ hb
      have := List.length_eq_zero_iff.mp hb
      subst this
      simp [delivered]
    · exact nomatch h

theorem fill_some {rest rest' : List (List Byte)} {b : List Byte} (h : fill rest = some (b, rest')) :
    rest = b :: rest' ∧ b ≠ [] ∧ delivered rest = b ++ delivered rest' := by
  unfold fill at h
  split at h
  · exact nomatch h
  · split at h
    · exact nomatch h
    · rename_i hb
      simp only [Option.some.injEq, Prod.mk.injEq] at h
      obtain ⟨rfl, rfl⟩ := h
      have hne : ¬ _ = [] := fun h => hb (List.length_eq_zero_iff.mpr h)
      exact ⟨rfl, hne, by simp [delivered, hne]⟩

/-- `luaZ_read` returns the next `n` bytes of the input, wherever the pieces end -/
theorem zread_spec (buf : List Byte) (rest : List (List Byte)) (n : Nat) :
    (n ≤ (unread buf rest).length → ∃ buf' rest', zread buf rest n =
        some ((unread buf rest).take n, buf', rest') ∧
        unread buf' rest' = (unread buf rest).drop n) ∧
    ((unread buf rest).length < n → zread buf rest n = none) := by
  induction n using Nat.strongRecOn generalizing buf rest with
  | ind n ih =>
    rw [zread]
    by_cases h0 : n = 0
    · subst h0
      simp only [if_true]
      exact ⟨fun _ => ⟨buf, rest, by simp, by simp⟩, fun h => absurd h (by omega)⟩
    · rw [if_neg h0]
      by_cases hb : buf = []
      · rw [dif_pos hb]
        subst hb
        cases hf : fill rest with
        | none =>
          have hd := fill_none hf
          simp only [unread, hd, List.append_nil, List.length_nil]
          exact ⟨fun h => absurd h (by omega), fun _ => trivial⟩
        | some x =>
          obtain ⟨b, rest'⟩ := x
          obtain ⟨-, hne, hd⟩ := fill_some hf
          have hpos : 0 < b.length := List.length_pos_iff.mpr hne
          have hu : unread [] rest = b ++ delivered rest' := by simp [unread, hd]
          rw [hu]
          generalize hm : (if n ≤ b.length then n else b.length) = m
          have hmn : m ≤ n := by subst hm; split <;> omega
          have hm0 : 0 < m := by subst hm; split <;> omega
          have hmb : m ≤ b.length := by subst hm; split <;> omega
          have hdis : m = n ∨ m = b.length := by subst hm; split <;> omega
          obtain ⟨i1, i2⟩ := ih (n - m) (by omega) (b.drop m) rest'
          have hur : unread (b.drop m) rest' = (b ++ delivered rest').drop m := by
            rw [List.drop_append_of_le_length hmb]; rfl
          rw [hur] at i1 i2
          constructor
          · intro hn
            obtain ⟨buf', rest'', hz, hz'⟩ := i1 (by rw [List.length_drop]; omega)
            refine ⟨buf', rest'', ?_, ?_⟩
            · simp only [hm, hz, Option.bind_eq_bind, Option.bind_some, Option.pure_def,
                Option.some.injEq, Prod.mk.injEq, and_true]
              rw [← List.take_append_of_le_length (l₂ := delivered rest') hmb]
              rw [← List.take_add, Nat.add_sub_cancel' hmn]
            · rw [hz', List.drop_drop, Nat.add_sub_cancel' hmn]
          · intro hn
            have hlen : b.length ≤ (b ++ delivered rest').length := by simp
            have := i2 (by rw [List.length_drop]; omega)
            simp only [hm, this, Option.bind_eq_bind, Option.bind_none]
      · rw [dif_neg hb]
        have hpos : 0 < buf.length := List.length_pos_iff.mpr hb
        generalize hm : (if n ≤ buf.length then n else buf.length) = m
        have hmn : m ≤ n := by subst hm; split <;> omega
        have hm0 : 0 < m := by subst hm; split <;> omega
        have hmb : m ≤ buf.length := by subst hm; split <;> omega
        obtain ⟨i1, i2⟩ := ih (n - m) (by omega) (buf.drop m) rest
        have hur : unread (buf.drop m) rest = (unread buf rest).drop m := by
          unfold unread
          rw [List.drop_append_of_le_length hmb]
        rw [hur] at i1 i2
        constructor
        · intro hn
          obtain ⟨buf', rest'', hz, hz'⟩ := i1 (by rw [List.length_drop]; omega)
          refine ⟨buf', rest'', ?_, ?_⟩
          · simp only [hz, Option.bind_eq_bind, Option.bind_some, Option.pure_def,
              Option.some.injEq, Prod.mk.injEq, and_true]
            rw [show buf.take m = (unread buf rest).take m by
              unfold unread; rw [List.take_append_of_le_length hmb]]
            rw [← List.take_add, Nat.add_sub_cancel' hmn]
          · rw [hz', List.drop_drop, Nat.add_sub_cancel' hmn]
        · intro hn
          have hlen : buf.length ≤ (unread buf rest).length := by simp [unread]
          have := i2 (by rw [List.length_drop]; omega)
          simp only [this, Option.bind_eq_bind, Option.bind_none]

/-- a loader finds in a stream what it finds in the string the stream delivers -/
theorem runZ_run {α : Type} (p : L α) (buf : List Byte) (rest : List (List Byte)) :
    (p.runZ ⟨buf, rest, false⟩).map' (fun x => (x.1, unread x.2.buf x.2.rest)) =
      p.run (unread buf rest) := by
  induction p generalizing buf rest with
  | ret a => rfl
  | fail m => rfl
  | ub => rfl
  | read n k ih =>
    obtain ⟨h1, h2⟩ := zread_spec buf rest n
    simp only [L.runZ, L.run, Bool.false_eq_true, if_false]
    by_cases hn : n ≤ (unread buf rest).length
    · obtain ⟨buf', rest', hz, hz'⟩ := h1 hn
      rw [if_pos hn, hz]
      dsimp only
      rw [ih, hz']
    · rw [if_neg hn, h2 (by omega)]
      rfl

end Verif.Dump
