import Verif.StrCmp.Model
/-!
Property C19: string comparison is the lexicographic order of the byte sequences, embedded zeros included.  The specification is
`<` on `List UInt8` of Lean's library (lexicographic, bytes unsigned).
-/
namespace Verif.StrCmp

/-- what is known when two segments compare equal -/
def SameSeg (s t : List UInt8) : Prop :=
  ∃ u : List UInt8, 0 ∉ u ∧ (s = u ∨ ∃ s', s = u ++ 0 :: s') ∧ (t = u ∨ ∃ t', t = u ++ 0 :: t')

theorem nil_lt_cons' (a : UInt8) (l : List UInt8) : ([] : List UInt8) < a :: l := List.nil_lt_cons a l

theorem cons_lt (a b : UInt8) (l r : List UInt8) (h : a < b) : a :: l < b :: r := List.cons_lt_cons_iff.2 (.inl h)

theorem cons_lt_same (a : UInt8) (l r : List UInt8) (h : l < r) : a :: l < a :: r := List.cons_lt_cons_iff.2 (.inr ⟨rfl, h⟩)

theorem append_lt (u l r : List UInt8) (h : l < r) : u ++ l < u ++ r := by
  induction u with
  | nil => exact h
  | cons a u ih => exact cons_lt_same a _ _ ih

theorem lt_irrefl' (l : List UInt8) : ¬ l < l := List.lt_irrefl l

theorem lt_trans' {a b c : List UInt8} (h1 : a < b) (h2 : b < c) : a < c := List.lt_trans h1 h2

theorem toNat_pos_of_ne (a : UInt8) (h : a ≠ 0) : 0 < a.toNat := by
  rcases Nat.eq_zero_or_pos a.toNat with h0 | h0
  · exact absurd (UInt8.toNat.inj (by simpa using h0)) h
  · exact h0

theorem strcmp_spec : ∀ (s t : List UInt8), ∃ v, strcmp (mem s) (mem t) = .ok v ∧
    (v < 0 → s < t) ∧ (0 < v → t < s) ∧ (v = 0 → SameSeg s t)
  | [], [] => ⟨0, by simp [mem, strcmp], by omega, by omega, fun _ => ⟨[], by simp, .inl rfl, .inl rfl⟩⟩
  | [], b :: t => by
    by_cases hb : b = 0
    · subst hb
      exact ⟨0, by simp [mem, strcmp], by omega, by omega, fun _ => ⟨[], by simp, .inl rfl, .inr ⟨t, rfl⟩⟩⟩
    · have := toNat_pos_of_ne b hb
      refine ⟨-(b.toNat : Int), ?_, fun _ => nil_lt_cons' _ _, by omega, by omega⟩
      simp [mem, strcmp, Ne.symm hb]
  | a :: s, [] => by
    by_cases hb : a = 0
    · subst hb
      exact ⟨0, by simp [mem, strcmp], by omega, by omega, fun _ => ⟨[], by simp, .inr ⟨s, rfl⟩, .inl rfl⟩⟩
    · have := toNat_pos_of_ne a hb
      refine ⟨(a.toNat : Int), ?_, by omega, fun _ => nil_lt_cons' _ _, by omega⟩
      simp [mem, strcmp, hb]
  | a :: s, b :: t => by
    by_cases hab : a = b
    · subst hab
      by_cases h0 : a = 0
      · subst h0
        exact ⟨0, by simp [mem, strcmp], by omega, by omega, fun _ => ⟨[], by simp, .inr ⟨s, rfl⟩, .inr ⟨t, rfl⟩⟩⟩
      · obtain ⟨v, h1, h2, h3, h4⟩ := strcmp_spec s t
        refine ⟨v, ?_, fun h => cons_lt_same _ _ _ (h2 h), fun h => cons_lt_same _ _ _ (h3 h), fun h => ?_⟩
        · simp only [mem, List.cons_append, strcmp]
          rw [if_neg (by simp), if_neg h0]
          exact h1
        · obtain ⟨u, hu, hs, ht⟩ := h4 h
          refine ⟨a :: u, by simp [hu, Ne.symm h0], ?_, ?_⟩
          · rcases hs with rfl | ⟨s', rfl⟩
            · exact .inl rfl
            · exact .inr ⟨s', rfl⟩
          · rcases ht with rfl | ⟨s', rfl⟩
            · exact .inl rfl
            · exact .inr ⟨s', rfl⟩
    · have hne : a.toNat ≠ b.toNat := fun h => hab (UInt8.toNat.inj h)
      refine ⟨(a.toNat : Int) - b.toNat, by simp [mem, strcmp, hab], fun h => ?_, fun h => ?_, by omega⟩
      · exact cons_lt _ _ _ _ (UInt8.lt_iff_toNat_lt.2 (by omega))
      · exact cons_lt _ _ _ _ (UInt8.lt_iff_toNat_lt.2 (by omega))

theorem strlen_spec : ∀ (u r : List UInt8), 0 ∉ u → strlen (u ++ 0 :: r) = .ok u.length
  | [], r, _ => by simp [strlen]
  | a :: u, r, h => by
    have ha : a ≠ 0 := fun e => h (by simp [e])
    have := strlen_spec u r (fun e => h (by simp [e]))
    simp [strlen, ha, this]

theorem loop_spec : ∀ (fuel : Nat) (s t : List UInt8), s.length < fuel →
    ∃ v, loop fuel (mem s) s.length (mem t) t.length = .ok v ∧ (v < 0 → s < t) ∧ (0 < v → t < s) ∧ (v = 0 → s = t)
  | 0, _, _, h => by omega
  | fuel + 1, s, t, hf => by
    obtain ⟨v, h1, h2, h3, h4⟩ := strcmp_spec s t
    unfold loop
    rw [h1, Res.bind_ok]
    by_cases hv : v = 0
    · rw [if_neg (by simpa using hv)]
      obtain ⟨u, hu, hs, ht⟩ := h4 hv
      have hl : strlen (mem s) = .ok u.length := by
        rcases hs with rfl | ⟨s', rfl⟩
        · exact strlen_spec s [] hu
        · rw [mem, List.append_assoc]; exact strlen_spec u (s' ++ [0]) hu
      rw [hl, Res.bind_ok]
      rcases ht with rfl | ⟨t', rfl⟩
      · rw [if_pos rfl]
        rcases hs with rfl | ⟨s', rfl⟩
        · exact ⟨0, by simp, by omega, by omega, fun _ => rfl⟩
        · refine ⟨1, by simp, by omega, fun _ => ?_, by omega⟩
          simpa using append_lt t [] (0 :: s') (nil_lt_cons' _ _)
      · rw [if_neg (by simp)]
        rcases hs with rfl | ⟨s', rfl⟩
        · refine ⟨-1, by simp, fun _ => ?_, by omega, by omega⟩
          simpa using append_lt s [] (0 :: t') (nil_lt_cons' _ _)
        · rw [if_neg (by simp), if_neg (by simp)]
          have d : ∀ r : List UInt8, (mem (u ++ 0 :: r)).drop (u.length + 1) = mem r := by
            intro r
            simp [mem, List.drop_append]
          have n : ∀ r : List UInt8, (u ++ 0 :: r).length - (u.length + 1) = r.length := by intro r; simp; omega
          rw [d, d, n, n]
          obtain ⟨w, g1, g2, g3, g4⟩ := loop_spec fuel s' t' (by simp at hf; omega)
          exact ⟨w, g1, fun h => append_lt u _ _ (cons_lt_same 0 _ _ (g2 h)), fun h => append_lt u _ _ (cons_lt_same 0 _ _ (g3 h)),
            fun h => by rw [g4 h]⟩
    · rw [if_pos hv]
      exact ⟨v, rfl, h2, h3, fun h => absurd h hv⟩

/-- **C19.** `l_strcmp` never reads outside the two strings, and its sign is the lexicographic order of the whole byte sequences. -/
theorem strcmp_order (s t : List UInt8) :
    ∃ v, lStrcmp s t = .ok v ∧ (v < 0 ↔ s < t) ∧ (v = 0 ↔ s = t) ∧ (0 < v ↔ t < s) := by
  obtain ⟨v, h1, h2, h3, h4⟩ := loop_spec (s.length + 1) s t (by omega)
  refine ⟨v, h1, ⟨h2, fun h => ?_⟩, ⟨h4, fun h => ?_⟩, ⟨h3, fun h => ?_⟩⟩
  · rcases Int.lt_trichotomy v 0 with g | g | g
    · exact g
    · rw [h4 g] at h; exact absurd h (lt_irrefl' _)
    · exact absurd (lt_trans' h (h3 g)) (lt_irrefl' _)
  · subst h
    rcases Int.lt_trichotomy v 0 with g | g | g
    · exact absurd (h2 g) (lt_irrefl' _)
    · exact g
    · exact absurd (h3 g) (lt_irrefl' _)
  · rcases Int.lt_trichotomy v 0 with g | g | g
    · exact absurd (lt_trans' h (h2 g)) (lt_irrefl' _)
    · rw [h4 g] at h; exact absurd h (lt_irrefl' _)
    · exact g

/-- **C19.** The string branches of `<` and `<=` decide the lexicographic order. -/
theorem less_exact (s t : List UInt8) :
    lessthan s t = .ok (decide (s < t)) ∧ lessequal s t = .ok (decide (s < t ∨ s = t)) := by
  obtain ⟨v, h1, h2, h3, h4⟩ := strcmp_order s t
  constructor
  · simp only [lessthan, h1, Res.bind_ok, Res.pure_eq, h2]
  · simp only [lessequal, h1, Res.bind_ok, Res.pure_eq, ← h2, ← h3]
    congr 1
    simp only [decide_eq_decide]
    omega

/-- **C19.** Observed through `<`, `<=` and `==`, strings are totally ordered: exactly one of `a < b`, `a == b`, `b < a`; `<` is
transitive; `a <= b` is the negation of `b < a`. -/
theorem strings_total_order (a b c : List UInt8) :
    (lessthan a b = .ok true ∧ a ≠ b ∧ lessthan b a = .ok false ∨
      lessthan a b = .ok false ∧ a = b ∧ lessthan b a = .ok false ∨
      lessthan a b = .ok false ∧ a ≠ b ∧ lessthan b a = .ok true) ∧
    (lessthan a b = .ok true → lessthan b c = .ok true → lessthan a c = .ok true) ∧
    (lessequal a b = .ok true ↔ lessthan b a = .ok false) := by
  rw [(less_exact a b).1, (less_exact b a).1, (less_exact b c).1, (less_exact a c).1, (less_exact a b).2]
  simp only [Res.ok.injEq, decide_eq_true_eq, decide_eq_false_iff_not]
  obtain ⟨v, -, h2, h3, h4⟩ := strcmp_order a b
  refine ⟨?_, fun h h' => lt_trans' h h', ?_⟩
  · rw [← h2, ← h4, ne_eq, ← h3]; omega
  · rw [← h2, ← h4, ← h3]; omega

/-- a case with embedded zeros: `"a\0b" < "a\0c"` and `"a" < "a\0"` -/
example : lessthan [97, 0, 98] [97, 0, 99] = .ok true ∧ lessthan [97] [97, 0] = .ok true ∧ lessthan [97, 0, 200] [97, 0, 99] = .ok false := by
  decide

end Verif.StrCmp
