import Verif.Pat.Match

/-!
# `all` lists exactly the matches of `Sem`; what the captures are; `%b` by counting
-/
namespace Verif.Pat

theorem run_iff (src : List UInt8) (x : Single) : ∀ (i s : Nat), i ≤ run src x s ↔ ∀ j < i, hit src x (s + j) = true := by
  intro i
  induction i with
  | zero => intro s; exact ⟨fun _ j hj => by omega, fun _ => Nat.zero_le _⟩
  | succ n ih =>
    intro s
    cases h : hit src x s with
    | false =>
      rw [run_miss h]
      refine ⟨fun q => by omega, fun q => ?_⟩
      have := q 0 (by omega)
      rw [Nat.add_zero, h] at this
      exact nomatch this
    | true =>
      rw [run_hit h]
      constructor
      · intro q j hj
        cases j with
        | zero => exact h
        | succ j =>
          have := (ih (s + 1)).1 (by omega) j (by omega)
          rwa [show s + (j + 1) = s + 1 + j by omega]
      · intro q
        have := (ih (s + 1)).2 (fun j hj => by
          have := q (j + 1) (by omega)
          rwa [show s + 1 + j = s + (j + 1) by omega])
        omega

/-- **The list `all` holds exactly the matches** (C25). -/
theorem mem_all (src : List UInt8) : ∀ (its : List Item) (s : Nat) (caps : List Cap) (e : Nat) (caps' : List Cap),
    (e, caps') ∈ all src its s caps ↔ Sem src its s caps e caps' := by
  intro its
  induction its with
  | nil =>
    intro s caps e caps'
    unfold all
    rw [List.mem_singleton]
    constructor
    · intro h; injection h with h1 h2; subst h1 h2; exact .done _ _
    · intro h; cases h; rfl
  | cons it r ih =>
    intro s caps e caps'
    cases it with
    | open_ =>
      unfold all; rw [ih]
      exact ⟨.open_, fun h => by cases h; assumption⟩
    | pos =>
      unfold all; rw [ih]
      exact ⟨.pos, fun h => by cases h; assumption⟩
    | close =>
      unfold all
      cases hl : innermost caps with
      | none =>
        refine ⟨(fun h => nomatch h), fun h => ?_⟩
        cases h with
        | close h1 h2 => rw [hl] at h1; exact nomatch h1
      | some l =>
        dsimp only
        rw [ih]
        refine ⟨.close hl, fun h => ?_⟩
        cases h with
        | close h1 h2 =>
          rw [hl] at h1
          injection h1 with h1
          subst h1
          exact h2
    | dollar =>
      unfold all
      by_cases hs : s = src.length
      · rw [if_pos hs, ih]
        subst hs
        exact ⟨.dollar, fun h => by cases h; assumption⟩
      · rw [if_neg hs]
        refine ⟨(fun h => nomatch h), fun h => ?_⟩
        cases h
        exact absurd rfl hs
    | bal x y =>
      unfold all
      cases hb : balance src x y s with
      | none =>
        refine ⟨(fun h => nomatch h), fun h => ?_⟩
        cases h with
        | bal h1 h2 => rw [hb] at h1; exact nomatch h1
      | some m =>
        dsimp only
        rw [ih]
        refine ⟨.bal hb, fun h => ?_⟩
        cases h with
        | bal h1 h2 =>
          rw [hb] at h1
          injection h1 with h1
          subst h1
          exact h2
    | front neg els =>
      unfold all
      cases hb : frontier src neg els s with
      | false =>
        refine ⟨(fun h => nomatch h), fun h => ?_⟩
        cases h with
        | front h1 h2 => rw [hb] at h1; exact nomatch h1
      | true =>
        rw [if_pos rfl, ih]
        refine ⟨.front hb, fun h => ?_⟩
        cases h with
        | front h1 h2 => exact h2
    | back d =>
      unfold all
      cases hb : backref src caps d s with
      | none =>
        refine ⟨(fun h => nomatch h), fun h => ?_⟩
        cases h with
        | back h1 h2 => rw [hb] at h1; exact nomatch h1
      | some m =>
        dsimp only
        rw [ih]
        refine ⟨.back hb, fun h => ?_⟩
        cases h with
        | back h1 h2 =>
          rw [hb] at h1
          injection h1 with h1
          subst h1
          exact h2
    | single x q =>
      cases q with
      | one =>
        unfold all
        cases hb : hit src x s with
        | false =>
          refine ⟨(fun h => nomatch h), fun h => ?_⟩
          cases h with
          | one h1 h2 => rw [hb] at h1; exact nomatch h1
        | true =>
          rw [if_pos rfl, ih]
          refine ⟨.one hb, fun h => ?_⟩
          cases h with
          | one h1 h2 => exact h2
      | opt =>
        unfold all
        rw [List.mem_append, ih]
        constructor
        · rintro (h | h)
          · cases hb : hit src x s with
            | false => rw [hb] at h; exact nomatch h
            | true =>
              rw [hb, if_pos rfl, ih] at h
              exact .opt 1 (Nat.le_refl _) (fun j hj => by
                have : j = 0 := by omega
                subst this
                exact hb) h
          · exact .opt 0 (by omega) (fun j hj => by omega) h
        · intro h
          cases h with
          | opt i h1 h2 h3 =>
            have : i = 0 ∨ i = 1 := by omega
            rcases this with e | e
            · subst e; exact .inr h3
            · subst e
              refine .inl ?_
              have := h2 0 (by omega)
              rw [Nat.add_zero] at this
              rw [this, if_pos rfl, ih]
              exact h3
      | star =>
        unfold all
        simp only [List.mem_flatMap, List.mem_reverse, List.mem_range, ih]
        constructor
        · rintro ⟨i, h1, h2⟩
          exact .star i ((run_iff src x i s).1 (by omega)) h2
        · intro h
          cases h with
          | star i h1 h2 => exact ⟨i, by have := (run_iff src x i s).2 h1; omega, h2⟩
      | plus =>
        unfold all
        simp only [List.mem_flatMap, List.mem_reverse, List.mem_range, ih]
        constructor
        · rintro ⟨i, h1, h2⟩
          exact .plus (i + 1) (by omega) ((run_iff src x (i + 1) s).1 (by omega)) h2
        · intro h
          cases h with
          | plus i h0 h1 h2 =>
            refine ⟨i - 1, by have := (run_iff src x i s).2 h1; omega, ?_⟩
            rwa [show s + (i - 1 + 1) = s + i by omega]
      | minus =>
        unfold all
        simp only [List.mem_flatMap, List.mem_range, ih]
        constructor
        · rintro ⟨i, h1, h2⟩
          exact .minus i ((run_iff src x i s).1 (by omega)) h2
        · intro h
          cases h with
          | minus i h1 h2 => exact ⟨i, by have := (run_iff src x i s).2 h1; omega, h2⟩

/-- Which captures are open after the items. -/
def finalSt : List Item → List Bool → List Bool
  | [], st => st
  | .open_ :: r, st => finalSt r (st ++ [true])
  | .pos :: r, st => finalSt r (st ++ [false])
  | .close :: r, st => finalSt r ((st.reverse.replace true false).reverse)
  | _ :: r, st => finalSt r st

/-- A match ends at or after its start, inside the subject, with its captures before its end, and the open ones known beforehand. -/
theorem sem_inv (src : List UInt8) : ∀ (its : List Item) (s : Nat) (caps : List Cap) (e : Nat) (caps' : List Cap), Sem src its s caps e caps' →
    Inv src s caps → check its (caps.map isOpen) = true →
      s ≤ e ∧ Inv src e caps' ∧ caps'.map isOpen = finalSt its (caps.map isOpen) := by
  intro its s caps e caps' h
  induction h with
  | done s caps => intro hi _; exact ⟨Nat.le_refl _, hi, rfl⟩
  | open_ h ih =>
    intro hi hc
    unfold check at hc
    rw [Bool.and_eq_true] at hc
    have := ih (hi.snoc (.inl rfl)) (by rw [List.map_append]; exact hc.2)
    rw [List.map_append] at this
    exact this
  | pos h ih =>
    intro hi hc
    unfold check at hc
    rw [Bool.and_eq_true] at hc
    have := ih (hi.snoc (.inr rfl)) (by rw [List.map_append]; exact hc.2)
    rw [List.map_append] at this
    exact this
  | @close r s caps e caps' l hl h ih =>
    intro hi hc
    unfold check at hc
    rw [Bool.and_eq_true] at hc
    obtain ⟨l', c1, c2, c3, c4, c5⟩ := close_eq caps hc.1
    rw [c1] at hl
    injection hl with hl
    subst hl
    have hm : caps.getD l' (0, 0) ∈ caps := List.mem_of_getElem? (getD_lt c3)
    have hle := (hi.2 _ hm).1
    have e1 := c5 ((caps.getD l' (0, 0)).1, (s : Int) - (caps.getD l' (0, 0)).1) (by
      unfold isOpen UNFIN
      rw [beq_eq_false_iff_ne]
      dsimp only
      omega)
    have := ih (hi.set c3) (by rw [e1]; exact hc.2)
    rw [e1] at this
    exact this
  | dollar h ih => intro hi hc; unfold check at hc; exact ih hi hc
  | bal hb h ih =>
    intro hi hc
    unfold check at hc
    have := ih (balance_inv hi hb) hc
    refine ⟨?_, this.2⟩
    unfold balance at hb
    split at hb
    · obtain ⟨n, h1, h2⟩ := Option.map_eq_some_iff.1 hb
      omega
    · exact nomatch hb
  | front hb h ih => intro hi hc; unfold check at hc; exact ih hi hc
  | @back r s caps e caps' d m hb h ih =>
    intro hi hc
    unfold check at hc
    rw [Bool.and_eq_true] at hc
    have := ih (backref_inv hi hb) hc.2
    refine ⟨?_, this.2⟩
    unfold backref at hb
    split at hb
    · split at hb
      · injection hb with hb
        omega
      · exact nomatch hb
    · exact nomatch hb
  | one hb h ih =>
    intro hi hc
    unfold check at hc
    have := ih (hi.mono (by omega) (hit_lt hb)) hc
    exact ⟨by omega, this.2⟩
  | @opt r s caps e caps' x i h0 h1 h ih =>
    intro hi hc
    unfold check at hc
    have hr := (run_iff src x i s).2 h1
    have := run_le src x s
    have hs := hi.1
    have := ih (hi.mono (by omega) (by omega)) hc
    exact ⟨by omega, this.2⟩
  | @star r s caps e caps' x i h1 h ih =>
    intro hi hc
    unfold check at hc
    have hr := (run_iff src x i s).2 h1
    have := run_le src x s
    have hs := hi.1
    have := ih (hi.mono (by omega) (by omega)) hc
    exact ⟨by omega, this.2⟩
  | @plus r s caps e caps' x i h0 h1 h ih =>
    intro hi hc
    unfold check at hc
    have hr := (run_iff src x i s).2 h1
    have := run_le src x s
    have hs := hi.1
    have := ih (hi.mono (by omega) (by omega)) hc
    exact ⟨by omega, this.2⟩
  | @minus r s caps e caps' x i h1 h ih =>
    intro hi hc
    unfold check at hc
    have hr := (run_iff src x i s).2 h1
    have := run_le src x s
    have hs := hi.1
    have := ih (hi.mono (by omega) (by omega)) hc
    exact ⟨by omega, this.2⟩

/-- Opening minus closing bytes; a byte that is both closes. -/
def level (x y : UInt8) (l : List UInt8) : Int := (l.map (fun c => if c = y then (-1 : Int) else if c = x then 1 else 0)).sum

/-- **`%bxy` stops where the count of opened brackets first comes back to zero** (C25). -/
theorem closes_iff (x y : UInt8) : ∀ (l : List UInt8) (k n : Nat), 0 < k →
    (closes x y k l = some n ↔ n ≤ l.length ∧ (k : Int) + level x y (l.take n) = 0 ∧ ∀ m < n, 0 < (k : Int) + level x y (l.take m)) := by
  intro l
  induction l with
  | nil =>
    intro k n hk
    refine ⟨(fun h => nomatch h), fun ⟨h1, h2, _⟩ => ?_⟩
    rw [List.take_nil] at h2
    simp [level] at h2
    omega
  | cons c r ih =>
    intro k n hk
    have lev : ∀ m, level x y ((c :: r).take (m + 1)) = (if c = y then (-1 : Int) else if c = x then 1 else 0) + level x y (r.take m) := by
      intro m; unfold level; rw [List.take_succ_cons, List.map_cons, List.sum_cons]
    have step : ∀ k' : Nat, 0 < k' → (k' : Int) = k + (if c = y then (-1 : Int) else if c = x then 1 else 0) →
        ((closes x y k' r).map (· + 1) = some n ↔
          n ≤ (c :: r).length ∧ (k : Int) + level x y ((c :: r).take n) = 0 ∧ ∀ m < n, 0 < (k : Int) + level x y ((c :: r).take m)) := by
      intro k' hk' hkk
      rw [Option.map_eq_some_iff]
      constructor
      · rintro ⟨m, h1, h2⟩
        obtain ⟨a, b, d⟩ := (ih k' m hk').1 h1
        subst h2
        refine ⟨by simp; omega, by rw [lev]; omega, fun j hj => ?_⟩
        cases j with
        | zero => simp [level]; omega
        | succ j =>
          have := d j (by omega)
          rw [lev]; omega
      · rintro ⟨a, b, d⟩
        cases n with
        | zero => simp [level] at b; omega
        | succ n =>
          rw [lev] at b
          refine ⟨n, (ih k' n hk').2 ⟨by simp at a; omega, by omega, fun j hj => ?_⟩, rfl⟩
          have := d (j + 1) (by omega)
          rw [lev] at this; omega
    unfold closes
    by_cases hy : c = y
    · rw [if_pos hy]
      by_cases h1 : k = 1
      · rw [if_pos h1]
        subst h1
        constructor
        · intro h
          injection h with h
          subst h
          refine ⟨by simp, ?_, fun m hm => ?_⟩
          · rw [lev 0, if_pos hy]; simp [level]
          · have : m = 0 := by omega
            subst this
            simp [level]
        · rintro ⟨a, b, d⟩
          cases n with
          | zero => simp [level] at b
          | succ n =>
            cases n with
            | zero => rfl
            | succ n =>
              have := d 1 (by omega)
              rw [lev 0, if_pos hy] at this
              simp [level] at this
      · rw [if_neg h1]
        exact step (k - 1) (by omega) (by rw [if_pos hy]; omega)
    · rw [if_neg hy]
      refine step (if c = x then k + 1 else k) (by split <;> omega) ?_
      rw [if_neg hy]
      split <;> omega

end Verif.Pat
