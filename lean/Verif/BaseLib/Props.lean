import Verif.BaseLib.Model
import Mathlib.Data.List.Forall2

/-!
# Properties of `tonumber` with a base (C95) and of `select` (C96)
-/
namespace Verif.BaseLib

/-! ## C95: tonumber(s, base) -/

/-- `c` is the digit `d`: `0`-`9`, then letters of either case. -/
inductive IsDig : Nat → Nat → Prop
  | dec (d : Nat) : d < 10 → IsDig (48 + d) d
  | upper (d : Nat) : d < 26 → IsDig (65 + d) (10 + d)
  | lower (d : Nat) : d < 26 → IsDig (97 + d) (10 + d)

/-- The number that digits stand for. -/
def value (base : Nat) (ds : List Nat) : Nat := ds.foldl (fun n d => n * base + d) 0

/-- A space, or one of the characters from tab to carriage return. -/
def IsSp (c : Nat) : Prop := c = 32 ∨ (9 ≤ c ∧ c ≤ 13)

theorem isSpace_iff (c : Nat) : isSpace c = true ↔ IsSp c := by
  simp only [isSpace, IsSp, Bool.or_eq_true, beq_iff_eq]
  omega

/-- A numeral: spaces, a sign or none, at least one digit, all of them below the base, spaces. -/
inductive Numeral (base : Nat) : List Nat → Int → Prop
  | mk (sp1 sg cs sp2 ds : List Nat) (neg : Bool) :
      (∀ c ∈ sp1, IsSp c) → (∀ c ∈ sp2, IsSp c) →
      (sg, neg) ∈ [([], false), ([43], false), ([45], true)] →
      List.Forall₂ IsDig cs ds → ds ≠ [] → (∀ d ∈ ds, d < base) →
      Numeral base (sp1 ++ sg ++ cs ++ sp2) (if neg then -(value base ds) else value base ds)

theorem dig_alnum {c d : Nat} (h : IsDig c d) : isAlnum c = true ∧ digit c = d := by
  cases h with
  | dec d hd =>
    have h1 : isDigit (48 + d) = true := by simp [isDigit]; omega
    simp only [isAlnum, digit, h1, Bool.true_or, if_true, true_and]
    omega
  | upper d hd =>
    have h1 : isDigit (65 + d) = false := by simp [isDigit]; omega
    have h2 : isUpper (65 + d) = true := by simp [isUpper]; omega
    have h3 : isLower (65 + d) = false := by simp [isLower]; omega
    simp only [isAlnum, digit, toUpper, h1, h2, h3, Bool.true_or, Bool.or_true, Bool.false_eq_true,
      if_false, true_and]
    omega
  | lower d hd =>
    have h1 : isDigit (97 + d) = false := by simp [isDigit]; omega
    have h3 : isLower (97 + d) = true := by simp [isLower]; omega
    simp only [isAlnum, digit, toUpper, h1, h3, Bool.or_true, Bool.false_eq_true,
      if_false, if_true, true_and]
    omega

theorem alnum_dig {c : Nat} (h : isAlnum c = true) : ∃ d, IsDig c d := by
  simp only [isAlnum, isDigit, isUpper, isLower, Bool.or_eq_true, Bool.and_eq_true,
    decide_eq_true_eq] at h
  rcases h with (h | h) | h
  · obtain ⟨d, rfl⟩ := Nat.exists_eq_add_of_le h.1
    exact ⟨d, .dec d (by omega)⟩
  · obtain ⟨d, rfl⟩ := Nat.exists_eq_add_of_le h.1
    exact ⟨_, .upper d (by omega)⟩
  · obtain ⟨d, rfl⟩ := Nat.exists_eq_add_of_le h.1
    exact ⟨_, .lower d (by omega)⟩

theorem space_not {c : Nat} (h : isSpace c = true) : isAlnum c = false ∧ c ≠ 43 ∧ c ≠ 45 := by
  simp only [isSpace, Bool.or_eq_true, beq_iff_eq] at h
  rcases h with ((((rfl | rfl) | rfl) | rfl) | rfl) | rfl <;> decide

theorem alnum_not {c : Nat} (h : isAlnum c = true) : isSpace c = false ∧ c ≠ 43 ∧ c ≠ 45 := by
  refine ⟨?_, ?_, ?_⟩
  · by_contra hc
    have := (space_not (by simpa using hc)).1
    rw [h] at this
    cases this
  · rintro rfl; revert h; decide
  · rintro rfl; revert h; decide

theorem skip_spaces (sp s : List Nat) (h : ∀ c ∈ sp, isSpace c = true) : skip (sp ++ s) = skip s := by
  induction sp with
  | nil => rfl
  | cons c sp ih =>
    simp only [List.cons_append, skip, h c (by simp), if_true]
    exact ih fun c hc => h c (by simp [hc])

theorem skip_split (s : List Nat) : ∃ sp, (∀ c ∈ sp, isSpace c = true) ∧ s = sp ++ skip s := by
  induction s with
  | nil => exact ⟨[], by simp, rfl⟩
  | cons c s ih =>
    by_cases h : isSpace c = true
    · obtain ⟨sp, h1, h2⟩ := ih
      refine ⟨c :: sp, by simpa [h] using h1, ?_⟩
      simp only [skip, h, if_true, List.cons_append]
      rw [← h2]
    · exact ⟨[], by simp, by simp [skip, h]⟩

/-- The digits are read one by one, modulo 2^64. -/
theorem digits_ok {base : Nat} {cs ds : List Nat} (h : List.Forall₂ IsDig cs ds)
    (hb : ∀ d ∈ ds, d < base) (hb' : base ≤ 36) (n m : Nat) (hn : n = uw m) (r : List Nat)
    (hr : ∀ c s, r = c :: s → isAlnum c = false) :
    digits base (cs ++ r) n = some (uw (ds.foldl (fun n d => n * base + d) m), r) := by
  induction h generalizing n m with
  | nil =>
    cases r with
    | nil => simp [digits, hn]
    | cons c s => simp [digits, hr c s rfl, hn]
  | @cons c d cs ds h _ ih =>
    obtain ⟨h1, h2⟩ := dig_alnum h
    have hd : d < base := hb d (by simp)
    simp only [List.cons_append, digits, h1, if_true, h2, List.foldl_cons]
    rw [if_neg (by omega)]
    refine ih (fun d hd => hb d (by simp [hd])) _ _ ?_
    subst hn
    have : toU (d : Int) = d := by unfold toU; omega
    rw [this]
    unfold uw
    simp [Nat.add_mod, Nat.mul_mod]

/-- What is read is digits, all below the base. -/
theorem digits_inv {base : Nat} {s : List Nat} {n n' r} (h : digits base s n = some (n', r)) :
    ∃ cs ds, s = cs ++ r ∧ List.Forall₂ IsDig cs ds ∧ (∀ d ∈ ds, d < base) ∧
      ∀ c s, r = c :: s → isAlnum c = false := by
  induction s generalizing n with
  | nil =>
    simp only [digits, Option.some.injEq, Prod.mk.injEq] at h
    exact ⟨[], [], by simp [h.2], .nil, by simp, by simp [← h.2]⟩
  | cons c s ih =>
    simp only [digits] at h
    by_cases hc : isAlnum c = true
    · rw [if_pos hc] at h
      obtain ⟨d, hd⟩ := alnum_dig hc
      obtain ⟨_, h2⟩ := dig_alnum hd
      split at h
      · cases h
      · rename_i hlt
        obtain ⟨cs, ds, k1, k2, k3, k4⟩ := ih h
        refine ⟨c :: cs, d :: ds, by rw [k1]; rfl, .cons hd k2, ?_, k4⟩
        intro e he
        rcases List.mem_cons.1 he with rfl | he
        · omega
        · exact k3 e he
    · rw [if_neg hc] at h
      simp only [Option.some.injEq, Prod.mk.injEq] at h
      refine ⟨[], [], by simp [h.2], .nil, by simp, ?_⟩
      intro c' s' he
      rw [← h.2] at he
      cases he
      simpa using hc

/-- The integer with the same value modulo 2^64. -/
def Wraps (n v : Int) : Prop :=
  -9223372036854775808 ≤ n ∧ n ≤ 9223372036854775807 ∧ n % 18446744073709551616 = v % 18446744073709551616

theorem toS_wraps (n : Nat) : Wraps (toS n) n := by
  unfold Wraps toS
  split <;> omega

theorem Wraps.trans {n v w : Int} (h : Wraps n v) (h' : v % 18446744073709551616 = w % 18446744073709551616) :
    Wraps n w := ⟨h.1, h.2.1, h.2.2.trans h'⟩

/-- A numeral is read as its value, modulo 2^64. -/
theorem reads {base : Nat} {s : List Nat} {v : Int} (hb : 2 ≤ base) (hb' : base ≤ 36)
    (h : Numeral base s v) : ∃ n, tonumber s base = .ok (some n) ∧ Wraps n v := by
  obtain ⟨sp1, sg, cs, sp2, ds, neg, h1, h2, h3, h4, h5, h6⟩ := h
  simp only [← isSpace_iff] at h1 h2
  have hr : ∀ c s, sp2 = c :: s → isAlnum c = false := by
    rintro c s rfl
    exact (space_not (h2 c (by simp))).1
  have hd := digits_ok h4 h6 hb' 0 0 rfl sp2 hr
  have hsk : skip sp2 = [] := by
    have := skip_spaces sp2 [] h2
    rwa [List.append_nil] at this
  obtain ⟨c, cs', hc⟩ : ∃ c cs', cs = c :: cs' := by
    cases h4 with
    | nil => exact absurd rfl h5
    | cons _ _ => exact ⟨_, _, rfl⟩
  have hal : isAlnum c = true := by
    subst hc
    cases h4 with
    | cons h _ => exact (dig_alnum h).1
  obtain ⟨a1, a2, a3⟩ := alnum_not hal
  have key : str2int base (sp1 ++ sg ++ cs ++ sp2) =
      some (toS (if neg then uw (2 ^ 64 - uw (value base ds)) else uw (value base ds)), []) := by
    have hs : sign (skip (sp1 ++ sg ++ cs ++ sp2)) = (neg, c :: (cs' ++ sp2)) := by
      rw [List.append_assoc, List.append_assoc, skip_spaces _ _ h1]
      subst hc
      simp only [List.mem_cons, Prod.mk.injEq, List.not_mem_nil, or_false] at h3
      rcases h3 with ⟨rfl, rfl⟩ | ⟨rfl, rfl⟩ | ⟨rfl, rfl⟩
      · simp [skip, a1, sign, a2, a3]
      · simp [skip, isSpace, sign]
      · simp [skip, isSpace, sign]
    unfold str2int
    rw [hs]
    subst hc
    simp only [hal, if_true]
    rw [show c :: (cs' ++ sp2) = c :: cs' ++ sp2 from rfl, hd]
    simp [hsk, value]
  refine ⟨toS (if neg then uw (2 ^ 64 - uw (value base ds)) else uw (value base ds)), ?_,
    (toS_wraps _).trans ?_⟩
  · unfold tonumber
    rw [if_pos (by omega), Int.toNat_natCast, key]
  · cases neg
    · simp only [Bool.false_eq_true, if_false, uw]
      omega
    · simp only [if_true, uw]
      omega

/-- Whatever is read is a numeral. -/
theorem reads_only {base : Nat} {s : List Nat} {n : Int}
    (h : tonumber s base = .ok (some n)) : 2 ≤ base ∧ base ≤ 36 ∧ ∃ v, Numeral base s v := by
  unfold tonumber at h
  split at h
  · rename_i hb
    refine ⟨by omega, by omega, ?_⟩
    rw [Int.toNat_natCast] at h
    split at h
    · rename_i m hm
      unfold str2int at hm
      obtain ⟨sp1, h1, h2⟩ := skip_split s
      have hsg : ∃ sg, skip s = sg ++ (sign (skip s)).2 ∧
          (sg, (sign (skip s)).1) ∈ [([], false), ([43], false), ([45], true)] := by
        cases skip s with
        | nil => exact ⟨[], rfl, by simp [sign]⟩
        | cons c t =>
          unfold sign
          by_cases hc : c = 45
          · exact ⟨[45], by simp [hc], by simp [hc]⟩
          · by_cases hc' : c = 43
            · exact ⟨[43], by simp [hc'], by simp [hc']⟩
            · exact ⟨[], by simp [hc, hc'], by simp [hc, hc']⟩
      obtain ⟨sg, h3, h4⟩ := hsg
      split at hm
      · cases hm
      · rename_i c t hct
        rw [hct] at h3
        split at hm
        · rename_i hal
          split at hm
          · cases hm
          · rename_i k r hd
            simp only [Option.some.injEq, Prod.mk.injEq] at hm
            obtain ⟨cs, ds, k1, k2, k3, k4⟩ := digits_inv hd
            obtain ⟨sp2, h5, h6⟩ := skip_split r
            rw [hm.2, List.append_nil] at h6
            have hne : ds ≠ [] := by
              rintro rfl
              cases k2
              have := k4 c t (by simpa using k1.symm)
              rw [hal] at this
              cases this
            rw [h2, h3, k1, h6, ← List.append_assoc, ← List.append_assoc]
            exact ⟨_, .mk sp1 sg cs sp2 ds _
              (fun c hc => (isSpace_iff c).1 (h1 c hc)) (fun c hc => (isSpace_iff c).1 (h5 c hc)) h4 k2 hne k3⟩
        · cases hm
    · cases h
  · cases h

/-- `tonumber(s, base)` for an integer base: an error if the base is not from 2 to 36; nil if `s` is
not a numeral; the value of the numeral modulo 2^64 otherwise. -/
theorem tonumber_base (s : List Nat) (base : Int) :
    (¬ (2 ≤ base ∧ base ≤ 36) ∧ tonumber s base = .err "base out of range") ∨
    (2 ≤ base ∧ base ≤ 36) ∧
      ((∃ n, tonumber s base = .ok (some n) ∧ (∃ v, Numeral base.toNat s v) ∧
          ∀ v, Numeral base.toNat s v → Wraps n v) ∨
        tonumber s base = .ok none ∧ ∀ v, ¬ Numeral base.toNat s v) := by
  by_cases hb : 2 ≤ base ∧ base ≤ 36
  · refine Or.inr ⟨hb, ?_⟩
    have e : (base.toNat : Int) = base := by omega
    by_cases hn : ∃ v, Numeral base.toNat s v
    · obtain ⟨v, hv⟩ := hn
      obtain ⟨n, h1, h2⟩ := reads (by omega) (by omega) hv
      rw [e] at h1
      refine Or.inl ⟨n, h1, ⟨v, hv⟩, fun w hw => ?_⟩
      obtain ⟨m, k1, k2⟩ := reads (by omega) (by omega) hw
      rw [e, h1] at k1
      cases k1
      exact k2
    · refine Or.inr ⟨?_, fun v hv => hn ⟨v, hv⟩⟩
      have h0 : ∀ n, tonumber s base ≠ .ok (some n) := by
        intro n h
        rw [← e] at h
        exact hn (reads_only h).2.2
      unfold tonumber at h0 ⊢
      rw [if_pos hb] at h0 ⊢
      split
      · rename_i n h
        exact absurd (by rw [h]) (h0 n)
      · rfl
  · exact Or.inl ⟨hb, by rw [tonumber, if_neg hb]⟩

/-- A numeral whose value is an integer of the language is read as that value. -/
theorem tonumber_exact {base : Nat} {s : List Nat} {v : Int} (hb : 2 ≤ base) (hb' : base ≤ 36)
    (h : Numeral base s v) (h1 : -9223372036854775808 ≤ v) (h2 : v ≤ 9223372036854775807) :
    tonumber s base = .ok (some v) := by
  obtain ⟨n, k1, k2, k3, k4⟩ := reads hb hb' h
  rw [k1]
  congr 2
  omega

theorem write (base : Nat) (hb : 2 ≤ base) (hb' : base ≤ 36) (n : Nat) :
    ∃ cs ds, List.Forall₂ IsDig cs ds ∧ ds ≠ [] ∧ (∀ d ∈ ds, d < base) ∧ value base ds = n := by
  have dig : ∀ d, d < base → ∃ c, IsDig c d := by
    intro d hd
    by_cases h : d < 10
    · exact ⟨_, .dec d h⟩
    · obtain ⟨e, rfl⟩ := Nat.exists_eq_add_of_le (Nat.le_of_not_lt h)
      exact ⟨_, .lower e (by omega)⟩
  induction n using Nat.strongRecOn with
  | _ n ih =>
    by_cases h : n < base
    · obtain ⟨c, hc⟩ := dig n h
      exact ⟨[c], [n], .cons hc .nil, by simp, by simpa using h, by simp [value]⟩
    · obtain ⟨cs, ds, h1, h2, h3, h4⟩ := ih (n / base) (Nat.div_lt_self (by omega) (by omega))
      have hm := Nat.mod_lt n (show base > 0 by omega)
      obtain ⟨c, hc⟩ := dig (n % base) hm
      refine ⟨cs ++ [c], ds ++ [n % base], List.rel_append h1 (.cons hc .nil), by simp, ?_, ?_⟩
      · intro d hd
        rcases List.mem_append.1 hd with hd | hd
        · exact h3 d hd
        · rw [List.mem_singleton.1 hd]; exact hm
      · unfold value at h4 ⊢
        rw [List.foldl_append, h4]
        simp only [List.foldl_cons, List.foldl_nil]
        rw [Nat.mul_comm]
        exact Nat.div_add_mod n base

/-- Every integer can be written in every base so that it is read back. -/
theorem tonumber_onto (base : Nat) (hb : 2 ≤ base) (hb' : base ≤ 36) (v : Int)
    (h1 : -9223372036854775808 ≤ v) (h2 : v ≤ 9223372036854775807) :
    ∃ s, tonumber s base = .ok (some v) := by
  obtain ⟨cs, ds, k1, k2, k3, k4⟩ := write base hb hb' v.natAbs
  by_cases hv : v < 0
  · have hn := Numeral.mk (base := base) [] [45] cs [] ds true (by simp) (by simp) (by simp) k1 k2 k3
    refine ⟨[] ++ [45] ++ cs ++ [], tonumber_exact hb hb' (v := v) ?_ h1 h2⟩
    · rw [k4, if_pos rfl] at hn
      rwa [show -(v.natAbs : Int) = v by omega] at hn
  · have hn := Numeral.mk (base := base) [] [] cs [] ds false (by simp) (by simp) (by simp) k1 k2 k3
    refine ⟨[] ++ [] ++ cs ++ [], tonumber_exact hb hb' (v := v) ?_ h1 h2⟩
    · rw [k4, if_neg (by simp)] at hn
      rwa [show (v.natAbs : Int) = v by omega] at hn

/-- ` -7fF ` in base 16. -/
example : Numeral 16 [32, 45, 55, 102, 70, 32] (-2047) :=
  .mk [32] [45] [55, 102, 70] [32] [7, 15, 15] true (by simp [IsSp]) (by simp [IsSp]) (by decide)
    (.cons (.dec 7 (by decide)) (.cons (.lower 5 (by decide)) (.cons (.upper 5 (by decide)) .nil)))
    (by decide) (by decide)

example : tonumber [32, 45, 55, 102, 70, 32] 16 = .ok (some (-2047)) := by decide +kernel

/-! ## C96: select -/

/-- `select(i, ...)`: the arguments from the `i`-th on; the last `-i` ones if `i` is negative; an
error if `i` is 0 or there are fewer than `-i`. -/
theorem select_spec {α : Type} (i : Int) (args : List α) :
    select i args =
      if 0 < i then .ok (args.drop (i - 1).toNat)
      else if i < 0 ∧ -i ≤ args.length then .ok (args.drop (args.length - (-i).toNat))
      else .err "index out of range" := by
  unfold select
  dsimp only
  by_cases h : i < 0
  · simp only [h, if_true, true_and, if_neg (show ¬ 0 < i by omega)]
    by_cases h' : -i ≤ args.length
    · rw [if_pos h', if_pos (by omega)]
      congr 2
      omega
    · rw [if_neg h', if_neg (by omega)]
  · simp only [h, if_false, false_and]
    by_cases h' : i > args.length + 1
    · rw [if_pos h', if_pos (by omega), if_pos (by omega), List.drop_eq_nil_of_le (by omega),
        List.drop_eq_nil_of_le (by omega)]
    · rw [if_neg h']
      by_cases h0 : 0 < i
      · rw [if_pos (by omega), if_pos h0]
        congr 2
        omega
      · rw [if_neg (by omega), if_neg h0]

/-- The results are a suffix of the arguments, and of the length that one expects. -/
theorem select_suffix {α : Type} (i : Int) (args r : List α) (h : select i args = .ok r) :
    (∃ p, args = p ++ r) ∧ (r.length : Int) = (if 0 < i then max 0 (args.length - (i - 1)) else -i) := by
  rw [select_spec] at h
  split at h
  · rename_i h0
    cases h
    refine ⟨⟨_, (List.take_append_drop _ _).symm⟩, ?_⟩
    rw [if_pos h0, List.length_drop]
    omega
  · rename_i h0
    split at h
    · cases h
      refine ⟨⟨_, (List.take_append_drop _ _).symm⟩, ?_⟩
      rw [if_neg h0, List.length_drop]
      omega
    · cases h

example : select (-2) [10, 20, 30] = .ok [20, 30] := by decide
example : select 2 [10, 20, 30] = .ok [20, 30] := by decide
example : select (-4) [10, 20, 30] = .err "index out of range" := by decide

end Verif.BaseLib
