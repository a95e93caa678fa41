import Verif.BitSet.Loops

/-!
# C41 — the compiler's bit sets

`bit bm n` says that `n` is in the set.  Queries and the results of `copy`, `clear` and the
word-wise operations are right in every reachable state.  Setting bits is right only when the words
beyond the logical length are zero (`Clean`); `clear`, and `copy` or a word-wise operation into a
longer destination, leave such words behind, and the next `set_bit` brings the old members back.
-/
namespace Verif.BitSet

theorem create_correct (bits : Nat) :
    WF (create bits) ∧ Clean (create bits) ∧ ∀ n, bit (create bits) n = false := by
  refine ⟨⟨Nat.zero_le _, ?_⟩, ?_, ?_⟩
  · intro w hw
    rw [(List.mem_replicate.1 hw).2]; decide
  · intro i _
    unfold create wd
    dsimp only
    rw [List.getElem?_replicate]
    split <;> rfl
  · intro n; unfold bit create; simp

/-- Testing is membership. -/
theorem bitP_correct (bm : BS) (h : WF bm) (n : Nat) : bitP bm n = .ok (bit bm n) := by
  unfold bitP bit
  by_cases hn : n ≥ 64 * bm.els
  · rw [if_pos hn]
    have : ¬ n / 64 < bm.els := by omega
    simp [this]
  · rw [if_neg hn]
    have h1 : n / 64 < bm.els := by omega
    have hl := h.1
    rw [get_ok (by omega), Res.bind_ok]
    show Res.ok _ = _
    rw [bit_test]; simp [h1]

/-- Setting a bit of a clean set adds exactly that member and reports whether it was absent. -/
theorem setBit_correct_partial (bm : BS) (h : WF bm) (hc : Clean bm) (n : Nat) :
    ∃ bm', setBit bm n = .ok (bm', !bit bm n) ∧ WF bm' ∧ Clean bm' ∧
      ∀ m, bit bm' m = (decide (m = n) || bit bm m) := by
  obtain ⟨hw, hnb, hle, hels, hwd, hcl⟩ := expand_spec (n + 1) h
  have hcl := hcl hc
  unfold setBit
  dsimp only
  generalize expand bm (n + 1) = e at *
  have hl := hw.1
  have hi : n / 64 < e.varr.length := by omega
  have hlt := wd_lt hw.2 (n / 64)
  have hone : 1 <<< (n % 64) < 2 ^ 64 := by
    rw [Nat.one_shiftLeft]; exact Nat.pow_lt_pow_right (by decide) (by omega)
  have hor : wd e.varr (n / 64) ||| 1 <<< (n % 64) < 2 ^ 64 := Nat.or_lt_two_pow hlt hone
  rw [get_ok hi, Res.bind_ok, put_ok _ hi, Res.bind_ok]
  have hclean' : Clean { e with varr := e.varr.set (n / 64) (wd e.varr (n / 64) ||| 1 <<< (n % 64)) } := by
    intro i hi'
    show wd (e.varr.set _ _) i = 0
    rw [wd_set hi, if_neg (by simp only at hi'; omega)]
    exact hcl i hi'
  refine ⟨{ e with varr := e.varr.set (n / 64) (wd e.varr (n / 64) ||| 1 <<< (n % 64)) },
    ?_, ⟨by rw [List.length_set]; exact hl, mem_set_lt hw.2 hor⟩, hclean', ?_⟩
  · show Res.ok (_, _) = _
    rw [bit_test', bit_clean hc, hwd]
  · intro m
    rw [bit_clean hclean', bit_clean hc]
    show (wd (e.varr.set _ _) (m / 64)).testBit (m % 64) = _
    rw [wd_set hi]
    by_cases h1 : m / 64 = n / 64
    · rw [if_pos h1, Nat.testBit_or, testBit_one_shl, ← hwd, h1, Bool.or_comm]
      congr 1
      rw [decide_eq_decide]
      omega
    · rw [if_neg h1, hwd]
      have : m ≠ n := by intro e; exact h1 (by rw [e])
      simp [this]

/-- Setting a bit inside the logical length is right even when the set is not clean. -/
theorem setBit_inside (bm : BS) (h : WF bm) (n : Nat) (hn : n / 64 < bm.els) :
    ∃ bm', setBit bm n = .ok (bm', !bit bm n) ∧ WF bm' ∧
      ∀ m, bit bm' m = (decide (m = n) || bit bm m) := by
  have he : expand bm (n + 1) = bm := by
    unfold expand; dsimp only; rw [if_neg (by omega)]
  unfold setBit
  dsimp only
  rw [he]
  have hl := h.1
  have hi : n / 64 < bm.varr.length := by omega
  have hlt := wd_lt h.2 (n / 64)
  have hone : 1 <<< (n % 64) < 2 ^ 64 := by
    rw [Nat.one_shiftLeft]; exact Nat.pow_lt_pow_right (by decide) (by omega)
  have hor : wd bm.varr (n / 64) ||| 1 <<< (n % 64) < 2 ^ 64 := Nat.or_lt_two_pow hlt hone
  rw [get_ok hi, Res.bind_ok, put_ok _ hi, Res.bind_ok]
  refine ⟨{ bm with varr := bm.varr.set (n / 64) (wd bm.varr (n / 64) ||| 1 <<< (n % 64)) },
    ?_, ⟨by rw [List.length_set]; exact hl, mem_set_lt h.2 hor⟩, ?_⟩
  · show Res.ok (_, _) = _
    rw [bit_test']
    unfold bit; simp [hn]
  · intro m
    unfold bit
    dsimp only
    rw [wd_set hi]
    by_cases h1 : m / 64 = n / 64
    · rw [if_pos h1, Nat.testBit_or, testBit_one_shl, h1]
      simp only [hn, decide_true, Bool.true_and]
      rw [Bool.or_comm]
      congr 1
      rw [decide_eq_decide]
      omega
    · rw [if_neg h1]
      have : m ≠ n := by intro e; exact h1 (by rw [e])
      simp [this]

/-- Clearing a bit removes exactly that member and reports whether it was present. -/
theorem clearBit_correct (bm : BS) (h : WF bm) (n : Nat) :
    ∃ bm', clearBit bm n = .ok (bm', bit bm n) ∧ WF bm' ∧ (Clean bm → Clean bm') ∧
      ∀ m, bit bm' m = (!decide (m = n) && bit bm m) := by
  unfold clearBit
  by_cases hn : n ≥ 64 * bm.els
  · rw [if_pos hn]
    have hb : bit bm n = false := by
      unfold bit
      have : ¬ n / 64 < bm.els := by omega
      simp [this]
    refine ⟨bm, by rw [hb], h, fun x => x, ?_⟩
    intro m
    by_cases hm : m = n
    · subst hm; simp [hb]
    · simp [hm]
  · rw [if_neg hn]
    have h1 : n / 64 < bm.els := by omega
    have hl := h.1
    have hi : n / 64 < bm.varr.length := by omega
    have hlt := wd_lt h.2 (n / 64)
    have hone : 1 <<< (n % 64) < 2 ^ 64 := by
      rw [Nat.one_shiftLeft]; exact Nat.pow_lt_pow_right (by decide) (by omega)
    have hand : wd bm.varr (n / 64) &&& wnot (1 <<< (n % 64)) < 2 ^ 64 :=
      Nat.lt_of_le_of_lt Nat.and_le_left hlt
    rw [get_ok hi, Res.bind_ok, put_ok _ hi, Res.bind_ok]
    refine ⟨{ bm with varr := bm.varr.set (n / 64) (wd bm.varr (n / 64) &&& wnot (1 <<< (n % 64))) },
      ?_, ⟨by rw [List.length_set]; exact hl, mem_set_lt h.2 hand⟩, ?_, ?_⟩
    · show Res.ok (_, _) = _
      rw [bit_test]
      unfold bit; simp [h1]
    · intro hc i hi'
      show wd (bm.varr.set _ _) i = 0
      rw [wd_set hi, if_neg (by simp only at hi'; omega)]
      exact hc i hi'
    · intro m
      unfold bit
      dsimp only
      rw [wd_set hi]
      by_cases h2 : m / 64 = n / 64
      · rw [if_pos h2, Nat.testBit_and, testBit_wnot hone, testBit_one_shl, h2]
        have h3 : m % 64 < 64 := by omega
        simp only [h1, decide_true, Bool.true_and, h3]
        rw [Bool.and_comm]
        congr 2
        rw [decide_eq_decide]
        omega
      · rw [if_neg h2]
        have : m ≠ n := by intro e; exact h2 (by rw [e])
        simp [this]

theorem rangeLoop_spec (setp : Bool) : ∀ (fuel : Nat) (v : List Nat) (nb len : Nat) (res : Bool),
    len ≤ fuel → nb + len ≤ 64 * v.length → (∀ w ∈ v, w < 2 ^ 64) →
    ∃ v' res', rangeLoop setp fuel v nb len res = .ok (v', res') ∧ v'.length = v.length ∧
      (∀ w ∈ v', w < 2 ^ 64) ∧
      (∀ m, (wd v' (m / 64)).testBit (m % 64)
        = if nb ≤ m ∧ m < nb + len then setp else (wd v (m / 64)).testBit (m % 64)) ∧
      (res' = true ↔ res = true ∨ ∃ m, nb ≤ m ∧ m < nb + len ∧ (wd v (m / 64)).testBit (m % 64) ≠ setp) := by
  intro fuel
  induction fuel with
  | zero =>
    intro v nb len res hf _ hv
    have : len = 0 := by omega
    subst this
    refine ⟨v, res, rfl, rfl, hv, ?_, ?_⟩
    · intro m; rw [if_neg (by omega)]
    · constructor
      · exact Or.inl
      · rintro (h | ⟨m, a, b, _⟩)
        · exact h
        · omega
  | succ fuel ih =>
    intro v nb len res hf hl hv
    cases len with
    | zero =>
      refine ⟨v, res, rfl, rfl, hv, ?_, ?_⟩
      · intro m; rw [if_neg (by omega)]
      · constructor
        · exact Or.inl
        · rintro (h | ⟨m, a, b, _⟩)
          · exact h
          · omega
    | succ len =>
      have hi : nb / 64 < v.length := by omega
      have hlt := wd_lt hv (nb / 64)
      -- the bits of this word
      have hrsh : rangeRsh nb (len + 1) + nb % 64 < 64 ∧ 64 - rangeRsh nb (len + 1) - nb % 64 ≤ len + 1 ∧
          (len + 1 ≥ 64 - nb % 64 ∧ rangeRsh nb (len + 1) = 0 ∨
           64 - rangeRsh nb (len + 1) - nb % 64 = len + 1) := by
        unfold rangeRsh
        by_cases hc : len + 1 ≥ 64 - nb % 64
        · rw [if_pos hc]; omega
        · rw [if_neg hc]; omega
      obtain ⟨hr1, hr2, hr3⟩ := hrsh
      generalize hR : rangeRsh nb (len + 1) = rsh at *
      have hmask := fun i => testBit_mask (i := i) hr1
      have hmlt := mask_lt (nb % 64) rsh
      generalize hM : rangeMask (nb % 64) rsh = mask at *
      let w' := if setp then wd v (nb / 64) ||| mask else wd v (nb / 64) &&& wnot mask
      have hw'lt : w' < 2 ^ 64 := by
        show (if setp then wd v (nb / 64) ||| mask else wd v (nb / 64) &&& wnot mask) < 2 ^ 64
        split
        · exact Nat.or_lt_two_pow hlt hmlt
        · exact Nat.lt_of_le_of_lt Nat.and_le_left hlt
      have hw'bit : ∀ i, i < 64 → w'.testBit i
          = if nb % 64 ≤ i ∧ i < 64 - rsh then setp else (wd v (nb / 64)).testBit i := by
        intro i hi64
        show (if setp then wd v (nb / 64) ||| mask else wd v (nb / 64) &&& wnot mask).testBit i = _
        cases setp with
        | true =>
          rw [if_pos rfl, Nat.testBit_or, hmask]
          by_cases hh : nb % 64 ≤ i ∧ i < 64 - rsh
          · rw [if_pos hh]; simp [hh]
          · rw [if_neg hh]
            by_cases h1 : nb % 64 ≤ i
            · have h2 : ¬ i < 64 - rsh := fun h2 => hh ⟨h1, h2⟩
              simp [h2]
            · simp [h1]
        | false =>
          rw [if_neg (by simp), Nat.testBit_and, testBit_wnot hmlt, hmask]
          by_cases hh : nb % 64 ≤ i ∧ i < 64 - rsh
          · rw [if_pos hh]; simp [hh]
          · rw [if_neg hh]
            by_cases h1 : nb % 64 ≤ i
            · have h2 : ¬ i < 64 - rsh := fun h2 => hh ⟨h1, h2⟩
              simp [h2, hi64]
            · simp [h1, hi64]
      let res1 := res || (if setp then (wnot (wd v (nb / 64)) &&& mask) != 0 else (wd v (nb / 64) &&& mask) != 0)
      have hstep : rangeLoop setp (fuel + 1) v nb (len + 1) res
          = rangeLoop setp fuel (v.set (nb / 64) w') (nb + (64 - rsh - nb % 64)) (len + 1 - (64 - rsh - nb % 64)) res1 := by
        rw [rangeLoop]
        dsimp only
        rw [get_ok hi, Res.bind_ok, put_ok _ hi, Res.bind_ok, hR, hM]
      have hres1 : res1 = true ↔ res = true ∨ ∃ m, nb ≤ m ∧ m < nb + (64 - rsh - nb % 64) ∧
          (wd v (m / 64)).testBit (m % 64) ≠ setp := by
        show (res || _) = true ↔ _
        rw [Bool.or_eq_true]
        apply or_congr_right
        have key : ∀ x : Nat, x < 2 ^ 64 →
            (((x &&& mask) != 0) = true ↔ ∃ m, nb ≤ m ∧ m < nb + (64 - rsh - nb % 64) ∧ x.testBit (m % 64) = true) := by
          intro x hx
          rw [bne_iff_ne, ne_eq, word_zero (Nat.lt_of_le_of_lt Nat.and_le_left hx)]
          constructor
          · intro hne
            by_cases hex : ∃ i, i < 64 ∧ (x &&& mask).testBit i = true
            · obtain ⟨i, hi1, hi2⟩ := hex
              rw [Nat.testBit_and, hmask, Bool.and_eq_true, Bool.and_eq_true, decide_eq_true_iff, decide_eq_true_iff] at hi2
              refine ⟨nb - nb % 64 + i, by omega, by omega, ?_⟩
              have : (nb - nb % 64 + i) % 64 = i := by omega
              rw [this]; exact hi2.1
            · exfalso; apply hne
              intro i hi1
              cases hb : (x &&& mask).testBit i with
              | false => rfl
              | true => exact absurd ⟨i, hi1, hb⟩ hex
          · rintro ⟨m, h1, h2, h3⟩ hall
            have := hall (m % 64) (by omega)
            rw [Nat.testBit_and, h3, hmask] at this
            have h4 : nb % 64 ≤ m % 64 := by omega
            have h5 : m % 64 < 64 - rsh := by omega
            simp [h4, h5] at this
        have hm64 : ∀ m, nb ≤ m → m < nb + (64 - rsh - nb % 64) → m / 64 = nb / 64 := by
          intro m h1 h2; omega
        cases setp with
        | true =>
          rw [if_pos rfl, key _ (wnot_lt _)]
          constructor
          · rintro ⟨m, h1, h2, h3⟩
            rw [testBit_wnot hlt] at h3
            refine ⟨m, h1, h2, ?_⟩
            rw [hm64 m h1 h2]
            simp at h3; simp [h3.2]
          · rintro ⟨m, h1, h2, h3⟩
            rw [hm64 m h1 h2] at h3
            refine ⟨m, h1, h2, ?_⟩
            rw [testBit_wnot hlt]
            simp at h3; simp [h3]; omega
        | false =>
          rw [if_neg (by simp), key _ hlt]
          constructor
          · rintro ⟨m, h1, h2, h3⟩
            refine ⟨m, h1, h2, ?_⟩
            rw [hm64 m h1 h2, h3]; simp
          · rintro ⟨m, h1, h2, h3⟩
            rw [hm64 m h1 h2] at h3
            refine ⟨m, h1, h2, ?_⟩
            simpa using h3
      have hset : ∀ m, (wd (v.set (nb / 64) w') (m / 64)).testBit (m % 64)
          = if nb ≤ m ∧ m < nb + (64 - rsh - nb % 64) then setp else (wd v (m / 64)).testBit (m % 64) := by
        intro m
        rw [wd_set hi]
        by_cases h1 : m / 64 = nb / 64
        · rw [if_pos h1, hw'bit _ (by omega), h1]
          by_cases h2 : nb % 64 ≤ m % 64 ∧ m % 64 < 64 - rsh
          · rw [if_pos h2, if_pos (by omega)]
          · rw [if_neg h2, if_neg (by omega)]
        · rw [if_neg h1, if_neg (by omega)]
      obtain ⟨v', res', e1, e2, e3, e4, e5⟩ := ih (v.set (nb / 64) w') (nb + (64 - rsh - nb % 64))
        (len + 1 - (64 - rsh - nb % 64)) res1 (by omega) (by rw [List.length_set]; omega) (mem_set_lt hv hw'lt)
      refine ⟨v', res', by rw [hstep, e1], by rw [e2, List.length_set], e3, ?_, ?_⟩
      · intro m
        rw [e4 m, hset m]
        by_cases h1 : nb + (64 - rsh - nb % 64) ≤ m ∧ m < nb + (64 - rsh - nb % 64) + (len + 1 - (64 - rsh - nb % 64))
        · rw [if_pos h1, if_pos (by omega)]
        · rw [if_neg h1]
          by_cases h2 : nb ≤ m ∧ m < nb + (64 - rsh - nb % 64)
          · rw [if_pos h2, if_pos (by omega)]
          · rw [if_neg h2, if_neg (by omega)]
      · rw [e5, hres1]
        constructor
        · rintro ((h | ⟨m, a, b, c⟩) | ⟨m, a, b, c⟩)
          · exact Or.inl h
          · exact Or.inr ⟨m, a, by omega, c⟩
          · rw [hset m, if_neg (by omega)] at c
            exact Or.inr ⟨m, by omega, by omega, c⟩
        · rintro (h | ⟨m, a, b, c⟩)
          · exact Or.inl (Or.inl h)
          · by_cases h2 : m < nb + (64 - rsh - nb % 64)
            · exact Or.inl (Or.inr ⟨m, a, h2, c⟩)
            · refine Or.inr ⟨m, by omega, by omega, ?_⟩
              rw [hset m, if_neg (by omega)]; exact c

/-- Setting or clearing a run of bits of a clean set changes exactly that run, and reports whether
anything changed. -/
theorem range_correct_partial (bm : BS) (h : WF bm) (hc : Clean bm) (nb len : Nat) (setp : Bool) :
    ∃ bm' ch, range bm nb len setp = .ok (bm', ch) ∧ WF bm' ∧ Clean bm' ∧
      (∀ m, bit bm' m = if nb ≤ m ∧ m < nb + len then setp else bit bm m) ∧
      (ch = true ↔ ∃ m, bit bm' m ≠ bit bm m) := by
  obtain ⟨hw, hnb, hle, hels, hwd, hcl⟩ := expand_spec (nb + len) h
  have hcl := hcl hc
  unfold range
  dsimp only
  generalize expand bm (nb + len) = e at *
  have hl := hw.1
  obtain ⟨v', res', e1, e2, e3, e4, e5⟩ := rangeLoop_spec setp len e.varr nb len false (Nat.le_refl _) (by omega) hw.2
  rw [e1, Res.bind_ok]
  have hclean' : Clean { e with varr := v' } := by
    intro i hi
    simp only at hi
    have hz := hcl i hi
    apply (word_zero (wd_lt e3 i)).2
    intro j hj
    have := e4 (64 * i + j)
    have d1 : (64 * i + j) / 64 = i := by omega
    have d2 : (64 * i + j) % 64 = j := by omega
    rw [d1, d2, if_neg (by omega), hz, Nat.zero_testBit] at this
    exact this
  have hb : ∀ m, bit { e with varr := v' } m = if nb ≤ m ∧ m < nb + len then setp else bit bm m := by
    intro m
    rw [bit_clean hclean', bit_clean hc, ← hwd]
    exact e4 m
  refine ⟨{ e with varr := v' }, res', rfl, ⟨by rw [e2]; exact hl, e3⟩, hclean', hb, ?_⟩
  rw [e5]
  constructor
  · rintro (h | ⟨m, a, b, c⟩)
    · exact absurd h (by simp)
    · refine ⟨m, ?_⟩
      rw [hb m, if_pos ⟨a, b⟩, bit_clean hc, ← hwd]
      exact fun x => c x.symm
  · rintro ⟨m, hm⟩
    rw [hb m] at hm
    by_cases hin : nb ≤ m ∧ m < nb + len
    · rw [if_pos hin, bit_clean hc, ← hwd] at hm
      exact Or.inr ⟨m, hin.1, hin.2, fun x => hm x.symm⟩
    · rw [if_neg hin] at hm; exact absurd rfl hm

/-- `clear` empties the set. -/
theorem clear_correct (bm : BS) (h : WF bm) : WF (clear bm) ∧ ∀ n, bit (clear bm) n = false := by
  refine ⟨⟨Nat.zero_le _, h.2⟩, ?_⟩
  intro n; unfold bit clear; simp

theorem wd_take_append {a b : List Nat} {n i : Nat} (hn : n ≤ a.length) :
    wd (a.take n ++ b.drop n) i = if i < n then wd a i else wd b i := by
  unfold wd
  by_cases hi : i < n
  · rw [if_pos hi, List.getElem?_append_left (by rw [List.length_take]; omega), List.getElem?_take, if_pos hi]
  · rw [if_neg hi, List.getElem?_append_right (by rw [List.length_take]; omega), List.length_take, List.getElem?_drop]
    congr 2; omega

/-- `copy` makes the destination equal to the source, whatever it held; the result is clean when the
destination was clean and not longer. -/
theorem copy_correct (dst src : BS) (hd : WF dst) (hs : WF src) :
    ∃ d', copy dst src = .ok d' ∧ WF d' ∧ (∀ n, bit d' n = bit src n) ∧
      (Clean dst → dst.els ≤ src.els → Clean d') := by
  have hs1 := hs.1
  have hd1 := hd.1
  -- the destination after the length is adjusted
  have hdst : ∃ e : BS, (if dst.els ≥ src.els then { dst with els := src.els } else expand dst (src.els * 64)) = e ∧
      WF e ∧ e.els = src.els ∧ (Clean dst → dst.els ≤ src.els → Clean e) := by
    by_cases hc : dst.els ≥ src.els
    · rw [if_pos hc]
      refine ⟨_, rfl, ⟨by dsimp only; omega, hd.2⟩, rfl, ?_⟩
      intro hcl hle i hi
      exact hcl i (by simp only at hi; omega)
    · rw [if_neg hc]
      obtain ⟨hw, hnb, hle, hels, hwd, hcl⟩ := expand_spec (src.els * 64) hd
      refine ⟨_, rfl, hw, by omega, fun a _ => hcl a⟩
  obtain ⟨e, he, hwe, hee, hce⟩ := hdst
  have hwe1 := hwe.1
  unfold copy
  dsimp only
  rw [he, if_pos (by omega)]
  have hwd : ∀ i, wd (src.varr.take src.els ++ e.varr.drop src.els) i = if i < src.els then wd src.varr i else wd e.varr i :=
    fun i => wd_take_append hs1
  refine ⟨_, rfl, ⟨?_, ?_⟩, ?_, ?_⟩
  · dsimp only; simp; omega
  · intro w hw
    rcases List.mem_append.1 hw with hw | hw
    · exact hs.2 w (List.mem_of_mem_take hw)
    · exact hwe.2 w (List.mem_of_mem_drop hw)
  · intro n
    unfold bit
    dsimp only
    rw [hee, hwd]
    by_cases hn : n / 64 < src.els
    · rw [if_pos hn]
    · simp [hn]
  · intro hcl hle i hi
    have hi : e.els ≤ i := hi
    show wd (_ ++ _) i = 0
    rw [hwd, if_neg (by omega)]
    exact hce hcl hle i hi

/-- Equality of the stored words is equality of the sets. -/
theorem equal_correct (a b : BS) (ha : WF a) (hb : WF b) :
    ∃ r, equal a b = .ok r ∧ (r = true ↔ ∀ n, bit a n = bit b n) := by
  have main : ∀ a b : BS, WF a → WF b → a.els ≤ b.els →
      ∃ r, equalAux a b = .ok r ∧ (r = true ↔ ∀ n, bit a n = bit b n) := by
    intro a b ha hb hle
    have ha1 := ha.1
    have hb1 := hb.1
    unfold equalAux
    rw [if_pos (by omega)]
    have hsame : (∀ n, bit a n = bit b n) ↔
        (∀ i, i < a.els → wd a.varr i = wd b.varr i) ∧ (∀ i, i < b.els → a.els ≤ i → wd b.varr i = 0) := by
      constructor
      · intro h
        constructor
        · intro i hi
          rw [word_eq (wd_lt ha.2 i) (wd_lt hb.2 i)]
          intro j hj
          have := h (64 * i + j)
          unfold bit at this
          have d1 : (64 * i + j) / 64 = i := by omega
          have d2 : (64 * i + j) % 64 = j := by omega
          have d3 : i < b.els := by omega
          rw [d1, d2] at this
          simpa [hi, d3] using this
        · intro i hi hai
          rw [word_zero (wd_lt hb.2 i)]
          intro j hj
          have := h (64 * i + j)
          unfold bit at this
          have d1 : (64 * i + j) / 64 = i := by omega
          have d2 : (64 * i + j) % 64 = j := by omega
          have d3 : ¬ i < a.els := by omega
          rw [d1, d2] at this
          simpa [hi, d3] using this
      · rintro ⟨h1, h2⟩ n
        unfold bit
        by_cases hn : n / 64 < a.els
        · have hn2 : n / 64 < b.els := by omega
          rw [h1 _ hn]; simp [hn, hn2]
        · by_cases hn2 : n / 64 < b.els
          · rw [h2 _ hn2 (by omega)]; simp [hn]
          · simp [hn, hn2]
    have htake : a.varr.take a.els = b.varr.take a.els ↔ ∀ i, i < a.els → wd a.varr i = wd b.varr i := by
      constructor
      · intro h i hi
        unfold wd
        have : (a.varr.take a.els)[i]? = (b.varr.take a.els)[i]? := by rw [h]
        rw [List.getElem?_take, List.getElem?_take, if_pos hi, if_pos hi] at this
        rw [this]
      · intro h
        apply List.ext_getElem?
        intro i
        rw [List.getElem?_take, List.getElem?_take]
        by_cases hi : i < a.els
        · rw [if_pos hi, if_pos hi]
          have := h i hi
          unfold wd at this
          rw [List.getElem?_eq_getElem (by omega), List.getElem?_eq_getElem (by omega)] at this ⊢
          simpa using this
        · rw [if_neg hi, if_neg hi]
    by_cases heq : a.varr.take a.els = b.varr.take a.els
    · rw [if_neg (by simpa using heq), zeros_spec _ _ _ (by omega)]
      refine ⟨_, rfl, ?_⟩
      rw [decide_eq_true_iff, hsame]
      have : a.els + (b.els - a.els) = b.els := by omega
      rw [this]
      constructor
      · intro h; exact ⟨htake.1 heq, h⟩
      · intro h; exact h.2
    · rw [if_pos heq]
      refine ⟨false, rfl, ?_⟩
      constructor
      · intro h; exact absurd h (by simp)
      · intro h; exact absurd (htake.2 (hsame.1 h).1) heq
  unfold equal
  by_cases hgt : a.els > b.els
  · rw [if_pos hgt]
    obtain ⟨r, h1, h2⟩ := main b a hb ha (by omega)
    exact ⟨r, h1, by rw [h2]; exact ⟨fun h n => (h n).symm, fun h n => (h n).symm⟩⟩
  · rw [if_neg hgt]
    exact main a b ha hb (by omega)

/-- `intersect_p` finds a common member iff there is one. -/
theorem intersect_correct (a b : BS) (ha : WF a) (hb : WF b) :
    ∃ r, intersect a b = .ok r ∧ (r = true ↔ ∃ n, bit a n = true ∧ bit b n = true) := by
  have ha1 := ha.1
  have hb1 := hb.1
  unfold intersect
  generalize hm : (if a.els ≤ b.els then a.els else b.els) = m
  have hm1 : m ≤ a.els ∧ m ≤ b.els ∧ (m = a.els ∨ m = b.els) := by
    rw [← hm]; split <;> omega
  rw [meets_spec _ _ _ _ (by omega) (by omega)]
  refine ⟨_, rfl, ?_⟩
  rw [decide_eq_true_iff]
  constructor
  · rintro ⟨j, h1, _, h3⟩
    have hlt : wd a.varr j &&& wd b.varr j < 2 ^ 64 := Nat.lt_of_le_of_lt Nat.and_le_left (wd_lt ha.2 j)
    by_cases hex : ∃ i, i < 64 ∧ (wd a.varr j &&& wd b.varr j).testBit i = true
    · obtain ⟨i, hi1, hi2⟩ := hex
      rw [Nat.testBit_and, Bool.and_eq_true] at hi2
      have d1 : (64 * j + i) / 64 = j := by omega
      have d2 : (64 * j + i) % 64 = i := by omega
      have d3 : j < a.els := by omega
      have d4 : j < b.els := by omega
      refine ⟨64 * j + i, ?_, ?_⟩
      · unfold bit; rw [d1, d2]; simp [d3, hi2.1]
      · unfold bit; rw [d1, d2]; simp [d4, hi2.2]
    · exfalso; apply h3
      rw [word_zero hlt]
      intro i hi
      cases hb : (wd a.varr j &&& wd b.varr j).testBit i with
      | false => rfl
      | true => exact absurd ⟨i, hi, hb⟩ hex
  · rintro ⟨n, h1, h2⟩
    unfold bit at h1 h2
    rw [Bool.and_eq_true, decide_eq_true_iff] at h1 h2
    refine ⟨n / 64, by omega, Nat.zero_le _, ?_⟩
    intro hz
    have : (wd a.varr (n / 64) &&& wd b.varr (n / 64)).testBit (n % 64) = true := by
      rw [Nat.testBit_and, h1.2, h2.2]; rfl
    rw [hz, Nat.zero_testBit] at this
    exact absurd this (by simp)

/-- `empty_p` answers true iff the set has no member. -/
theorem empty_correct (a : BS) (ha : WF a) : ∃ r, empty a = .ok r ∧ (r = true ↔ ∀ n, bit a n = false) := by
  have ha1 := ha.1
  unfold empty
  rw [zeros_spec _ _ _ (by omega)]
  refine ⟨_, rfl, ?_⟩
  rw [decide_eq_true_iff]
  constructor
  · intro h n
    unfold bit
    by_cases hn : n / 64 < a.els
    · rw [h _ (by omega) (by omega)]; simp
    · simp [hn]
  · intro h j hj _
    rw [word_zero (wd_lt ha.2 j)]
    intro i hi
    have := h (64 * j + i)
    unfold bit at this
    have d1 : (64 * j + i) / 64 = j := by omega
    have d2 : (64 * j + i) % 64 = i := by omega
    have d3 : j < a.els := by omega
    rw [d1, d2] at this
    simpa [d3] using this

/-- No member lies beyond the logical length, so counting and listing below it misses none. -/
theorem bit_bound (a : BS) (n : Nat) (h : bit a n = true) : n < 64 * a.els := by
  unfold bit at h
  rw [Bool.and_eq_true, decide_eq_true_iff] at h
  omega

/-- `bit_count` is the number of members. -/
theorem count_correct (a : BS) (ha : WF a) (N : Nat) (hN : ∀ n, bit a n = true → n < N) :
    count a = .ok ((List.range N).countP (bit a)) := by
  unfold count
  rw [countLoop_spec _ ha.2 _ _ _ (by have := ha.1; omega)]
  congr 1
  rw [Nat.zero_add]
  have e1 : (List.range' (64 * 0) (64 * a.els)).countP (fun n => (wd a.varr (n / 64)).testBit (n % 64))
      = (List.range (64 * a.els)).countP (bit a) := by
    rw [List.range_eq_range']
    apply List.countP_congr
    intro n hn
    have hn := (List.mem_range'_1.1 hn).2
    unfold bit
    have : n / 64 < a.els := by omega
    simp [this]
  rw [e1]
  have ext : ∀ k M, (∀ n, bit a n = true → n < M) → (List.range (M + k)).countP (bit a) = (List.range M).countP (bit a) := by
    intro k
    induction k with
    | zero => intro M _; rfl
    | succ k ih =>
      intro M hM
      rw [← Nat.add_assoc, List.range_succ, List.countP_append, ih M hM]
      have : bit a (M + k) = false := by
        cases hb : bit a (M + k) with
        | false => rfl
        | true => have := hM _ hb; omega
      simp [this]
  rcases Nat.le_total N (64 * a.els) with h | h
  · have := ext (64 * a.els - N) N hN
    rw [← this]; congr 2; omega
  · have := ext (N - 64 * a.els) (64 * a.els) (bit_bound a)
    rw [← this]; congr 2; omega

theorem next_correct (a : BS) (ha : WF a) (n : Nat) :
    next a n = .ok ((List.range' n (64 * a.els - n)).find? (bit a)) := by
  have ha1 := ha.1
  unfold next
  by_cases hn : n / 64 ≤ a.els
  · rw [scan_spec _ ha.2 _ _ _ (by omega) rfl]
    have e : n / 64 + (a.els - n / 64) = a.els := by omega
    rw [e]
    congr 1
    apply find?_congr'
    intro m hm
    have hm := List.mem_range'_1.1 hm
    unfold bit
    have : m / 64 < a.els := by omega
    simp [this]
  · have e : a.els - n / 64 = 0 := by omega
    have e2 : 64 * a.els - n = 0 := by omega
    rw [e, e2]; rfl

theorem iterate_spec (a : BS) (ha : WF a) : ∀ (fuel n : Nat), 64 * a.els - n < fuel →
    iterate a fuel n = .ok ((List.range' n (64 * a.els - n)).filter (bit a)) := by
  intro fuel
  induction fuel with
  | zero => intro n h; omega
  | succ fuel ih =>
    intro n h
    show (next a n >>= _) = _
    rw [next_correct a ha, Res.bind_ok]
    have aux : ∀ k n, (List.range' n k).find? (bit a) = none ∧ (List.range' n k).filter (bit a) = [] ∨
        ∃ m, n ≤ m ∧ m < n + k ∧ (List.range' n k).find? (bit a) = some m ∧
          (List.range' n k).filter (bit a) = m :: (List.range' (m + 1) (n + k - (m + 1))).filter (bit a) := by
      intro k
      induction k with
      | zero => intro n; exact Or.inl ⟨rfl, rfl⟩
      | succ k ik =>
        intro n
        rw [List.range'_succ]
        by_cases hb : bit a n = true
        · refine Or.inr ⟨n, Nat.le_refl _, by omega, ?_, ?_⟩
          · rw [List.find?_cons_of_pos hb]
          · rw [List.filter_cons_of_pos hb]
            congr 3; omega
        · rw [List.find?_cons_of_neg hb, List.filter_cons_of_neg hb]
          rcases ik (n + 1) with ⟨h1, h2⟩ | ⟨m, h0, h1, h2, h3⟩
          · exact Or.inl ⟨h1, h2⟩
          · refine Or.inr ⟨m, by omega, by omega, h2, ?_⟩
            rw [h3]; congr 3; omega
    rcases aux (64 * a.els - n) n with ⟨h1, h2⟩ | ⟨m, h0, h1, h2, h3⟩
    · rw [h1, h2]; rfl
    · rw [h2, h3]
      show (iterate a fuel (m + 1) >>= _) = _
      rw [ih (m + 1) (by omega), Res.bind_ok]
      show Res.ok _ = _
      congr 4; omega

/-- `FOREACH_BITSET_BIT` delivers exactly the members, each once, in increasing order. -/
theorem iterate_correct (a : BS) (ha : WF a) (fuel : Nat) (hf : 64 * a.els < fuel) :
    ∃ l, iterate a fuel 0 = .ok l ∧ l.Pairwise (· < ·) ∧ ∀ n, n ∈ l ↔ bit a n = true := by
  refine ⟨_, iterate_spec a ha fuel 0 (by omega), ?_, ?_⟩
  · exact List.Pairwise.sublist List.filter_sublist (List.pairwise_lt_range' (s := 0) (n := 64 * a.els - 0) (step := 1))
  · intro n
    rw [List.mem_filter, List.mem_range'_1]
    constructor
    · exact fun h => h.2
    · intro h; have := bit_bound a n h; exact ⟨by omega, h⟩

/-! ## Word-wise operations -/

theorem word_spec (s : BS) (hs : WF s) (i : Nat) : word s i = .ok (if i ≥ s.els then 0 else wd s.varr i) := by
  unfold word
  by_cases h : i ≥ s.els
  · rw [if_pos h, if_pos h]
  · rw [if_neg h, if_neg h, get_ok (by have := hs.1; omega)]

theorem word_bit (s : BS) (n : Nat) :
    (if n / 64 ≥ s.els then 0 else wd s.varr (n / 64)).testBit (n % 64) = bit s n := by
  unfold bit
  by_cases h : n / 64 ≥ s.els
  · rw [if_pos h, Nat.zero_testBit]
    have : ¬ n / 64 < s.els := by omega
    simp [this]
  · rw [if_neg h]
    have : n / 64 < s.els := by omega
    simp [this]

/-- Common part of `op2` and `op3`: the destination becomes the set of bits of the words computed;
the change flag is right when the destination was clean and not longer than the sources. -/
theorem op_common (dst : BS) (hd : WF dst) (len : Nat) (f : Nat → Res Nat) (F : Nat → Nat)
    (hf : ∀ i, f i = .ok (F i)) (hF : ∀ i, F i < 2 ^ 64) (h0 : ∀ i, len ≤ i → F i = 0) :
    ∃ v b ch, opLoop f len 0 (expand dst (len * 64)).varr 0 false = .ok (v, b, ch) ∧ WF ⟨b, v⟩ ∧
      (∀ n, bit ⟨b, v⟩ n = (F (n / 64)).testBit (n % 64)) ∧
      (Clean dst → dst.els ≤ len → Clean ⟨b, v⟩ ∧ (ch = true ↔ ∃ n, bit ⟨b, v⟩ n ≠ bit dst n)) := by
  obtain ⟨hw, hnb, hle, hels, hwd, hcl⟩ := expand_spec (len * 64) hd
  generalize expand dst (len * 64) = e at *
  have hw1 := hw.1
  obtain ⟨v, b, ch, h1, h2, h3, h4, h5, h6, h7, h8⟩ := opLoop_spec f F len 0 e.varr 0 false
    (fun j _ _ => hf j) (by omega) (Nat.le_refl _)
  have hbit : ∀ n, bit ⟨b, v⟩ n = (F (n / 64)).testBit (n % 64) := by
    intro n
    unfold bit
    dsimp only
    rw [h3]
    by_cases hn : n / 64 < b
    · rw [if_pos (by omega)]; simp [hn]
    · by_cases hn2 : n / 64 < len
      · rw [h6 _ (by omega) (by omega) (by omega)]; simp [hn]
      · rw [h0 _ (by omega)]; simp [hn]
  refine ⟨v, b, ch, h1, ⟨by dsimp only; omega, h8 hw.2 (fun j _ _ => hF j)⟩, hbit, ?_⟩
  intro hc hdl
  refine ⟨?_, ?_⟩
  · intro i hi
    simp only at hi
    show wd v i = 0
    rw [h3]
    by_cases hil : i < len
    · rw [if_pos (by omega)]; exact h6 i hi (by omega) (by omega)
    · rw [if_neg (by omega), hwd]; exact hc i (by omega)
  · rw [h7]
    constructor
    · rintro (h | ⟨j, _, a, b'⟩)
      · exact absurd h (by simp)
      · rw [hwd] at b'
        by_cases hex : ∃ i, i < 64 ∧ (F j).testBit i ≠ (wd dst.varr j).testBit i
        · obtain ⟨i, hi1, hi2⟩ := hex
          refine ⟨64 * j + i, ?_⟩
          rw [hbit, bit_clean hc]
          have d1 : (64 * j + i) / 64 = j := by omega
          have d2 : (64 * j + i) % 64 = i := by omega
          rw [d1, d2]; exact hi2
        · exfalso; apply b'
          symm
          rw [word_eq (hF j) (wd_lt hd.2 j)]
          intro i hi
          by_cases hx : (F j).testBit i = (wd dst.varr j).testBit i
          · exact hx
          · exact absurd ⟨i, hi, hx⟩ hex
    · rintro ⟨n, hn⟩
      rw [hbit, bit_clean hc] at hn
      refine Or.inr ⟨n / 64, Nat.zero_le _, ?_, ?_⟩
      · by_cases hl : n / 64 < len
        · omega
        · rw [h0 _ (by omega), hc _ (by omega)] at hn
          exact absurd rfl hn
      · rw [hwd]; intro he; rw [he] at hn; exact absurd rfl hn

/-- A word operation acts bit by bit. -/
def Bitwise2 (op : Nat → Nat → Nat) (p : Bool → Bool → Bool) : Prop :=
  p false false = false ∧ ∀ a b, a < 2 ^ 64 → b < 2 ^ 64 → op a b < 2 ^ 64 ∧
    ∀ i, i < 64 → (op a b).testBit i = p (a.testBit i) (b.testBit i)

/-- The same for three operands. -/
def Bitwise3 (op : Nat → Nat → Nat → Nat) (p : Bool → Bool → Bool → Bool) : Prop :=
  p false false false = false ∧ ∀ a b c, a < 2 ^ 64 → b < 2 ^ 64 → c < 2 ^ 64 → op a b c < 2 ^ 64 ∧
    ∀ i, i < 64 → (op a b c).testBit i = p (a.testBit i) (b.testBit i) (c.testBit i)

theorem and_bitwise : Bitwise2 elAnd (fun a b => a && b) := by
  refine ⟨rfl, fun a b ha hb => ⟨Nat.lt_of_le_of_lt Nat.and_le_left ha, fun i _ => Nat.testBit_and ..⟩⟩

theorem ior_bitwise : Bitwise2 elIor (fun a b => a || b) := by
  refine ⟨rfl, fun a b ha hb => ⟨Nat.or_lt_two_pow ha hb, fun i _ => Nat.testBit_or ..⟩⟩

theorem and_compl_bitwise : Bitwise2 elAndCompl (fun a b => a && !b) := by
  refine ⟨rfl, fun a b ha hb => ⟨Nat.lt_of_le_of_lt Nat.and_le_left ha, fun i hi => ?_⟩⟩
  unfold elAndCompl
  rw [Nat.testBit_and, testBit_wnot hb]; simp [hi]

theorem ior_and_bitwise : Bitwise3 elIorAnd (fun a b c => a || (b && c)) := by
  refine ⟨rfl, fun a b c ha hb hc => ⟨Nat.or_lt_two_pow ha (Nat.lt_of_le_of_lt Nat.and_le_left hb), fun i _ => ?_⟩⟩
  unfold elIorAnd
  rw [Nat.testBit_or, Nat.testBit_and]

theorem ior_and_compl_bitwise : Bitwise3 elIorAndCompl (fun a b c => a || (b && !c)) := by
  refine ⟨rfl, fun a b c ha hb hc => ⟨Nat.or_lt_two_pow ha (Nat.lt_of_le_of_lt Nat.and_le_left hb), fun i hi => ?_⟩⟩
  unfold elIorAndCompl
  rw [Nat.testBit_or, Nat.testBit_and, testBit_wnot hc]; simp [hi]

/-- `op2` computes the set operation, whatever the destination held; its answer "changed" is right
when the destination was clean and not longer than the longer source (in particular when the
destination is one of the sources). -/
theorem op2_correct (op : Nat → Nat → Nat) (p : Bool → Bool → Bool) (hop : Bitwise2 op p) (dst s1 s2 : BS)
    (hd : WF dst) (h1 : WF s1) (h2 : WF s2) :
    ∃ d' ch, op2 op dst s1 s2 = .ok (d', ch) ∧ WF d' ∧ (∀ n, bit d' n = p (bit s1 n) (bit s2 n)) ∧
      (Clean dst → dst.els ≤ max s1.els s2.els → Clean d' ∧ (ch = true ↔ ∃ n, bit d' n ≠ bit dst n)) := by
  have hlt : ∀ (s : BS), WF s → ∀ i, (if i ≥ s.els then 0 else wd s.varr i) < 2 ^ 64 := by
    intro s hs i; split
    · decide
    · exact wd_lt hs.2 i
  have hlen : (if s1.els < s2.els then s2.els else s1.els) = max s1.els s2.els := by
    split <;> omega
  have hz : op 0 0 = 0 := by
    have := hop.2 0 0 (by decide) (by decide)
    rw [word_zero this.1]
    intro i hi
    rw [this.2 i hi, Nat.zero_testBit]; exact hop.1
  obtain ⟨v, b, ch, e1, e2, e3, e4⟩ := op_common dst hd (max s1.els s2.els)
    (fun i => word s1 i >>= fun a => word s2 i >>= fun b => pure (op a b))
    (fun i => op (if i ≥ s1.els then 0 else wd s1.varr i) (if i ≥ s2.els then 0 else wd s2.varr i))
    (fun i => by rw [word_spec s1 h1, Res.bind_ok, word_spec s2 h2, Res.bind_ok]; rfl)
    (fun i => (hop.2 _ _ (hlt s1 h1 i) (hlt s2 h2 i)).1)
    (fun i hi => by
      show op (if i ≥ s1.els then 0 else _) (if i ≥ s2.els then 0 else _) = 0
      rw [if_pos (by omega), if_pos (by omega)]; exact hz)
  refine ⟨⟨b, v⟩, ch, ?_, e2, ?_, e4⟩
  · unfold op2
    dsimp only
    rw [hlen, e1, Res.bind_ok]; rfl
  · intro n
    rw [e3, (hop.2 _ _ (hlt s1 h1 _) (hlt s2 h2 _)).2 _ (by omega), word_bit, word_bit]

theorem max3_eq (a b c : Nat) : max3 a b c = max a (max b c) := by unfold max3; split <;> split <;> omega

/-- The same for `op3`. -/
theorem op3_correct (op : Nat → Nat → Nat → Nat) (p : Bool → Bool → Bool → Bool) (hop : Bitwise3 op p)
    (dst s1 s2 s3 : BS) (hd : WF dst) (h1 : WF s1) (h2 : WF s2) (h3 : WF s3) :
    ∃ d' ch, op3 op dst s1 s2 s3 = .ok (d', ch) ∧ WF d' ∧
      (∀ n, bit d' n = p (bit s1 n) (bit s2 n) (bit s3 n)) ∧
      (Clean dst → dst.els ≤ max s1.els (max s2.els s3.els) →
        Clean d' ∧ (ch = true ↔ ∃ n, bit d' n ≠ bit dst n)) := by
  have hlt : ∀ (s : BS), WF s → ∀ i, (if i ≥ s.els then 0 else wd s.varr i) < 2 ^ 64 := by
    intro s hs i; split
    · decide
    · exact wd_lt hs.2 i
  have hz : op 0 0 0 = 0 := by
    have := hop.2 0 0 0 (by decide) (by decide) (by decide)
    rw [word_zero this.1]
    intro i hi
    rw [this.2 i hi, Nat.zero_testBit]; exact hop.1
  obtain ⟨v, b, ch, e1, e2, e3, e4⟩ := op_common dst hd (max s1.els (max s2.els s3.els))
    (fun i => word s1 i >>= fun a => word s2 i >>= fun b => word s3 i >>= fun c => pure (op a b c))
    (fun i => op (if i ≥ s1.els then 0 else wd s1.varr i) (if i ≥ s2.els then 0 else wd s2.varr i)
      (if i ≥ s3.els then 0 else wd s3.varr i))
    (fun i => by
      rw [word_spec s1 h1, Res.bind_ok, word_spec s2 h2, Res.bind_ok, word_spec s3 h3, Res.bind_ok]; rfl)
    (fun i => (hop.2 _ _ _ (hlt s1 h1 i) (hlt s2 h2 i) (hlt s3 h3 i)).1)
    (fun i hi => by
      show op (if i ≥ s1.els then 0 else _) (if i ≥ s2.els then 0 else _) (if i ≥ s3.els then 0 else _) = 0
      rw [if_pos (by omega), if_pos (by omega), if_pos (by omega)]; exact hz)
  refine ⟨⟨b, v⟩, ch, ?_, e2, ?_, e4⟩
  · unfold op3
    dsimp only
    rw [max3_eq, e1, Res.bind_ok]; rfl
  · intro n
    rw [e3, (hop.2 _ _ _ (hlt s1 h1 _) (hlt s2 h2 _) (hlt s3 h3 _)).2 _ (by omega), word_bit, word_bit, word_bit]

/-! ## What goes wrong -/

instance (bm : BS) : Decidable (WF bm) := by unfold WF; infer_instance


/-- After `clear`, setting 5 also brings back the old member 3, and reports "not changed" when 3
itself is set again. -/
theorem clear_resurrects :
    ∃ s s' : BS, WF s ∧ (∀ n, bit (clear s) n = false) ∧
      setBit (clear s) 5 = .ok (s', true) ∧ bit s' 3 = true ∧
      ∃ s'', setBit (clear s) 3 = .ok (s'', false) := by
  refine ⟨⟨1, [8]⟩, ⟨1, [40]⟩, by decide, (clear_correct _ (by decide)).2, by rfl, by rfl, ⟨1, [8]⟩, by rfl⟩

/-- Copying a short set over a longer one hides members of the old set, which a later `set_bit`
brings back. -/
theorem copy_resurrects :
    ∃ d s d' d'' : BS, WF d ∧ WF s ∧ Clean d ∧ Clean s ∧ copy d s = .ok d' ∧
      setBit d' 70 = .ok (d'', true) ∧ bit d' 65 = false ∧ bit d'' 65 = true := by
  refine ⟨⟨2, [1, 2]⟩, ⟨1, [1]⟩, ⟨1, [1, 2]⟩, ⟨2, [1, 66]⟩, by decide, by decide, ?_, ?_, by rfl, by rfl, by rfl, by rfl⟩
  · intro i hi
    have : 2 ≤ i := hi
    unfold wd
    rw [List.getElem?_eq_none (by simpa using this)]; rfl
  · intro i hi
    have : 1 ≤ i := hi
    unfold wd
    rw [List.getElem?_eq_none (by simpa using this)]; rfl

/-- The union of two sets into a longer destination drops members and still answers "not changed". -/
theorem op2_flag_wrong :
    ∃ d s d' : BS, WF d ∧ WF s ∧ Clean d ∧ op2 elIor d s s = .ok (d', false) ∧
      bit d 65 = true ∧ bit d' 65 = false := by
  refine ⟨⟨2, [1, 2]⟩, ⟨1, [1]⟩, ⟨1, [1, 2]⟩, by decide, by decide, ?_, by rfl, by rfl, by rfl⟩
  intro i hi
  have : 2 ≤ i := hi
  unfold wd
  rw [List.getElem?_eq_none (by simpa using this)]; rfl

/-! ## Histories -/

/-- Operations on a bank of numbered sets that keep them clean: everything except `clear`, `copy`
into a longer set, and word-wise operations into a destination that is not a source. -/
inductive Op
  | new (i bits : Nat)
  | set (i n : Nat)
  | unset (i n : Nat)
  | range (i nb len : Nat) (setp : Bool)
  | and (i j : Nat)
  | ior (i j : Nat)
  | andCompl (i j : Nat)
  | iorAnd (i j k : Nat)
  | iorAndCompl (i j k : Nat)

/-- Bank update. -/
def upd {α : Type} (m : Nat → α) (i : Nat) (x : α) : Nat → α := fun j => if j = i then x else m j

/-- One operation of the code; the flag is the answer of the function. -/
def step (m : Nat → BS) : Op → Res ((Nat → BS) × Bool)
  | .new i bits => .ok (upd m i (create bits), false)
  | .set i n => do let (b, r) ← setBit (m i) n; pure (upd m i b, r)
  | .unset i n => do let (b, r) ← clearBit (m i) n; pure (upd m i b, r)
  | .range i nb len s => do let (b, r) ← BitSet.range (m i) nb len s; pure (upd m i b, r)
  | .and i j => do let (b, r) ← op2 elAnd (m i) (m i) (m j); pure (upd m i b, r)
  | .ior i j => do let (b, r) ← op2 elIor (m i) (m i) (m j); pure (upd m i b, r)
  | .andCompl i j => do let (b, r) ← op2 elAndCompl (m i) (m i) (m j); pure (upd m i b, r)
  | .iorAnd i j k => do let (b, r) ← op3 elIorAnd (m i) (m i) (m j) (m k); pure (upd m i b, r)
  | .iorAndCompl i j k => do let (b, r) ← op3 elIorAndCompl (m i) (m i) (m j) (m k); pure (upd m i b, r)

/-- The operation on sets. -/
def absSet (m : Nat → Nat → Bool) : Op → Nat → (Nat → Bool)
  | .new i _, j => if j = i then fun _ => false else m j
  | .set i n, j => if j = i then fun x => decide (x = n) || m i x else m j
  | .unset i n, j => if j = i then fun x => !decide (x = n) && m i x else m j
  | .range i nb len s, j => if j = i then fun x => if nb ≤ x ∧ x < nb + len then s else m i x else m j
  | .and i k, j => if j = i then fun x => m i x && m k x else m j
  | .ior i k, j => if j = i then fun x => m i x || m k x else m j
  | .andCompl i k, j => if j = i then fun x => m i x && !m k x else m j
  | .iorAnd i k l, j => if j = i then fun x => m i x || (m k x && m l x) else m j
  | .iorAndCompl i k l, j => if j = i then fun x => m i x || (m k x && !m l x) else m j

/-- What the operation should answer: whether the set it works on changed (`new`: nothing). -/
def Answer (m : Nat → Nat → Bool) (op : Op) (r : Bool) : Prop :=
  match op with
  | .new _ _ => True
  | _ => r = true ↔ ∃ i x, absSet m op i x ≠ m i x

/-- A run of operations, collecting the answers. -/
def run : List Op → (Nat → BS) → Res ((Nat → BS) × List Bool)
  | [], m => .ok (m, [])
  | op :: ops, m => do
    let (m, r) ← step m op
    let (m, rs) ← run ops m
    pure (m, r :: rs)

/-- The same run on sets: the final sets, and the answers checked one by one. -/
def AbsRun : List Op → (Nat → Nat → Bool) → (Nat → Nat → Bool) → List Bool → Prop
  | [], m, m', rs => m' = m ∧ rs = []
  | op :: ops, m, m', rs => ∃ r rs', rs = r :: rs' ∧ Answer m op r ∧ AbsRun ops (absSet m op) m' rs'

/-- The sets a bank denotes. -/
def abs (m : Nat → BS) : Nat → Nat → Bool := fun i n => bit (m i) n

theorem abs_upd (m : Nat → BS) (i : Nat) (b : BS) : abs (upd m i b) = fun j => if j = i then bit b else abs m j := by
  funext j n
  unfold abs upd
  by_cases h : j = i
  · simp [h]
  · simp [h]

theorem answer_iff {m : Nat → BS} {i : Nat} {b : BS} {r : Bool} (h : r = true ↔ ∃ x, bit b x ≠ bit (m i) x) :
    r = true ↔ ∃ j x, abs (upd m i b) j x ≠ abs m j x := by
  rw [h]
  constructor
  · rintro ⟨x, hx⟩
    refine ⟨i, x, ?_⟩
    rw [abs_upd]; simpa [abs] using hx
  · rintro ⟨j, x, hx⟩
    rw [abs_upd] at hx
    by_cases hj : j = i
    · subst hj; exact ⟨x, by simpa [abs] using hx⟩
    · simp [hj] at hx

theorem step_correct (m : Nat → BS) (op : Op) (h : ∀ i, WF (m i) ∧ Clean (m i)) :
    ∃ m' r, step m op = .ok (m', r) ∧ (∀ i, WF (m' i) ∧ Clean (m' i)) ∧
      abs m' = absSet (abs m) op ∧ Answer (abs m) op r := by
  have hupd : ∀ (i : Nat) (b : BS), WF b → Clean b → ∀ j, WF (upd m i b j) ∧ Clean (upd m i b j) := by
    intro i b h1 h2 j
    unfold upd
    by_cases hj : j = i
    · rw [if_pos hj]; exact ⟨h1, h2⟩
    · rw [if_neg hj]; exact h j
  have hself : ∀ (i : Nat) (b : BS) (S : Nat → Bool), (∀ x, bit b x = S x) →
      abs (upd m i b) = fun j => if j = i then S else abs m j := by
    intro i b S hS
    rw [abs_upd]
    have : bit b = S := funext hS
    rw [this]
  cases op with
  | new i bits =>
    obtain ⟨h1, h2, h3⟩ := create_correct bits
    exact ⟨_, _, rfl, hupd i _ h1 h2, hself i _ (fun _ => false) h3, trivial⟩
  | set i n =>
    obtain ⟨b, e, h1, h2, h3⟩ := setBit_correct_partial (m i) (h i).1 (h i).2 n
    have hab := hself i b _ h3
    refine ⟨upd m i b, !bit (m i) n, ?_, hupd i _ h1 h2, hab, ?_⟩
    · show (setBit (m i) n >>= _) = _
      rw [e, Res.bind_ok]; rfl
    · show _ ↔ ∃ j x, absSet (abs m) (.set i n) j x ≠ abs m j x
      rw [show absSet (abs m) (.set i n) = abs (upd m i b) from hab.symm]
      apply answer_iff
      constructor
      · intro hr
        refine ⟨n, ?_⟩
        rw [h3]; simp at hr; simp [hr]
      · rintro ⟨x, hx⟩
        rw [h3] at hx
        by_cases hxn : x = n
        · subst hxn
          cases hb : bit (m i) x with
          | false => rfl
          | true => simp [hb] at hx
        · simp [hxn] at hx
  | unset i n =>
    obtain ⟨b, e, h1, h2, h3⟩ := clearBit_correct (m i) (h i).1 n
    have hab := hself i b _ h3
    refine ⟨upd m i b, bit (m i) n, ?_, hupd i _ h1 (h2 (h i).2), hab, ?_⟩
    · show (clearBit (m i) n >>= _) = _
      rw [e, Res.bind_ok]; rfl
    · show _ ↔ ∃ j x, absSet (abs m) (.unset i n) j x ≠ abs m j x
      rw [show absSet (abs m) (.unset i n) = abs (upd m i b) from hab.symm]
      apply answer_iff
      constructor
      · intro hr
        refine ⟨n, ?_⟩
        rw [h3, hr]; simp
      · rintro ⟨x, hx⟩
        rw [h3] at hx
        by_cases hxn : x = n
        · subst hxn
          cases hb : bit (m i) x with
          | true => rfl
          | false => simp [hb] at hx
        · simp [hxn] at hx
  | range i nb len s =>
    obtain ⟨b, ch, e, h1, h2, h3, h4⟩ := range_correct_partial (m i) (h i).1 (h i).2 nb len s
    have hab := hself i b _ h3
    refine ⟨upd m i b, ch, ?_, hupd i _ h1 h2, hab, ?_⟩
    · show (BitSet.range (m i) nb len s >>= _) = _
      rw [e, Res.bind_ok]; rfl
    · show _ ↔ ∃ j x, absSet (abs m) (.range i nb len s) j x ≠ abs m j x
      rw [show absSet (abs m) (.range i nb len s) = abs (upd m i b) from hab.symm]
      exact answer_iff h4
  | and i j =>
    obtain ⟨b, ch, e, h1, h2, h3⟩ := op2_correct _ _ and_bitwise (m i) (m i) (m j) (h i).1 (h i).1 (h j).1
    obtain ⟨h3, h4⟩ := h3 (h i).2 (by omega)
    have hab := hself i b _ h2
    refine ⟨upd m i b, ch, ?_, hupd i _ h1 h3, hab, ?_⟩
    · show (op2 elAnd (m i) (m i) (m j) >>= _) = _
      rw [e, Res.bind_ok]; rfl
    · show _ ↔ ∃ k x, absSet (abs m) (.and i j) k x ≠ abs m k x
      rw [show absSet (abs m) (.and i j) = abs (upd m i b) from hab.symm]
      exact answer_iff h4
  | ior i j =>
    obtain ⟨b, ch, e, h1, h2, h3⟩ := op2_correct _ _ ior_bitwise (m i) (m i) (m j) (h i).1 (h i).1 (h j).1
    obtain ⟨h3, h4⟩ := h3 (h i).2 (by omega)
    have hab := hself i b _ h2
    refine ⟨upd m i b, ch, ?_, hupd i _ h1 h3, hab, ?_⟩
    · show (op2 elIor (m i) (m i) (m j) >>= _) = _
      rw [e, Res.bind_ok]; rfl
    · show _ ↔ ∃ k x, absSet (abs m) (.ior i j) k x ≠ abs m k x
      rw [show absSet (abs m) (.ior i j) = abs (upd m i b) from hab.symm]
      exact answer_iff h4
  | andCompl i j =>
    obtain ⟨b, ch, e, h1, h2, h3⟩ := op2_correct _ _ and_compl_bitwise (m i) (m i) (m j) (h i).1 (h i).1 (h j).1
    obtain ⟨h3, h4⟩ := h3 (h i).2 (by omega)
    have hab := hself i b _ h2
    refine ⟨upd m i b, ch, ?_, hupd i _ h1 h3, hab, ?_⟩
    · show (op2 elAndCompl (m i) (m i) (m j) >>= _) = _
      rw [e, Res.bind_ok]; rfl
    · show _ ↔ ∃ k x, absSet (abs m) (.andCompl i j) k x ≠ abs m k x
      rw [show absSet (abs m) (.andCompl i j) = abs (upd m i b) from hab.symm]
      exact answer_iff h4
  | iorAnd i j k =>
    obtain ⟨b, ch, e, h1, h2, h3⟩ := op3_correct _ _ ior_and_bitwise (m i) (m i) (m j) (m k) (h i).1 (h i).1 (h j).1 (h k).1
    obtain ⟨h3, h4⟩ := h3 (h i).2 (by omega)
    have hab := hself i b _ h2
    refine ⟨upd m i b, ch, ?_, hupd i _ h1 h3, hab, ?_⟩
    · show (op3 elIorAnd (m i) (m i) (m j) (m k) >>= _) = _
      rw [e, Res.bind_ok]; rfl
    · show _ ↔ ∃ l x, absSet (abs m) (.iorAnd i j k) l x ≠ abs m l x
      rw [show absSet (abs m) (.iorAnd i j k) = abs (upd m i b) from hab.symm]
      exact answer_iff h4
  | iorAndCompl i j k =>
    obtain ⟨b, ch, e, h1, h2, h3⟩ := op3_correct _ _ ior_and_compl_bitwise (m i) (m i) (m j) (m k) (h i).1 (h i).1 (h j).1 (h k).1
    obtain ⟨h3, h4⟩ := h3 (h i).2 (by omega)
    have hab := hself i b _ h2
    refine ⟨upd m i b, ch, ?_, hupd i _ h1 h3, hab, ?_⟩
    · show (op3 elIorAndCompl (m i) (m i) (m j) (m k) >>= _) = _
      rw [e, Res.bind_ok]; rfl
    · show _ ↔ ∃ l x, absSet (abs m) (.iorAndCompl i j k) l x ≠ abs m l x
      rw [show absSet (abs m) (.iorAndCompl i j k) = abs (upd m i b) from hab.symm]
      exact answer_iff h4

/-- Over any history of these operations the bank behaves as a bank of sets, and every operation
answers whether it changed its set.  Missing: `clear`, `copy` and word-wise operations into a
destination longer than the sources, for which the statement is false (`clear_resurrects`,
`copy_resurrects`, `op2_flag_wrong`). -/
theorem history_correct_partial (ops : List Op) (m : Nat → BS) (h : ∀ i, WF (m i) ∧ Clean (m i)) :
    ∃ m' rs, run ops m = .ok (m', rs) ∧ AbsRun ops (abs m) (abs m') rs ∧ ∀ i, WF (m' i) ∧ Clean (m' i) := by
  induction ops generalizing m with
  | nil => exact ⟨m, [], rfl, ⟨rfl, rfl⟩, h⟩
  | cons op ops ih =>
    obtain ⟨m1, r, e1, h1, h2, h3⟩ := step_correct m op h
    obtain ⟨m2, rs, e2, h4, h5⟩ := ih m1 h1
    refine ⟨m2, r :: rs, ?_, ⟨r, rs, rfl, h3, by rw [← h2]; exact h4⟩, h5⟩
    show (step m op >>= _) = _
    rw [e1, Res.bind_ok]
    show (run ops m1 >>= _) = _
    rw [e2, Res.bind_ok]; rfl

/-- The hypotheses are met by freshly created sets. -/
example : ∀ i : Nat, WF ((fun _ => create 128) i : BS) ∧ Clean ((fun _ => create 128) i : BS) :=
  fun _ => ⟨(create_correct 128).1, (create_correct 128).2.1⟩

example : (setBit (create 0) 130 >>= fun x => iterate x.1 300 0) = .ok [130] := by rfl

end Verif.BitSet
