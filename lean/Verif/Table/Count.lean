import Verif.Table.Resize
/-! Counting of array-indexable keys (`numusearray`, `numusehash`, `countint`) and `computesizes`. -/
namespace Verif.Table
open Verif.Arith (LInt)
variable {α V : Type}

/-- non-nil values among the first `n` array slots -/
def P (arr : Nat → Option V) (n : Nat) : Nat := (List.range n).countP (fun i => (arr i).isSome)

theorem P_succ (arr : Nat → Option V) (n : Nat) : P arr (n + 1) = P arr n + if (arr n).isSome then 1 else 0 := by
  unfold P; rw [List.range_succ, List.countP_append]; simp [List.countP_cons]

theorem P_mono (arr : Nat → Option V) {m n : Nat} (h : m ≤ n) : P arr m ≤ P arr n := by
  induction h with
  | refl => exact Nat.le_refl _
  | step _ ih => rw [P_succ]; omega

theorem P_le (arr : Nat → Option V) (n : Nat) : P arr n ≤ n := by
  induction n with
  | zero => simp [P]
  | succ n ih => rw [P_succ]; split <;> omega

theorem countSlice_eq (arr : Nat → Option V) : ∀ cnt i, countSlice arr cnt (i + 1) + P arr i = P arr (i + cnt) := by
  intro cnt
  induction cnt with
  | zero => intro i; simp [countSlice]
  | succ c ih =>
    intro i
    have := ih (i + 1)
    rw [P_succ] at this
    unfold countSlice
    rw [show i + (c + 1) = i + 1 + c by omega, ← this, Nat.add_sub_cancel]
    omega

theorem cntArr_eq (arr : Nat → Option V) : ∀ cnt i, cntArr arr i cnt + P arr i = P arr (i + cnt) := by
  intro cnt
  induction cnt with
  | zero => intro i; simp [cntArr]
  | succ c ih =>
    intro i
    have := ih (i + 1)
    rw [P_succ] at this
    have hc : cntArr arr i (c + 1) = (if (arr i).isSome then 1 else 0) + cntArr arr (i + 1) c := by
      unfold cntArr; rw [List.range'_succ, List.countP_cons]; omega
    rw [show i + (c + 1) = i + 1 + c by omega, ← this, hc]
    omega

theorem half_pow_succ (j : Nat) : 2 ^ (j + 1) / 2 = 2 ^ j := by
  rw [Nat.pow_succ, Nat.mul_div_cancel _ (by omega)]

theorem half_pow_mono {i j : Nat} (h : i ≤ j) : 2 ^ i / 2 ≤ 2 ^ j / 2 :=
  Nat.div_le_div_right (Nat.pow_le_pow_right (by omega) h)

theorem half_pow_lt (j : Nat) : 2 ^ j / 2 < 2 ^ j := Nat.div_lt_self (Nat.two_pow_pos j) (by omega)

theorem numuseLoop_spec (arr : Nat → Option V) (asize : Nat) (ha : asize ≤ 2 ^ 31) :
    ∀ rem lg i ause (nums : Nat → Nat), lg + rem = 32 → i = min (2 ^ lg / 2) asize + 1 →
    ∃ nums', numuseLoop arr asize rem lg i ause nums =
        .ok (ause + (P arr asize - P arr (min (2 ^ lg / 2) asize)), nums') ∧
      ∀ j, nums' j = nums j + if lg ≤ j ∧ j < 32 then
        P arr (min (2 ^ j) asize) - P arr (min (2 ^ j / 2) asize) else 0 := by
  intro rem
  induction rem with
  | zero =>
    intro lg i ause nums hl hi
    have : lg = 32 := by omega
    subst this
    refine ⟨nums, ?_, ?_⟩
    · unfold numuseLoop
      have : min (2 ^ 32 / 2) asize = asize := by omega
      rw [this]; simp
    · intro j; rw [if_neg (by omega)]; rfl
  | succ rem ih =>
    intro lg i ause nums hl hi
    unfold numuseLoop
    dsimp only
    have hlim : (if 2 ^ lg > asize then asize else 2 ^ lg) = min (2 ^ lg) asize := by split <;> omega
    rw [hlim]
    by_cases hb : 2 ^ lg > asize ∧ i > min (2 ^ lg) asize
    · rw [if_pos hb]
      have hge : asize ≤ 2 ^ lg / 2 := by omega
      refine ⟨nums, ?_, ?_⟩
      · rw [show min (2 ^ lg / 2) asize = asize by omega]; simp
      · intro j
        split
        · have := half_pow_mono (i := lg) (j := j) (by omega)
          have := half_pow_lt j
          rw [show min (2 ^ j / 2) asize = asize by omega, show min (2 ^ j) asize = asize by omega]
          omega
        · rfl
    · rw [if_neg hb]
      have h32 : lg < 32 := by omega
      have hhl := half_pow_lt lg
      have e1 : i + (min (2 ^ lg) asize + 1 - i) = min (2 ^ (lg + 1) / 2) asize + 1 := by
        rw [half_pow_succ]; omega
      unfold addNum
      rw [if_pos h32]
      simp only [Res.bind_ok]
      obtain ⟨nums', h1, h2⟩ := ih (lg + 1) (i + (min (2 ^ lg) asize + 1 - i))
        (ause + countSlice arr (min (2 ^ lg) asize + 1 - i) i)
        (upd nums lg (nums lg + countSlice arr (min (2 ^ lg) asize + 1 - i) i)) (by omega) e1
      have hcs : countSlice arr (min (2 ^ lg) asize + 1 - i) i + P arr (min (2 ^ lg / 2) asize) =
          P arr (min (2 ^ lg) asize) := by
        have := countSlice_eq arr (min (2 ^ lg) asize + 1 - i) (min (2 ^ lg / 2) asize)
        rw [← hi] at this
        rw [this]; congr 1; omega
      have hm : P arr (min (2 ^ lg) asize) ≤ P arr asize := P_mono arr (by omega)
      refine ⟨nums', ?_, ?_⟩
      · rw [h1, half_pow_succ]
        congr 2
        omega
      · intro j
        rw [h2 j]
        unfold upd
        by_cases hj : j = lg
        · subst hj
          rw [if_pos rfl, if_neg (by omega), if_pos ⟨by omega, h32⟩]
          omega
        · rw [if_neg hj]
          by_cases hj2 : lg ≤ j ∧ j < 32
          · rw [if_pos hj2, if_pos ⟨by omega, by omega⟩]
          · rw [if_neg hj2, if_neg (by omega)]

/-- `nums` is the slice-count array of a set of positive integers of which `C n` are at most `n` -/
def NumsOK (nums : Nat → Nat) (C : Nat → Nat) : Prop := ∀ j, j < 32 → nums j + C (2 ^ j / 2) = C (2 ^ j)

theorem numusearray_spec (t : Tbl α V) (ha : t.asize ≤ 2 ^ 31) :
    ∃ nums, numusearray t (fun _ => 0) = .ok (P t.arr t.asize, nums) ∧
      NumsOK nums (fun n => P t.arr (min n t.asize)) := by
  unfold numusearray
  obtain ⟨nums, h1, h2⟩ := numuseLoop_spec t.arr t.asize ha 32 0 1 0 (fun _ => 0) rfl (by simp)
  refine ⟨nums, ?_, ?_⟩
  · rw [h1]; simp [P]
  · intro j hj
    rw [h2 j, if_pos ⟨by omega, hj⟩]
    have : P t.arr (min (2 ^ j / 2) t.asize) ≤ P t.arr (min (2 ^ j) t.asize) :=
      P_mono _ (by have := half_pow_lt j; omega)
    simp only []
    omega

/-- is the key an integer in `1..n`? -/
def inRange (n : Nat) : Key α → Bool
  | .int i => (arrIdx n i).isSome
  | .oth _ => false

theorem toNat_sub_one {i : LInt} (h : i ≠ 0) : (i - 1).toNat + 1 = i.toNat := by
  have h0 : i.toNat ≠ 0 := fun e => h (BitVec.eq_of_toNat_eq e)
  have := i.isLt
  rw [BitVec.toNat_sub]
  have h1 : (1 : LInt).toNat = 1 := rfl
  rw [h1]
  omega

theorem arrayindex_int {i : LInt} : arrayindex (.int i : Key α) = if 1 ≤ i.toNat ∧ i.toNat ≤ 2 ^ 31 then i.toNat else 0 := by
  unfold arrayindex
  have := i.isLt
  have h : (0 < i.toInt ∧ i.toNat ≤ 2 ^ 31) ↔ (1 ≤ i.toNat ∧ i.toNat ≤ 2 ^ 31) := by
    rw [BitVec.toInt_eq_toNat_cond]
    constructor
    · rintro ⟨a, b⟩; split at a <;> omega
    · rintro ⟨a, b⟩; rw [if_pos (by omega)]; omega
  simp only [h]

theorem inRange_iff {n : Nat} (hn : n ≤ 2 ^ 31) (k : Key α) :
    inRange n k = true ↔ arrayindex k ≠ 0 ∧ arrayindex k ≤ n := by
  cases k with
  | oth x => simp [inRange, arrayindex]
  | int i =>
    rw [arrayindex_int]
    unfold inRange arrIdx
    dsimp only
    have hlt := i.isLt
    by_cases h0 : i = 0
    · subst h0
      have : ((0 : LInt) - 1).toNat = 2 ^ 64 - 1 := by decide
      rw [this, if_neg (by omega)]
      simp
    · have := toNat_sub_one h0
      by_cases h : (i - 1).toNat < n
      · rw [if_pos h, if_pos (by omega)]; simp; omega
      · rw [if_neg h]
        simp only [Option.isSome_none, Bool.false_eq_true, false_iff]
        split <;> omega

theorem countint_spec (k : Key α) (nums C : Nat → Nat) (h : NumsOK nums C) :
    ∃ nums', countint k nums = .ok ((if inRange (2 ^ 31) k then 1 else 0), nums') ∧
      NumsOK nums' (fun n => C n + if inRange n k then 1 else 0) := by
  unfold countint
  dsimp only
  by_cases h0 : arrayindex k ≠ 0
  · rw [if_pos h0]
    have hle : arrayindex k ≤ 2 ^ 31 := by
      cases k with
      | oth x => simp [arrayindex]
      | int i => rw [arrayindex_int]; split <;> omega
    obtain ⟨lg, h1, h2⟩ := Arith.ceillog2_least (arrayindex k) (by omega) (by omega)
    rw [h1]
    dsimp only
    have hlg : lg ≤ 31 := (h2 31).1 hle
    unfold addNum
    rw [if_pos (by omega)]
    simp only [Res.bind_ok, Res.pure_eq]
    have hr : inRange (2 ^ 31) k = true := (inRange_iff (Nat.le_refl _) k).2 ⟨h0, hle⟩
    rw [hr]
    refine ⟨_, rfl, ?_⟩
    intro j hj
    have hj' := h j hj
    have hjp : 2 ^ j ≤ 2 ^ 31 := Nat.pow_le_pow_right (by omega) (by omega)
    have hjh := half_pow_lt j
    have a1 : (inRange (2 ^ j) k = true) ↔ lg ≤ j := by
      rw [inRange_iff hjp, ← h2]; exact ⟨fun h => h.2, fun h => ⟨h0, h⟩⟩
    have a2 : (inRange (2 ^ j / 2) k = true) ↔ lg < j := by
      rw [inRange_iff (by omega)]
      cases j with
      | zero => simp
      | succ j => rw [half_pow_succ, h2]; exact ⟨fun h => by omega, fun h => ⟨h0, by omega⟩⟩
    simp only [a1, a2, upd]
    by_cases e : j = lg
    · subst e; rw [if_pos rfl, if_neg (by omega), if_pos (by omega)]; omega
    · rw [if_neg e]; split <;> split <;> omega
  · rw [if_neg h0]
    have hf : ∀ n, n ≤ 2 ^ 31 → inRange n k = false := by
      intro n hn
      cases hc : inRange n k
      · rfl
      · exact absurd ((inRange_iff hn k).1 hc).1 h0
    rw [hf _ (Nat.le_refl _)]
    refine ⟨nums, rfl, ?_⟩
    intro j hj
    have hjp : 2 ^ j ≤ 2 ^ 31 := Nat.pow_le_pow_right (by omega) (by omega)
    have hjh := half_pow_lt j
    have := h j hj
    simp only [hf _ hjp, hf (2 ^ j / 2) (by omega)]
    simpa using this

/-- among the first `m` nodes, those with a non-nil value and an integer key in `1..n` -/
def CH (node : Nat → Node α V) (m n : Nat) : Nat :=
  (List.range m).countP (fun j => (node j).val.isSome && keyInArr n (node j).key)

theorem CH_succ (node : Nat → Node α V) (m n : Nat) :
    CH node (m + 1) n = CH node m n + if ((node m).val.isSome && keyInArr n (node m).key) then 1 else 0 := by
  unfold CH; rw [List.range_succ, List.countP_append]; simp [List.countP_cons]

theorem numusehash_spec (node : Nat → Node α V) : ∀ m tu au nums C, NumsOK nums C →
    ∃ nums', numusehash node m tu au nums =
      .ok (tu + (List.range m).countP (fun j => (node j).val.isSome), au + CH node m (2 ^ 31), nums') ∧
      NumsOK nums' (fun n => C n + CH node m n) := by
  intro m
  induction m with
  | zero =>
    intro tu au nums C h
    exact ⟨nums, by simp [numusehash, CH], by simpa [CH] using h⟩
  | succ m ih =>
    intro tu au nums C h
    have hc : (List.range (m + 1)).countP (fun j => (node j).val.isSome) =
        (List.range m).countP (fun j => (node j).val.isSome) + if (node m).val.isSome then 1 else 0 := by
      rw [List.range_succ, List.countP_append]; simp [List.countP_cons]
    rw [hc]
    simp only [CH_succ]
    unfold numusehash
    cases hv : (node m).val with
    | none =>
      simpa [hv] using ih tu au nums C h
    | some v =>
      simp only []
      cases hk : (node m).key with
      | live k o =>
        simp only []
        obtain ⟨nums1, g1, g2⟩ := countint_spec k nums C h
        rw [g1]
        simp only [Res.bind_ok]
        obtain ⟨nums', h1, h2⟩ := ih (tu + 1) (au + if inRange (2 ^ 31) k then 1 else 0) nums1 _ g2
        have hkr : ∀ n, keyInArr n (.live k o : NKey α) = inRange n k := by
          intro n; cases k <;> rfl
        refine ⟨nums', ?_, ?_⟩
        · rw [h1]; simp only [hkr, Option.isSome_some, Bool.true_and, if_true]
          congr 2
          · omega
          · congr 1; omega
        · intro j hj
          have := h2 j hj
          simp only [hkr, Option.isSome_some, Bool.true_and] at this ⊢
          omega
      | nil =>
        simp only []
        obtain ⟨nums', h1, h2⟩ := ih (tu + 1) au nums C h
        refine ⟨nums', ?_, by simpa [keyInArr] using h2⟩
        rw [h1]; simp only [keyInArr, Option.isSome_some, Bool.and_false, if_true, Bool.false_eq_true, if_false, Nat.add_zero]
        congr 2; omega
      | dead k o =>
        simp only []
        obtain ⟨nums', h1, h2⟩ := ih (tu + 1) au nums C h
        refine ⟨nums', ?_, by simpa [keyInArr] using h2⟩
        rw [h1]; simp only [keyInArr, Option.isSome_some, Bool.and_false, if_true, Bool.false_eq_true, if_false, Nat.add_zero]
        congr 2; omega

/-- what `computesizes` has to deliver -/
structure Optimal (C : Nat → Nat) (opt na : Nat) : Prop where
  shape : opt = 0 ∨ ∃ k, k < 32 ∧ opt = 2 ^ k ∧ 2 ^ k / 2 < C (2 ^ k)
  na : na = C opt
  best : ∀ k, k < 32 → 2 ^ k / 2 < C (2 ^ k) → 2 ^ k ≤ opt

theorem csLoop_spec (nums C : Nat → Nat) (T : Nat) (h : NumsOK nums C)
    (hT : ∀ n, n ≤ 2 ^ 31 → C n ≤ T) (hd : ∀ n, n ≤ 2 ^ 31 → C n ≤ n) :
    ∀ fuel i a na opt, i ≤ 32 → 33 ≤ i + fuel → a = C (2 ^ i / 2) → na = C opt →
    (opt = 0 ∨ ∃ k, k < 32 ∧ opt = 2 ^ k ∧ 2 ^ k / 2 < C (2 ^ k)) →
    (∀ k, k < i → 2 ^ k / 2 < C (2 ^ k) → 2 ^ k ≤ opt) → (opt = 0 ∨ opt < 2 ^ i) →
    ∃ o n, csLoop nums T fuel i (2 ^ i % 2 ^ 32) a na opt = .ok (o, n) ∧ Optimal C o n := by
  intro fuel
  induction fuel with
  | zero => intro i _ _ _ _ h2; omega
  | succ fuel ih =>
    intro i a na opt hi hf ha hna hsh hbest hopt
    unfold csLoop
    by_cases hi32 : i = 32
    · subst hi32
      rw [if_neg (by simp)]
      exact ⟨opt, na, rfl, hsh, hna, hbest⟩
    · have hil : i < 32 := by omega
      have hp : 2 ^ i ≤ 2 ^ 31 := Nat.pow_le_pow_right (by omega) (by omega)
      have hpm : 2 ^ i % 2 ^ 32 = 2 ^ i := Nat.mod_eq_of_lt (by omega)
      have hpp := Nat.two_pow_pos i
      have hsucc : 2 ^ (i + 1) = 2 ^ i * 2 := Nat.pow_succ ..
      rw [hpm]
      by_cases hc : 2 ^ i > 0 ∧ T > 2 ^ i / 2
      · rw [if_pos hc, if_neg (by omega)]
        dsimp only
        rw [← hsucc]
        have hn := h i hil
        have hh := half_pow_succ i
        by_cases hz : nums i > 0
        · rw [if_pos hz]
          have haC : a + nums i = C (2 ^ i) := by omega
          by_cases hm : a + nums i > 2 ^ i / 2
          · rw [if_pos hm]
            apply ih (i + 1) _ _ _ (by omega) (by omega)
            · rw [hh]; exact haC
            · exact haC
            · exact .inr ⟨i, hil, rfl, by omega⟩
            · intro k hk _; exact Nat.pow_le_pow_right (by omega) (by omega)
            · right; omega
          · rw [if_neg hm]
            apply ih (i + 1) _ _ _ (by omega) (by omega)
            · rw [hh]; exact haC
            · exact hna
            · exact hsh
            · intro k hk hkc
              by_cases e : k = i
              · subst e; omega
              · exact hbest k (by omega) hkc
            · omega
        · rw [if_neg hz]
          apply ih (i + 1) _ _ _ (by omega) (by omega)
          · rw [hh]; omega
          · exact hna
          · exact hsh
          · intro k hk hkc
            by_cases e : k = i
            · subst e
              have := hd (2 ^ k / 2) (by omega)
              omega
            · exact hbest k (by omega) hkc
          · omega
      · rw [if_neg hc]
        refine ⟨opt, na, rfl, hsh, hna, ?_⟩
        intro k hk hkc
        by_cases hki : k < i
        · exact hbest k hki hkc
        · have h1 := half_pow_mono (i := i) (j := k) (by omega)
          have h2 : 2 ^ k ≤ 2 ^ 31 := Nat.pow_le_pow_right (by omega) (by omega)
          have := hT (2 ^ k) h2
          omega

theorem computesizes_spec (nums C : Nat → Nat) (T : Nat) (h : NumsOK nums C) (h0 : C 0 = 0)
    (hT : ∀ n, n ≤ 2 ^ 31 → C n ≤ T) (hd : ∀ n, n ≤ 2 ^ 31 → C n ≤ n) :
    ∃ o n, computesizes nums T = .ok (o, n) ∧ Optimal C o n :=
  csLoop_spec nums C T h hT hd 34 0 0 0 0 (by omega) (by omega) (by simp [h0]) h0.symm (.inl rfl)
    (by intro k hk; omega) (.inl rfl)

end Verif.Table
