import Verif.BitSet.Lemmas

/-! What the loops of bitset.c compute. -/
namespace Verif.BitSet

theorem opLoop_spec (f : Nat → Res Nat) (F : Nat → Nat) : ∀ (k i : Nat) (v : List Nat) (b : Nat) (ch : Bool),
    (∀ j, i ≤ j → j < i + k → f j = .ok (F j)) → i + k ≤ v.length → b ≤ i →
    ∃ v' b' ch', opLoop f k i v b ch = .ok (v', b', ch') ∧ v'.length = v.length ∧
      (∀ j, wd v' j = if i ≤ j ∧ j < i + k then F j else wd v j) ∧
      b ≤ b' ∧ b' ≤ i + k ∧ (∀ j, b' ≤ j → i ≤ j → j < i + k → F j = 0) ∧
      (ch' = true ↔ ch = true ∨ ∃ j, i ≤ j ∧ j < i + k ∧ wd v j ≠ F j) ∧
      ((∀ w ∈ v, w < 2 ^ 64) → (∀ j, i ≤ j → j < i + k → F j < 2 ^ 64) → ∀ w ∈ v', w < 2 ^ 64) := by
  intro k
  induction k with
  | zero =>
    intro i v b ch _ _ hb
    refine ⟨v, b, ch, rfl, rfl, ?_, Nat.le_refl _, by omega, ?_, ?_, ?_⟩
    · intro j; rw [if_neg (by omega)]
    · intro j _ _ _; omega
    · constructor
      · intro h; exact Or.inl h
      · rintro (h | ⟨j, h1, h2, _⟩)
        · exact h
        · omega
    · intro h _; exact h
  | succ k ih =>
    intro i v b ch hf hl hb
    have hi : i < v.length := by omega
    have e : opLoop f (k + 1) i v b ch
        = opLoop f k (i + 1) (v.set i (F i)) (if F i ≠ 0 then i + 1 else b) (ch || wd v i != F i) := by
      show (get v i >>= _) = _
      rw [get_ok hi, Res.bind_ok, hf i (Nat.le_refl _) (by omega), Res.bind_ok, put_ok _ hi, Res.bind_ok]
    obtain ⟨v', b', ch', h1, h2, h3, h4, h5, h6, h7, h8⟩ := ih (i + 1) (v.set i (F i))
      (if F i ≠ 0 then i + 1 else b) (ch || wd v i != F i)
      (fun j a b => hf j (by omega) (by omega)) (by rw [List.length_set]; omega) (by split <;> omega)
    refine ⟨v', b', ch', by rw [e, h1], by rw [h2, List.length_set], ?_, ?_, by omega, ?_, ?_, ?_⟩
    · intro j
      rw [h3 j]
      by_cases hj : i + 1 ≤ j ∧ j < i + 1 + k
      · rw [if_pos hj, if_pos (by omega)]
      · rw [if_neg hj, wd_set hi]
        by_cases hji : j = i
        · rw [if_pos hji, if_pos (by omega), hji]
        · rw [if_neg hji, if_neg (by omega)]
    · split at h4 <;> omega
    · intro j hj hij hjk
      by_cases hji : j = i
      · subst hji
        by_cases hz : F j = 0
        · exact hz
        · rw [if_pos hz] at h4; omega
      · exact h6 j hj (by omega) (by omega)
    · rw [h7]
      simp only [Bool.or_eq_true, bne_iff_ne, ne_eq]
      constructor
      · rintro ((h | h) | ⟨j, a, b, c⟩)
        · exact Or.inl h
        · exact Or.inr ⟨i, Nat.le_refl _, by omega, h⟩
        · rw [wd_set hi, if_neg (by omega)] at c
          exact Or.inr ⟨j, by omega, by omega, c⟩
      · rintro (h | ⟨j, a, b, c⟩)
        · exact Or.inl (Or.inl h)
        · by_cases hji : j = i
          · subst hji; exact Or.inl (Or.inr c)
          · refine Or.inr ⟨j, by omega, by omega, ?_⟩
            rw [wd_set hi, if_neg hji]; exact c
    · intro hv hF
      exact h8 (mem_set_lt hv (hF i (Nat.le_refl _) (by omega))) (fun j a b => hF j (by omega) (by omega))

theorem zeros_spec (v : List Nat) : ∀ (k i : Nat), i + k ≤ v.length →
    zeros v k i = .ok (decide (∀ j, j < i + k → i ≤ j → wd v j = 0)) := by
  intro k
  induction k with
  | zero => intro i _; simp [zeros]; omega
  | succ k ih =>
    intro i h
    show (get v i >>= _) = _
    rw [get_ok (by omega), Res.bind_ok]
    by_cases hw : wd v i = 0
    · rw [if_neg (by simpa using hw), ih (i + 1) (by omega)]
      congr 1
      rw [decide_eq_decide]
      constructor
      · intro hh j a b
        by_cases hji : j = i
        · rw [hji]; exact hw
        · exact hh j (by omega) (by omega)
      · intro hh j a b; exact hh j (by omega) (by omega)
    · rw [if_pos hw]
      show Res.ok false = _
      congr 1
      symm
      rw [decide_eq_false_iff_not]
      intro hh; exact hw (hh i (by omega) (Nat.le_refl _))

theorem meets_spec (v1 v2 : List Nat) : ∀ (k i : Nat), i + k ≤ v1.length → i + k ≤ v2.length →
    meets v1 v2 k i = .ok (decide (∃ j, j < i + k ∧ i ≤ j ∧ wd v1 j &&& wd v2 j ≠ 0)) := by
  intro k
  induction k with
  | zero => intro i _ _; simp [meets]; intros; omega
  | succ k ih =>
    intro i h1 h2
    show (get v1 i >>= _) = _
    rw [get_ok (by omega), Res.bind_ok, get_ok (by omega), Res.bind_ok]
    by_cases hw : wd v1 i &&& wd v2 i = 0
    · rw [if_neg (by simpa using hw), ih (i + 1) (by omega) (by omega)]
      congr 1
      rw [decide_eq_decide]
      constructor
      · rintro ⟨j, a, b, c⟩; exact ⟨j, by omega, by omega, c⟩
      · rintro ⟨j, a, b, c⟩
        by_cases hji : j = i
        · exact absurd hw (hji ▸ c)
        · exact ⟨j, by omega, by omega, c⟩
    · rw [if_pos hw]
      show Res.ok true = _
      congr 1
      symm
      rw [decide_eq_true_iff]
      exact ⟨i, by omega, Nat.le_refl _, hw⟩

theorem countP_range'_shift (p : Nat → Bool) : ∀ (n s : Nat),
    (List.range' (s + 1) n).countP p = (List.range' s n).countP (fun i => p (i + 1)) := by
  intro n
  induction n with
  | zero => intro s; rfl
  | succ n ih =>
    intro s
    rw [List.range'_succ, List.range'_succ, List.countP_cons, List.countP_cons, ih]

theorem popLoop_spec : ∀ (fuel el c : Nat), el < 2 ^ fuel →
    popLoop fuel el c = .ok (c + (List.range' 0 fuel).countP (fun i => el.testBit i)) := by
  intro fuel
  induction fuel with
  | zero =>
    intro el c h
    have : el = 0 := by simpa using h
    subst this; rfl
  | succ fuel ih =>
    intro el c h
    cases el with
    | zero =>
      show Res.ok c = _
      congr 1
      have : (List.range' 0 (fuel + 1)).countP (fun i => Nat.testBit 0 i) = 0 := by
        rw [List.countP_eq_zero]; intro a _; simp
      omega
    | succ el =>
      show popLoop fuel ((el + 1) >>> 1) _ = _
      rw [ih _ _ (by rw [Nat.shiftRight_eq_div_pow]; rw [Nat.pow_succ] at h; omega)]
      congr 1
      rw [List.range'_succ, List.countP_cons, countP_range'_shift]
      have e1 : ∀ i, ((el + 1) >>> 1).testBit i = (el + 1).testBit (i + 1) := by
        intro i; rw [Nat.testBit_shiftRight, Nat.add_comm 1 i]
      simp only [e1]
      have e2 : (((el + 1) &&& 1) ≠ 0) ↔ (el + 1).testBit 0 = true := by
        have := bit_test (el + 1) 0
        rw [← this]; simp
      by_cases hb : (el + 1).testBit 0 = true
      · rw [if_pos (e2.2 hb), if_pos hb]; omega
      · rw [if_neg (fun h => hb (e2.1 h)), if_neg hb]; omega

theorem countP_shift (p : Nat → Bool) : ∀ (n s d : Nat),
    (List.range' (d + s) n).countP p = (List.range' s n).countP (fun i => p (d + i)) := by
  intro n
  induction n with
  | zero => intro s d; rfl
  | succ n ih =>
    intro s d
    rw [List.range'_succ, List.range'_succ, List.countP_cons, List.countP_cons,
      Nat.add_assoc d s 1, ih]

theorem countLoop_spec (v : List Nat) (hv : ∀ w ∈ v, w < 2 ^ 64) : ∀ (k i c : Nat), i + k ≤ v.length →
    countLoop v k i c
      = .ok (c + (List.range' (64 * i) (64 * k)).countP (fun n => (wd v (n / 64)).testBit (n % 64))) := by
  intro k
  induction k with
  | zero => intro i c _; rfl
  | succ k ih =>
    intro i c h
    show (get v i >>= _) = _
    rw [get_ok (by omega), Res.bind_ok, popLoop_spec _ _ _ (wd_lt hv i), Res.bind_ok, ih _ _ (by omega)]
    congr 1
    have e : 64 * (k + 1) = 64 + 64 * k := by omega
    have e2 : (List.range' (64 * i) (64 * (k + 1))) = List.range' (64 * i) 64 ++ List.range' (64 * (i + 1)) (64 * k) := by
      rw [e, ← List.range'_append]; simp [Nat.mul_add]
    rw [e2, List.countP_append, ← Nat.add_assoc]
    congr 2
    have := countP_shift (fun n => (wd v (n / 64)).testBit (n % 64)) 64 0 (64 * i)
    rw [Nat.add_zero] at this
    rw [this]
    apply List.countP_congr
    intro j hj
    rw [List.mem_range'_1] at hj
    have h1 : (64 * i + j) / 64 = i := by omega
    have h2 : (64 * i + j) % 64 = j := by omega
    rw [h1, h2]

/-- The first member at or after `n`, below `m`. -/
theorem scanWord_spec : ∀ (fuel el n : Nat), el < 2 ^ fuel →
    scanWord fuel el n = .ok ((List.range' n fuel).find? (fun m => el.testBit (m - n))) := by
  intro fuel
  induction fuel with
  | zero =>
    intro el n h
    have : el = 0 := by simpa using h
    subst this; rfl
  | succ fuel ih =>
    intro el n h
    cases el with
    | zero =>
      show Res.ok none = _
      congr 1
      symm
      rw [List.find?_eq_none]; intro a _; simp
    | succ el =>
      have e2 : (((el + 1) &&& 1) ≠ 0) ↔ (el + 1).testBit 0 = true := by
        have := bit_test (el + 1) 0
        rw [← this]; simp
      show (if ((el + 1) &&& 1) ≠ 0 then Res.ok (some n) else scanWord fuel ((el + 1) >>> 1) (n + 1)) = _
      rw [List.range'_succ]
      by_cases hb : (el + 1).testBit 0 = true
      · rw [if_pos (e2.2 hb), List.find?_cons_of_pos (by simpa using hb)]
      · rw [if_neg (fun h => hb (e2.1 h)), List.find?_cons_of_neg (by simpa using hb),
          ih _ _ (by rw [Nat.shiftRight_eq_div_pow]; rw [Nat.pow_succ] at h; omega)]
        congr 1
        have : ∀ l : List Nat, (∀ a ∈ l, n + 1 ≤ a) →
            l.find? (fun m => ((el + 1) >>> 1).testBit (m - (n + 1))) = l.find? (fun m => (el + 1).testBit (m - n)) := by
          intro l
          induction l with
          | nil => intro _; rfl
          | cons a l il =>
            intro hl
            have ha := hl a (List.mem_cons_self ..)
            have : ((el + 1) >>> 1).testBit (a - (n + 1)) = (el + 1).testBit (a - n) := by
              rw [Nat.testBit_shiftRight]; congr 1; omega
            rw [List.find?_cons, List.find?_cons, this, il (fun x hx => hl x (List.mem_cons_of_mem _ hx))]
        exact this _ (fun a ha => (List.mem_range'_1.1 ha).1)

theorem find?_congr' {p q : Nat → Bool} {l : List Nat} (h : ∀ a ∈ l, p a = q a) : l.find? p = l.find? q := by
  induction l with
  | nil => rfl
  | cons a l ih =>
    rw [List.find?_cons, List.find?_cons, h a (List.mem_cons_self ..), ih (fun x hx => h x (List.mem_cons_of_mem _ hx))]

theorem scan_spec (v : List Nat) (hv : ∀ w ∈ v, w < 2 ^ 64) : ∀ (k cur n : Nat), cur + k ≤ v.length → n / 64 = cur →
    scan v k cur n = .ok ((List.range' n (64 * (cur + k) - n)).find? (fun m => (wd v (m / 64)).testBit (m % 64))) := by
  intro k
  induction k with
  | zero =>
    intro cur n _ hc
    have : 64 * (cur + 0) - n = 0 := by omega
    rw [this]; rfl
  | succ k ih =>
    intro cur n h hc
    have hlt := wd_lt hv cur
    show (get v cur >>= _) = _
    rw [get_ok (by omega), Res.bind_ok]
    have hsplit : List.range' n (64 * (cur + (k + 1)) - n)
        = List.range' n (64 - n % 64) ++ List.range' ((cur + 1) * 64) (64 * (cur + 1 + k) - (cur + 1) * 64) := by
      have e1 : 64 * (cur + (k + 1)) - n = (64 - n % 64) + (64 * (cur + 1 + k) - (cur + 1) * 64) := by omega
      have e2 : n + 1 * (64 - n % 64) = (cur + 1) * 64 := by omega
      rw [e1, ← List.range'_append, e2]
    have hfst : (if wd v cur ≠ 0 then scanWord 64 (wd v cur >>> (n % 64)) n else Res.ok none)
        = .ok ((List.range' n (64 - n % 64)).find? (fun m => (wd v (m / 64)).testBit (m % 64))) := by
      have e3 : (List.range' n (64 - n % 64)).find? (fun m => (wd v (m / 64)).testBit (m % 64))
          = (List.range' n (64 - n % 64)).find? (fun m => (wd v cur >>> (n % 64)).testBit (m - n)) := by
        apply find?_congr'
        intro a ha
        have ha := List.mem_range'_1.1 ha
        have : a / 64 = cur := by omega
        rw [this, Nat.testBit_shiftRight]
        congr 1; omega
      by_cases hz : wd v cur = 0
      · rw [if_neg (by simpa using hz), e3, hz]
        congr 1
        symm
        rw [List.find?_eq_none]; intro a _; simp
      · rw [if_pos hz, scanWord_spec _ _ _ (by
          rw [Nat.shiftRight_eq_div_pow]; exact Nat.lt_of_le_of_lt (Nat.div_le_self _ _) hlt), e3]
        congr 1
        have e4 : List.range' n 64 = List.range' n (64 - n % 64) ++ List.range' (n + 1 * (64 - n % 64)) (n % 64) := by
          rw [List.range'_append]; congr 1; omega
        rw [e4, List.find?_append]
        have e5 : (List.range' (n + 1 * (64 - n % 64)) (n % 64)).find? (fun m => (wd v cur >>> (n % 64)).testBit (m - n)) = none := by
          rw [List.find?_eq_none]
          intro a ha
          have ha := List.mem_range'_1.1 ha
          rw [Nat.testBit_shiftRight, testBit_big hlt (by omega)]
          simp
        rw [e5]; simp
    rw [hfst, Res.bind_ok, hsplit, List.find?_append]
    cases hr : (List.range' n (64 - n % 64)).find? (fun m => (wd v (m / 64)).testBit (m % 64)) with
    | some m => rfl
    | none =>
      show scan v k (cur + 1) ((cur + 1) * 64) = _
      rw [ih (cur + 1) ((cur + 1) * 64) (by omega) (by omega)]
      rfl

end Verif.BitSet
