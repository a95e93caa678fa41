import Verif.Table.Count
/-! `rehash` keeps the contents, chooses the optimal array size and leaves room for the new key. -/
namespace Verif.Table
open Verif.Arith (LInt)
variable {α V : Type}

theorem countP_one {q : Nat → Bool} : ∀ {m : Nat}, (∀ i j, i < m → j < m → q i = true → q j = true → i = j) →
    (∃ i, i < m ∧ q i = true) → (List.range m).countP q = 1 := by
  intro m
  induction m with
  | zero => rintro _ ⟨i, h, _⟩; omega
  | succ m ih =>
    rintro hu ⟨i, hi, hq⟩
    rw [List.range_succ, List.countP_append]
    simp only [List.countP_cons, List.countP_nil, Nat.zero_add]
    by_cases e : q m = true
    · rw [if_pos e]
      have : (List.range m).countP q = 0 := by
        rw [List.countP_eq_zero]
        intro j hj hqj
        have hj := List.mem_range.1 hj
        have := hu j m (by omega) (by omega) hqj e
        omega
      omega
    · rw [if_neg e]
      have him : i ≠ m := by intro h; subst h; exact e hq
      rw [ih (fun i j a b => hu i j (by omega) (by omega)) ⟨i, by omega, hq⟩]

/-- integer keys of `t` with a non-nil value, and the extra key, in `1..n` -/
def keyCount (t : Tbl α V) (ek : Key α) (n : Nat) : Nat :=
  P t.arr (min n t.asize) + CH t.node t.size n + if inRange n ek then 1 else 0

theorem inRange_succ {n : Nat} (hn : n < 2 ^ 31) (k : Key α) :
    inRange (n + 1) k = true ↔ (inRange n k = true ∨ k = .int (BitVec.ofNat 64 (n + 1))) := by
  cases k with
  | oth x => simp [inRange]
  | int i =>
    unfold inRange arrIdx
    dsimp only
    have e : ∀ c, (if (i - 1).toNat < c then some (i - 1).toNat else none).isSome = true ↔ (i - 1).toNat < c := by
      intro c; split <;> simp_all
    rw [e, e]
    have h2 : (Key.int i = (.int (BitVec.ofNat 64 (n + 1)) : Key α)) ↔ (i - 1).toNat = n := by
      simp only [Key.int.injEq]
      constructor
      · intro h; rw [h, BitVec.toNat_sub]; simp; omega
      · intro h
        have h3 : i - 1 = BitVec.ofNat 64 n := by
          apply BitVec.eq_of_toNat_eq; rw [h]; simp; omega
        calc i = i - 1 + 1 := by rw [BitVec.sub_add_cancel]
          _ = _ := by rw [h3]; apply BitVec.eq_of_toNat_eq; rw [BitVec.toNat_add]; simp
    rw [h2]; omega

theorem inRange_int {n x : Nat} (hx : x < 2 ^ 31) : inRange n (.int (BitVec.ofNat 64 (x + 1)) : Key α) = true ↔ x < n := by
  unfold inRange
  dsimp only
  rw [arrIdx_ofNat hx]
  split <;> simp_all

theorem keyInArr_live (n : Nat) (k : Key α) (o : Obj) : keyInArr n (.live k o) = inRange n k := by
  cases k <;> rfl

theorem CH_zero (node : Nat → Node α V) (m : Nat) : CH node m 0 = 0 := by
  unfold CH
  rw [List.countP_eq_zero]
  intro j _
  cases (node j).key with
  | live k o => cases k <;> simp [keyInArr, arrIdx]
  | nil => simp [keyInArr]
  | dead k o => simp [keyInArr]

theorem keyCount_zero (t : Tbl α V) (ek : Key α) : keyCount t ek 0 = 0 := by
  unfold keyCount
  rw [CH_zero]
  cases ek <;> simp [P, inRange, arrIdx]

variable [DecidableEq α]

/-- node with a non-nil value under key `k` -/
def holds (k : Key α) (n : Node α V) : Bool := n.val.isSome && equalkey k n

theorem CH_step (node : Nat → Node α V) (n : Nat) (hn : n < 2 ^ 31) : ∀ m,
    CH node m (n + 1) = CH node m n + (List.range m).countP (fun j => holds (.int (BitVec.ofNat 64 (n + 1))) (node j)) := by
  intro m
  induction m with
  | zero => simp [CH]
  | succ m ih =>
    rw [CH_succ, CH_succ, ih, List.range_succ, List.countP_append]
    simp only [List.countP_cons, List.countP_nil, Nat.zero_add]
    have : (if ((node m).val.isSome && keyInArr (n + 1) (node m).key) = true then 1 else 0) =
        (if ((node m).val.isSome && keyInArr n (node m).key) = true then 1 else 0) +
        (if holds (.int (BitVec.ofNat 64 (n + 1))) (node m) = true then 1 else 0) := by
      unfold holds
      cases (node m).val with
      | none => simp
      | some v =>
        simp only [Option.isSome_some, Bool.true_and]
        unfold equalkey
        cases hk : (node m).key with
        | nil => simp [keyInArr]
        | dead k o => simp [keyInArr]
        | live k o =>
          simp only [keyInArr_live, inRange_succ hn]
          simp only [decide_eq_true_eq]
          by_cases hkk : k = .int (BitVec.ofNat 64 (n + 1))
          · have : inRange n k = false := by
              cases hc : inRange n k
              · rfl
              · rw [hkk, inRange_int hn] at hc; omega
            simp [hkk] at this ⊢; simp [this]
          · simp [hkk]; exact fun h => hkk h.symm
    omega

/-- `keyCount` counts the used positions one by one -/
theorem keyCount_step {H : Hash α} {t : Tbl α V} (wf : WF H t) (ek : Key α) (hek : ∀ v, ¬ Maps t ek v)
    (n : Nat) (hn : n < 2 ^ 31) (used : Bool)
    (hu : used = true ↔ ((∃ v, Maps t (.int (BitVec.ofNat 64 (n + 1))) v) ∨ ek = .int (BitVec.ofNat 64 (n + 1)))) :
    keyCount t ek (n + 1) = keyCount t ek n + if used then 1 else 0 := by
  unfold keyCount
  rw [CH_step t.node n hn]
  have hek' : (if inRange (n + 1) ek then 1 else 0) =
      (if inRange n ek then 1 else 0) + (if ek = .int (BitVec.ofNat 64 (n + 1)) then 1 else 0) := by
    simp only [inRange_succ hn]
    by_cases e : ek = .int (BitVec.ofNat 64 (n + 1))
    · have : ¬ inRange n ek = true := by rw [e, inRange_int hn]; omega
      simp [e] at this ⊢; simp [this]
    · simp [e]
  rw [hek']
  have hP : P t.arr (min (n + 1) t.asize) = P t.arr (min n t.asize) +
      if n < t.asize ∧ (t.arr n).isSome then 1 else 0 := by
    by_cases h : n < t.asize
    · rw [show min (n + 1) t.asize = n + 1 by omega, show min n t.asize = n by omega, P_succ]
      simp [h]
    · rw [show min (n + 1) t.asize = t.asize by omega, show min n t.asize = t.asize by omega]
      simp [h]
  rw [hP]
  have ha := arrIdx_ofNat (na := t.asize) hn
  by_cases hna : n < t.asize
  · -- the position is in the array part
    have hz : (List.range t.size).countP (fun j => holds (.int (BitVec.ofNat 64 (n + 1))) (t.node j)) = 0 := by
      rw [List.countP_eq_zero]
      intro j hj hh
      unfold holds at hh
      rw [Bool.and_eq_true, equalkey_iff] at hh
      obtain ⟨_, o, ho⟩ := hh
      have := wf.disj j (List.mem_range.1 hj) _ _ ho
      rw [ha, if_pos hna] at this; cases this
    rw [hz]
    rw [if_pos hna] at ha
    have hm : (∃ v, Maps t (.int (BitVec.ofNat 64 (n + 1))) v) ↔ (t.arr n).isSome := by
      constructor
      · rintro ⟨v, ⟨i, j, e, h1, h2⟩ | ⟨j, o, hj, h1, h2⟩⟩
        · cases e; rw [ha] at h1; cases h1; rw [h2]; rfl
        · have := wf.disj j hj _ _ h1; rw [ha] at this; cases this
      · intro h
        obtain ⟨v, hv⟩ := Option.isSome_iff_exists.1 h
        exact ⟨v, .inl ⟨_, n, rfl, ha, hv⟩⟩
    rw [hm] at hu
    simp only [hna, true_and, hu]
    by_cases e : ek = .int (BitVec.ofNat 64 (n + 1))
    · have : ¬ (t.arr n).isSome = true := by
        intro h; rw [← hm] at h; obtain ⟨v, h⟩ := h; rw [← e] at h; exact hek v h
      simp [e, this]; omega
    · simp [e]; omega
  · rw [if_neg hna] at ha
    have hm : (∃ v, Maps t (.int (BitVec.ofNat 64 (n + 1))) v) ↔
        ∃ j, j < t.size ∧ holds (.int (BitVec.ofNat 64 (n + 1))) (t.node j) = true := by
      constructor
      · rintro ⟨v, ⟨i, j, e, h1, h2⟩ | ⟨j, o, hj, h1, h2⟩⟩
        · cases e; rw [ha] at h1; cases h1
        · exact ⟨j, hj, by simp only [holds, h2, Option.isSome_some, Bool.true_and]; exact (equalkey_iff _ _).2 ⟨o, h1⟩⟩
      · rintro ⟨j, hj, hh⟩
        unfold holds at hh
        rw [Bool.and_eq_true, equalkey_iff] at hh
        obtain ⟨hv, o, ho⟩ := hh
        obtain ⟨v, hv⟩ := Option.isSome_iff_exists.1 hv
        exact ⟨v, .inr ⟨j, o, hj, ho, hv⟩⟩
    by_cases hx : ∃ v, Maps t (.int (BitVec.ofNat 64 (n + 1))) v
    · have hcount : (List.range t.size).countP (fun j => holds (.int (BitVec.ofNat 64 (n + 1))) (t.node j)) = 1 := by
        apply countP_one _ (hm.1 hx)
        intro i j hi hj h1 h2
        unfold holds at h1 h2
        rw [Bool.and_eq_true, equalkey_iff] at h1 h2
        obtain ⟨_, o, ho⟩ := h1
        obtain ⟨_, o', ho'⟩ := h2
        exact wf.uniq i j hi hj _ _ _ ho ho'
      have e : ek ≠ .int (BitVec.ofNat 64 (n + 1)) := by
        intro e; obtain ⟨v, h⟩ := hx; rw [← e] at h; exact hek v h
      rw [hcount, hu.2 (.inl hx), if_neg e, if_neg (by omega)]
      simp; omega
    · have hcount : (List.range t.size).countP (fun j => holds (.int (BitVec.ofNat 64 (n + 1))) (t.node j)) = 0 := by
        rw [List.countP_eq_zero]
        intro j hj hh
        exact hx (hm.2 ⟨j, List.mem_range.1 hj, hh⟩)
      rw [hcount, if_neg (by omega)]
      by_cases e : ek = .int (BitVec.ofNat 64 (n + 1))
      · rw [hu.2 (.inr e), if_pos e]; simp; omega
      · have : used = false := by
          cases hc : used
          · rfl
          · rcases hu.1 hc with h | h
            · exact absurd h hx
            · exact absurd h e
        rw [this, if_neg e]; simp

theorem keyCount_le {H : Hash α} {t : Tbl α V} (wf : WF H t) (ek : Key α) (hek : ∀ v, ¬ Maps t ek v) :
    ∀ n, n ≤ 2 ^ 31 → keyCount t ek n ≤ n := by
  intro n
  induction n with
  | zero => intro _; rw [keyCount_zero]; omega
  | succ n ih =>
    intro hn
    have := ih (by omega)
    classical
    rw [keyCount_step wf ek hek n (by omega) (decide _) (decide_eq_true_iff)]
    split <;> omega

theorem keyCount_mono {H : Hash α} {t : Tbl α V} (wf : WF H t) (ek : Key α) (hek : ∀ v, ¬ Maps t ek v) :
    ∀ m n, m ≤ n → n ≤ 2 ^ 31 → keyCount t ek m ≤ keyCount t ek n := by
  intro m n h
  induction h with
  | refl => intro _; exact Nat.le_refl _
  | @step n _ ih =>
    intro hn
    have := ih (by omega)
    classical
    rw [keyCount_step wf ek hek n (by omega) (decide _) (decide_eq_true_iff)]
    omega

omit [DecidableEq α] in
theorem hash_split (node : Nat → Node α V) (n : Nat) : ∀ m,
    (List.range m).countP (fun j => (node j).val.isSome) =
      (List.range m).countP (fun x => needNode n (node x)) + CH node m n := by
  intro m
  induction m with
  | zero => simp [CH]
  | succ m ih =>
    rw [CH_succ, List.range_succ, List.countP_append, List.countP_append, ih]
    simp only [List.countP_cons, List.countP_nil, Nat.zero_add]
    unfold needNode
    cases (node m).val.isSome <;> cases keyInArr n (node m).key <;> simp <;> omega

/-- `rehash`: the contents are kept, the array part has the best size, and there is room for `ek`. -/
theorem rehash_spec {H : Hash α} {t : Tbl α V} (wf : WF H t) (ek : Key α) (hek : ∀ v, ¬ Maps t ek v) :
    (rehash H t ek = .err "table overflow") ∨
    ∃ t', rehash H t ek = .ok t' ∧ WF H t' ∧ (∀ k v, Maps t' k v ↔ Maps t k v) ∧
      ((∃ i j, ek = .int i ∧ arrIdx t'.asize i = some j) ∨ (t'.lastfree ≠ none ∧ nk t' < t'.size)) ∧
      Optimal (keyCount t ek) t'.asize (keyCount t ek t'.asize) ∧
      (∀ Q : NKey α → Prop, Q .nil → (∀ i, Q (.live (.int i) none)) →
        (∀ i, i < t.size → (t.node i).val.isSome → Q (t.node i).key) → ∀ i, i < t'.size → Q (t'.node i).key) := by
  unfold rehash
  obtain ⟨nums1, a1, a2⟩ := numusearray_spec t wf.asz
  rw [a1]
  simp only [Res.bind_ok]
  obtain ⟨nums2, b1, b2⟩ := numusehash_spec t.node t.size 0 0 nums1 _ a2
  rw [b1]
  simp only [Res.bind_ok]
  obtain ⟨nums3, c1, c2⟩ := countint_spec ek nums2 _ b2
  rw [c1]
  simp only [Res.bind_ok]
  have hT : ∀ n, n ≤ 2 ^ 31 → keyCount t ek n ≤
      P t.arr t.asize + (0 + CH t.node t.size (2 ^ 31)) + if inRange (2 ^ 31) ek then 1 else 0 := by
    intro n hn
    have h1 := keyCount_mono wf ek hek n (2 ^ 31) hn (Nat.le_refl _)
    have h2 : keyCount t ek (2 ^ 31) = P t.arr t.asize + (0 + CH t.node t.size (2 ^ 31)) + if inRange (2 ^ 31) ek then 1 else 0 := by
      unfold keyCount
      rw [show min (2 ^ 31) t.asize = t.asize by have := wf.asz; omega, Nat.zero_add]
    omega
  obtain ⟨o, n, d1, d2⟩ := computesizes_spec nums3 (keyCount t ek) _ c2 (keyCount_zero t ek) hT
    (keyCount_le wf ek hek)
  rw [d1]
  simp only [Res.bind_ok]
  have ho : o ≤ 2 ^ 31 := by
    rcases d2.shape with h | ⟨k, h1, h2, _⟩
    · omega
    · rw [h2]; exact Nat.pow_le_pow_right (by omega) (by omega)
  have hsplit := hash_split t.node o t.size
  have hn : n = keyCount t ek o := d2.na
  have hkc : keyCount t ek o = P t.arr (min o t.asize) + CH t.node t.size o + if inRange o ek then 1 else 0 := rfl
  have hcnt : cntArr t.arr o (t.asize - o) + P t.arr (min o t.asize) = P t.arr t.asize := by
    rcases Nat.le_total o t.asize with h | h
    · have := cntArr_eq t.arr (t.asize - o) o
      rw [show min o t.asize = o by omega]
      rw [this]; congr 1; omega
    · rw [show t.asize - o = 0 by omega, show min o t.asize = t.asize by omega]
      simp [cntArr]
  have hneed : need t o + (1 - if inRange o ek then 1 else 0) =
      P t.arr t.asize + (0 + (List.range t.size).countP (fun j => (t.node j).val.isSome)) + 1 - n := by
    unfold need
    split at hkc <;> rename_i hr <;> simp only [hr, if_true, Bool.false_eq_true, if_false] <;> omega
  rw [← hneed]
  have hnh : need t o + (1 - if inRange o ek then 1 else 0) < 2 ^ 32 := by
    have h1 := P_le t.arr t.asize
    have h2 := wf.asz
    have h3 : (List.range t.size).countP (fun j => (t.node j).val.isSome) ≤ t.size := by
      have := List.countP_le_length (l := List.range t.size) (p := fun j => (t.node j).val.isSome)
      simpa using this
    have h4 : t.size ≤ 2 ^ 30 := Nat.pow_le_pow_right (by omega) wf.lsz
    omega
  rcases resize_spec wf o _ ho hnh (by omega) with ⟨_, hm⟩ | ⟨_, t', r1, r2, r3, r4, r5, rQ, r6⟩
  · exact .inl hm
  · right
    refine ⟨t', r1, r2, r6, ?_, ?_, rQ⟩
    · by_cases hr : inRange o ek = true
      · left
        cases ek with
        | oth x => cases hr
        | int i =>
          obtain ⟨j, hj⟩ := Option.isSome_iff_exists.1 hr
          exact ⟨i, j, rfl, by rw [r3]; exact hj⟩
      · right
        rw [if_neg hr] at r4
        obtain ⟨g1, g2⟩ := r4 (by omega)
        exact ⟨g1, by omega⟩
    · rw [r3]; rw [hn] at d2; exact d2

end Verif.Table
