import Verif.Table.Hist
/-! `luaH_getn` returns a border. -/
namespace Verif.Table
open Verif.Arith (LInt)
variable {α V : Type} [DecidableEq α]

/-- integer `j` is present -/
def Has (t : Tbl α V) (j : LInt) : Prop := ∃ v, Maps t (.int j) v

def Border (t : Tbl α V) (j : LInt) : Prop := j.toNat < 2 ^ 63 - 1 ∧ (j = 0 ∨ Has t j) ∧ ¬ Has t (j + 1)

theorem getU_spec {H : Hash α} {t : Tbl α V} (wf : WF H t) (j : LInt) :
    (getU H t j = .ok none ∧ ¬ Has t j) ∨ (∃ v, getU H t j = .ok (some v) ∧ Has t j) := by
  obtain ⟨r, h1, h2⟩ := rawget_key wf (.int j) none
  unfold getU
  cases r with
  | none => exact .inl ⟨h1, by rintro ⟨v, h⟩; have := (h2 v).2 h; cases this⟩
  | some v => exact .inr ⟨v, h1, v, (h2 v).1 rfl⟩

theorem ubBinary_spec {H : Hash α} {t : Tbl α V} (wf : WF H t) : ∀ f (i j : LInt), i.toNat < j.toNat →
    j.toNat < 2 ^ 63 → j.toNat - i.toNat ≤ 2 ^ f → (i = 0 ∨ Has t i) → ¬ Has t j →
    ∃ r, ubBinary H t (f + 1) i j = .ok r ∧ Border t r := by
  intro f
  induction f with
  | zero =>
    intro i j h1 h2 h3 h4 h5
    unfold ubBinary
    have hd : (j - i).toNat = j.toNat - i.toNat := by
      rw [BitVec.toNat_sub]; have := i.isLt; omega
    rw [if_neg (by rw [hd]; omega)]
    refine ⟨i, rfl, by omega, h4, ?_⟩
    have : i + 1 = j := by
      apply BitVec.eq_of_toNat_eq
      rw [BitVec.toNat_add]
      have : (1 : LInt).toNat = 1 := rfl
      rw [this]; omega
    rw [this]; exact h5
  | succ f ih =>
    intro i j h1 h2 h3 h4 h5
    unfold ubBinary
    have hd : (j - i).toNat = j.toNat - i.toNat := by
      rw [BitVec.toNat_sub]; have := i.isLt; omega
    by_cases hc : 1 < (j - i).toNat
    · rw [if_pos hc]
      have hm : ((i + j) / 2).toNat = (i.toNat + j.toNat) / 2 := by
        rw [BitVec.toNat_udiv, BitVec.toNat_add]
        have : (2 : LInt).toNat = 2 := rfl
        rw [this, Nat.mod_eq_of_lt (by omega)]
      have hp : 2 ^ (f + 1) = 2 ^ f * 2 := Nat.pow_succ ..
      rw [hd] at hc
      dsimp only
      rcases getU_spec wf ((i + j) / 2) with ⟨g, g2⟩ | ⟨v, g, g2⟩
      · rw [g]
        exact ih i _ (by omega) (by omega) (by omega) h4 g2
      · rw [g]
        exact ih _ j (by omega) (by omega) (by omega) (.inr g2) h5
    · rw [if_neg hc]
      rw [hd] at hc
      refine ⟨i, rfl, by omega, h4, ?_⟩
      have : i + 1 = j := by
        apply BitVec.eq_of_toNat_eq
        rw [BitVec.toNat_add]
        have : (1 : LInt).toNat = 1 := rfl
        rw [this]; omega
      rw [this]; exact h5

theorem ubLinear_spec {H : Hash α} {t : Tbl α V} (wf : WF H t) (N : Nat) (hN : N < 2 ^ 63)
    (hno : ¬ Has t (BitVec.ofNat 64 N)) : ∀ fuel (i : LInt), 1 ≤ i.toNat → i.toNat ≤ N → N - i.toNat < fuel →
    (i - 1 = 0 ∨ Has t (i - 1)) → ∃ r, ubLinear H t fuel i = .ok r ∧ Border t r := by
  intro fuel
  induction fuel with
  | zero => intro i _ _ h; omega
  | succ fuel ih =>
    intro i h0 h1 h2 h3
    unfold ubLinear
    have h1' : (1 : LInt).toNat = 1 := rfl
    rcases getU_spec wf i with ⟨g, g2⟩ | ⟨v, g, g2⟩
    · rw [g]
      refine ⟨i - 1, rfl, ?_, h3, by rw [BitVec.sub_add_cancel]; exact g2⟩
      rw [BitVec.toNat_sub, h1']; omega
    · rw [g]
      have hne : i.toNat ≠ N := by
        intro e; apply hno; rw [← e]; simpa using g2
      have ha : (i + 1).toNat = i.toNat + 1 := by rw [BitVec.toNat_add, h1']; omega
      refine ih (i + 1) (by omega) (by omega) (by omega) (.inr ?_)
      rw [BitVec.add_sub_cancel]; exact g2

/-- a table cannot hold every integer -/
theorem exists_absent {H : Hash α} {t : Tbl α V} (wf : WF H t) :
    ∃ N, 1 ≤ N ∧ N < 2 ^ 32 ∧ ¬ Has t (BitVec.ofNat 64 N) := by
  apply Classical.byContradiction
  intro hcon
  have hall : ∀ N, 1 ≤ N → N < 2 ^ 32 → Has t (BitVec.ofNat 64 N) := by
    intro N h1 h2
    apply Classical.byContradiction
    intro h; exact hcon ⟨N, h1, h2, h⟩
  have hsz : t.size ≤ 2 ^ 30 := Nat.pow_le_pow_right (by omega) wf.lsz
  have ha := wf.asz
  have hf : ∀ x, ∃ j, x < t.size + 1 → j < t.size ∧ ∃ o, (t.node j).key = .live (.int (BitVec.ofNat 64 (t.asize + x + 1))) o := by
    intro x
    by_cases hx : x < t.size + 1
    · obtain ⟨v, ⟨i, j, e, h, _⟩ | ⟨j, o, hj, h, _⟩⟩ := hall (t.asize + x + 1) (by omega) (by omega)
      · cases e
        have hidx : (BitVec.ofNat 64 (t.asize + x + 1) - 1).toNat = t.asize + x := by
          rw [BitVec.toNat_sub]; simp; omega
        have := (arrIdx_lt h)
        omega
      · exact ⟨j, fun _ => ⟨hj, o, h⟩⟩
    · exact ⟨0, fun h => absurd h hx⟩
  obtain ⟨f, hf⟩ := Classical.axiomOfChoice hf
  have hlen := pigeonhole (l := (List.range (t.size + 1)).map f) (n := t.size) (by
    rw [List.nodup_iff_pairwise_ne, List.pairwise_map]
    have hnd : (List.range (t.size + 1)).Nodup := List.nodup_range
    rw [List.nodup_iff_pairwise_ne] at hnd
    refine List.Pairwise.imp_of_mem ?_ hnd
    intro a b hma hmb hab e
    have ha' := List.mem_range.1 hma
    have hb' := List.mem_range.1 hmb
    obtain ⟨h1, o1, h2⟩ := hf a ha'
    obtain ⟨h3, o2, h4⟩ := hf b hb'
    rw [e, h4] at h2
    simp only [NKey.live.injEq, Key.int.injEq] at h2
    have := congrArg BitVec.toNat h2.1
    simp at this
    omega) (by
    intro x hx
    obtain ⟨y, hy, e⟩ := List.mem_map.1 hx
    rw [← e]; exact (hf y (List.mem_range.1 hy)).1)
  simp at hlen
  omega

theorem ubDouble_spec {H : Hash α} {t : Tbl α V} (wf : WF H t) : ∀ f (i j : LInt), i.toNat < j.toNat →
    j.toNat < 2 ^ 63 → 2 ^ 63 ≤ j.toNat * 2 ^ f → (i = 0 ∨ Has t i) →
    ∃ r, ubDouble H t (f + 1) i j = .ok r ∧ Border t r := by
  intro f
  induction f with
  | zero => intro i j h1 h2 h3; simp at h3; omega
  | succ f ih =>
    intro i j h1 h2 h3 h4
    unfold ubDouble
    rcases getU_spec wf j with ⟨g, g2⟩ | ⟨v, g, g2⟩
    · rw [g]
      exact ubBinary_spec wf 64 i j h1 h2 (by omega) h4 g2
    · rw [g]
      simp only [Res.bind_ok]
      by_cases hc : (2 ^ 63 - 1) / 2 < j.toNat
      · rw [if_pos hc]
        obtain ⟨N, n1, n2, n3⟩ := exists_absent wf
        have : (1 : LInt).toNat = 1 := rfl
        exact ubLinear_spec wf N (by omega) n3 (2 ^ 64) 1 (by omega) (by omega) (by omega) (.inl rfl)
      · rw [if_neg hc]
        have hm : (j * 2).toNat = j.toNat * 2 := by
          rw [BitVec.toNat_mul]
          have : (2 : LInt).toNat = 2 := rfl
          rw [this]; omega
        refine ih j (j * 2) (by omega) (by omega) ?_ (.inr g2)
        rw [hm, Nat.mul_assoc, Nat.mul_comm 2, ← Nat.pow_succ]; exact h3

theorem arrBinary_spec (arr : Nat → Option V) (asize : Nat) (ha : asize ≤ 2 ^ 31) : ∀ f i j, i < j → j ≤ asize →
    j - i ≤ 2 ^ f → (i = 0 ∨ (arr (i - 1)).isSome) → arr (j - 1) = none →
    ∃ r, arrBinary arr asize (f + 1) i j = .ok r ∧ r < asize ∧ (r = 0 ∨ (arr (r - 1)).isSome) ∧ arr r = none := by
  intro f
  induction f with
  | zero =>
    intro i j h1 h2 h3 h4 h5
    unfold arrBinary
    rw [if_neg (by omega)]
    have : i = j - 1 := by omega
    refine ⟨i, rfl, by omega, h4, by rw [this]; exact h5⟩
  | succ f ih =>
    intro i j h1 h2 h3 h4 h5
    unfold arrBinary
    by_cases hc : 1 < j - i
    · rw [if_pos hc]
      dsimp only
      have hm : (i + j) % 2 ^ 32 = i + j := Nat.mod_eq_of_lt (by omega)
      rw [hm, if_neg (by omega)]
      have hp : 2 ^ (f + 1) = 2 ^ f * 2 := Nat.pow_succ ..
      cases hv : arr ((i + j) / 2 - 1) with
      | none => exact ih i _ (by omega) (by omega) (by omega) h4 hv
      | some v => exact ih _ j (by omega) (by omega) (by omega) (.inr (by rw [hv]; rfl)) h5
    · rw [if_neg hc]
      have : i = j - 1 := by omega
      refine ⟨i, rfl, by omega, h4, by rw [this]; exact h5⟩

omit [DecidableEq α] in
theorem has_arr {H : Hash α} {t : Tbl α V} (wf : WF H t) (x : Nat) (hx : x < t.asize) :
    Has t (BitVec.ofNat 64 (x + 1)) ↔ (t.arr x).isSome := by
  have h31 := wf.asz
  have ha : arrIdx t.asize (BitVec.ofNat 64 (x + 1)) = some x := by
    rw [arrIdx_ofNat (by omega), if_pos hx]
  constructor
  · rintro ⟨v, ⟨i, j, e, h1, h2⟩ | ⟨j, o, hj, h1, h2⟩⟩
    · cases e; rw [ha] at h1; cases h1; rw [h2]; rfl
    · have := wf.disj j hj _ _ h1; rw [ha] at this; cases this
  · intro h
    obtain ⟨v, hv⟩ := Option.isSome_iff_exists.1 h
    exact ⟨v, .inl ⟨_, x, rfl, ha, hv⟩⟩

theorem ofNat_add_one (x : Nat) : BitVec.ofNat 64 x + 1 = BitVec.ofNat 64 (x + 1) := by
  apply BitVec.eq_of_toNat_eq; rw [BitVec.toNat_add]; simp

theorem getn_spec {H : Hash α} {t : Tbl α V} (wf : WF H t) : ∃ j, getn H t = .ok j ∧ Border t j := by
  have h31 := wf.asz
  unfold getn
  by_cases hc : 0 < t.asize ∧ (t.arr (t.asize - 1)).isNone = true
  · rw [if_pos hc]
    obtain ⟨r, h1, h2, h3, h4⟩ := arrBinary_spec t.arr t.asize h31 32 0 t.asize hc.1 (Nat.le_refl _) (by omega)
      (.inl rfl) (by simpa using hc.2)
    rw [h1]
    refine ⟨BitVec.ofNat 64 r, rfl, ?_, ?_, ?_⟩
    · simp; omega
    · rcases h3 with h | h
      · left; rw [h]; rfl
      · cases r with
        | zero => left; rfl
        | succ r => right; exact (has_arr wf r (by omega)).2 h
    · rw [ofNat_add_one, has_arr wf r h2, h4]; simp
  · rw [if_neg hc]
    have hlast : BitVec.ofNat 64 t.asize = 0 ∨ Has t (BitVec.ofNat 64 t.asize) := by
      cases hz : t.asize with
      | zero => left; rfl
      | succ x =>
        right
        rw [has_arr wf x (by omega)]
        rw [hz] at hc
        simp at hc
        exact Option.isSome_iff_ne_none.2 hc
    by_cases hl : t.lastfree = none
    · rw [if_pos hl]
      refine ⟨_, rfl, by simp; omega, hlast, ?_⟩
      rw [ofNat_add_one]
      rintro ⟨v, ⟨i, j, e, h1, h2⟩ | ⟨j, o, hj, h1, h2⟩⟩
      · cases e
        rw [arrIdx_ofNat' h31] at h1; cases h1
      · obtain ⟨a, b⟩ := wf.dummy hl
        have : j = 0 := by unfold Tbl.size at hj; rw [a] at hj; omega
        subst this; rw [b] at h1; cases h1
    · rw [if_neg hl]
      have h1' : (1 : LInt).toNat = 1 := rfl
      have e1 : (BitVec.ofNat 64 t.asize : LInt).toNat = t.asize := by simp; omega
      have e2 : (BitVec.ofNat 64 t.asize + 1 : LInt).toNat = t.asize + 1 := by
        rw [BitVec.toNat_add, e1, h1']; omega
      exact ubDouble_spec wf 64 _ _ (by omega) (by omega) (by rw [e2]; omega) hlast
where
  arrIdx_ofNat' {a : Nat} (h : a ≤ 2 ^ 31) : arrIdx a (BitVec.ofNat 64 (a + 1)) = none := by
    unfold arrIdx
    have : (BitVec.ofNat 64 (a + 1) - 1).toNat = a := by
      rw [BitVec.toNat_sub]; simp; omega
    rw [this, if_neg (by omega)]

end Verif.Table
