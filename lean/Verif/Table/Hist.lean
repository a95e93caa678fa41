import Verif.Table.Spec
import Verif.Table.Order
/-! Reachable tables satisfy the invariant and represent the specified map. -/
namespace Verif.Table
open Verif.Arith (LInt)
variable {α V : Type} [DecidableEq α]

theorem need_grow {H : Hash α} {t : Tbl α V} (wf : WF H t) {n : Nat} (h : t.asize < n) :
    need t n ≤ (if t.lastfree = none then 0 else t.size) := by
  unfold need
  rw [show t.asize - n = 0 by omega]
  have h0 : cntArr t.arr n 0 = 0 := by simp [cntArr]
  rw [h0, Nat.zero_add]
  by_cases hl : t.lastfree = none
  · rw [if_pos hl]
    obtain ⟨a, b⟩ := wf.dummy hl
    have : (List.range t.size).countP (fun x => needNode n (t.node x)) = 0 := by
      rw [List.countP_eq_zero]
      intro x hx
      have hx := List.mem_range.1 hx
      have : x = 0 := by unfold Tbl.size at hx; rw [a] at hx; omega
      subst this
      simp [needNode, wf.vnil 0 hx (by intro k o h; rw [b] at h; cases h)]
    omega
  · rw [if_neg hl]
    have := List.countP_le_length (l := List.range t.size) (p := fun x => needNode n (t.node x))
    simpa using this

theorem rawset_norm (H : Hash α) (t : Tbl α V) (k : RawKey α) (k' : Key α) (h : k.norm = some k') (v : Option V) :
    rawset H t k v = rawset H t (.key k' k.obj) v := by
  cases k with
  | nil => cases h
  | nan => cases h
  | fltInt i => cases h; rfl
  | key k o => cases h; rfl

theorem rawget_norm (H : Hash α) (t : Tbl α V) (k : RawKey α) (k' : Key α) (h : k.norm = some k') :
    rawget H t k = rawget H t (.key k' k.obj) := by
  cases k with
  | nil => cases h
  | nan => cases h
  | fltInt i => cases h; rfl
  | key k o => cases h; rfl

/-- one allowed operation on a table with the invariant -/
theorem step_inv {H : Hash α} {t : Tbl α V} (inv : Inv H t) (op : Op α V) (ha : Allowed t op) :
    (step H t op = .err "table overflow") ∨ ∃ t', step H t op = .ok t' ∧ Inv H t' ∧
      ∀ m : Key α → Option V, (∀ k v, Maps t k v ↔ m k = some v) →
        ∀ k v, Maps t' k v ↔ specStep m op k = some v := by
  cases op with
  | set k v =>
    obtain ⟨k', hk, ho⟩ := ha
    unfold step
    dsimp only
    rw [rawset_norm H t k k' hk]
    rcases rawset_key inv k' k.obj ho v with h | ⟨t', h1, h2, h3⟩
    · exact .inl h
    · refine .inr ⟨t', h1, h2, ?_⟩
      intro m hm x w
      rw [h3]
      unfold specStep
      dsimp only
      rw [hk]
      dsimp only
      by_cases e : x = k'
      · simp [e]
      · simp [e, hm]
  | grow n =>
    unfold step
    dsimp only
    by_cases hlt : t.asize < n
    · rw [if_pos hlt]
      have hn := need_grow inv.wf hlt
      have hlt32 : (if t.lastfree = none then 0 else t.size) < 2 ^ 32 := by
        have : t.size ≤ 2 ^ 30 := Nat.pow_le_pow_right (by omega) inv.wf.lsz
        split <;> omega
      rcases resize_inv inv n _ ha hlt32 hn with h | ⟨t', h1, h2, h3⟩
      · exact .inl h
      · refine .inr ⟨t', h1, h2, ?_⟩
        intro m hm k v
        rw [h3]; exact hm k v
    · rw [if_neg hlt]
      exact .inr ⟨t, rfl, inv, fun m hm => hm⟩
  | gc p =>
    obtain ⟨h1, h2⟩ := collect_inv inv p
    refine .inr ⟨_, rfl, h1, ?_⟩
    intro m hm k v
    rw [h2]; exact hm k v

theorem History.inv {H : Hash α} {ops : List (Op α V)} {t : Tbl α V} (h : History H ops t) :
    Inv H t ∧ ∀ k v, Maps t k v ↔ specOf ops k = some v := by
  induction h with
  | create na nh t hna hnh h =>
    obtain ⟨i1, i2⟩ := new_inv (α := α) (V := V) H
    have hn : need (new : Tbl α V) na ≤ nh := by
      unfold need
      have : cntArr (new : Tbl α V).arr na ((new : Tbl α V).asize - na) = 0 := by simp [cntArr, new]
      rw [this]
      have : (List.range (new : Tbl α V).size).countP (fun x => needNode na ((new : Tbl α V).node x)) = 0 := by
        rw [List.countP_eq_zero]; intro x _; simp [needNode, new, dummyNode]
      omega
    rcases resize_inv i1 na nh hna (by omega) hn with g | ⟨t', g1, g2, g3⟩
    · rw [h] at g; cases g
    · rw [h] at g1; cases g1
      refine ⟨g2, ?_⟩
      intro k v
      rw [g3]
      constructor
      · intro hm; exact absurd hm (i2 k v)
      · intro hm; simp [specOf] at hm
  | @step ops t t' op _ ha hs ih =>
    rcases step_inv ih.1 op ha with g | ⟨t2, g1, g2, g3⟩
    · rw [hs] at g; cases g
    · rw [hs] at g1; cases g1
      refine ⟨g2, ?_⟩
      have : specOf (ops ++ [op]) = specStep (specOf ops) op := by
        unfold specOf; rw [List.foldl_append]; rfl
      rw [this]
      exact g3 _ ih.2

end Verif.Table
