import Verif.Table.Model
import Verif.Table.Chain
/-! Table invariant and chain searches. -/
namespace Verif.Table
open Verif.Arith (LInt)
variable {α V : Type}

def nxOf (node : Nat → Node α V) (i : Nat) : Option Nat :=
  if (node i).next = 0 then none else some ((i : Int) + (node i).next).toNat

def NKey.key? : NKey α → Option (Key α)
  | .nil => none
  | .live k _ => some k
  | .dead k _ => some k

def hpOf (H : Hash α) (ls : Nat) (node : Nat → Node α V) (i : Nat) : Option Nat :=
  (node i).key.key?.map (mainpos H ls)

structure WF (H : Hash α) (t : Tbl α V) : Prop where
  asz : t.asize ≤ 2 ^ 31
  lsz : t.lsize ≤ 30
  lf : ∀ l, t.lastfree = some l → l ≤ t.size ∧ ∀ i, l ≤ i → i < t.size → (t.node i).key ≠ .nil
  dummy : t.lastfree = none → t.lsize = 0 ∧ (t.node 0).key = .nil
  nonneg : ∀ i, i < t.size → 0 ≤ (i : Int) + (t.node i).next
  chain : Chain t.size (nxOf t.node) (hpOf H t.lsize t.node)
  uniq : ∀ i j, i < t.size → j < t.size → ∀ k o o', (t.node i).key = .live k o →
    (t.node j).key = .live k o' → i = j
  vnil : ∀ i, i < t.size → (∀ k o, (t.node i).key ≠ .live k o) → (t.node i).val = none
  disj : ∀ i, i < t.size → ∀ k o, (t.node i).key = .live (.int k) o → arrIdx t.asize k = none

theorem hashpow2_lt (ls h : Nat) : hashpow2 ls h < 2 ^ ls := by
  unfold hashpow2 hmask
  have : h &&& (2 ^ ls - 1) ≤ 2 ^ ls - 1 := Nat.and_le_right
  have := Nat.two_pow_pos ls
  omega

theorem hashmod_lt (ls h : Nat) : hashmod ls h < 2 ^ ls := by
  unfold hashmod hmask
  cases ls with
  | zero => simp [Nat.mod_one]
  | succ n =>
    have h1 : 2 ^ (n + 1) - 1 ||| 1 < 2 ^ (n + 1) := by
      apply Nat.or_lt_two_pow
      · have := Nat.two_pow_pos (n + 1); omega
      · have := Nat.one_le_two_pow (n := n); rw [Nat.pow_succ]; omega
    have h2 : 0 < 2 ^ (n + 1) - 1 ||| 1 := by
      have : 1 ≤ 2 ^ (n + 1) - 1 ||| 1 := Nat.right_le_or
      omega
    have := Nat.mod_lt h h2
    omega

theorem mainpos_lt (H : Hash α) (ls : Nat) (k : Key α) : mainpos H ls k < 2 ^ ls := by
  unfold mainpos
  split
  · exact hashpow2_lt _ _
  · split
    · exact hashpow2_lt _ _
    · exact hashmod_lt _ _

theorem getNode_ok (t : Tbl α V) (i : Nat) (h : i < t.size) : t.getNode (i : Int) = .ok (t.node i) := by
  unfold Tbl.getNode
  rw [if_pos ⟨by omega, by omega⟩, Int.toNat_natCast]

theorem WF.nx_step {H : Hash α} {t : Tbl α V} (wf : WF H t) {i : Nat} (hi : i < t.size)
    (h : (t.node i).next ≠ 0) :
    ∃ j, j < t.size ∧ nxOf t.node i = some j ∧ (i : Int) + (t.node i).next = (j : Int) := by
  refine ⟨((i : Int) + (t.node i).next).toNat, ?_, ?_, ?_⟩
  · exact wf.chain.bnd i hi _ (by simp [nxOf, h])
  · simp [nxOf, h]
  · have := wf.nonneg i hi; omega

/-- result of a chain search -/
def Found (nx : Nat → Option Nat) (node : Nat → Node α V) (p : Node α V → Bool) (i : Nat) :
    Option Nat → Prop
  | some j => Reach nx i j ∧ p (node j) = true
  | none => ∀ j, Reach nx i j → p (node j) = false

theorem search_spec {H : Hash α} {t : Tbl α V} (wf : WF H t) (p : Node α V → Bool) (i : Nat)
    (hi : i < t.size) :
    ∃ r, search t p (t.size + 1) (i : Int) = .ok r ∧ Found (nxOf t.node) t.node p i r := by
  obtain ⟨d, hd1, hd2⟩ := wf.chain.bound
  have main : ∀ fuel i, i < t.size → d i < fuel →
      ∃ r, search t p fuel (i : Int) = .ok r ∧ Found (nxOf t.node) t.node p i r := by
    intro fuel
    induction fuel with
    | zero => intro i _ h; omega
    | succ fuel ih =>
      intro i hi hf
      unfold search
      rw [getNode_ok t i hi]
      simp only [Res.bind_ok, Int.toNat_natCast]
      by_cases hp : p (t.node i) = true
      · rw [if_pos hp]; exact ⟨some i, rfl, .refl _, hp⟩
      · rw [if_neg hp]
        by_cases hz : (t.node i).next = 0
        · rw [if_pos hz]
          refine ⟨none, rfl, ?_⟩
          intro j hj
          cases hj with
          | refl => simpa using hp
          | step h _ => simp [nxOf, hz] at h
        · rw [if_neg hz]
          obtain ⟨j, hj, hnx, he⟩ := wf.nx_step hi hz
          rw [he]
          have := hd2 i hi j hnx
          obtain ⟨r, h1, h2⟩ := ih j hj (by omega)
          refine ⟨r, h1, ?_⟩
          cases r with
          | some x => exact ⟨.step hnx h2.1, h2.2⟩
          | none =>
            intro x hx
            cases hx with
            | refl => simpa using hp
            | step h h' => rw [hnx] at h; cases h; exact h2 x h'
  exact main _ i hi (by have := hd1 i hi; omega)

variable [DecidableEq α]

theorem equalkey_iff (k : Key α) (n : Node α V) : equalkey k n = true ↔ ∃ o, n.key = .live k o := by
  unfold equalkey
  cases h : n.key with
  | nil => simp
  | live k' o => simp; exact eq_comm
  | dead k' o => simp

/-- a live key is found at the unique node that holds it -/
theorem search_key {H : Hash α} {t : Tbl α V} (wf : WF H t) (k : Key α) :
    ∃ r, search t (equalkey k) (t.size + 1) (mainpos H t.lsize k : Nat) = .ok r ∧
      (∀ j, r = some j → j < t.size ∧ ∃ o, (t.node j).key = .live k o) ∧
      (r = none → ∀ j, j < t.size → ∀ o, (t.node j).key ≠ .live k o) := by
  have hm : mainpos H t.lsize k < t.size := mainpos_lt H t.lsize k
  obtain ⟨r, h1, h2⟩ := search_spec wf (equalkey k) _ hm
  refine ⟨r, h1, ?_, ?_⟩
  · intro j e; subst e
    exact ⟨h2.1.lt wf.chain hm, (equalkey_iff k _).1 h2.2⟩
  · intro e j hj o ho; subst e
    have hr := wf.chain.reach j hj (mainpos H t.lsize k) (by simp [hpOf, ho, NKey.key?])
    have := h2 j hr
    have h3 := (equalkey_iff k (t.node j)).2 ⟨o, ho⟩
    rw [this] at h3; cases h3

/-- `k` is associated with the non-nil value `v` in table `t` -/
def Maps (t : Tbl α V) (k : Key α) (v : V) : Prop :=
  (∃ i j, k = .int i ∧ arrIdx t.asize i = some j ∧ t.arr j = some v) ∨
  (∃ j o, j < t.size ∧ (t.node j).key = .live k o ∧ (t.node j).val = some v)

theorem arrIdx_lt {a : Nat} {i : LInt} {j : Nat} (h : arrIdx a i = some j) : j < a ∧ j = (i - 1).toNat := by
  unfold arrIdx at h
  split at h
  · cases h; exact ⟨by assumption, rfl⟩
  · cases h

/-- what `getKey` returns -/
theorem getKey_spec {H : Hash α} {t : Tbl α V} (wf : WF H t) (k : Key α) :
    ∃ r, getKey H t k = .ok r ∧
      (r = none → (∀ i, k = .int i → arrIdx t.asize i = none) ∧
        ∀ j, j < t.size → ∀ o, (t.node j).key ≠ .live k o) ∧
      (∀ j, r = some (.arr j) → ∃ i, k = .int i ∧ arrIdx t.asize i = some j) ∧
      (∀ j, r = some (.node j) → j < t.size ∧ t.lastfree ≠ none ∧ (∃ o, (t.node j).key = .live k o) ∧
        ∀ i, k = .int i → arrIdx t.asize i = none) := by
  have nodum : ∀ j, j < t.size → (∃ o, (t.node j).key = .live k o) → t.lastfree ≠ none := by
    intro j hj ⟨o, ho⟩ hn
    obtain ⟨h1, h2⟩ := wf.dummy hn
    have : j = 0 := by unfold Tbl.size at hj; rw [h1] at hj; omega
    subst this; rw [h2] at ho; cases ho
  cases k with
  | int i =>
    unfold getKey getint
    cases ha : arrIdx t.asize i with
    | some j => exact ⟨some (.arr j), by simp only [ha], by simp, by intro j' h; cases h; exact ⟨i, rfl, ha⟩, by simp⟩
    | none =>
      obtain ⟨r, h1, h2, h3⟩ := search_key wf (.int i)
      refine ⟨r.map .node, by simp [ha, h1], ?_, ?_, ?_⟩
      · intro e
        cases r with
        | some x => simp at e
        | none => exact ⟨by intro i' e'; cases e'; exact ha, h3 rfl⟩
      · intro j e; cases r <;> simp at e
      · intro j e
        cases r with
        | none => simp at e
        | some x =>
          simp at e; subst e
          obtain ⟨g1, g2⟩ := h2 x rfl
          exact ⟨g1, nodum x g1 g2, g2, by intro i' e'; cases e'; exact ha⟩
  | oth x =>
    unfold getKey getgeneric
    obtain ⟨r, h1, h2, h3⟩ := search_key wf (.oth x)
    refine ⟨r.map .node, by simp [h1], ?_, ?_, ?_⟩
    · intro e
      cases r with
      | some x => simp at e
      | none => exact ⟨(fun _ e' => by cases e'), h3 rfl⟩
    · intro j e; cases r <;> simp at e
    · intro j e
      cases r with
      | none => simp at e
      | some x =>
        simp at e; subst e
        obtain ⟨g1, g2⟩ := h2 x rfl
        exact ⟨g1, nodum x g1 g2, g2, by intro i' e'; cases e'⟩

end Verif.Table
