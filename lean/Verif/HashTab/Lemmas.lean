import Verif.HashTab.Sizes
import Mathlib.Data.Nat.ModEq
import Mathlib.Data.Int.GCD
import Mathlib.Data.Nat.Prime.Basic
import Mathlib.Data.List.Perm.Basic
/-! Probe sequences, and counting over the array of entries. -/
namespace Verif.HashTab

variable {K V : Type}

/-- address of the `j`-th probe -/
def probe (s h j : Nat) : Nat := (h % s + j * (1 + h % (s - 2))) % s

theorem probe_zero (s h : Nat) : probe s h 0 = h % s := by simp [probe]

theorem probe_lt {s h j : Nat} (hs : 0 < s) : probe s h j < s := Nat.mod_lt _ hs

theorem step_lt {s h : Nat} (hs : 5 ≤ s) : 0 < 1 + h % (s - 2) ∧ 1 + h % (s - 2) < s := by
  have := Nat.mod_lt h (show 0 < s - 2 by omega)
  omega

theorem probe_inj0 {s h j : Nat} (hp : s.Prime) (hs : 5 ≤ s) (h0 : 0 < j) (hj : j < s) :
    probe s h j ≠ h % s := by
  intro he
  obtain ⟨d0, d1⟩ := step_lt (h := h) hs
  have h1 : (h % s + j * (1 + h % (s - 2))) ≡ h % s + 0 [MOD s] := by
    unfold Nat.ModEq
    unfold probe at he
    rw [he]; simp
  have h2 := Nat.ModEq.add_left_cancel' _ h1
  have h3 : s ∣ j * (1 + h % (s - 2)) := (Nat.modEq_zero_iff_dvd).1 h2
  rcases (Nat.Prime.dvd_mul hp).1 h3 with h4 | h4
  · exact absurd (Nat.le_of_dvd h0 h4) (by omega)
  · exact absurd (Nat.le_of_dvd d0 h4) (by omega)

theorem probe_size {s h : Nat} : probe s h s = h % s := by
  unfold probe
  rw [Nat.add_mod, Nat.mul_mod_right]
  simp

/-- every address is probed -/
theorem probe_surj {s h a : Nat} (hp : s.Prime) (hs : 5 ≤ s) (ha : a < s) :
    ∃ j, j < s ∧ probe s h j = a := by
  obtain ⟨d0, d1⟩ := step_lt (h := h) hs
  have hco : Nat.Coprime (1 + h % (s - 2)) s := by
    rw [Nat.coprime_comm]
    exact (Nat.Prime.coprime_iff_not_dvd hp).2 (fun hd => absurd (Nat.le_of_dvd d0 hd) (by omega))
  obtain ⟨e, -, he⟩ := Nat.exists_mul_mod_eq_one_of_coprime hco (by omega)
  have h1s := Nat.mod_lt h (show 0 < s by omega)
  refine ⟨((a + (s - h % s)) * e) % s, Nat.mod_lt _ (by omega), ?_⟩
  generalize hd : 1 + h % (s - 2) = d at *
  unfold probe
  rw [hd]
  have hc : (a + (s - h % s)) * e % s * d ≡ a + (s - h % s) [MOD s] := by
    have h1 : (a + (s - h % s)) * e % s * d ≡ (a + (s - h % s)) * e * d [MOD s] :=
      (Nat.mod_modEq _ _).mul_right _
    have h2 : (a + (s - h % s)) * e * d = (a + (s - h % s)) * (d * e) := by
      rw [Nat.mul_assoc, Nat.mul_comm e d]
    have h3 : d * e ≡ 1 [MOD s] := by
      unfold Nat.ModEq
      rw [he, Nat.mod_eq_of_lt (by omega)]
    have h4 := h3.mul_left (a + (s - h % s))
    rw [h2] at h1
    simpa using h1.trans h4
  have h5 := hc.add_left (h % s)
  have h6 : h % s + (a + (s - h % s)) = a + s := by omega
  rw [h6] at h5
  have h7 : (a + s) % s = a := by simp [Nat.mod_eq_of_lt ha]
  exact Eq.trans h5 h7

/-! ### counting -/

theorem fm_congr {α : Type} {f g : Nat → Option α} {l : List Nat} (h : ∀ a ∈ l, f a = g a) :
    l.filterMap f = l.filterMap g := by
  induction l with
  | nil => rfl
  | cons a l ih =>
    rw [List.filterMap_cons, List.filterMap_cons, h a (by simp),
      ih (fun b hb => h b (by simp [hb]))]

theorem fm_split {α : Type} (f : Nat → Option α) (a : Nat) : ∀ {n : Nat}, a < n →
    ((List.range n).filterMap f).Perm
      ((f a).toList ++ (List.range n).filterMap (fun i => if i = a then none else f i)) := by
  intro n
  induction n with
  | zero => intro h; omega
  | succ n ih =>
    intro h
    rw [List.range_succ, List.filterMap_append, List.filterMap_append]
    by_cases hn : a = n
    · subst hn
      have h1 : (List.range a).filterMap (fun i => if i = a then none else f i)
          = (List.range a).filterMap f :=
        fm_congr (fun b hb => by rw [if_neg]; have := List.mem_range.1 hb; omega)
      rw [h1]
      have h2 : List.filterMap (fun i => if i = a then none else f i) [a] = [] := by simp
      have h3 : List.filterMap f [a] = (f a).toList := by
        cases hf : f a <;> simp [hf]
      rw [h2, h3, List.append_nil]
      exact List.perm_append_comm
    · have h2 : List.filterMap (fun i => if i = a then none else f i) [n] = List.filterMap f [n] := by
        simp [List.filterMap_cons, show ¬ n = a from fun e => hn e.symm]
      rw [h2, ← List.append_assoc]
      exact (ih (by omega)).append_right _

theorem fm_len {α β : Type} {f : Nat → Option α} {g : Nat → Option β} : ∀ {n : Nat},
    (∀ a, a < n → (f a).isSome ∨ (g a).isSome) →
    n ≤ ((List.range n).filterMap f).length + ((List.range n).filterMap g).length := by
  intro n
  induction n with
  | zero => intro _; omega
  | succ n ih =>
    intro h
    have h1 := ih (fun a ha => h a (by omega))
    rw [List.range_succ, List.filterMap_append, List.filterMap_append, List.length_append,
      List.length_append]
    have h2 : 1 ≤ (List.filterMap f [n]).length + (List.filterMap g [n]).length := by
      rcases h n (by omega) with h3 | h3
      · obtain ⟨x, hx⟩ := Option.isSome_iff_exists.1 h3
        simp [hx]
      · obtain ⟨x, hx⟩ := Option.isSome_iff_exists.1 h3
        simp [hx]
    omega

/-- key and data of an entry -/
def Entry.kv : Entry K V → Option (K × V)
  | .present _ k v => some (k, v)
  | _ => none

def Entry.del : Entry K V → Option Unit
  | .deleted => some ()
  | _ => none

/-- what the table holds, by address -/
def items (t : HT K V) : List (K × V) := (List.range t.size).filterMap (fun a => (t.tab a).kv)

def dels (t : HT K V) : List Unit := (List.range t.size).filterMap (fun a => (t.tab a).del)

/-- the other entries -/
def rest (t : HT K V) (a : Nat) : List (K × V) :=
  (List.range t.size).filterMap (fun i => if i = a then none else (t.tab i).kv)

theorem items_split (t : HT K V) {a : Nat} (ha : a < t.size) :
    (items t).Perm ((t.tab a).kv.toList ++ rest t a) := fm_split (fun a => (t.tab a).kv) a ha

theorem mem_rest {t : HT K V} {a : Nat} {x : K × V} (h : x ∈ rest t a) :
    ∃ b, b < t.size ∧ b ≠ a ∧ ∃ hh, t.tab b = .present hh x.1 x.2 := by
  unfold rest at h
  rw [List.mem_filterMap] at h
  obtain ⟨b, hb, he⟩ := h
  split at he
  · cases he
  · rename_i hne
    refine ⟨b, List.mem_range.1 hb, hne, ?_⟩
    cases ht : t.tab b with
    | present h k v => rw [ht] at he; simp only [Entry.kv] at he; cases he; exact ⟨h, rfl⟩
    | free => rw [ht] at he; cases he
    | deleted => rw [ht] at he; cases he

theorem mem_items {t : HT K V} {x : K × V} : x ∈ items t ↔
    ∃ b, b < t.size ∧ ∃ hh, t.tab b = .present hh x.1 x.2 := by
  unfold items
  rw [List.mem_filterMap]
  constructor
  · rintro ⟨b, hb, he⟩
    refine ⟨b, List.mem_range.1 hb, ?_⟩
    cases ht : t.tab b with
    | present h k v => rw [ht] at he; simp only [Entry.kv] at he; cases he; exact ⟨h, rfl⟩
    | free => rw [ht] at he; cases he
    | deleted => rw [ht] at he; cases he
  · rintro ⟨b, hb, hh, he⟩
    exact ⟨b, List.mem_range.2 hb, by rw [he]; rfl⟩

theorem rest_put (t : HT K V) (a : Nat) (e : Entry K V) : rest (t.put a e) a = rest t a := by
  unfold rest HT.put
  refine fm_congr fun b _ => ?_
  by_cases h : b = a <;> simp [h]

theorem items_put (t : HT K V) {a : Nat} (e : Entry K V) (ha : a < t.size) :
    (items (t.put a e)).Perm (e.kv.toList ++ rest t a) := by
  have h := items_split (t.put a e) ha
  rw [rest_put] at h
  simpa [HT.put] using h

theorem dels_put (t : HT K V) {a : Nat} (e : Entry K V) (ha : a < t.size) :
    (dels (t.put a e)).length + (t.tab a).del.toList.length
      = (dels t).length + e.del.toList.length := by
  have h1 := (fm_split (fun a => (t.tab a).del) a ha).length_eq
  have h2 := (fm_split (fun b => ((t.put a e).tab b).del) a ha).length_eq
  have h3 : (List.range t.size).filterMap
        (fun i => if i = a then none else ((t.put a e).tab i).del)
      = (List.range t.size).filterMap (fun i => if i = a then none else (t.tab i).del) :=
    fm_congr fun b _ => by by_cases h : b = a <;> simp [h, HT.put]
  rw [h3, List.length_append] at h2
  rw [List.length_append] at h1
  have h4 : ((t.put a e).tab a).del = e.del := by simp [HT.put]
  rw [h4] at h2
  have h5 : dels (t.put a e) = (List.range t.size).filterMap (fun b => ((t.put a e).tab b).del) := rfl
  have h6 : dels t = (List.range t.size).filterMap (fun b => (t.tab b).del) := rfl
  rw [h5, h6]
  omega

theorem tab_put_self (t : HT K V) (a : Nat) (e : Entry K V) : (t.put a e).tab a = e := by
  simp [HT.put]

theorem tab_put_ne (t : HT K V) {a b : Nat} (e : Entry K V) (h : b ≠ a) :
    (t.put a e).tab b = t.tab b := by
  simp [HT.put, h]

/-! ### iteration -/

def isP : Entry K V → Bool
  | .present _ _ _ => true
  | _ => false

theorem nextFrom_spec (t : HT K V) : ∀ (n a : Nat),
    match nextFrom t n a with
    | none => (List.range' a n).filter (fun b => isP (t.tab b)) = []
    | some b => a ≤ b ∧ b < a + n ∧ isP (t.tab b) = true ∧
        (List.range' a n).filter (fun b => isP (t.tab b))
          = b :: (List.range' (b + 1) (a + n - (b + 1))).filter (fun b => isP (t.tab b)) := by
  intro n
  induction n with
  | zero => intro a; simp [nextFrom]
  | succ n ih =>
    intro a
    have hr : List.range' a (n + 1) = a :: List.range' (a + 1) n := by
      simp [List.range'_succ]
    unfold nextFrom
    cases ht : t.tab a with
    | present h k v =>
      dsimp only
      refine ⟨Nat.le_refl _, by omega, by rw [ht]; rfl, ?_⟩
      rw [hr, List.filter_cons_of_pos (by simp [ht, isP])]
      congr 3
      omega
    | free =>
      dsimp only
      have h := ih (a + 1)
      rw [hr, List.filter_cons_of_neg (by simp [ht, isP])]
      split at h
      · exact h
      · rename_i b he
        obtain ⟨h1, h2, h3, h4⟩ := h
        refine ⟨by omega, by omega, h3, ?_⟩
        rw [h4]; congr 3; omega
    | deleted =>
      dsimp only
      have h := ih (a + 1)
      rw [hr, List.filter_cons_of_neg (by simp [ht, isP])]
      split at h
      · exact h
      · rename_i b he
        obtain ⟨h1, h2, h3, h4⟩ := h
        refine ⟨by omega, by omega, h3, ?_⟩
        rw [h4]; congr 3; omega

/-- first address a `foreach` has not passed yet -/
def after : Option Nat → Nat
  | none => 0
  | some a => a + 1

theorem foreachFrom_eq (t : HT K V) : ∀ (fuel : Nat) (e : Option Nat),
    t.size ≤ after e + fuel →
    foreachFrom t fuel e
      = (List.range' (after e) (t.size - after e)).filter (fun b => isP (t.tab b)) := by
  intro fuel
  induction fuel with
  | zero =>
    intro e h
    have : t.size - after e = 0 := by omega
    simp [foreachFrom, this]
  | succ fuel ih =>
    intro e h
    have hn : nextEntry t e = nextFrom t (t.size - after e) (after e) := by
      cases e <;> rfl
    have hs := nextFrom_spec t (t.size - after e) (after e)
    unfold foreachFrom
    rw [hn]
    split at hs
    · rename_i he; rw [he, hs]
    · rename_i b he
      rw [he]
      obtain ⟨h1, h2, h3, h4⟩ := hs
      dsimp only
      have ha : after (some b) = b + 1 := rfl
      rw [h4, ih (some b) (by omega), ha]
      congr 3
      omega

theorem foreach_eq (t : HT K V) :
    foreach t = (List.range t.size).filter (fun b => isP (t.tab b)) := by
  unfold foreach
  rw [foreachFrom_eq t _ none (by simp [after])]
  simp [after, List.range_eq_range']

theorem contents_eq (t : HT K V) : contents t = items t := by
  unfold contents items
  rw [foreach_eq, List.filterMap_filter]
  refine fm_congr fun a _ => ?_
  cases h : t.tab a <;> simp [isP, Entry.kv]

end Verif.HashTab
