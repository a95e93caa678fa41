import Verif.Sort.Lemmas
/-!
Property C27: `table.sort`.
-/
namespace Verif.Sort
variable {V σ : Type}

/-- the array elements `1..n` as a list -/
def elems (n : Nat) (a : Nat → V) : List V := (List.range' 1 n).map a

theorem elems_perm {n : Nat} {a b : Nat → V} (h : PermOn 1 n a b) : (elems n b).Perm (elems n a) := by
  obtain ⟨π, hπ, rfl⟩ := h
  unfold elems
  rw [show (List.range' 1 n).map (a ∘ π) = ((List.range' 1 n).map π).map a by simp]
  apply List.Perm.map
  have hin : ∀ k, (1 ≤ k ∧ k < 1 + n) ↔ (1 ≤ π k ∧ π k < 1 + n) := by
    intro k
    constructor
    · intro hk
      by_cases h1 : π k < 1 ∨ n < π k
      · have := π.injective (hπ (π k) h1); omega
      · omega
    · intro hk
      by_cases h1 : k < 1 ∨ n < k
      · rw [hπ k h1] at hk; omega
      · omega
  refine (List.perm_ext_iff_of_nodup ?_ List.nodup_range').2 fun x => ?_
  · exact List.pairwise_map.2 (List.Pairwise.imp (fun h e => h (π.injective e)) (List.nodup_range' (s := 1) (n := n) (step := 1)))
  · simp only [List.mem_map, List.mem_range'_1]
    constructor
    · rintro ⟨k, hk, rfl⟩
      exact (hin k).1 hk
    · intro hx
      exact ⟨π.symm x, (hin _).2 (by simpa using hx), by simp⟩

/-- the outcome of `sort` -/
theorem sort_triple (E : Env V σ) (lt : V → V → Prop) (a0 : Nat → V) (hint : E.n < 2147483647) :
    Triple (fun a => a = a0) (sort E) (fun _ a => PermOn 1 E.n a0 a ∧ (Consistent E lt → SortedOn lt 1 E.n a)) (ErrInv E lt a0 1 E.n) := by
  unfold sort
  by_cases h : 1 < E.n
  · rw [if_pos h, if_pos hint]
    exact auxsort_spec E lt hint (E.n + 1) 1 E.n 0 a0 (by omega) (by omega) (by omega) (by omega)
  · rw [if_neg h]
    refine Triple.pure ?_
    rintro a rfl
    refine ⟨PermOn.refl _ _ _, fun hcon i j hi hij hj => ?_⟩
    rw [show i = j by omega]; exact Le.refl hcon _

/-- **C27.** For any order function whatsoever (any answers, any errors, any dependence on state): sorting ends, accesses only positions
`1..n`, and whether it returns or raises an error the elements at `1..n` are a permutation of the original ones and no other position
has changed. -/
theorem sort_permutes (E : Env V σ) (a : Nat → V) (s : σ) (hint : E.n < 2147483647) :
    ∃ a' s' r, sort E a s = (a', s', r) ∧ r ≠ .ub ∧ (elems E.n a').Perm (elems E.n a) ∧ ∀ k, k < 1 ∨ E.n < k → a' k = a k := by
  have h := sort_triple E (fun _ _ => False) a hint a s rfl
  rcases hm : sort E a s with ⟨a', s', r⟩
  rw [hm] at h
  refine ⟨a', s', r, rfl, ?_⟩
  cases r with
  | ok x => exact ⟨by simp, elems_perm h.1, fun k hk => h.1.outside k hk⟩
  | err e => exact ⟨by simp, elems_perm h.1, fun k hk => h.1.outside k hk⟩
  | ub => exact h.elim

/-- **C27.** If the order function always answers according to a strict weak order `lt`, `table.sort` raises no error and the result is sorted: no later
element is less than an earlier one. -/
theorem sort_sorts (E : Env V σ) (lt : V → V → Prop) (hc : Consistent E lt) (a : Nat → V) (s : σ) (hint : E.n < 2147483647) :
    ∃ a' s', sort E a s = (a', s', .ok ()) ∧ (elems E.n a').Perm (elems E.n a) ∧
      ∀ i j, 1 ≤ i → i < j → j ≤ E.n → ¬ lt (a' j) (a' i) := by
  have h := sort_triple E lt a hint a s rfl
  rcases hm : sort E a s with ⟨a', s', r⟩
  rw [hm] at h
  cases r with
  | ok x => exact ⟨a', s', rfl, elems_perm h.1, fun i j hi hij hj => h.2 hc i j hi (by omega) hj⟩
  | err e => exact absurd hc h.2
  | ub => exact h.elim

/-- **C27.** A larger array is refused before anything is touched. -/
theorem sort_too_big (E : Env V σ) (a : Nat → V) (s : σ) (h : 2147483647 ≤ E.n) : sort E a s = (a, s, .err "array too big") := by
  unfold sort
  rw [if_pos (by omega), if_neg (by omega)]
  rfl

/-- `<` on the naturals is such an order -/
def natEnv (n : Nat) : Env Nat Unit := { cmp := fun s x y => (s, some (decide (x < y))), rand := fun s => (s, 7), n := n }

theorem natEnv_consistent (n : Nat) : Consistent (natEnv n) (· < ·) where
  answers := fun s x y => ⟨s, decide (x < y), rfl, by simp⟩
  asymm := fun x y h h' => by omega
  negtrans := fun x y z h h' => by omega

example (a : Nat → Nat) : ∃ a' s', sort (natEnv 1000) a () = (a', s', .ok ()) ∧ (elems 1000 a').Perm (elems 1000 a) ∧
    ∀ i j, 1 ≤ i → i < j → j ≤ 1000 → ¬ a' j < a' i :=
  sort_sorts (natEnv 1000) (· < ·) (natEnv_consistent 1000) a () (by decide)

/-- an inconsistent order function is detected: "always true" on four elements -/
example : (sort { natEnv 4 with cmp := fun s _ _ => (s, some true) } (fun k => k) ()).2.2 = .err "invalid order function for sorting" := by
  decide +kernel

end Verif.Sort
