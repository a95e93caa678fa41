import Mathlib.Logic.Equiv.Basic
import Verif.Sort.Model
/-!
Hoare triples for `table.sort` and the proof that every part keeps the array a permutation and, for a consistent order, sorts it.
-/
namespace Verif.Sort
variable {V σ : Type}

/-- From every state satisfying `P`, `m` ends without undefined behaviour, satisfying `Q` on return and `R` on error. -/
def Triple {α : Type} (P : (Nat → V) → Prop) (m : M V σ α) (Q : α → (Nat → V) → Prop) (R : (Nat → V) → Prop) : Prop :=
  ∀ a s, P a → match m a s with
    | (a', _, .ok x) => Q x a'
    | (a', _, .err _) => R a'
    | (_, _, .ub) => False

theorem Triple.pure {α : Type} {P : (Nat → V) → Prop} {x : α} {Q : α → (Nat → V) → Prop} {R : (Nat → V) → Prop} (h : ∀ a, P a → Q x a) :
    Triple P (Pure.pure x : M V σ α) Q R := fun a _ hp => h a hp

theorem Triple.bind {α β : Type} {P : (Nat → V) → Prop} {m : M V σ α} {f : α → M V σ β} {Q : α → (Nat → V) → Prop}
    {Q' : β → (Nat → V) → Prop} {R : (Nat → V) → Prop} (h1 : Triple P m Q R) (h2 : ∀ x, Triple (Q x) (f x) Q' R) :
    Triple P (m >>= f) Q' R := by
  intro a s hp
  have := h1 a s hp
  change match M.bind m f a s with
    | (a', _, .ok x) => Q' x a'
    | (a', _, .err _) => R a'
    | (_, _, .ub) => False
  unfold M.bind
  rcases hm : m a s with ⟨a', s', r⟩
  rw [hm] at this
  cases r with
  | ok x => exact h2 x a' s' this
  | err e => exact this
  | ub => exact this

theorem Triple.weaken {α : Type} {P P' : (Nat → V) → Prop} {m : M V σ α} {Q Q' : α → (Nat → V) → Prop} {R R' : (Nat → V) → Prop}
    (h : Triple P m Q R) (hP : ∀ a, P' a → P a) (hQ : ∀ x a, Q x a → Q' x a) (hR : ∀ a, R a → R' a) : Triple P' m Q' R' := by
  intro a s hp
  have := h a s (hP a hp)
  rcases hm : m a s with ⟨a', s', r⟩
  rw [hm] at this
  cases r with
  | ok x => exact hQ _ _ this
  | err e => exact hR _ this
  | ub => exact this

theorem Triple.fail {α : Type} {P : (Nat → V) → Prop} {Q : α → (Nat → V) → Prop} {R : (Nat → V) → Prop} {msg : String} (h : ∀ a, P a → R a) :
    Triple P (fail msg : M V σ α) Q R := fun a _ hp => h a hp

theorem Triple.get {P : (Nat → V) → Prop} {R : (Nat → V) → Prop} (E : Env V σ) (i : Nat) (h1 : 1 ≤ i) (h2 : i ≤ E.n) :
    Triple P (get E i) (fun v a => P a ∧ v = a i) R := by
  intro a s hp
  unfold Sort.get
  rw [if_pos ⟨h1, h2⟩]
  exact ⟨hp, rfl⟩

theorem Triple.put {P : (Nat → V) → Prop} {R : (Nat → V) → Prop} {Q : Unit → (Nat → V) → Prop} (E : Env V σ) (i : Nat) (v : V) (h1 : 1 ≤ i) (h2 : i ≤ E.n)
    (h : ∀ a, P a → Q () (fun k => if k = i then v else a k)) : Triple P (put E i v) Q R := by
  intro a s hp
  unfold Sort.put
  rw [if_pos ⟨h1, h2⟩]
  exact h a hp

theorem Triple.set2 {P : (Nat → V) → Prop} {R : (Nat → V) → Prop} {Q : Unit → (Nat → V) → Prop} (E : Env V σ) (i j : Nat) (x y : V)
    (hi : 1 ≤ i ∧ i ≤ E.n) (hj : 1 ≤ j ∧ j ≤ E.n)
    (h : ∀ a, P a → Q () (fun k => if k = j then y else if k = i then x else a k)) : Triple P (set2 E i j x y) Q R :=
  Triple.bind (Q := fun _ a' => ∃ a, P a ∧ a' = fun k => if k = i then x else a k)
    (Triple.put E i x hi.1 hi.2 fun a hp => ⟨a, hp, rfl⟩)
    (fun _ => Triple.put E j y hj.1 hj.2 (by rintro _ ⟨a, hp, rfl⟩; exact h a hp))

/-- The order function is the strict weak order `lt`: it always answers, and according to `lt`. -/
structure Consistent (E : Env V σ) (lt : V → V → Prop) : Prop where
  answers : ∀ s x y, ∃ s' b, E.cmp s x y = (s', some b) ∧ (b = true ↔ lt x y)
  asymm : ∀ x y, lt x y → ¬ lt y x
  negtrans : ∀ x y z, ¬ lt x y → ¬ lt y z → ¬ lt x z

theorem Triple.comp {P : (Nat → V) → Prop} {R : (Nat → V) → Prop} (E : Env V σ) (lt : V → V → Prop) (x y : V)
    (hR : ∀ a, P a → ¬ Consistent E lt → R a) :
    Triple P (comp E x y) (fun b a => P a ∧ (Consistent E lt → (b = true ↔ lt x y))) R := by
  intro a s hp
  unfold Sort.comp
  rcases hc : E.cmp s x y with ⟨s', _ | b⟩
  · refine hR a hp fun h => ?_
    obtain ⟨s'', b, h1, -⟩ := h.answers s x y
    rw [hc] at h1
    simp at h1
  · refine ⟨hp, fun h => ?_⟩
    obtain ⟨s'', b', h1, h2⟩ := h.answers s x y
    rw [hc] at h1
    simp only [Prod.mk.injEq, Option.some.injEq] at h1
    rw [h1.2]; exact h2

/-! ### permutations -/

/-- `a'` is `a` with the positions `lo..up` permuted -/
def PermOn (lo up : Nat) (a a' : Nat → V) : Prop := ∃ π : Equiv.Perm Nat, (∀ k, k < lo ∨ up < k → π k = k) ∧ a' = a ∘ π

theorem PermOn.refl (lo up : Nat) (a : Nat → V) : PermOn lo up a a := ⟨Equiv.refl _, fun _ _ => rfl, rfl⟩

theorem PermOn.trans {lo up : Nat} {a b c : Nat → V} (h1 : PermOn lo up a b) (h2 : PermOn lo up b c) : PermOn lo up a c := by
  obtain ⟨p, hp, rfl⟩ := h1
  obtain ⟨q, hq, rfl⟩ := h2
  refine ⟨q.trans p, fun k hk => ?_, rfl⟩
  simp [hq k hk, hp k hk]

theorem PermOn.mono {lo up lo' up' : Nat} {a b : Nat → V} (h : PermOn lo' up' a b) (h1 : lo ≤ lo') (h2 : up' ≤ up) : PermOn lo up a b := by
  obtain ⟨p, hp, rfl⟩ := h
  exact ⟨p, fun k hk => hp k (by omega), rfl⟩

/-- outside, values are unchanged -/
theorem PermOn.outside {lo up : Nat} {a b : Nat → V} (h : PermOn lo up a b) (k : Nat) (hk : k < lo ∨ up < k) : b k = a k := by
  obtain ⟨p, hp, rfl⟩ := h
  simp [hp k hk]

/-- inside, values come from inside -/
theorem PermOn.inside {lo up : Nat} {a b : Nat → V} (h : PermOn lo up a b) (k : Nat) (hk : lo ≤ k ∧ k ≤ up) : ∃ k', lo ≤ k' ∧ k' ≤ up ∧ b k = a k' := by
  obtain ⟨p, hp, rfl⟩ := h
  by_cases h1 : p k < lo ∨ up < p k
  · have := p.injective (hp (p k) h1)
    omega
  · exact ⟨p k, by omega, by omega, rfl⟩

theorem PermOn.swap {lo up : Nat} (a : Nat → V) (i j : Nat) (hi : lo ≤ i ∧ i ≤ up) (hj : lo ≤ j ∧ j ≤ up) (x y : V) (hx : x = a j) (hy : y = a i) :
    PermOn lo up a (fun k => if k = j then y else if k = i then x else a k) := by
  refine ⟨Equiv.swap i j, fun k hk => Equiv.swap_apply_of_ne_of_ne (by omega) (by omega), ?_⟩
  funext k
  simp only [Function.comp, Equiv.swap_apply_def]
  by_cases h1 : k = j
  · rw [if_pos h1, h1, hy]
    by_cases h2 : j = i
    · rw [if_pos h2, h2]
    · rw [if_neg h2, if_pos rfl]
  · rw [if_neg h1]
    by_cases h2 : k = i
    · rw [if_pos h2, if_pos h2, hx]
    · rw [if_neg h2, if_neg h2, if_neg h1]

/-- `x ≤ y` in the order -/
def Le (lt : V → V → Prop) (x y : V) : Prop := ¬ lt y x

section
variable {E : Env V σ} {lt : V → V → Prop} (hc : Consistent E lt)
include hc
theorem Le.refl (x : V) : Le lt x x := fun h => hc.asymm x x h h
theorem Le.of_lt {x y : V} (h : lt x y) : Le lt x y := hc.asymm _ _ h
theorem Le.trans {x y z : V} (h1 : Le lt x y) (h2 : Le lt y z) : Le lt x z := hc.negtrans _ _ _ h2 h1
end

theorem w_eq {x : Nat} (h : x < 4294967296) : w x = x := Nat.mod_eq_of_lt h

theorem usub_eq {x y : Nat} (h : y ≤ x) (hx : x < 4294967296) : usub x y = x - y := by
  unfold usub w
  omega

attribute [local irreducible] w usub

/-! ### partition -/

section
variable (E : Env V σ) (lt : V → V → Prop) (a0 : Nat → V) (lo up : Nat) (P : V)

/-- what holds between the scans of `partition` -/
def PartInv (i j : Nat) (a : Nat → V) : Prop :=
  PermOn lo up a0 a ∧ a (up - 1) = P ∧ (Consistent E lt → (∀ k, lo ≤ k → k ≤ i → Le lt (a k) P) ∧ (∀ k, j ≤ k → k ≤ up → Le lt P (a k)))

/-- what holds when an error is raised -/
def ErrInv (a : Nat → V) : Prop := PermOn lo up a0 a ∧ ¬ Consistent E lt

variable {E lt a0 lo up P}

theorem upLoop_spec (hlo : 1 ≤ lo) (hn : up ≤ E.n) (hint : E.n < 2147483647) (hup : lo + 2 ≤ up) (j : Nat) : ∀ (fuel i : Nat), lo ≤ i → i + 2 ≤ up →
    up < fuel + i + 1 →
    Triple (PartInv E lt a0 lo up P i j) (upLoop E P up fuel i)
      (fun r a => i < r.1 ∧ r.1 + 1 ≤ up ∧ r.2 = a r.1 ∧ PartInv E lt a0 lo up P (r.1 - 1) j a ∧ (Consistent E lt → Le lt P (a r.1))) (ErrInv E lt a0 lo up)
  | 0, i, h1, h2, h3 => by omega
  | fuel + 1, i, h1, h2, h3 => by
    unfold upLoop
    have hw : w (i + 1) = i + 1 := w_eq (by omega)
    have hu : usub up 1 = up - 1 := usub_eq (by omega) (by omega)
    simp only [hw, hu]
    refine Triple.bind (Triple.get E (i + 1) (by omega) (by omega)) fun v => ?_
    refine Triple.bind (Triple.comp E lt v P ?_) fun b => ?_
    · intro a ⟨hp, _⟩ hno
      exact ⟨hp.1, hno⟩
    · cases b with
      | false =>
        simp only [Bool.false_eq_true, if_false]
        refine Triple.pure fun a ⟨⟨hp, hv⟩, hb⟩ => ?_
        refine ⟨by dsimp only; omega, by dsimp only; omega, hv, ?_, fun hcon => ?_⟩
        · simpa using hp
        · have := hb hcon
          dsimp only
          rw [← hv]
          intro hl
          exact absurd (this.2 hl) (by simp)
      | true =>
        simp only [if_true]
        by_cases hi : i + 1 = up - 1
        · rw [if_pos hi]
          refine Triple.fail fun a ⟨⟨hp, hv⟩, hb⟩ => ⟨hp.1, fun hcon => ?_⟩
          have h := (hb hcon).1 trivial
          rw [hv, hi, hp.2.1] at h
          exact hcon.asymm _ _ h h
        · rw [if_neg hi]
          refine (upLoop_spec hlo hn hint hup j fuel (i + 1) (by omega) (by omega) (by omega)).weaken ?_ ?_ (fun _ h => h)
          · intro a ⟨⟨hp, hv⟩, hb⟩
            refine ⟨hp.1, hp.2.1, fun hcon => ⟨fun k hk1 hk2 => ?_, (hp.2.2 hcon).2⟩⟩
            by_cases hk : k = i + 1
            · rw [hk, ← hv]; exact Le.of_lt hcon ((hb hcon).1 trivial)
            · exact (hp.2.2 hcon).1 k hk1 (by omega)
          · intro r a ⟨g1, g2, g3, g4, g5⟩
            exact ⟨by omega, g2, g3, g4, g5⟩

theorem downLoop_spec (hlo : 1 ≤ lo) (hn : up ≤ E.n) (hint : E.n < 2147483647) (i : Nat) (hi : lo < i) (X : (Nat → V) → Prop) : ∀ (fuel j : Nat), lo < j → j < up →
    j < fuel + lo →
    Triple (fun a => PartInv E lt a0 lo up P (i - 1) j a ∧ X a) (downLoop E P i fuel j)
      (fun r a => r.1 < j ∧ lo ≤ r.1 ∧ r.2 = a r.1 ∧ PartInv E lt a0 lo up P (i - 1) (r.1 + 1) a ∧ X a ∧ (Consistent E lt → Le lt (a r.1) P)) (ErrInv E lt a0 lo up)
  | 0, j, h1, h2, h3 => by omega
  | fuel + 1, j, h1, h2, h3 => by
    unfold downLoop
    have hu : usub j 1 = j - 1 := usub_eq (by omega) (by omega)
    simp only [hu]
    refine Triple.bind (Triple.get E (j - 1) (by omega) (by omega)) fun v => ?_
    refine Triple.bind (Triple.comp E lt P v ?_) fun b => ?_
    · intro a ⟨⟨hp, _⟩, _⟩ hno
      exact ⟨hp.1, hno⟩
    · cases b with
      | false =>
        simp only [Bool.false_eq_true, if_false]
        refine Triple.pure fun a ⟨⟨⟨hp, hx⟩, hv⟩, hb⟩ => ?_
        refine ⟨by dsimp only; omega, by dsimp only; omega, hv, ?_, hx, fun hcon => ?_⟩
        · dsimp only; rw [Nat.sub_add_cancel (by omega)]; exact hp
        · have := hb hcon
          dsimp only
          rw [← hv]
          intro hl
          exact absurd (this.2 hl) (by simp)
      | true =>
        simp only [if_true]
        by_cases hj : j - 1 < i
        · rw [if_pos hj]
          refine Triple.fail fun a ⟨⟨⟨hp, hx⟩, hv⟩, hb⟩ => ⟨hp.1, fun hcon => ?_⟩
          have h := (hb hcon).1 trivial
          rw [hv] at h
          exact (hp.2.2 hcon).1 (j - 1) (by omega) (by omega) h
        · rw [if_neg hj]
          refine (downLoop_spec hlo hn hint i hi X fuel (j - 1) (by omega) (by omega) (by omega)).weaken ?_ ?_ (fun _ h => h)
          · intro a ⟨⟨⟨hp, hx⟩, hv⟩, hb⟩
            refine ⟨⟨hp.1, hp.2.1, fun hcon => ⟨(hp.2.2 hcon).1, fun k hk1 hk2 => ?_⟩⟩, hx⟩
            by_cases hk : k = j - 1
            · rw [hk, ← hv]; exact Le.of_lt hcon ((hb hcon).1 trivial)
            · exact (hp.2.2 hcon).2 k (by omega) hk2
          · intro r a ⟨g1, g2, g3, g4, g5, g6⟩
            exact ⟨by omega, g2, g3, g4, g5, g6⟩

/-- postcondition of `partition` -/
def PartPost (E : Env V σ) (lt : V → V → Prop) (a0 : Nat → V) (lo up : Nat) (p : Nat) (a : Nat → V) : Prop :=
  lo < p ∧ p < up ∧ PermOn lo up a0 a ∧
  (Consistent E lt → (∀ k, lo ≤ k → k < p → Le lt (a k) (a p)) ∧ (∀ k, p < k → k ≤ up → Le lt (a p) (a k)))

theorem partitionLoop_spec (hlo : 1 ≤ lo) (hn : up ≤ E.n) (hint : E.n < 2147483647) (hup : lo + 3 ≤ up) : ∀ (fuel i j : Nat), lo ≤ i → i + 2 ≤ up → lo < j → j < up →
    up < fuel + i →
    Triple (PartInv E lt a0 lo up P i j) (partitionLoop E P up fuel i j) (PartPost E lt a0 lo up) (ErrInv E lt a0 lo up)
  | 0, i, j, _, _, _, _, h => by omega
  | fuel + 1, i, j, h1, h2, h3, h4, h5 => by
    unfold partitionLoop
    refine Triple.bind (upLoop_spec hlo hn hint (by omega) j (E.n + 1) i h1 h2 (by omega)) ?_
    rintro ⟨i1, vi⟩
    dsimp only
    rcases Classical.em (i < i1 ∧ i1 + 1 ≤ up) with hi1 | hi1
    · refine Triple.bind (Q := fun r a => r.1 < j ∧ lo ≤ r.1 ∧ r.2 = a r.1 ∧ PartInv E lt a0 lo up P (i1 - 1) (r.1 + 1) a ∧
          (vi = a i1 ∧ (Consistent E lt → Le lt P (a i1))) ∧ (Consistent E lt → Le lt (a r.1) P)) (m := downLoop E P i1 (E.n + 1) j) ?_ ?_
      · refine (downLoop_spec (lt := lt) (P := P) (a0 := a0) hlo hn hint i1 (by omega) (fun a => vi = a i1 ∧ (Consistent E lt → Le lt P (a i1))) (E.n + 1) j h3 h4 (by omega)).weaken ?_
          (fun _ _ h => h) (fun _ h => h)
        intro a ⟨_, _, g3, g4, g5⟩
        exact ⟨g4, g3, g5⟩
      · rintro ⟨j1, vj⟩
        dsimp only
        have hu : usub up 1 = up - 1 := usub_eq (by omega) (by omega)
        rcases Classical.em (j1 < j ∧ lo ≤ j1) with hj1 | hj1
        · by_cases hji : j1 < i1
          · simp only [hji, if_true, hu]
            refine Triple.bind (Q := fun _ => PartPost E lt a0 lo up i1) (Triple.set2 E (up - 1) i1 vi P (by omega) (by omega) ?_) fun _ =>
              Triple.pure fun a h => h
            intro a ⟨_, _, g3, g4, ⟨g5, g6⟩, g7⟩
            refine ⟨by omega, by omega, ?_, fun hcon => ?_⟩
            · refine g4.1.trans ?_
              exact PermOn.swap a (up - 1) i1 (by omega) (by omega) vi P g5 g4.2.1.symm
            · have hL := (g4.2.2 hcon).1
              have hR := (g4.2.2 hcon).2
              simp only [if_true]
              constructor
              · intro k hk1 hk2
                rw [if_neg (by omega), if_neg (by omega)]
                exact hL k hk1 (by omega)
              · intro k hk1 hk2
                rw [if_neg (by omega)]
                by_cases hk : k = up - 1
                · rw [if_pos hk, g5]; exact g6 hcon
                · rw [if_neg hk]; exact hR k (by omega) hk2
          · simp only [hji, if_false]
            refine Triple.bind (Q := fun _ => PartInv E lt a0 lo up P i1 j1) (Triple.set2 E i1 j1 vj vi (by omega) (by omega) ?_) fun _ =>
              partitionLoop_spec hlo hn hint hup fuel i1 j1 (by omega) (by omega) (by omega) (by omega) (by omega)
            intro a ⟨_, _, g3, g4, ⟨g5, g6⟩, g7⟩
            refine ⟨?_, ?_, fun hcon => ⟨fun k hk1 hk2 => ?_, fun k hk1 hk2 => ?_⟩⟩
            · refine g4.1.trans ?_
              exact PermOn.swap a i1 j1 (by omega) (by omega) vj vi g3 g5
            · dsimp only; rw [if_neg (by omega), if_neg (by omega)]; exact g4.2.1
            · dsimp only
              by_cases hk : k = j1
              · have : k = i1 := by omega
                rw [if_pos hk, g5, show i1 = j1 by omega]
                exact g7 hcon
              · rw [if_neg hk]
                by_cases hk' : k = i1
                · rw [if_pos hk', g3]; exact g7 hcon
                · rw [if_neg hk']; exact (g4.2.2 hcon).1 k hk1 (by omega)
            · dsimp only
              by_cases hk : k = j1
              · rw [if_pos hk, g5]; exact g6 hcon
              · rw [if_neg hk]
                by_cases hk' : k = i1
                · omega
                · rw [if_neg hk']; exact (g4.2.2 hcon).2 k (by omega) hk2
        · intro a s ⟨g1, g2, _⟩
          exact False.elim (hj1 ⟨g1, g2⟩)
    · intro a s ⟨g1, g2, _⟩
      exact False.elim (hi1 ⟨g1, g2⟩)

theorem partition_spec (hlo : 1 ≤ lo) (hn : up ≤ E.n) (hint : E.n < 2147483647) (hup : lo + 3 ≤ up) :
    Triple (fun a => PermOn lo up a0 a ∧ a (up - 1) = P ∧ (Consistent E lt → Le lt (a lo) P ∧ Le lt P (a up)))
      (partition E P lo up) (PartPost E lt a0 lo up) (ErrInv E lt a0 lo up) := by
  unfold partition
  have hu : usub up 1 = up - 1 := usub_eq (by omega) (by omega)
  rw [hu]
  refine (partitionLoop_spec (lt := lt) (a0 := a0) (P := P) hlo hn hint hup (E.n + 1) lo (up - 1) (by omega) (by omega) (by omega) (by omega) (by omega)).weaken ?_ (fun _ _ h => h)
    (fun _ h => h)
  intro a ⟨h1, h2, h3⟩
  refine ⟨h1, h2, fun hcon => ⟨fun k hk1 hk2 => ?_, fun k hk1 hk2 => ?_⟩⟩
  · rw [show k = lo by omega]; exact (h3 hcon).1
  · by_cases hk : k = up
    · rw [hk]; exact (h3 hcon).2
    · rw [show k = up - 1 by omega, h2]; exact Le.refl hcon P

/-! ### the whole sort -/

theorem order2_spec (hlo : 1 ≤ lo) (hn : up ≤ E.n) (hup : lo < up) :
    Triple (fun a => a = a0) (order2 E lo up) (fun _ a => PermOn lo up a0 a ∧ (Consistent E lt → Le lt (a lo) (a up))) (ErrInv E lt a0 lo up) := by
  unfold order2
  refine Triple.bind (Triple.get E lo (by omega) (by omega)) fun vlo => ?_
  refine Triple.bind (Triple.get E up (by omega) (by omega)) fun vup => ?_
  refine Triple.bind (Triple.comp E lt vup vlo ?_) fun b => ?_
  · rintro a ⟨⟨rfl, _⟩, _⟩ hno
    exact ⟨PermOn.refl _ _ _, hno⟩
  · cases b with
    | false =>
      simp only [Bool.false_eq_true, if_false]
      refine Triple.pure ?_
      rintro a ⟨⟨⟨rfl, h1⟩, h2⟩, hb⟩
      refine ⟨PermOn.refl _ _ _, fun hcon hl => ?_⟩
      rw [← h1, ← h2] at hl
      exact absurd ((hb hcon).2 hl) (by simp)
    | true =>
      simp only [if_true]
      refine Triple.set2 E lo up vup vlo (by omega) (by omega) ?_
      rintro a ⟨⟨⟨rfl, h1⟩, h2⟩, hb⟩
      refine ⟨PermOn.swap a lo up (by omega) (by omega) vup vlo h2 h1, fun hcon => ?_⟩
      dsimp only
      rw [if_neg (by omega), if_pos rfl, if_pos rfl]
      exact Le.of_lt hcon ((hb hcon).1 trivial)

theorem pivotIdx_spec (Q : (Nat → V) → Prop) (R : (Nat → V) → Prop) (rnd : Nat) (hup : lo + 2 ≤ up) (hint : up < 2147483647) :
    Triple Q (pivotIdx (V := V) (σ := σ) lo up rnd) (fun p a => lo < p ∧ p < up ∧ Q a) R := by
  unfold pivotIdx
  have hu : usub up lo = up - lo := usub_eq (by omega) (by omega)
  rw [hu]
  by_cases h : up - lo < ranLimit ∨ rnd = 0
  · rw [if_pos h, w_eq (by omega)]
    refine Triple.pure fun a ha => ⟨?_, ?_, ha⟩ <;> omega
  · rw [if_neg h]
    unfold ranLimit at h
    unfold choosePivot
    dsimp only
    rw [hu, w_eq (show (up - lo) / 4 * 2 < 4294967296 by omega), if_neg (by omega)]
    have hr : rnd % ((up - lo) / 4 * 2) < (up - lo) / 4 * 2 := Nat.mod_lt _ (by omega)
    rw [w_eq (show lo + (up - lo) / 4 < 4294967296 by omega), w_eq (by omega)]
    refine Triple.pure fun a ha => ⟨?_, ?_, ha⟩ <;> omega

theorem order3_spec (hlo : 1 ≤ lo) (hn : up ≤ E.n) (p : Nat) (hp : lo < p ∧ p < up) :
    Triple (fun a => PermOn lo up a0 a ∧ (Consistent E lt → Le lt (a lo) (a up))) (order3 E lo p up)
      (fun _ a => PermOn lo up a0 a ∧ (Consistent E lt → Le lt (a lo) (a p) ∧ Le lt (a p) (a up))) (ErrInv E lt a0 lo up) := by
  unfold order3
  refine Triple.bind (Triple.get E p (by omega) (by omega)) fun vp => ?_
  refine Triple.bind (Triple.get E lo (by omega) (by omega)) fun vlo => ?_
  refine Triple.bind (Triple.comp E lt vp vlo ?_) fun b => ?_
  · rintro a ⟨⟨⟨h, _⟩, _⟩, _⟩ hno
    exact ⟨h, hno⟩
  · cases b with
    | true =>
      simp only [if_true]
      refine Triple.set2 E p lo vlo vp (by omega) (by omega) ?_
      rintro a ⟨⟨⟨⟨h, h0⟩, h1⟩, h2⟩, hb⟩
      refine ⟨h.trans (PermOn.swap a p lo (by omega) (by omega) vlo vp h2 h1), fun hcon => ?_⟩
      dsimp only
      rw [if_pos rfl, if_neg (by omega), if_pos rfl, if_neg (by omega), if_neg (by omega)]
      exact ⟨Le.of_lt hcon ((hb hcon).1 trivial), by rw [h2]; exact h0 hcon⟩
    | false =>
      simp only [Bool.false_eq_true, if_false]
      refine Triple.bind (Triple.get E up (by omega) (by omega)) fun vup => ?_
      refine Triple.bind (Triple.comp E lt vup vp ?_) fun b => ?_
      · rintro a ⟨⟨⟨⟨⟨h, _⟩, _⟩, _⟩, _⟩, _⟩ hno
        exact ⟨h, hno⟩
      · cases b with
        | true =>
          simp only [if_true]
          refine Triple.set2 E p up vup vp (by omega) (by omega) ?_
          rintro a ⟨⟨⟨⟨⟨⟨h, h0⟩, h1⟩, h2⟩, hb⟩, h3⟩, hb'⟩
          refine ⟨h.trans (PermOn.swap a p up (by omega) (by omega) vup vp h3 h1), fun hcon => ?_⟩
          dsimp only
          rw [if_neg (by omega), if_neg (by omega), if_neg (by omega), if_pos rfl, if_pos rfl]
          exact ⟨by rw [h3]; exact h0 hcon, Le.of_lt hcon ((hb' hcon).1 trivial)⟩
        | false =>
          simp only [Bool.false_eq_true, if_false]
          refine Triple.pure ?_
          rintro a ⟨⟨⟨⟨⟨⟨h, h0⟩, h1⟩, h2⟩, hb⟩, h3⟩, hb'⟩
          refine ⟨h, fun hcon => ⟨fun hl => ?_, fun hl => ?_⟩⟩
          · rw [← h1, ← h2] at hl
            exact absurd ((hb hcon).2 hl) (by simp)
          · rw [← h1, ← h3] at hl
            exact absurd ((hb' hcon).2 hl) (by simp)

theorem stash_spec (hlo : 1 ≤ lo) (hn : up ≤ E.n) (hint : E.n < 2147483647) (p : Nat) (hp : lo < p ∧ p < up) (hup : lo + 3 ≤ up) :
    Triple (fun a => PermOn lo up a0 a ∧ (Consistent E lt → Le lt (a lo) (a p) ∧ Le lt (a p) (a up))) (stash E p up)
      (fun P a => PermOn lo up a0 a ∧ a (up - 1) = P ∧ (Consistent E lt → Le lt (a lo) P ∧ Le lt P (a up))) (ErrInv E lt a0 lo up) := by
  unfold stash
  have hu : usub up 1 = up - 1 := usub_eq (by omega) (by omega)
  rw [hu]
  refine Triple.bind (Triple.get E p (by omega) (by omega)) fun P => ?_
  refine Triple.bind (Triple.get E (up - 1) (by omega) (by omega)) fun x => ?_
  refine Triple.bind (Q := fun _ a => PermOn lo up a0 a ∧ a (up - 1) = P ∧ (Consistent E lt → Le lt (a lo) P ∧ Le lt P (a up)))
    (Triple.set2 E p (up - 1) x P (by omega) (by omega) ?_) fun _ => Triple.pure fun a h => h
  rintro a ⟨⟨⟨h, h0⟩, h1⟩, h2⟩
  refine ⟨h.trans (PermOn.swap a p (up - 1) (by omega) (by omega) x P h2 h1), if_pos rfl, fun hcon => ?_⟩
  dsimp only
  rw [if_neg (by omega), if_neg (by omega), if_neg (by omega), if_neg (by omega), h1]
  exact h0 hcon

theorem rerandom_spec (Q : (Nat → V) → Prop) (R : (Nat → V) → Prop) (l u n rnd : Nat) :
    Triple Q (rerandom E l u n rnd) (fun _ a => Q a) R := by
  intro a s hq
  unfold rerandom
  by_cases h : n < usub u l / 128
  · simp only [h, if_true]; exact hq
  · simp only [h, if_false]; exact hq

end

/-- the interval `lo..up` is sorted -/
def SortedOn (lt : V → V → Prop) (lo up : Nat) (a : Nat → V) : Prop := ∀ i j, lo ≤ i → i ≤ j → j ≤ up → Le lt (a i) (a j)

theorem auxsort_spec (E : Env V σ) (lt : V → V → Prop) (hint : E.n < 2147483647) : ∀ (fuel lo up rnd : Nat) (a0 : Nat → V), 1 ≤ lo → up ≤ E.n → lo ≤ up + 1 →
    up + 2 ≤ fuel + lo →
    Triple (fun a => a = a0) (auxsort E fuel lo up rnd)
      (fun _ a => PermOn lo up a0 a ∧ (Consistent E lt → SortedOn lt lo up a)) (ErrInv E lt a0 lo up)
  | 0, lo, up, rnd, a0, h1, h2, h3, h4 => by omega
  | fuel + 1, lo, up, rnd, a0, h1, h2, h3, h4 => by
    unfold auxsort
    by_cases hlt : lo < up
    · rw [if_pos hlt]
      have hu : usub up lo = up - lo := usub_eq (by omega) (by omega)
      rw [hu]
      refine Triple.bind (order2_spec (lt := lt) h1 h2 hlt) fun _ => ?_
      by_cases hd1 : up - lo = 1
      · rw [if_pos hd1]
        refine Triple.pure fun a ⟨g1, g2⟩ => ⟨g1, fun hcon i j hi hij hj => ?_⟩
        by_cases e : i = j
        · rw [e]; exact Le.refl hcon _
        · rw [show i = lo by omega, show j = up by omega]; exact g2 hcon
      · rw [if_neg hd1]
        refine Triple.bind (pivotIdx_spec _ _ rnd (by omega) (by omega)) fun p => ?_
        by_cases hp : lo < p ∧ p < up
        · refine Triple.bind ((order3_spec (lt := lt) (a0 := a0) h1 h2 p hp).weaken (fun a h => h.2.2) (fun _ _ h => h) (fun _ h => h)) fun _ => ?_
          by_cases hd2 : up - lo = 2
          · rw [if_pos hd2]
            refine Triple.pure fun a ⟨g1, g2⟩ => ⟨g1, fun hcon i j hi hij hj => ?_⟩
            have hp' : p = lo + 1 := by omega
            by_cases e : i = j
            · rw [e]; exact Le.refl hcon _
            · by_cases e1 : i = lo
              · by_cases e2 : j = up
                · rw [e1, e2]; exact Le.trans hcon (g2 hcon).1 (g2 hcon).2
                · rw [e1, show j = p by omega]; exact (g2 hcon).1
              · rw [show i = p by omega, show j = up by omega]; exact (g2 hcon).2
          · rw [if_neg hd2]
            refine Triple.bind (stash_spec h1 h2 hint p hp (by omega)) fun P => ?_
            refine Triple.bind (partition_spec h1 h2 hint (by omega)) fun q => ?_
            by_cases hq : lo < q ∧ q < up
            · have e1 : usub q lo = q - lo := usub_eq (by omega) (by omega)
              have e2 : usub up q = up - q := usub_eq (by omega) (by omega)
              have e3 : usub q 1 = q - 1 := usub_eq (by omega) (by omega)
              have e4 : w (q + 1) = q + 1 := w_eq (by omega)
              simp only [e1, e2, e3, e4]
              -- the lower part
              have low : ∀ (C : Prop) (fu : Nat), q + 1 ≤ fu + lo → fu = fuel → ∀ rnd, Triple (fun a => PartPost E lt a0 lo up q a ∧ (Consistent E lt → C → SortedOn lt (q + 1) up a)) (auxsort E fu lo (q - 1) rnd)
                  (fun _ a => PartPost E lt a0 lo up q a ∧ (Consistent E lt → (C → SortedOn lt (q + 1) up a) ∧ SortedOn lt lo (q - 1) a)) (ErrInv E lt a0 lo up) := by
                intro C fu hfu hfe rnd
                subst hfe
                intro a s ha
                refine (auxsort_spec E lt hint fu lo (q - 1) rnd a h1 (by omega) (by omega) (by omega)).weaken (fun _ h => h) ?_ ?_ a s rfl
                · rintro _ b ⟨hb, hs⟩
                  have hq' : b q = a q := hb.outside q (by omega)
                  refine ⟨⟨hq.1, hq.2, ha.1.2.2.1.trans (hb.mono (by omega) (by omega)), fun hcon => ⟨fun k hk1 hk2 => ?_, fun k hk1 hk2 => ?_⟩⟩, fun hcon => ⟨fun hC => ?_, hs hcon⟩⟩
                  · obtain ⟨k', g1, g2, g3⟩ := hb.inside k (by omega)
                    rw [g3, hq']; exact (ha.1.2.2.2 hcon).1 k' g1 (by omega)
                  · rw [hb.outside k (by omega), hq']; exact (ha.1.2.2.2 hcon).2 k hk1 hk2
                  · intro i j hi hij hj
                    rw [hb.outside i (by omega), hb.outside j (by omega)]
                    exact ha.2 hcon hC i j hi hij hj
                · rintro b ⟨hb, hno⟩
                  exact ⟨ha.1.2.2.1.trans (hb.mono (by omega) (by omega)), hno⟩
              have high : ∀ (C : Prop) (fu : Nat), up + 2 ≤ fu + (q + 1) → fu = fuel → ∀ rnd, Triple (fun a => PartPost E lt a0 lo up q a ∧ (Consistent E lt → C → SortedOn lt lo (q - 1) a)) (auxsort E fu (q + 1) up rnd)
                  (fun _ a => PartPost E lt a0 lo up q a ∧ (Consistent E lt → (C → SortedOn lt lo (q - 1) a) ∧ SortedOn lt (q + 1) up a)) (ErrInv E lt a0 lo up) := by
                intro C fu hfu hfe rnd
                subst hfe
                intro a s ha
                refine (auxsort_spec E lt hint fu (q + 1) up rnd a (by omega) (by omega) (by omega) (by omega)).weaken (fun _ h => h) ?_ ?_ a s rfl
                · rintro _ b ⟨hb, hs⟩
                  have hq' : b q = a q := hb.outside q (by omega)
                  refine ⟨⟨hq.1, hq.2, ha.1.2.2.1.trans (hb.mono (by omega) (by omega)), fun hcon => ⟨fun k hk1 hk2 => ?_, fun k hk1 hk2 => ?_⟩⟩, fun hcon => ⟨fun hC => ?_, hs hcon⟩⟩
                  · rw [hb.outside k (by omega), hq']; exact (ha.1.2.2.2 hcon).1 k hk1 hk2
                  · obtain ⟨k', g1, g2, g3⟩ := hb.inside k (by omega)
                    rw [g3, hq']; exact (ha.1.2.2.2 hcon).2 k' (by omega) g2
                  · intro i j hi hij hj
                    rw [hb.outside i (by omega), hb.outside j (by omega)]
                    exact ha.2 hcon hC i j hi hij hj
                · rintro b ⟨hb, hno⟩
                  exact ⟨ha.1.2.2.1.trans (hb.mono (by omega) (by omega)), hno⟩
              have fin : ∀ a, PartPost E lt a0 lo up q a → (Consistent E lt → SortedOn lt lo (q - 1) a ∧ SortedOn lt (q + 1) up a) →
                  PermOn lo up a0 a ∧ (Consistent E lt → SortedOn lt lo up a) := by
                intro a ha hs
                refine ⟨ha.2.2.1, fun hcon i j hi hij hj => ?_⟩
                have hL := (ha.2.2.2 hcon).1
                have hR := (ha.2.2.2 hcon).2
                by_cases c1 : j < q
                · exact (hs hcon).1 i j hi hij (by omega)
                · by_cases c2 : q < i
                  · exact (hs hcon).2 i j (by omega) hij hj
                  · have l1 : Le lt (a i) (a q) := by
                      by_cases e : i = q
                      · rw [e]; exact Le.refl hcon _
                      · exact hL i hi (by omega)
                    have l2 : Le lt (a q) (a j) := by
                      by_cases e : j = q
                      · rw [e]; exact Le.refl hcon _
                      · exact hR j (by omega) hj
                    exact Le.trans hcon l1 l2
              by_cases hsz : q - lo < up - q
              · rw [if_pos hsz]
                refine Triple.bind ((low False fuel (by omega) rfl rnd).weaken (fun a h => ⟨h, fun _ h => h.elim⟩) (fun _ _ h => h) (fun _ h => h)) fun _ => ?_
                refine Triple.bind (rerandom_spec _ _ _ _ _ _) fun rnd' => ?_
                refine (high True fuel (by omega) rfl rnd').weaken (fun a h => ⟨h.1, fun hcon _ => (h.2 hcon).2⟩) (fun _ a h => fin a h.1 fun hcon => ⟨(h.2 hcon).1 trivial, (h.2 hcon).2⟩) (fun _ h => h)
              · rw [if_neg hsz]
                refine Triple.bind ((high False fuel (by omega) rfl rnd).weaken (fun a h => ⟨h, fun _ h => h.elim⟩) (fun _ _ h => h) (fun _ h => h)) fun _ => ?_
                refine Triple.bind (rerandom_spec _ _ _ _ _ _) fun rnd' => ?_
                refine (low True fuel (by omega) rfl rnd').weaken (fun a h => ⟨h.1, fun hcon _ => (h.2 hcon).2⟩) (fun _ a h => fin a h.1 fun hcon => ⟨(h.2 hcon).2, (h.2 hcon).1 trivial⟩) (fun _ h => h)
            · intro a s h
              exact absurd ⟨h.1, h.2.1⟩ hq
        · intro a s h
          exact absurd ⟨h.1, h.2.1⟩ hp
    · rw [if_neg hlt]
      refine Triple.pure ?_
      rintro a rfl
      refine ⟨PermOn.refl _ _ _, fun hcon i j hi hij hj => ?_⟩
      rw [show i = j by omega]; exact Le.refl hcon _

end Verif.Sort
