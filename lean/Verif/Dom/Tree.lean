import Verif.Dom.Model

/-! Ancestor chains in the array `IDOM`, and what the functions of dominator.c compute on them. -/
namespace Verif.Dom
open Verif.Graph

/-- What is needed of the numbering: distinct numbers, and a predecessor with a smaller number for
every node but the entry. -/
structure Ctx (N : Nat) (preds : Nat → List Nat) (rpo : Nat → Nat) : Prop where
  pos : 0 < N
  inj : ∀ u v, u < N → v < N → rpo u = rpo v → u = v
  par : ∀ b, b < N → b ≠ 0 → ∃ p, p ∈ preds b ∧ rpo p < rpo b
  rng : ∀ b p, p ∈ preds b → p < N

/-- `y` is on the chain of `x`: `x`, `IDOM[x]`, `IDOM[IDOM[x]]`, ... up to the entry. -/
inductive Anc (T : Nat → Option Nat) : Nat → Nat → Prop
  | refl (x : Nat) : Anc T x x
  | step {x z y : Nat} : x ≠ 0 → T x = some z → Anc T z y → Anc T x y

/-- The array is a tree with decreasing numbers. -/
structure OK (N : Nat) (rpo : Nat → Nat) (T : Nat → Option Nat) : Prop where
  root : T 0 = some 0
  edge : ∀ x z, x ≠ 0 → T x = some z → x < N ∧ z < N ∧ rpo z < rpo x ∧ T z ≠ none

theorem Anc.trans {T : Nat → Option Nat} {x y z : Nat} (h : Anc T x y) (k : Anc T y z) : Anc T x z := by
  induction h with
  | refl => exact k
  | step h1 h2 _ ih => exact .step h1 h2 (ih k)

theorem anc_rpo {N : Nat} {rpo : Nat → Nat} {T : Nat → Option Nat} (hT : OK N rpo T) {x y : Nat} (h : Anc T x y) :
    x = y ∨ rpo y < rpo x := by
  induction h with
  | refl => exact Or.inl rfl
  | step h1 h2 _ ih =>
    have := (hT.edge _ _ h1 h2).2.2.1
    rcases ih with e | e
    · subst e; exact Or.inr this
    · exact Or.inr (by omega)

theorem anc_def {N : Nat} {rpo : Nat → Nat} {T : Nat → Option Nat} (hT : OK N rpo T) {x y : Nat} (h : Anc T x y)
    (hx : T x ≠ none) : T y ≠ none := by
  induction h with
  | refl => exact hx
  | step h1 h2 _ ih => exact ih (hT.edge _ _ h1 h2).2.2.2

theorem anc_lt {N : Nat} {rpo : Nat → Nat} {T : Nat → Option Nat} (hT : OK N rpo T) {x y : Nat} (h : Anc T x y)
    (hx : x < N) : y < N := by
  induction h with
  | refl => exact hx
  | step h1 h2 _ ih => exact ih (hT.edge _ _ h1 h2).2.1

theorem anc_zero {T : Nat → Option Nat} {y : Nat} (h : Anc T 0 y) : y = 0 := by
  cases h with
  | refl => rfl
  | step h1 => exact absurd rfl h1

/-- The rest of a chain. -/
theorem anc_tail {T : Nat → Option Nat} {x z y : Nat} (h : Anc T x y) (hz : T x = some z) (hne : y ≠ x) : Anc T z y := by
  cases h with
  | refl => exact absurd rfl hne
  | step h1 h2 h3 => rw [hz] at h2; injection h2 with h2; subst h2; exact h3

/-- A chain is linear. -/
theorem anc_total {T : Nat → Option Nat} {x y z : Nat} (h : Anc T x y) : Anc T x z → Anc T y z ∨ Anc T z y := by
  induction h with
  | refl => exact Or.inl
  | step h1 h2 h3 ih =>
    intro k
    cases k with
    | refl => exact Or.inr (.step h1 h2 h3)
    | step k1 k2 k3 =>
      rw [h2] at k2; injection k2 with k2; subst k2
      exact ih k3

theorem anc_below {N : Nat} {rpo : Nat → Nat} {T : Nat → Option Nat} (hT : OK N rpo T) {x y z : Nat}
    (h : Anc T x y) (k : Anc T x z) (hle : rpo z ≤ rpo y) : Anc T y z := by
  rcases anc_total h k with a | a
  · exact a
  · rcases anc_rpo hT a with e | e
    · subst e; exact .refl _
    · omega

/-- Chains only depend on the smaller numbers. -/
theorem anc_congr {N : Nat} {rpo : Nat → Nat} {T T' : Nat → Option Nat} (hT : OK N rpo T) {B : Nat}
    (hag : ∀ x, rpo x < B → T x = T' x) {x y : Nat} (h : Anc T x y) (hx : rpo x < B) : Anc T' x y := by
  induction h with
  | refl => exact .refl _
  | step h1 h2 _ ih =>
    have := (hT.edge _ _ h1 h2).2.2.1
    exact .step h1 (by rw [← hag _ hx]; exact h2) (ih (by omega))

theorem root_min {N : Nat} {preds : Nat → List Nat} {rpo : Nat → Nat} (hC : Ctx N preds rpo) {b : Nat} (hb : b < N)
    (h0 : b ≠ 0) : rpo 0 < rpo b := by
  have : ∀ k b, rpo b ≤ k → b < N → b ≠ 0 → rpo 0 < rpo b := by
    intro k
    induction k with
    | zero =>
      intro b hk hb h0
      obtain ⟨p, _, hp⟩ := hC.par b hb h0
      omega
    | succ k ih =>
      intro b hk hb h0
      obtain ⟨p, hp1, hp⟩ := hC.par b hb h0
      by_cases e : p = 0
      · subst e; exact hp
      · exact Nat.lt_trans (ih p (by omega) (hC.rng b p hp1) e) hp
  exact this _ b (Nat.le_refl _) hb h0

theorem rd_ok {N : Nat} {T : Nat → Option Nat} {i : Nat} (h : i < N) : rd N T i = .ok (T i) := by
  unfold rd; rw [if_pos h]

/-- `intersect` finds the nearest common ancestor. -/
theorem intersect_spec {N : Nat} {preds : Nat → List Nat} {rpo : Nat → Nat} (hC : Ctx N preds rpo)
    {T : Nat → Option Nat} (hT : OK N rpo T) : ∀ (fuel i j : Nat), i < N → j < N → T i ≠ none → T j ≠ none →
    rpo i + rpo j < fuel →
    ∃ r, intersect N rpo T fuel i j = .ok r ∧ Anc T i r ∧ Anc T j r ∧ ∀ y, Anc T i y → Anc T j y → Anc T r y := by
  intro fuel
  induction fuel with
  | zero => intro i j _ _ _ _ h; omega
  | succ fuel ih =>
    intro i j hi hj hdi hdj hf
    unfold intersect
    by_cases e : i = j
    · rw [if_pos e]; subst e
      exact ⟨i, rfl, .refl _, .refl _, fun y h _ => h⟩
    · rw [if_neg e]
      have small : ∀ u v, u < N → v < N → rpo v < rpo u → u ≠ 0 := by
        intro u v hu hv hlt e0
        subst e0
        by_cases hv0 : v = 0
        · subst hv0; omega
        · have := root_min hC hv hv0; omega
      by_cases h1 : rpo i > rpo j
      · rw [if_pos h1, rd_ok hi, Res.bind_ok]
        have hi0 := small i j hi hj h1
        cases hk : T i with
        | none => exact absurd hk hdi
        | some k =>
          obtain ⟨_, k2, k3, k4⟩ := hT.edge i k hi0 hk
          obtain ⟨r, r1, r2, r3, r4⟩ := ih k j k2 hj k4 hdj (by omega)
          refine ⟨r, r1, .step hi0 hk r2, r3, ?_⟩
          intro y y1 y2
          refine r4 y (anc_tail y1 hk ?_) y2
          intro ey
          subst ey
          rcases anc_rpo hT y2 with e' | e'
          · exact e e'.symm
          · omega
      · rw [if_neg h1]
        by_cases h2 : rpo j > rpo i
        · rw [if_pos h2, rd_ok hj, Res.bind_ok]
          have hj0 := small j i hj hi h2
          cases hk : T j with
          | none => exact absurd hk hdj
          | some k =>
            obtain ⟨_, k2, k3, k4⟩ := hT.edge j k hj0 hk
            obtain ⟨r, r1, r2, r3, r4⟩ := ih i k hi k2 hdi k4 (by omega)
            refine ⟨r, r1, r2, .step hj0 hk r3, ?_⟩
            intro y y1 y2
            refine r4 y y1 (anc_tail y2 hk ?_)
            intro ey
            subst ey
            rcases anc_rpo hT y1 with e' | e'
            · exact e e'
            · omega
        · exact absurd (hC.inj i j hi hj (by omega)) e

theorem firstPred_spec {N : Nat} {T : Nat → Option Nat} : ∀ ps : List Nat, (∀ p ∈ ps, p < N) →
    (∃ p ∈ ps, T p ≠ none) → ∃ p, firstPred N T ps = .ok (some p) ∧ p ∈ ps ∧ T p ≠ none := by
  intro ps
  induction ps with
  | nil => rintro _ ⟨p, hp, _⟩; cases hp
  | cons q ps ih =>
    intro hr hex
    show ∃ p, (rd N T q >>= _) = .ok (some p) ∧ _
    rw [rd_ok (hr q (List.mem_cons_self ..)), Res.bind_ok]
    cases hq : T q with
    | some d => exact ⟨q, rfl, List.mem_cons_self .., by rw [hq]; simp⟩
    | none =>
      obtain ⟨p, hp, hd⟩ := hex
      rcases List.mem_cons.1 hp with e | e
      · subst e; exact absurd hq hd
      · obtain ⟨p', a, b, c⟩ := ih (fun x hx => hr x (List.mem_cons_of_mem _ hx)) ⟨p, e, hd⟩
        exact ⟨p', a, List.mem_cons_of_mem _ b, c⟩

theorem meet_spec {g : Graph} {N : Nat} {preds : Nat → List Nat} {rpo : Nat → Nat} (hC : Ctx N preds rpo)
    (hnode : ∀ i, i < N → needNode g i = .ok ()) {T : Nat → Option Nat} (hT : OK N rpo T) {fuel first : Nat}
    (hfuel : ∀ i j, i < N → j < N → rpo i + rpo j < fuel) : ∀ (ps : List Nat) (d : Nat), (∀ p ∈ ps, p < N) →
    d < N → T d ≠ none → Anc T first d →
    ∃ r, meet g N rpo T fuel first ps d = .ok r ∧ Anc T d r ∧ r < N ∧ T r ≠ none ∧
      (∀ p ∈ ps, T p ≠ none → Anc T p r) ∧
      (∀ y, Anc T d y → Anc T first y → (∀ p ∈ ps, T p ≠ none → Anc T p y) → Anc T r y) := by
  intro ps
  induction ps with
  | nil =>
    intro d _ hd1 hd2 _
    exact ⟨d, rfl, .refl _, hd1, hd2, fun p hp => (nomatch hp), fun y h _ _ => h⟩
  | cons p ps ih =>
    intro d hr hd1 hd2 hfd
    have hp := hr p (List.mem_cons_self ..)
    have hr' : ∀ x ∈ ps, x < N := fun x hx => hr x (List.mem_cons_of_mem _ hx)
    unfold meet
    by_cases e : p = first
    · rw [if_pos e]
      obtain ⟨r, r1, r2, r3, r4, r5, r6⟩ := ih d hr' hd1 hd2 hfd
      refine ⟨r, r1, r2, r3, r4, ?_, ?_⟩
      · intro q hq hqd
        rcases List.mem_cons.1 hq with e' | e'
        · subst e'; rw [e]; exact hfd.trans r2
        · exact r5 q e' hqd
      · intro y y1 y2 y3
        exact r6 y y1 y2 (fun q hq => y3 q (List.mem_cons_of_mem _ hq))
    · rw [if_neg e, hnode p hp, Res.bind_ok, rd_ok hp, Res.bind_ok]
      cases hq : T p with
      | none =>
        dsimp only
        obtain ⟨r, r1, r2, r3, r4, r5, r6⟩ := ih d hr' hd1 hd2 hfd
        refine ⟨r, r1, r2, r3, r4, ?_, ?_⟩
        · intro q hq' hqd
          rcases List.mem_cons.1 hq' with e' | e'
          · subst e'; exact absurd hq hqd
          · exact r5 q e' hqd
        · intro y y1 y2 y3
          exact r6 y y1 y2 (fun q hq => y3 q (List.mem_cons_of_mem _ hq))
      | some w =>
        dsimp only
        have hpd : T p ≠ none := by rw [hq]; simp
        obtain ⟨c, c1, c2, c3, c4⟩ := intersect_spec hC hT fuel p d hp hd1 hpd hd2 (hfuel p d hp hd1)
        rw [c1, Res.bind_ok]
        obtain ⟨r, r1, r2, r3, r4, r5, r6⟩ := ih c hr' (anc_lt hT c3 hd1) (anc_def hT c3 hd2) (hfd.trans c3)
        refine ⟨r, r1, c3.trans r2, r3, r4, ?_, ?_⟩
        · intro q hq' hqd
          rcases List.mem_cons.1 hq' with e' | e'
          · subst e'; exact c2.trans r2
          · exact r5 q e' hqd
        · intro y y1 y2 y3
          exact r6 y (c4 y (y3 p (List.mem_cons_self ..) hpd) y1) y2 (fun q hq => y3 q (List.mem_cons_of_mem _ hq))

/-- The value computed for a node is the nearest common ancestor of its processed predecessors. -/
def IsMeet (preds : Nat → List Nat) (T : Nat → Option Nat) (b d : Nat) : Prop :=
  (∀ p ∈ preds b, T p ≠ none → Anc T p d) ∧
  (∀ y, (∀ p ∈ preds b, T p ≠ none → Anc T p y) → Anc T d y)

theorem newIdom_spec {g : Graph} {N : Nat} {rpo : Nat → Nat} (hC : Ctx N g.preds rpo)
    (hnode : ∀ i, i < N → needNode g i = .ok ()) {T : Nat → Option Nat} (hT : OK N rpo T) {fuel : Nat}
    (hfuel : ∀ i j, i < N → j < N → rpo i + rpo j < fuel) {b : Nat}
    (hp : ∃ p ∈ g.preds b, rpo p < rpo b ∧ T p ≠ none) :
    ∃ d, newIdom g N rpo T fuel b = .ok d ∧ d < N ∧ rpo d < rpo b ∧ T d ≠ none ∧ IsMeet g.preds T b d := by
  obtain ⟨p0, m0, l0, d0⟩ := hp
  have hr : ∀ p ∈ g.preds b, p < N := fun p hp => hC.rng b p hp
  obtain ⟨f, f1, f2, f3⟩ := firstPred_spec (g.preds b) hr ⟨p0, m0, d0⟩
  obtain ⟨r, r1, r2, r3, r4, r5, r6⟩ := meet_spec hC hnode hT hfuel (first := f) (g.preds b) f hr (hr f f2) f3 (.refl _)
  refine ⟨r, ?_, r3, ?_, r4, r5, ?_⟩
  · unfold newIdom
    rw [f1, Res.bind_ok]; exact r1
  · rcases anc_rpo hT (r5 p0 m0 d0) with e | e
    · subst e; exact l0
    · omega
  · intro y hy
    exact r6 y (hy f f2 f3) (hy f f2 f3) hy

end Verif.Dom
