/-!
Abstract collision chains: `nx i` is the successor of node `i`, `hp i` the main position of the key
stored in node `i` (`none` = free node).  Three updates are what `luaH_newkey` does.
-/
namespace Verif.Table

/-- reachability along successor links -/
inductive Reach (nx : Nat → Option Nat) : Nat → Nat → Prop
  | refl (i : Nat) : Reach nx i i
  | step {i j k : Nat} : nx i = some j → Reach nx j k → Reach nx i k

theorem Reach.trans {nx : Nat → Option Nat} {a b c : Nat} (h1 : Reach nx a b) (h2 : Reach nx b c) :
    Reach nx a c := by
  induction h1 with
  | refl => exact h2
  | step h _ ih => exact .step h (ih h2)

structure Chain (n : Nat) (nx hp : Nat → Option Nat) : Prop where
  bnd : ∀ i, i < n → ∀ j, nx i = some j → j < n
  inj : ∀ i j, i < n → j < n → ∀ k, nx i = some k → nx j = some k → i = j
  free : ∀ i, i < n → hp i = none → nx i = none ∧ ∀ j, j < n → nx j ≠ some i
  rank : ∃ r : Nat → Nat, ∀ i, i < n → ∀ j, nx i = some j → r j < r i
  pos : ∀ i, i < n → ∀ m, hp i = some m → m < n
  reach : ∀ i, i < n → ∀ m, hp i = some m → Reach nx m i
  main : ∀ i, i < n → ∀ m, hp i = some m → m ≠ i → hp m = some m

theorem pigeonhole {l : List Nat} {n : Nat} (hd : l.Nodup) (h : ∀ x ∈ l, x < n) : l.length ≤ n := by
  have := hd.length_le_of_subset (l₂ := List.range n) (by intro x hx; exact List.mem_range.2 (h x hx))
  simpa using this

theorem Reach.lt {n : Nat} {nx hp : Nat → Option Nat} (hc : Chain n nx hp) {a b : Nat}
    (h : Reach nx a b) (ha : a < n) : b < n := by
  induction h with
  | refl => exact ha
  | step h _ ih => exact ih (hc.bnd _ ha _ h)

def updO (f : Nat → Option Nat) (i : Nat) (b : Option Nat) : Nat → Option Nat :=
  fun j => if j = i then b else f j

/-- (A) the key of main position `p` is (over)written; links unchanged -/
theorem Chain.setMain {n : Nat} {nx hp : Nat → Option Nat} (hc : Chain n nx hp) {p : Nat} (hpn : p < n) :
    Chain n nx (updO hp p (some p)) := by
  refine ⟨hc.bnd, hc.inj, ?_, hc.rank, ?_, ?_, ?_⟩
  · intro i hi h
    unfold updO at h
    split at h
    · cases h
    · exact hc.free i hi h
  · intro i hi m h
    unfold updO at h
    split at h
    · cases h; exact hpn
    · exact hc.pos i hi m h
  · intro i hi m h
    unfold updO at h
    split at h
    · rename_i e; cases h; subst e; exact .refl _
    · exact hc.reach i hi m h
  · intro i hi m h hne
    unfold updO at h ⊢
    split at h
    · rename_i e; cases h; exact absurd e.symm hne
    · split
      · rename_i e; rw [e]
      · exact hc.main i hi m h hne

/-- (B) a free node `f` is linked right behind `p`, whose key is in its main position -/
theorem Chain.insertAfter {n : Nat} {nx hp : Nat → Option Nat} (hc : Chain n nx hp) {p f : Nat}
    (hpn : p < n) (hfn : f < n) (hpp : hp p = some p) (hff : hp f = none) :
    Chain n (updO (updO nx f (nx p)) p (some f)) (updO hp f (some p)) := by
  have hpf : p ≠ f := by intro h; rw [h, hff] at hpp; cases hpp
  obtain ⟨hf1, hf2⟩ := hc.free f hfn hff
  obtain ⟨r, hr⟩ := hc.rank
  have hom : ∀ a b, Reach nx a b → Reach (updO (updO nx f (nx p)) p (some f)) a b := by
    intro a b h
    induction h with
    | refl => exact .refl _
    | @step i j k h _ ih =>
      by_cases e : i = p
      · subst e
        refine .step (j := f) (by simp [updO]) ?_
        refine .step (j := j) ?_ ih
        simp [updO, hpf.symm, h]
      · have e2 : i ≠ f := by intro e3; subst e3; rw [hf1] at h; cases h
        exact .step (by simp [updO, e, e2, h]) ih
  constructor
  · intro i hi j h
    unfold updO at h
    split at h
    · cases h; exact hfn
    · split at h
      · exact hc.bnd p hpn j h
      · exact hc.bnd i hi j h
  · intro i j hi hj k h1 h2
    have key : ∀ a, a < n → a ≠ p → a ≠ f → nx a ≠ some f := fun a ha _ _ => hf2 a ha
    unfold updO at h1 h2
    split at h1
    · rename_i e1
      cases h1
      split at h2
      · rename_i e2; rw [e1, e2]
      · split at h2
        · exact absurd h2 (hf2 p hpn)
        · exact absurd h2 (hf2 j hj)
    · split at h1
      · rename_i e1 e1'
        split at h2
        · cases h2; exact absurd h1 (hf2 p hpn)
        · split at h2
          · rename_i e3; rw [e1', e3]
          · rename_i e2 e3
            exact absurd (hc.inj p j hpn hj k h1 h2).symm e2
      · rename_i e1 e1'
        split at h2
        · cases h2; exact absurd h1 (hf2 i hi)
        · split at h2
          · exact absurd (hc.inj i p hi hpn k h1 h2) e1
          · exact hc.inj i j hi hj k h1 h2
  · intro i hi h
    unfold updO at h
    split at h
    · cases h
    · rename_i e
      have e2 : i ≠ p := by intro e3; rw [e3, hpp] at h; cases h
      obtain ⟨g1, g2⟩ := hc.free i hi h
      refine ⟨by simp [updO, e, e2, g1], ?_⟩
      intro j hj h2
      unfold updO at h2
      split at h2
      · cases h2; exact e rfl
      · split at h2
        · exact g2 p hpn h2
        · exact g2 j hj h2
  · refine ⟨fun x => if x = f then 2 * r p + 1 else 2 * r x + 2, ?_⟩
    intro i hi j h
    unfold updO at h
    split at h
    · rename_i e; cases h; subst e; simp [hpf]
    · split at h
      · rename_i e e2
        have := hr p hpn j h
        have hjf : j ≠ f := by intro e3; rw [e3] at h; exact hf2 p hpn h
        simp [e2, hjf]; omega
      · rename_i e e2
        have := hr i hi j h
        have hjf : j ≠ f := by intro e3; rw [e3] at h; exact hf2 i hi h
        simp [e2, hjf]; omega
  · intro i hi m h
    unfold updO at h
    split at h
    · cases h; exact hpn
    · exact hc.pos i hi m h
  · intro i hi m h
    unfold updO at h
    split at h
    · rename_i e; cases h; subst e
      exact .step (by simp [updO]) (.refl _)
    · exact hom _ _ (hc.reach i hi m h)
  · intro i hi m h hne
    unfold updO at h
    split at h
    · cases h; simp [updO, hpf, hpp]
    · have := hc.main i hi m h hne
      have e : m ≠ f := by intro e; rw [e, hff] at this; cases this
      simp [updO, e, this]

/-- (C) the key of node `p`, which is not in its main position `m`, moves to the free node `f`;
`p` becomes the end-less main position of the new key -/
theorem Chain.move {n : Nat} {nx hp : Nat → Option Nat} (hc : Chain n nx hp) {p f m q : Nat}
    (hpn : p < n) (hfn : f < n) (hqn : q < n) (hpp : hp p = some m) (hmp : m ≠ p) (hff : hp f = none)
    (hq : nx q = some p) :
    Chain n (updO (updO (updO nx q (some f)) f (nx p)) p none)
      (updO (updO hp f (some m)) p (some p)) := by
  have hpf : p ≠ f := by intro h; rw [h, hff] at hpp; cases hpp
  obtain ⟨hf1, hf2⟩ := hc.free f hfn hff
  obtain ⟨r, hr⟩ := hc.rank
  have hqp : q ≠ p := by intro e; rw [e] at hq; have := hr p hpn p hq; omega
  have hqf : q ≠ f := by intro e; rw [e, hf1] at hq; cases hq
  have hpp2 : nx p ≠ some p := by intro e; have := hr p hpn p e; omega
  have hnomain : ∀ i, i < n → i ≠ p → hp i ≠ some p := by
    intro i hi hne h
    have := hc.main i hi p h (Ne.symm hne)
    rw [hpp] at this; cases this; exact hmp rfl
  let σ : Nat → Nat := fun x => if x = p then f else x
  have hstep : ∀ i j, i < n → nx i = some j →
      updO (updO (updO nx q (some f)) f (nx p)) p none (σ i) = some (σ j) := by
    intro i j hi h
    have hjf : j ≠ f := by intro e; rw [e] at h; exact hf2 i hi h
    have hif : i ≠ f := by intro e; rw [e, hf1] at h; cases h
    by_cases e : i = p
    · subst e
      have hjp : j ≠ i := by intro e; rw [e] at h; exact hpp2 h
      simp [σ, updO, hpf.symm, hjp, h]
    · by_cases e2 : i = q
      · subst e2
        have : j = p := by rw [hq] at h; cases h; rfl
        simp [σ, updO, this, e, hif]
      · have hjp : j ≠ p := by
          intro e3; rw [e3] at h; exact e2 (hc.inj i q hi hqn p h hq)
        simp [σ, updO, e, e2, hif, hjp, h]
  have hom : ∀ a b, a < n → Reach nx a b →
      Reach (updO (updO (updO nx q (some f)) f (nx p)) p none) (σ a) (σ b) := by
    intro a b ha h
    induction h with
    | refl => exact .refl _
    | @step i j k h _ ih => exact .step (hstep i j ha h) (ih (hc.bnd i ha j h))
  constructor
  · intro i hi j h
    unfold updO at h
    split at h
    · cases h
    · split at h
      · exact hc.bnd p hpn j h
      · split at h
        · cases h; exact hfn
        · exact hc.bnd i hi j h
  · intro i j hi hj k h1 h2
    unfold updO at h1 h2
    split at h1
    · cases h1
    · split at h2
      · cases h2
      · split at h1
        · split at h2
          · rename_i e1 e2; rw [e1, e2]
          · split at h2
            · cases h2; exact absurd h1 (hf2 p hpn)
            · rename_i e1 e2 e3
              exact absurd (hc.inj p j hpn hj k h1 h2).symm (by assumption)
        · split at h1
          · cases h1
            split at h2
            · exact absurd h2 (hf2 p hpn)
            · split at h2
              · rename_i e1 _ e2; rw [e1, e2]
              · exact absurd h2 (hf2 j hj)
          · split at h2
            · exact absurd (hc.inj i p hi hpn k h1 h2) (by assumption)
            · split at h2
              · cases h2; exact absurd h1 (hf2 i hi)
              · exact hc.inj i j hi hj k h1 h2
  · intro i hi h
    unfold updO at h
    split at h
    · cases h
    · split at h
      · cases h
      · rename_i e1 e2
        obtain ⟨g1, g2⟩ := hc.free i hi h
        have e3 : i ≠ q := by intro e; rw [e, hq] at g1; cases g1
        refine ⟨by simp [updO, e1, e2, e3, g1], ?_⟩
        intro j hj h2
        unfold updO at h2
        split at h2
        · cases h2
        · split at h2
          · exact g2 p hpn h2
          · split at h2
            · cases h2; exact e2 rfl
            · exact g2 j hj h2
  · refine ⟨fun x => if x = f then r p else r x, ?_⟩
    intro i hi j h
    unfold updO at h
    split at h
    · cases h
    · split at h
      · rename_i e1 e2
        have := hr p hpn j h
        have hjf : j ≠ f := by intro e3; rw [e3] at h; exact hf2 p hpn h
        simp [e2, hjf, this]
      · split at h
        · rename_i e1 e2 e3
          cases h
          have := hr q hqn p hq
          simp [e3, hqf, this]
        · rename_i e1 e2 e3
          have := hr i hi j h
          have hjf : j ≠ f := by intro e3; rw [e3] at h; exact hf2 i hi h
          simp [e2, hjf, this]
  · intro i hi m' h
    unfold updO at h
    split at h
    · cases h; exact hpn
    · split at h
      · cases h; exact hc.pos p hpn m hpp
      · exact hc.pos i hi m' h
  · intro i hi m' h
    unfold updO at h
    split at h
    · rename_i e; cases h; subst e; exact .refl _
    · split at h
      · rename_i e1 e2; cases h
        have := hom m p (hc.pos p hpn m hpp) (hc.reach p hpn m hpp)
        simp only [σ, hmp, if_false, if_true] at this
        rw [e2]; exact this
      · rename_i e1 e2
        have hmp' : m' ≠ p := by intro e; rw [e] at h; exact hnomain i hi e1 h
        have := hom m' i (hc.pos i hi m' h) (hc.reach i hi m' h)
        simpa only [σ, hmp', e1, if_false] using this
  · intro i hi m' h hne
    unfold updO at h
    split at h
    · rename_i e; cases h; exact absurd e.symm hne
    · split at h
      · cases h
        have := hc.main p hpn m hpp hmp
        have e : m ≠ f := by intro e; rw [e, hff] at this; cases this
        simp [updO, hmp, e, this]
      · rename_i e1 e2
        have := hc.main i hi m' h hne
        have hmp' : m' ≠ p := by intro e; rw [e] at h; exact hnomain i hi e1 h
        have e : m' ≠ f := by intro e; rw [e, hff] at this; cases this
        simp [updO, hmp', e, this]

/-- on an acyclic chain, from `i` one can take at most `n` steps; packaged for the search loops -/
theorem Chain.bound {n : Nat} {nx hp : Nat → Option Nat} (hc : Chain n nx hp) :
    ∃ d : Nat → Nat, (∀ i, i < n → d i < n) ∧ ∀ i, i < n → ∀ j, nx i = some j → d j < d i := by
  obtain ⟨r, hr⟩ := hc.rank
  -- d i = number of nodes of smaller rank … bounded by n because i itself is not counted
  refine ⟨fun i => ((List.range n).filter (fun j => decide (r j < r i))).length, ?_, ?_⟩
  · intro i hi
    have h1 : ((List.range n).filter (fun j => decide (r j < r i))).length < (List.range n).length := by
      apply List.length_filter_lt_length_iff_exists.2
      exact ⟨i, List.mem_range.2 hi, by simp⟩
    simpa using h1
  · intro i hi j h
    have hlt := hr i hi j h
    have hj := hc.bnd i hi j h
    have e : (List.range n).filter (fun x => decide (r x < r j)) =
        ((List.range n).filter (fun x => decide (r x < r i))).filter (fun x => decide (r x < r j)) := by
      rw [List.filter_filter]
      apply List.filter_congr
      intro x _
      by_cases h3 : r x < r j
      · simp [h3]; omega
      · simp [h3]
    show ((List.range n).filter (fun x => decide (r x < r j))).length < _
    rw [e]
    apply List.length_filter_lt_length_iff_exists.2
    refine ⟨j, ?_, by simp⟩
    rw [List.mem_filter]
    exact ⟨List.mem_range.2 hj, by simpa using hlt⟩

end Verif.Table
