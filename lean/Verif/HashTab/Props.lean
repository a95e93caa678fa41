import Verif.HashTab.Inv
/-!
C69.  The hash tables and sets of the compiler library are maps and sets.
-/
namespace Verif.HashTab

variable {K V : Type} {eq : K → K → Bool} {hashf : K → Nat}

/-- The map a history of calls describes, as a list of its pairs in no particular order:
inserting replaces whatever had an equal key, removing takes it out. -/
def specStep (eq : K → K → Bool) (l : List (K × V)) : Op K V → List (K × V)
  | .insert k v => (k, v) :: l.filter (fun x => !eq k x.1)
  | .remove k => l.filter (fun x => !eq k x.1)
  | .purge p => l.filter (fun x => !p x.1 x.2)

def spec (eq : K → K → Bool) (ops : List (Op K V)) : List (K × V) := ops.foldl (specStep eq) []

theorem perm_find {l l' : List (K × V)} {p : K × V → Bool} (h : l.Perm l')
    (hu : ∀ x ∈ l, ∀ y ∈ l, p x = true → p y = true → x = y) : l.find? p = l'.find? p := by
  cases h1 : l.find? p with
  | none =>
    rw [List.find?_eq_none] at h1
    symm
    rw [List.find?_eq_none]
    intro x hx
    exact h1 x (h.mem_iff.2 hx)
  | some x =>
    cases h2 : l'.find? p with
    | none =>
      rw [List.find?_eq_none] at h2
      exact absurd (List.find?_some h1) (h2 x (h.mem_iff.1 (List.mem_of_find?_eq_some h1)))
    | some y =>
      congr 1
      exact hu x (List.mem_of_find?_eq_some h1) y (h.mem_iff.2 (List.mem_of_find?_eq_some h2))
        (List.find?_some h1) (List.find?_some h2)

theorem Inv.uniq_items {t : HT K V} (hi : Inv eq hashf t) {x y : K × V} (hx : x ∈ items t)
    (hy : y ∈ items t) (he : eq x.1 y.1 = true) : x = y := by
  obtain ⟨a, ha, h1, ht1⟩ := mem_items.1 hx
  obtain ⟨b, hb, h2, ht2⟩ := mem_items.1 hy
  by_cases hab : a = b
  · subst hab
    rw [ht1] at ht2
    injection ht2 with _ e1 e2
    exact Prod.ext e1 e2
  · rw [hi.uniq a b ha hb hab _ _ _ _ _ _ ht1 ht2] at he
    cases he

theorem get_ok (hk : KeyOK eq hashf) {t : HT K V} (hi : Inv eq hashf t) (k : K) :
    get eq hashf t k = .ok ((items t).find? (fun x => eq k x.1)) := by
  obtain ⟨r, hr, hp⟩ := search_spec hi (hashf k) k
  unfold get search
  rw [hr]
  cases r with
  | none =>
    dsimp only
    congr 1
    symm
    rw [List.find?_eq_none]
    intro x hx
    obtain ⟨b, hb, hh, htb⟩ := mem_items.1 hx
    simp [NoMatch.none hk hi hp hb htb]
  | some a =>
    obtain ⟨ha, k', v', ht, he⟩ := hp
    dsimp only
    rw [ht]
    dsimp only
    congr 1
    have hm : ((k', v') : K × V) ∈ items t := mem_items.2 ⟨a, ha, _, ht⟩
    cases hf : (items t).find? (fun x => eq k x.1) with
    | none =>
      rw [List.find?_eq_none] at hf
      exact absurd he (hf _ hm)
    | some y =>
      have h1 := List.find?_some hf
      have h2 := hi.uniq_items hm (List.mem_of_find?_eq_some hf) (hk.trans _ _ _ (hk.symm _ _ he) h1)
      rw [h2]

theorem run_ok (hk : KeyOK eq hashf) : ∀ (ops : List (Op K V)) (t : HT K V) (l : List (K × V)),
    Inv eq hashf t → (items t).Perm l →
    (∀ pre, pre <+: ops → (pre.foldl (specStep eq) l).length < 2 ^ 30) →
    ∃ t', run eq hashf t ops = .ok t' ∧ Inv eq hashf t' ∧
      (items t').Perm (ops.foldl (specStep eq) l) := by
  intro ops
  induction ops with
  | nil => intro t l hi hp _; exact ⟨t, rfl, hi, hp⟩
  | cons o ops ih =>
    intro t l hi hp hlt
    have hlen : (items t).length < 2 ^ 30 := by
      rw [hp.length_eq]; exact hlt [] (List.nil_prefix)
    have hs : ∃ t1, step eq hashf t o = .ok t1 ∧ Inv eq hashf t1 ∧
        (items t1).Perm (specStep eq l o) := by
      cases o with
      | insert k v =>
        obtain ⟨t', a, h1, h2, -, -, h3⟩ := insert_ok hk hi hlen k v
        refine ⟨t', by unfold step; dsimp only; rw [h1], h2, h3.trans ?_⟩
        exact List.Perm.cons _ (hp.filter _)
      | remove k =>
        obtain ⟨t', h1, h2, h3⟩ := remove_ok hk hi k
        exact ⟨t', h1, h2, h3.trans (hp.filter _)⟩
      | purge p =>
        obtain ⟨h1, h2⟩ := purge_ok p hi
        exact ⟨_, rfl, h1, by rw [h2]; exact hp.filter _⟩
    obtain ⟨t1, h1, h2, h3⟩ := hs
    obtain ⟨t', h4, h5, h6⟩ := ih t1 _ h2 h3 (fun pre hpre => by
      have := hlt (o :: pre) (List.cons_prefix_cons.2 ⟨rfl, hpre⟩)
      simpa using this)
    exact ⟨t', by unfold run; rw [h1]; exact h4, h5, by simpa using h6⟩

/-- **C69.** Whatever hash function and key comparison the user passes, as long as comparison is
symmetric and transitive and equal keys have equal hashes: after any history of insertions, removals
and loops that delete while iterating, in which fewer than 2^30 entries were live at any time, the
table has not looped for ever or lost an entry, and a search finds exactly what the map described by
that history holds; a `foreach` visits each pair of the map once, and `entries` is their number. -/
theorem map_refines (hk : KeyOK eq hashf) (ops : List (Op K V))
    (hlt : ∀ pre, pre <+: ops → (spec eq pre).length < 2 ^ 30) :
    ∃ t, run eq hashf create ops = .ok t ∧
      (∀ k, get eq hashf t k = .ok ((spec eq ops).find? (fun x => eq k x.1))) ∧
      (∀ k, contains eq hashf t k = .ok ((spec eq ops).any (fun x => eq k x.1))) ∧
      (contents t).Perm (spec eq ops) ∧ t.entries = (spec eq ops).length := by
  obtain ⟨hc, hnil⟩ := create_inv (K := K) (V := V) (eq := eq) (hashf := hashf)
  obtain ⟨t, h1, h2, h3⟩ := run_ok hk ops create [] hc (by rw [hnil]) hlt
  have hget : ∀ k, get eq hashf t k = .ok ((spec eq ops).find? (fun x => eq k x.1)) := by
    intro k
    rw [get_ok hk h2 k]
    congr 1
    refine perm_find h3 ?_
    intro x hx y hy hpx hpy
    exact h2.uniq_items hx hy (hk.trans _ _ _ (hk.symm _ _ hpx) hpy)
  refine ⟨t, h1, hget, ?_, by rw [contents_eq]; exact h3, by rw [h2.ent, h3.length_eq]; rfl⟩
  intro k
  have hg := hget k
  unfold get at hg
  unfold contains
  cases hs : search eq hashf t k with
  | ok e =>
    rw [hs] at hg
    dsimp only
    congr 1
    cases e with
    | none =>
      injection hg with hg
      have hg := hg.symm
      rw [List.find?_eq_none] at hg
      symm
      simp only [Option.isSome_none, List.any_eq_false]
      exact hg
    | some a =>
      dsimp only at hg
      split at hg
      · injection hg with hg
        have hg := hg.symm
        symm
        rw [Option.isSome_some, List.any_eq_true]
        have hsome := List.find?_some hg
        exact ⟨_, List.mem_of_find?_eq_some hg, hsome⟩
      · cases hg
  | err m => rw [hs] at hg; cases hg
  | ub => rw [hs] at hg; cases hg

/-- an inserted key is found at once, with its data, at the entry `insert` returned -/
theorem insert_found (hk : KeyOK eq hashf) (hrefl : ∀ k, eq k k = true) (ops : List (Op K V))
    (hlt : ∀ pre, pre <+: ops → (spec eq pre).length < 2 ^ 30) (k : K) (v : V) :
    ∃ t t' a, run eq hashf create ops = .ok t ∧ insert eq hashf t k v = .ok (t', some a) ∧
      search eq hashf t' k = .ok (some a) ∧ t'.tab a = .present (hashf k) k v := by
  obtain ⟨hc, hnil⟩ := create_inv (K := K) (V := V) (eq := eq) (hashf := hashf)
  obtain ⟨t, h1, h2, h3⟩ := run_ok hk ops create [] hc (by rw [hnil]) hlt
  obtain ⟨t', a, h4, h5, h6, h7, h8⟩ := insert_ok hk h2 (by
    rw [h3.length_eq]; exact hlt ops (List.prefix_refl _)) k v
  refine ⟨t, t', a, h1, h4, ?_, h7⟩
  obtain ⟨r, hr, hp⟩ := search_spec h5 (hashf k) k
  unfold search
  rw [hr]
  cases r with
  | none =>
    have := NoMatch.none hk h5 hp h6 h7
    rw [hrefl] at this
    cases this
  | some b =>
    obtain ⟨hb, k', v', ht, he⟩ := hp
    by_cases hab : a = b
    · rw [hab]
    · rw [h5.uniq a b h6 hb hab _ _ _ _ _ _ h7 ht] at he
      cases he

/-! ### the hypotheses are met -/

/-- a table of numbers with a hash that collides: insert 1 .. 6, remove 2, insert 3 again, drop the odd
keys while iterating -/
def demoOps : List (Op Nat Nat) :=
  [.insert 1 10, .insert 2 20, .insert 3 30, .insert 4 40, .insert 5 50, .insert 6 60, .remove 2,
   .insert 3 33, .purge (fun k _ => k == 5)]

theorem demo_keys : KeyOK (fun a b : Nat => a == b) (fun k => k % 2) :=
  ⟨fun a b h => by simp at *; omega, fun a b c h h' => by simp at *; omega,
   fun a b h => by simp at h; rw [h]⟩

example : spec (fun a b : Nat => a == b) demoOps = [(3, 33), (6, 60), (4, 40), (1, 10)] := by decide

example : ∀ pre, pre <+: demoOps → (spec (fun a b : Nat => a == b) pre).length < 2 ^ 30 := by
  intro pre hp
  have h1 := hp.length_le
  have h2 : ∀ (l : List (Op Nat Nat)) (a : List (Nat × Nat)),
      (l.foldl (specStep (fun a b : Nat => a == b)) a).length ≤ a.length + l.length := by
    intro l
    induction l with
    | nil => intro a; simp
    | cons o l ih =>
      intro a
      rw [List.foldl_cons]
      refine (ih _).trans ?_
      have : (specStep (fun a b : Nat => a == b) a o).length ≤ a.length + 1 := by
        cases o with
        | insert k v => simp only [specStep, List.length_cons]; have := List.length_filter_le (fun x : Nat × Nat => !(k == x.1)) a; omega
        | remove k => simp only [specStep]; have := List.length_filter_le (fun x : Nat × Nat => !(k == x.1)) a; omega
        | purge p => simp only [specStep]; have := List.length_filter_le (fun x : Nat × Nat => !p x.1 x.2) a; omega
      simp only [List.length_cons]
      omega
  have h3 := h2 pre []
  have h4 : demoOps.length = 9 := rfl
  simp only [spec, List.length_nil] at *
  omega

/-- the model runs that history, collisions, tombstones, growth and all -/
example : (match run (fun a b : Nat => a == b) (fun k => k % 2) create demoOps with
    | .ok t => (t.entries, t.size, contents t)
    | _ => (0, 0, [])) = (4, 13, [(1, 10), (4, 40), (3, 33), (6, 60)]) := by decide +kernel

end Verif.HashTab
