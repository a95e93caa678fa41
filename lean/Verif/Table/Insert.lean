import Verif.Table.Inv
/-! `luaH_newkey` without rehash: effect and preservation of the invariant. -/
namespace Verif.Table
open Verif.Arith (LInt)
variable {α V : Type}

theorem freeLoop_spec (node : Nat → Node α V) (l : Nat) :
    (freeLoop node l).1 ≤ l ∧
    (∀ f, (freeLoop node l).2 = some f → f = (freeLoop node l).1 ∧ f < l ∧ (node f).key = .nil) ∧
    (∀ i, (freeLoop node l).1 ≤ i → i < l → (freeLoop node l).2 ≠ some i → (node i).key ≠ .nil) ∧
    ((freeLoop node l).2 = none → (freeLoop node l).1 = 0) := by
  induction l with
  | zero => simp [freeLoop]
  | succ l ih =>
    unfold freeLoop
    split
    · rename_i h
      refine ⟨by simp, by intro f hf; simp at hf; subst hf; exact ⟨rfl, by omega, h⟩, ?_, by simp⟩
      intro i h1 h2 h3
      simp at h1 h3; omega
    · rename_i h
      obtain ⟨h1, h2, h3, h4⟩ := ih
      refine ⟨by omega, ?_, ?_, h4⟩
      · intro f hf; obtain ⟨a, b, c⟩ := h2 f hf; exact ⟨a, by omega, c⟩
      · intro i g1 g2 g3
        by_cases e : i = l
        · subst e; exact h
        · exact h3 i g1 (by omega) g3

/-- node-level contents: some node holds live key `k` with value `v` -/
def NodeHas (t : Tbl α V) (k : Key α) (o : Obj) (v : V) : Prop :=
  ∃ j, j < t.size ∧ (t.node j).key = .live k o ∧ (t.node j).val = some v

/-- where the keys of `t'` come from, and what an insertion does to the order inside chains: `σ` maps
the nodes of `t'` other than the new one (`p`) to the nodes of `t`. -/
structure Keep (H : Hash α) (t t' : Tbl α V) (k : Key α) (p : Nat) (σ : Nat → Nat) : Prop where
  src : ∀ i, i < t.size → i ≠ p → σ i < t.size ∧ (t'.node i).key = (t.node (σ i)).key
  inj : ∀ i j, i < t.size → j < t.size → i ≠ p → j ≠ p → σ i = σ j → i = j
  ord : ∀ i j m, i < t.size → j < t.size → m < t.size → i ≠ p → j ≠ p → hpOf H t.lsize t.node (σ j) = some m →
    Reach (nxOf t'.node) m i → Reach (nxOf t'.node) i j →
    Reach (nxOf t.node) m (σ i) ∧ Reach (nxOf t.node) (σ i) (σ j)
  new : ∀ i, i ≠ p → Reach (nxOf t'.node) (mainpos H t.lsize k) i → Reach (nxOf t'.node) i p →
    (t.node (σ i)).val.isSome

theorem Chain.acyclic {n : Nat} {nx hp : Nat → Option Nat} (hc : Chain n nx hp) {a b : Nat} (ha : a < n)
    (h1 : Reach nx a b) (h2 : Reach nx b a) : a = b := by
  obtain ⟨r, hr⟩ := hc.rank
  have le : ∀ x y, Reach nx x y → x < n → r y ≤ r x ∧ (x = y ∨ r y < r x) := by
    intro x y h
    induction h with
    | refl => intro _; exact ⟨Nat.le_refl _, .inl rfl⟩
    | @step i j k hij _ ih =>
      intro hi
      have h3 := hr i hi j hij
      have h4 := (ih (hc.bnd i hi j hij)).1
      exact ⟨by omega, .inr (by omega)⟩
  rcases (le a b h1 ha).2 with h | h
  · exact h
  · have := (le b a h2 (h1.lt hc ha)).1; omega

theorem Reach.last {nx : Nat → Option Nat} {a b : Nat} (h : Reach nx a b) (hne : a ≠ b) :
    ∃ c, Reach nx a c ∧ nx c = some b := by
  induction h with
  | refl => exact absurd rfl hne
  | @step i j k hij h ih =>
    by_cases e : j = k
    · subst e; exact ⟨i, .refl _, hij⟩
    · obtain ⟨c, h1, h2⟩ := ih e; exact ⟨c, .step hij h1, h2⟩

/-- effect of a successful insertion of key `k` -/
structure Inserted (H : Hash α) (t t' : Tbl α V) (k : Key α) (o : Obj) (p : Nat) : Prop where
  wf : WF H t'
  asz : t'.asize = t.asize
  arr : t'.arr = t.arr
  lsz : t'.lsize = t.lsize
  lfr : t'.lastfree ≠ none
  plt : p < t'.size
  key : (t'.node p).key = .live k o
  val : (t'.node p).val = none
  has : ∀ k' o' v, NodeHas t' k' o' v ↔ NodeHas t k' o' v
  cnt : ∃ x, ∀ i, i < t.size → i ≠ x → ((t'.node i).key = .nil ↔ (t.node i).key = .nil)
  keep : ∃ σ, Keep H t t' k p σ

theorem nxOf_none {node : Nat → Node α V} {i : Nat} : nxOf node i = none ↔ (node i).next = 0 := by
  unfold nxOf; split <;> simp_all

theorem mainpos_lt' (H : Hash α) (t : Tbl α V) (k : Key α) : mainpos H t.lsize k < t.size :=
  mainpos_lt H t.lsize k

/-- case A: the main position has a nil value -/
theorem inserted_A {H : Hash α} {t : Tbl α V} (wf : WF H t) (k : Key α) (o : Obj)
    (hna : ∀ i, k = .int i → arrIdx t.asize i = none)
    (hnk : ∀ j, j < t.size → ∀ o, (t.node j).key ≠ .live k o)
    (hv : (t.node (mainpos H t.lsize k)).val = none) (hd : t.lastfree ≠ none) :
    Inserted H t { t with node := (upd t.node (mainpos H t.lsize k)
        { t.node (mainpos H t.lsize k) with key := .live k o }) } k o (mainpos H t.lsize k) := by
  have hm : mainpos H t.lsize k < t.size := mainpos_lt' H t k
  generalize hmp : mainpos H t.lsize k = mp at *
  have hnx : nxOf (upd t.node mp { t.node mp with key := .live k o }) = nxOf t.node := by
    funext i; unfold nxOf upd; split <;> simp_all
  have hhp : hpOf H t.lsize (upd t.node mp { t.node mp with key := .live k o }) =
      updO (hpOf H t.lsize t.node) mp (some mp) := by
    funext i; unfold hpOf upd updO; split <;> simp_all [NKey.key?]
  have huniq : ∀ i, i < t.size → i ≠ mp → ∀ o', (upd t.node mp { t.node mp with key := .live k o } i).key ≠ .live k o' := by
    intro i hi hne o'; simp only [upd, hne, if_false]; exact hnk i hi o'
  refine ⟨⟨wf.asz, wf.lsz, ?_, ?_, ?_, ?_, ?_, ?_, ?_⟩, rfl, rfl, rfl, hd, hm, by simp [upd], by simp [upd, hv], ?_, ⟨mp, ?_⟩, id, ?_⟩
  · intro l hl
    obtain ⟨h1, h2⟩ := wf.lf l hl
    refine ⟨h1, ?_⟩
    intro i hi1 hi2
    simp only [upd]; split
    · simp
    · exact h2 i hi1 hi2
  · intro h; exact absurd h hd
  · intro i hi
    have := wf.nonneg i hi
    simp only [upd]; split
    · rename_i e; subst e; exact this
    · exact this
  · show Chain t.size _ _
    rw [hnx, hhp]; exact wf.chain.setMain hm
  · intro i j hi hj k' o1 o2 h1 h2
    by_cases e1 : i = mp
    · by_cases e2 : j = mp
      · rw [e1, e2]
      · subst e1; simp only [upd, if_true] at h1; cases h1
        exact absurd h2 (huniq j hj e2 o2)
    · by_cases e2 : j = mp
      · subst e2; simp only [upd, if_true] at h2; cases h2
        exact absurd h1 (huniq i hi e1 o1)
      · simp only [upd, e1, e2, if_false] at h1 h2
        exact wf.uniq i j hi hj k' o1 o2 h1 h2
  · intro i hi h
    simp only [upd] at h ⊢
    split
    · exact hv
    · rename_i e; simp only [e, if_false] at h; exact wf.vnil i hi h
  · intro i hi k' o' h
    simp only [upd] at h
    split at h
    · cases h; exact hna k' rfl
    · exact wf.disj i hi k' o' h
  · intro k' o' v
    constructor
    · rintro ⟨j, hj, h1, h2⟩
      simp only [upd] at h1 h2
      split at h2
      · simp only [hv] at h2; cases h2
      · rename_i e; simp only [e, if_false] at h1; exact ⟨j, hj, h1, h2⟩
    · rintro ⟨j, hj, h1, h2⟩
      have e : j ≠ mp := by intro e; rw [e, hv] at h2; cases h2
      exact ⟨j, hj, by simp only [upd, e, if_false]; exact h1, by simp only [upd, e, if_false]; exact h2⟩
  · intro i _ h; simp only [upd, h, if_false]
  · refine ⟨?_, fun i j _ _ _ _ e => e, ?_, ?_⟩
    · intro i hi e; exact ⟨hi, by simp only [upd, e, if_false, id]⟩
    · intro i j m _ _ _ _ _ _ h1 h2
      simp only [hnx] at h1 h2
      exact ⟨h1, h2⟩
    · intro i hi h1 h2
      simp only [hnx] at h1 h2
      rw [hmp] at h1
      exact absurd (wf.chain.acyclic hm h1 h2).symm hi

/-- case B: node `f` is free, node `mp` (main position of `k`) holds a key in its main position -/
theorem inserted_B {H : Hash α} {t : Tbl α V} (wf : WF H t) (k : Key α) (o : Obj)
    (hna : ∀ i, k = .int i → arrIdx t.asize i = none)
    (hnk : ∀ j, j < t.size → ∀ o, (t.node j).key ≠ .live k o) (mp f lf' : Nat)
    (hmp : mainpos H t.lsize k = mp) (hf : f < t.size) (hfn : (t.node f).key = .nil)
    (hcol : hpOf H t.lsize t.node mp = some mp) (hval : (t.node mp).val.isSome)
    (hlf : lf' ≤ t.size ∧ ∀ i, lf' ≤ i → i < t.size → i ≠ f → (t.node i).key ≠ .nil)
    (node' : Nat → Node α V)
    (h1 : ∀ i, i ≠ mp → i ≠ f → node' i = t.node i)
    (h2 : node' mp = ⟨(t.node mp).key, (t.node mp).val, (f : Int) - mp⟩)
    (h3 : node' f = ⟨.live k o, none, if (t.node mp).next ≠ 0 then ((mp : Int) + (t.node mp).next) - f else 0⟩) :
    Inserted H t { t with lastfree := some lf', node := node' } k o f := by
  have hm : mp < t.size := by rw [← hmp]; exact mainpos_lt' H t k
  have hff : hpOf H t.lsize t.node f = none := by simp [hpOf, hfn, NKey.key?]
  have hmf : mp ≠ f := by intro e; rw [e, hff] at hcol; cases hcol
  have hfv : (t.node f).val = none := wf.vnil f hf (by intro k o h; rw [hfn] at h; cases h)
  obtain ⟨hfx, hfp⟩ := wf.chain.free f hf hff
  have hnx : nxOf node' = updO (updO (nxOf t.node) f (nxOf t.node mp)) mp (some f) := by
    funext i
    by_cases e : i = mp
    · subst e
      have : (f : Int) - i ≠ 0 := by omega
      simp [nxOf, h2, updO, this]
      omega
    · by_cases e2 : i = f
      · subst e2
        by_cases hz : (t.node mp).next = 0
        · simp [nxOf, h3, updO, e, hz]
        · obtain ⟨j, hj, hj2, hj3⟩ := wf.nx_step hm hz
          have hji : j ≠ i := by intro e3; rw [e3] at hj2; exact hfp mp hm hj2
          have hsub : (mp : Int) + (t.node mp).next - i ≠ 0 := by omega
          simp [nxOf, h3, updO, e, hz, hsub]
          omega
      · simp [nxOf, h1 i e e2, updO, e, e2]
  have hhp : hpOf H t.lsize node' = updO (hpOf H t.lsize t.node) f (some mp) := by
    funext i
    by_cases e2 : i = f
    · subst e2; simp [hpOf, h3, NKey.key?, updO, hmp]
    · by_cases e : i = mp
      · subst e; simp [hpOf, h2, updO, e2]
      · simp [hpOf, h1 i e e2, updO, e2]
  have hkeys : ∀ i, i ≠ f → (node' i).key = (t.node i).key ∧ (node' i).val = (t.node i).val := by
    intro i hi
    by_cases e : i = mp
    · subst e; rw [h2]; exact ⟨rfl, rfl⟩
    · rw [h1 i e hi]; exact ⟨rfl, rfl⟩
  refine ⟨⟨wf.asz, wf.lsz, ?_, by simp, ?_, ?_, ?_, ?_, ?_⟩, rfl, rfl, rfl, by simp, hf, ?_, ?_, ?_, ⟨f, ?_⟩, id, ?_⟩
  · intro l hl
    simp at hl; subst hl
    refine ⟨hlf.1, ?_⟩
    intro i hi1 hi2
    show (node' i).key ≠ _
    by_cases e : i = f
    · subst e; rw [h3]; simp
    · rw [(hkeys i e).1]; exact hlf.2 i hi1 hi2 e
  · intro i hi
    show 0 ≤ (i : Int) + (node' i).next
    by_cases e : i = mp
    · subst e; rw [h2]; simp; omega
    · by_cases e2 : i = f
      · subst e2; rw [h3]; simp only
        have := wf.nonneg mp hm
        split <;> omega
      · rw [h1 i e e2]; exact wf.nonneg i hi
  · show Chain t.size (nxOf node') (hpOf H t.lsize node')
    rw [hnx, hhp]; exact wf.chain.insertAfter hm hf hcol hff
  · intro i j hi hj k' o1 o2 g1 g2
    simp only at g1 g2
    by_cases e1 : i = f
    · by_cases e2 : j = f
      · rw [e1, e2]
      · subst e1; rw [h3] at g1; cases g1
        rw [(hkeys j e2).1] at g2; exact absurd g2 (hnk j hj o2)
    · by_cases e2 : j = f
      · subst e2; rw [h3] at g2; cases g2
        rw [(hkeys i e1).1] at g1; exact absurd g1 (hnk i hi o1)
      · rw [(hkeys i e1).1] at g1; rw [(hkeys j e2).1] at g2
        exact wf.uniq i j hi hj k' o1 o2 g1 g2
  · intro i hi h
    simp only at h ⊢
    by_cases e : i = f
    · subst e; rw [h3]
    · rw [(hkeys i e).2]; apply wf.vnil i hi; intro k' o'; rw [← (hkeys i e).1]; exact h k' o'
  · intro i hi k' o' h
    simp only at h ⊢
    by_cases e : i = f
    · subst e; rw [h3] at h; cases h; exact hna k' rfl
    · rw [(hkeys i e).1] at h; exact wf.disj i hi k' o' h
  · show (node' f).key = _; rw [h3]
  · show (node' f).val = _; rw [h3]
  · intro k' o' v
    constructor
    · rintro ⟨j, hj, g1, g2⟩
      simp only at g1 g2
      have e : j ≠ f := by intro e; rw [e, h3] at g2; cases g2
      rw [(hkeys j e).1] at g1; rw [(hkeys j e).2] at g2
      exact ⟨j, hj, g1, g2⟩
    · rintro ⟨j, hj, g1, g2⟩
      have e : j ≠ f := by intro e; rw [e, hfv] at g2; cases g2
      exact ⟨j, hj, by show (node' j).key = _; rw [(hkeys j e).1]; exact g1,
        by show (node' j).val = _; rw [(hkeys j e).2]; exact g2⟩
  · intro i _ e; show (node' i).key = _ ↔ _; rw [(hkeys i e).1]
  · have R1 : ∀ a b, Reach (nxOf node') a b → a < t.size → b ≠ f →
        (a ≠ f → Reach (nxOf t.node) a b) ∧ (a = f → Reach (nxOf t.node) mp b) := by
      intro a b h
      rw [hnx] at h
      induction h with
      | refl => intro _ hb; exact ⟨fun _ => .refl _, fun e => absurd e hb⟩
      | @step a c b hac hcb ih =>
        intro ha hb
        by_cases e : a = mp
        · subst e
          simp only [updO, if_true, Option.some.injEq] at hac
          subst hac
          have := (ih hf hb).2 rfl
          exact ⟨fun _ => this, fun e => absurd e hmf⟩
        · by_cases e2 : a = f
          · subst e2
            simp only [updO, e, if_false, if_true] at hac
            have hcn := wf.chain.bnd mp hm c hac
            have hcf : c ≠ a := by intro e3; rw [e3] at hac; exact hfp mp hm hac
            have := (ih hcn hb).1 hcf
            exact ⟨fun h => absurd rfl h, fun _ => .step hac this⟩
          · simp only [updO, e, e2, if_false] at hac
            have hcn := wf.chain.bnd a ha c hac
            have hcf : c ≠ f := by intro e3; rw [e3] at hac; exact hfp a ha hac
            exact ⟨fun _ => .step hac ((ih hcn hb).1 hcf), fun h => absurd h e2⟩
    refine ⟨?_, fun i j _ _ _ _ e => e, ?_, ?_⟩
    · intro i hi e; exact ⟨hi, (hkeys i e).1⟩
    · intro i j m hi hj hmn hif hjf hhj h1 h2
      have hmf' : m ≠ f := by
        intro e
        rw [e] at hhj
        have := wf.chain.main j hj f hhj hjf.symm
        rw [hff] at this; cases this
      exact ⟨(R1 m i h1 hmn hif).1 hmf', (R1 i j h2 hi hjf).1 hif⟩
    · intro i hi h1 h2
      rw [hmp] at h1
      have hri := (R1 mp i h1 hm hi).1 hmf
      have hin := hri.lt wf.chain hm
      obtain ⟨c, hc1, hc2⟩ := h2.last hi
      have hcm : c = mp := by
        rw [hnx] at hc2
        simp only [updO] at hc2
        split at hc2
        · assumption
        · exfalso
          have hcn : c < t.size := by
            by_cases hcf : c = f
            · rw [hcf]; exact hf
            · exact ((R1 i c hc1 hin hcf).1 hi).lt wf.chain hin
          split at hc2
          · exact hfp mp hm hc2
          · exact hfp c hcn hc2
      subst hcm
      have := (R1 i c hc1 hin hmf).1 hi
      have e := wf.chain.acyclic hm hri this
      subst e; exact hval

/-- case C: the node in main position `mp` belongs elsewhere (main position `m`, predecessor `q`) and
is moved to the free node `f` -/
theorem inserted_C {H : Hash α} {t : Tbl α V} (wf : WF H t) (k : Key α) (o : Obj)
    (hna : ∀ i, k = .int i → arrIdx t.asize i = none)
    (hnk : ∀ j, j < t.size → ∀ o, (t.node j).key ≠ .live k o) (mp f lf' m q : Nat)
    (hmp : mainpos H t.lsize k = mp) (hf : f < t.size) (hfn : (t.node f).key = .nil)
    (hcol : hpOf H t.lsize t.node mp = some m) (hne : m ≠ mp)
    (hq : q < t.size) (hqn : nxOf t.node q = some mp)
    (hlf : lf' ≤ t.size ∧ ∀ i, lf' ≤ i → i < t.size → i ≠ f → (t.node i).key ≠ .nil)
    (node' : Nat → Node α V)
    (h1 : ∀ i, i ≠ mp → i ≠ f → i ≠ q → node' i = t.node i)
    (h2 : node' mp = ⟨.live k o, none, 0⟩)
    (h3 : node' f = ⟨(t.node mp).key, (t.node mp).val,
      if (t.node mp).next ≠ 0 then (t.node mp).next + ((mp : Int) - f) else 0⟩)
    (h4 : node' q = ⟨(t.node q).key, (t.node q).val, (f : Int) - q⟩) :
    Inserted H t { t with lastfree := some lf', node := node' } k o mp := by
  have hm : mp < t.size := by rw [← hmp]; exact mainpos_lt' H t k
  have hff : hpOf H t.lsize t.node f = none := by simp [hpOf, hfn, NKey.key?]
  have hmf : mp ≠ f := by intro e; rw [e, hff] at hcol; cases hcol
  have hfv : (t.node f).val = none := wf.vnil f hf (by intro k o h; rw [hfn] at h; cases h)
  obtain ⟨hfx, hfp⟩ := wf.chain.free f hf hff
  have hqf : q ≠ f := by intro e; rw [e, hfx] at hqn; cases hqn
  obtain ⟨r, hr⟩ := wf.chain.rank
  have hqm : q ≠ mp := by intro e; rw [e] at hqn; have := hr mp hm mp hqn; omega
  have hnx : nxOf node' = updO (updO (updO (nxOf t.node) q (some f)) f (nxOf t.node mp)) mp none := by
    funext i
    by_cases e : i = mp
    · subst e; simp [nxOf, h2, updO]
    · by_cases e2 : i = f
      · subst e2
        by_cases hz : (t.node mp).next = 0
        · simp [nxOf, h3, updO, e, hz]
        · obtain ⟨j, hj, hj2, hj3⟩ := wf.nx_step hm hz
          have hji : j ≠ i := by intro e3; rw [e3] at hj2; exact hfp mp hm hj2
          have hsub : (t.node mp).next + ((mp : Int) - i) ≠ 0 := by omega
          simp [nxOf, h3, updO, e, hz, hsub]
          omega
      · by_cases e3 : i = q
        · subst e3
          have : (f : Int) - i ≠ 0 := by omega
          simp [nxOf, h4, updO, e, e2, this]
          omega
        · simp [nxOf, h1 i e e2 e3, updO, e, e2, e3]
  have hhp : hpOf H t.lsize node' = updO (updO (hpOf H t.lsize t.node) f (some m)) mp (some mp) := by
    funext i
    by_cases e : i = mp
    · subst e; simp [hpOf, h2, NKey.key?, updO, hmp]
    · by_cases e2 : i = f
      · subst e2; simp only [hpOf] at hcol; simp [hpOf, h3, updO, e, hcol]
      · by_cases e3 : i = q
        · subst e3; simp [hpOf, h4, updO, e, e2]
        · simp [hpOf, h1 i e e2 e3, updO, e, e2]
  have hkeys : ∀ i, i ≠ f → i ≠ mp → (node' i).key = (t.node i).key ∧ (node' i).val = (t.node i).val := by
    intro i hi hi2
    by_cases e : i = q
    · subst e; rw [h4]; exact ⟨rfl, rfl⟩
    · rw [h1 i hi2 hi e]; exact ⟨rfl, rfl⟩
  have hkf : (node' f).key = (t.node mp).key ∧ (node' f).val = (t.node mp).val := by rw [h3]; exact ⟨rfl, rfl⟩
  refine ⟨⟨wf.asz, wf.lsz, ?_, by simp, ?_, ?_, ?_, ?_, ?_⟩, rfl, rfl, rfl, by simp, hm, ?_, ?_, ?_, ⟨f, ?_⟩, (fun i => if i = f then mp else i), ?_⟩
  · intro l hl
    simp at hl; subst hl
    refine ⟨hlf.1, ?_⟩
    intro i hi1 hi2
    show (node' i).key ≠ _
    by_cases e : i = mp
    · subst e; rw [h2]; simp
    · by_cases e2 : i = f
      · subst e2; rw [hkf.1]; intro h; simp [hpOf, h, NKey.key?] at hcol
      · rw [(hkeys i e2 e).1]; exact hlf.2 i hi1 hi2 e2
  · intro i hi
    show 0 ≤ (i : Int) + (node' i).next
    by_cases e : i = mp
    · subst e; rw [h2]; simp
    · by_cases e2 : i = f
      · subst e2; rw [h3]; simp only
        have := wf.nonneg mp hm
        split <;> omega
      · by_cases e3 : i = q
        · subst e3; rw [h4]; simp only; omega
        · rw [h1 i e e2 e3]; exact wf.nonneg i hi
  · show Chain t.size (nxOf node') (hpOf H t.lsize node')
    rw [hnx, hhp]; exact wf.chain.move hm hf hq hcol hne hff hqn
  · intro i j hi hj k' o1 o2 g1 g2
    simp only at g1 g2
    -- key of node `i` in the new vector comes from node `σ i` of the old one
    have src : ∀ i, i < t.size → i ≠ mp → ∃ s, s < t.size ∧ (node' i).key = (t.node s).key ∧
        ((i = f ∧ s = mp) ∨ (i ≠ f ∧ s = i)) := by
      intro i hi e
      by_cases e2 : i = f
      · exact ⟨mp, hm, by rw [e2]; exact hkf.1, .inl ⟨e2, rfl⟩⟩
      · exact ⟨i, hi, (hkeys i e2 e).1, .inr ⟨e2, rfl⟩⟩
    by_cases e1 : i = mp
    · by_cases e2 : j = mp
      · rw [e1, e2]
      · subst e1; rw [h2] at g1; cases g1
        obtain ⟨s, hs, hk, _⟩ := src j hj e2
        rw [hk] at g2; exact absurd g2 (hnk s hs o2)
    · by_cases e2 : j = mp
      · subst e2; rw [h2] at g2; cases g2
        obtain ⟨s, hs, hk, _⟩ := src i hi e1
        rw [hk] at g1; exact absurd g1 (hnk s hs o1)
      · obtain ⟨s, hs, hk, hc⟩ := src i hi e1
        obtain ⟨s', hs', hk', hc'⟩ := src j hj e2
        rw [hk] at g1; rw [hk'] at g2
        have := wf.uniq s s' hs hs' k' o1 o2 g1 g2
        omega
  · intro i hi h
    simp only at h ⊢
    by_cases e : i = mp
    · subst e; rw [h2]
    · by_cases e2 : i = f
      · subst e2; rw [hkf.2]; apply wf.vnil mp hm; intro k' o'; rw [← hkf.1]; exact h k' o'
      · rw [(hkeys i e2 e).2]; apply wf.vnil i hi; intro k' o'; rw [← (hkeys i e2 e).1]; exact h k' o'
  · intro i hi k' o' h
    simp only at h ⊢
    by_cases e : i = mp
    · subst e; rw [h2] at h; cases h; exact hna k' rfl
    · by_cases e2 : i = f
      · subst e2; rw [hkf.1] at h; exact wf.disj mp hm k' o' h
      · rw [(hkeys i e2 e).1] at h; exact wf.disj i hi k' o' h
  · show (node' mp).key = _; rw [h2]
  · show (node' mp).val = _; rw [h2]
  · intro k' o' v
    constructor
    · rintro ⟨j, hj, g1, g2⟩
      simp only at g1 g2
      have e : j ≠ mp := by intro e; rw [e, h2] at g2; cases g2
      by_cases e2 : j = f
      · subst e2; rw [hkf.1] at g1; rw [hkf.2] at g2; exact ⟨mp, hm, g1, g2⟩
      · rw [(hkeys j e2 e).1] at g1; rw [(hkeys j e2 e).2] at g2
        exact ⟨j, hj, g1, g2⟩
    · rintro ⟨j, hj, g1, g2⟩
      have e : j ≠ f := by intro e; rw [e, hfv] at g2; cases g2
      by_cases e2 : j = mp
      · subst e2
        exact ⟨f, hf, by show (node' f).key = _; rw [hkf.1]; exact g1,
          by show (node' f).val = _; rw [hkf.2]; exact g2⟩
      · exact ⟨j, hj, by show (node' j).key = _; rw [(hkeys j e e2).1]; exact g1,
          by show (node' j).val = _; rw [(hkeys j e e2).2]; exact g2⟩
  · intro i _ e
    show (node' i).key = _ ↔ _
    by_cases e2 : i = mp
    · subst e2
      rw [h2]
      constructor
      · intro h; cases h
      · intro h; simp [hpOf, h, NKey.key?] at hcol
    · rw [(hkeys i e e2).1]
  · have R2 : ∀ a b, Reach (nxOf node') a b → a < t.size → a ≠ mp → b ≠ mp →
        Reach (nxOf t.node) (if a = f then mp else a) (if b = f then mp else b) := by
      intro a b h
      rw [hnx] at h
      induction h with
      | refl => intro _ _ _; exact .refl _
      | @step a c b hac hcb ih =>
        intro ha ham hbm
        by_cases e2 : a = f
        · subst e2
          rw [if_pos rfl]
          simp only [updO, ham, if_false, if_true] at hac
          have hcn := wf.chain.bnd mp hm c hac
          have hcf : c ≠ a := by intro e3; rw [e3] at hac; exact hfp mp hm hac
          have hcm : c ≠ mp := by intro e3; rw [e3] at hac; have := hr mp hm mp hac; omega
          have := ih hcn hcm hbm
          rw [if_neg hcf] at this
          exact .step hac this
        · rw [if_neg e2]
          by_cases e3 : a = q
          · subst e3
            simp only [updO, ham, e2, if_false, if_true, Option.some.injEq] at hac
            subst hac
            have := ih hf hmf.symm hbm
            rw [if_pos rfl] at this
            exact .step hqn this
          · simp only [updO, ham, e2, e3, if_false] at hac
            have hcn := wf.chain.bnd a ha c hac
            have hcf : c ≠ f := by intro e3; rw [e3] at hac; exact hfp a ha hac
            have hcm : c ≠ mp := by
              intro e4; rw [e4] at hac; exact e3 (wf.chain.inj a q ha hq mp hac hqn)
            have := ih hcn hcm hbm
            rw [if_neg hcf] at this
            exact .step hac this
    refine ⟨?_, ?_, ?_, ?_⟩
    · intro i hi e
      dsimp only
      by_cases e2 : i = f
      · rw [if_pos e2]; subst e2; exact ⟨hm, hkf.1⟩
      · rw [if_neg e2]; exact ⟨hi, (hkeys i e2 e).1⟩
    · intro i j _ _ hi hj e
      split at e <;> split at e <;> omega
    · intro i j m' hi hj hmn him hjm hhj h1 h2
      have hmm : m' ≠ mp := by
        intro e
        rw [e] at hhj
        by_cases ej : j = f
        · rw [if_pos ej, hcol] at hhj
          exact hne (Option.some.inj hhj)
        · rw [if_neg ej] at hhj
          have := wf.chain.main j hj mp hhj hjm.symm
          rw [hcol] at this
          exact hne (Option.some.inj this)
      have hmf' : m' ≠ f := by
        intro e
        rw [e] at hhj
        by_cases ej : j = f
        · rw [if_pos ej] at hhj
          have := wf.chain.main mp hm f hhj hmf.symm
          rw [hff] at this; cases this
        · rw [if_neg ej] at hhj
          have := wf.chain.main j hj f hhj (fun h => ej h.symm)
          rw [hff] at this; cases this
      have g1 := R2 m' i h1 hmn hmm him
      rw [if_neg hmf'] at g1
      exact ⟨g1, R2 i j h2 hi him hjm⟩
    · intro i hi h1 _
      exfalso
      rw [hmp] at h1
      cases h1 with
      | refl => exact hi rfl
      | step h _ =>
        simp only [hnx, updO, if_true] at h; cases h

/-- walking from the main position reaches the predecessor of `mp` -/
theorem findPrev_spec {H : Hash α} {t t' : Tbl α V} (wf : WF H t) (hn : t'.node = t.node)
    (hl : t'.lsize = t.lsize) (mp m : Nat)
    (hr : Reach (nxOf t.node) m mp) (hne : m ≠ mp) (hm : m < t.size) :
    ∃ q, q < t.size ∧ findPrev t' mp (t'.size + 1) (m : Int) = .ok (q : Int) ∧ nxOf t.node q = some mp := by
  have hsz : t'.size = t.size := by unfold Tbl.size; rw [hl]
  obtain ⟨d, hd1, hd2⟩ := wf.chain.bound
  have main : ∀ fuel m, m < t.size → d m < fuel → Reach (nxOf t.node) m mp → m ≠ mp →
      ∃ q, q < t.size ∧ findPrev t' mp fuel (m : Int) = .ok (q : Int) ∧ nxOf t.node q = some mp := by
    intro fuel
    induction fuel with
    | zero => intro m _ h; omega
    | succ fuel ih =>
      intro m hm hf hr hne
      unfold findPrev
      rw [getNode_ok t' m (by omega), hn]
      simp only [Res.bind_ok]
      cases hr with
      | refl => exact absurd rfl hne
      | @step _ j _ h h' =>
        have hz : (t.node m).next ≠ 0 := by intro e; rw [nxOf_none.2 e] at h; cases h
        obtain ⟨j', hj1, hj2, hj3⟩ := wf.nx_step hm hz
        rw [h] at hj2; cases hj2
        rw [hj3]
        by_cases e : j = mp
        · subst e; rw [if_pos rfl]; exact ⟨m, hm, rfl, h⟩
        · rw [if_neg (by omega)]
          have := hd2 m hm j h
          exact ih j hj1 (by omega) h' e
  exact main _ m hm (by have := hd1 m hm; omega) hr hne

/-- `insertKey` either inserts, or finds no free node (and then every node of a real node vector
holds a key). -/
theorem insertKey_spec {H : Hash α} {t : Tbl α V} (wf : WF H t) (k : Key α) (o : Obj)
    (hna : ∀ i, k = .int i → arrIdx t.asize i = none)
    (hnk : ∀ j, j < t.size → ∀ o, (t.node j).key ≠ .live k o) :
    (∃ t' p, insertKey H t k o = .ok (.done t' (.node p)) ∧ Inserted H t t' k o p) ∨
    (∃ l, insertKey H t k o = .ok (.full { t with lastfree := l }) ∧ WF H { t with lastfree := l } ∧
      (t.lastfree = none ∨ ∀ i, i < t.size → (t.node i).key ≠ .nil)) := by
  unfold insertKey
  have hm : mainpos H t.lsize k < t.size := mainpos_lt' H t k
  dsimp only
  rw [getNode_ok t _ hm]
  simp only [Res.bind_ok]
  by_cases hc : (t.node (mainpos H t.lsize k)).val.isSome = true ∨ t.lastfree = none
  · rw [if_pos hc]
    unfold getfreepos
    cases hlf : t.lastfree with
    | none =>
      right
      refine ⟨none, ?_, ?_, .inl rfl⟩
      · simp only []
        congr 2
        rw [← hlf]
      · rw [← hlf]; exact wf
    | some l =>
      obtain ⟨hl1, hl2⟩ := wf.lf l hlf
      obtain ⟨f1, f2, f3, f4⟩ := freeLoop_spec t.node l
      simp only []
      cases hfr : (freeLoop t.node l).2 with
      | none =>
        right
        refine ⟨some (freeLoop t.node l).1, rfl, ?_, .inr ?_⟩
        · refine ⟨wf.asz, wf.lsz, ?_, by simp, wf.nonneg, wf.chain, wf.uniq, wf.vnil, wf.disj⟩
          intro l' e; simp at e; subst e
          refine ⟨by show (freeLoop t.node l).1 ≤ t.size; omega, ?_⟩
          intro i h1 h2
          by_cases h3 : l ≤ i
          · exact hl2 i h3 h2
          · exact f3 i h1 (by omega) (by rw [hfr]; simp)
        · intro i hi
          by_cases h3 : l ≤ i
          · exact hl2 i h3 hi
          · exact f3 i (by rw [f4 hfr]; omega) (by omega) (by rw [hfr]; simp)
      | some f =>
        left
        obtain ⟨g1, g2, g3⟩ := f2 f hfr
        have hval : (t.node (mainpos H t.lsize k)).val.isSome = true := by
          rcases hc with h | h
          · exact h
          · rw [hlf] at h; cases h
        have hlf' : (freeLoop t.node l).1 ≤ t.size ∧ ∀ i, (freeLoop t.node l).1 ≤ i → i < t.size → i ≠ f →
            (t.node i).key ≠ .nil := by
          refine ⟨by omega, ?_⟩
          intro i h1 h2 hif
          by_cases h3 : l ≤ i
          · exact hl2 i h3 h2
          · exact f3 i h1 (by omega) (by rw [hfr]; simp; omega)
        cases hk : (t.node (mainpos H t.lsize k)).key with
        | nil =>
          have := wf.vnil _ hm (by intro k o h; rw [hk] at h; cases h)
          rw [this] at hval; cases hval
        | dead k' o' =>
          have := wf.vnil _ hm (by intro k o h; rw [hk] at h; cases h)
          rw [this] at hval; cases hval
        | live k' o' =>
          simp only []
          have hhp : hpOf H t.lsize t.node (mainpos H t.lsize k) = some (mainpos H t.lsize k') := by
            simp [hpOf, hk, NKey.key?]
          have hfm : f ≠ mainpos H t.lsize k := by intro e; rw [e, hk] at g3; cases g3
          have hfs : f < t.size := by omega
          by_cases hne : mainpos H t.lsize k' ≠ mainpos H t.lsize k
          · rw [if_pos (by simpa using hne)]
            have hr := wf.chain.reach _ hm _ hhp
            obtain ⟨q, hq1, hq2, hq3⟩ := findPrev_spec (t' := { t with lastfree := some (freeLoop t.node l).1 })
              wf rfl rfl _ _ hr hne (mainpos_lt' H t k')
            rw [hq2]
            simp only [Res.bind_ok]
            rw [getNode_ok _ q (by exact hq1)]
            simp only [Res.bind_ok, Int.toNat_natCast]
            obtain ⟨r, hrk⟩ := wf.chain.rank
            have hqm : q ≠ mainpos H t.lsize k := by
              intro e; rw [e] at hq3; have := hrk _ hm _ hq3; omega
            have hqf : q ≠ f := by
              intro e; rw [e] at hq3
              have := (wf.chain.free f hfs (by simp [hpOf, g3, NKey.key?])).1
              rw [this] at hq3; cases hq3
            refine ⟨_, _, rfl, ?_⟩
            refine inserted_C wf k o hna hnk _ f _ (mainpos H t.lsize k') q rfl hfs g3 hhp hne hq1 hq3 hlf' _ ?_ ?_ ?_ ?_
            · intro i e1 e2 e3; simp [upd, e1, e2, e3]
            · simp [upd]
            · by_cases hz : (t.node (mainpos H t.lsize k)).next = 0
              · simp [upd, hfm, hqm.symm, hz]
              · simp [upd, hfm, hqm.symm, hz]
            · simp [upd, hqf, hqm]
          · have he : mainpos H t.lsize k' = mainpos H t.lsize k := by simpa using hne
            rw [if_neg (by simpa using hne)]
            refine ⟨_, _, rfl, ?_⟩
            have hfx : (t.node f).next = 0 :=
              nxOf_none.1 (wf.chain.free f hfs (by simp [hpOf, g3, NKey.key?])).1
            have hfv : (t.node f).val = none := wf.vnil f hfs (by intro k o h; rw [g3] at h; cases h)
            refine inserted_B wf k o hna hnk _ f _ rfl hfs g3 (by rw [hhp, he]) hval hlf' _ ?_ ?_ ?_
            · intro i e1 e2
              by_cases hz : (t.node (mainpos H t.lsize k)).next = 0 <;> simp [upd, e1, e2, hz]
            · by_cases hz : (t.node (mainpos H t.lsize k)).next = 0 <;> simp [upd, hz, hfm.symm]
            · by_cases hz : (t.node (mainpos H t.lsize k)).next = 0 <;> simp [upd, hz, hfm, hfv, hfx]
  · rw [if_neg hc]
    left
    simp only [not_or] at hc
    refine ⟨_, _, rfl, ?_⟩
    exact inserted_A wf k o hna hnk (by simpa using hc.1) hc.2

end Verif.Table
