import Verif.Table.Insert
/-! Stores, look-ups and the no-rehash `luaH_set`, in terms of `Maps`. -/
namespace Verif.Table
open Verif.Arith (LInt)
variable {α V : Type}

def NKey.isNil : NKey α → Bool
  | .nil => true
  | _ => false

theorem NKey.isNil_iff (k : NKey α) : k.isNil = true ↔ k = .nil := by cases k <;> simp [NKey.isNil]

/-- number of nodes that hold a key -/
def nk (t : Tbl α V) : Nat := (List.range t.size).countP (fun i => !(t.node i).key.isNil)

theorem countP_le_succ {p q : Nat → Bool} {x : Nat} {l : List Nat} (hl : l.Nodup)
    (h : ∀ i ∈ l, i ≠ x → p i = q i) : l.countP q ≤ l.countP p + 1 := by
  induction l with
  | nil => simp
  | cons a l ih =>
    rw [List.nodup_cons] at hl
    rw [List.countP_cons, List.countP_cons]
    by_cases e : a = x
    · have : l.countP p = l.countP q := by
        apply List.countP_congr
        intro i hi
        rw [h i (List.mem_cons_of_mem _ hi) (by intro e2; rw [e2, ← e] at hi; exact hl.1 hi)]
      split <;> split <;> omega
    · have h1 := ih hl.2 (fun i hi => h i (List.mem_cons_of_mem _ hi))
      rw [h a (List.mem_cons_self) e]
      split <;> omega

theorem nk_full {t : Tbl α V} (h : ∀ i, i < t.size → (t.node i).key ≠ .nil) : nk t = t.size := by
  unfold nk
  have h2 : (List.range t.size).countP (fun i => !(t.node i).key.isNil) = (List.range t.size).length := by
    rw [List.countP_eq_length]
    intro i hi
    have h3 := h i (List.mem_range.1 hi)
    cases h4 : (t.node i).key.isNil
    · rfl
    · exact absurd ((NKey.isNil_iff _).1 h4) h3
  simpa using h2

theorem nk_le_succ {t t' : Tbl α V} (hs : t'.lsize = t.lsize) (x : Nat)
    (h : ∀ i, i < t.size → i ≠ x → ((t'.node i).key = .nil ↔ (t.node i).key = .nil)) :
    nk t' ≤ nk t + 1 := by
  unfold nk
  have : t'.size = t.size := by unfold Tbl.size; rw [hs]
  rw [this]
  apply countP_le_succ (x := x) List.nodup_range
  intro i hi hne
  have h2 := h i (List.mem_range.1 hi) hne
  have : (t.node i).key.isNil = (t'.node i).key.isNil := by
    rw [Bool.eq_iff_iff, NKey.isNil_iff, NKey.isNil_iff]; exact h2.symm
  rw [this]

theorem arrIdx_inj {a : Nat} {i i' : LInt} {j : Nat} (h : arrIdx a i = some j) (h' : arrIdx a i' = some j) :
    i = i' := by
  have h1 := (arrIdx_lt h).2
  have h2 := (arrIdx_lt h').2
  have h3 : i - 1 = i' - 1 := BitVec.eq_of_toNat_eq (by omega)
  calc i = i - 1 + 1 := by rw [BitVec.sub_add_cancel]
    _ = i' - 1 + 1 := by rw [h3]
    _ = i' := by rw [BitVec.sub_add_cancel]

theorem Maps.unique {H : Hash α} {t : Tbl α V} (wf : WF H t) {k : Key α} {v v' : V}
    (h : Maps t k v) (h' : Maps t k v') : v = v' := by
  rcases h with ⟨i, j, e, h1, h2⟩ | ⟨j, o, hj, h1, h2⟩
  · rcases h' with ⟨i', j', e', h1', h2'⟩ | ⟨j', o', hj', h1', h2'⟩
    · rw [e] at e'; cases e'; rw [h1] at h1'; cases h1'; rw [h2] at h2'; cases h2'; rfl
    · rw [e] at h1'; have := wf.disj j' hj' _ _ h1'; rw [h1] at this; cases this
  · rcases h' with ⟨i', j', e', h1', h2'⟩ | ⟨j', o', hj', h1', h2'⟩
    · rw [e'] at h1; have := wf.disj j hj _ _ h1; rw [h1'] at this; cases this
    · have := wf.uniq j j' hj hj' k o o' h1 h1'
      subst this; rw [h2] at h2'; cases h2'; rfl

/-- what a table looks like after `k` was given value `v` -/
structure Stored (H : Hash α) (t t' : Tbl α V) (k : Key α) (v : Option V) : Prop where
  wf : WF H t'
  asz : t'.asize = t.asize
  lsz : t'.lsize = t.lsize
  maps : ∀ k' v', Maps t' k' v' ↔ (k' = k ∧ v = some v') ∨ (k' ≠ k ∧ Maps t k' v')

theorem store_arr {H : Hash α} {t : Tbl α V} (wf : WF H t) (i : LInt) (j : Nat)
    (h : arrIdx t.asize i = some j) (v : Option V) :
    ∃ t', store t (.arr j) v = .ok t' ∧ Stored H t t' (.int i) v ∧ t'.node = t.node ∧
      t'.lastfree = t.lastfree := by
  have hj := (arrIdx_lt h).1
  unfold store
  dsimp only
  rw [if_pos hj]
  refine ⟨_, rfl, ⟨⟨wf.asz, wf.lsz, wf.lf, wf.dummy, wf.nonneg, wf.chain, wf.uniq, wf.vnil, wf.disj⟩, rfl, rfl, ?_⟩, rfl, rfl⟩
  intro k' v'
  constructor
  · rintro (⟨i', j', e, h1, h2⟩ | ⟨j', o, hj', h1, h2⟩)
    · simp only [upd] at h1 h2
      by_cases e2 : j' = j
      · rw [if_pos e2] at h2
        left; rw [e2] at h1; have := arrIdx_inj h h1; exact ⟨by rw [e, this], h2⟩
      · rw [if_neg e2] at h2
        right
        refine ⟨?_, .inl ⟨i', j', e, h1, h2⟩⟩
        intro e3; rw [e] at e3; cases e3; rw [h] at h1; cases h1; exact e2 rfl
    · right
      refine ⟨?_, .inr ⟨j', o, hj', h1, h2⟩⟩
      intro e3
      simp only at h1
      rw [e3] at h1; have := wf.disj j' hj' _ _ h1; rw [h] at this; cases this
  · rintro (⟨e, h2⟩ | ⟨e, ⟨i', j', e', h1, h2⟩ | ⟨j', o, hj', h1, h2⟩⟩)
    · exact .inl ⟨i, j, e, h, by simp only [upd, if_pos]; exact h2⟩
    · refine .inl ⟨i', j', e', h1, ?_⟩
      have e2 : j' ≠ j := by
        intro e2; rw [e2] at h1; have := arrIdx_inj h h1; rw [e', this] at e; exact e rfl
      simp only [upd, e2, if_false]; exact h2
    · exact .inr ⟨j', o, hj', h1, h2⟩

theorem store_node {H : Hash α} {t : Tbl α V} (wf : WF H t) (k : Key α) (o : Obj) (p : Nat)
    (hp : p < t.size) (hlf : t.lastfree ≠ none) (hk : (t.node p).key = .live k o) (v : Option V) :
    ∃ t', store t (.node p) v = .ok t' ∧ Stored H t t' k v ∧ t'.lastfree = t.lastfree ∧ t'.arr = t.arr ∧
      (∀ i, (t'.node i).key = (t.node i).key ∧ (t'.node i).next = (t.node i).next) ∧
      (∀ i, i ≠ p → t'.node i = t.node i) ∧ (t'.node p).val = v := by
  unfold store
  dsimp only
  rw [if_pos ⟨hp, hlf⟩]
  have hkn : ∀ i, (upd t.node p { t.node p with val := v } i).key = (t.node i).key ∧
      (upd t.node p { t.node p with val := v } i).next = (t.node i).next := by
    intro i; unfold upd; split <;> simp_all
  have hnx : nxOf (upd t.node p { t.node p with val := v }) = nxOf t.node := by
    funext i; simp only [nxOf, (hkn i).2]
  have hhp : hpOf H t.lsize (upd t.node p { t.node p with val := v }) = hpOf H t.lsize t.node := by
    funext i; simp only [hpOf, (hkn i).1]
  refine ⟨_, rfl, ⟨⟨wf.asz, wf.lsz, ?_, ?_, ?_, ?_, ?_, ?_, ?_⟩, rfl, rfl, ?_⟩, rfl, rfl, hkn, ?_, ?_⟩
  · intro l hl; obtain ⟨h1, h2⟩ := wf.lf l hl
    exact ⟨h1, fun i a b => by rw [(hkn i).1]; exact h2 i a b⟩
  · intro h; exact absurd h hlf
  · intro i hi; rw [(hkn i).2]; exact wf.nonneg i hi
  · show Chain t.size _ _; rw [hnx, hhp]; exact wf.chain
  · intro i j hi hj k' o1 o2; rw [(hkn i).1, (hkn j).1]; exact wf.uniq i j hi hj k' o1 o2
  · intro i hi h
    simp only [(hkn i).1] at h
    have e : i ≠ p := by intro e; rw [e] at h; exact h k o hk
    simp only [upd, e, if_false]; exact wf.vnil i hi h
  · intro i hi k' o'; rw [(hkn i).1]; exact wf.disj i hi k' o'
  · intro k' v'
    constructor
    · rintro (⟨i', j', e, h1, h2⟩ | ⟨j', o', hj', h1, h2⟩)
      · right
        refine ⟨?_, .inl ⟨i', j', e, h1, h2⟩⟩
        intro e3; rw [← e3, e] at hk
        have := wf.disj p hp _ _ hk
        simp only at h1
        rw [h1] at this; cases this
      · simp only [(hkn j').1] at h1
        by_cases e : j' = p
        · left
          subst e; rw [hk] at h1; cases h1
          simp only [upd, if_true] at h2; exact ⟨rfl, h2⟩
        · right
          simp only [upd, e, if_false] at h2
          refine ⟨?_, .inr ⟨j', o', hj', h1, h2⟩⟩
          intro e3; rw [e3] at h1; exact e (wf.uniq j' p hj' hp k o' o h1 hk)
    · rintro (⟨e, h2⟩ | ⟨e, ⟨i', j', e', h1, h2⟩ | ⟨j', o', hj', h1, h2⟩⟩)
      · refine .inr ⟨p, o, hp, ?_, ?_⟩
        · rw [e]; exact ((hkn p).1).trans hk
        · simp only [upd, if_true]; exact h2
      · exact .inl ⟨i', j', e', h1, h2⟩
      · refine .inr ⟨j', o', hj', by simp only [(hkn j').1]; exact h1, ?_⟩
        have e2 : j' ≠ p := by intro e2; rw [e2, hk] at h1; cases h1; exact e rfl
        simp only [upd, e2, if_false]; exact h2
  · intro i e; simp only [upd, e, if_false]
  · simp only [upd, if_true]

theorem Inserted.maps {H : Hash α} {t t' : Tbl α V} {k : Key α} {o : Obj} {p : Nat}
    (h : Inserted H t t' k o p) : ∀ k' v', Maps t' k' v' ↔ Maps t k' v' := by
  intro k' v'
  unfold Maps
  rw [h.asz, h.arr]
  have := h.has k'
  constructor
  · rintro (h1 | ⟨j, o', hj, h1, h2⟩)
    · exact .inl h1
    · obtain ⟨j', a, b, c⟩ := (this o' v').1 ⟨j, hj, h1, h2⟩
      exact .inr ⟨j', o', a, b, c⟩
  · rintro (h1 | ⟨j, o', hj, h1, h2⟩)
    · exact .inl h1
    · obtain ⟨j', a, b, c⟩ := (this o' v').2 ⟨j, hj, h1, h2⟩
      exact .inr ⟨j', o', a, b, c⟩

/-- a node inserted and then given a value -/
theorem Inserted.stored {H : Hash α} {t t' : Tbl α V} {k : Key α} {o : Obj} {p : Nat}
    (h : Inserted H t t' k o p) (v : Option V) :
    ∃ t'', store t' (.node p) v = .ok t'' ∧ Stored H t t'' k v ∧ t''.lastfree ≠ none ∧ nk t'' ≤ nk t + 1 ∧
      (∀ i, (t''.node i).key = (t'.node i).key ∧ (t''.node i).next = (t'.node i).next) := by
  obtain ⟨t'', h1, h2, h3, _, h5, _⟩ := store_node h.wf k o p h.plt h.lfr h.key v
  refine ⟨t'', h1, ⟨h2.wf, by rw [h2.asz, h.asz], by rw [h2.lsz, h.lsz], ?_⟩, by rw [h3]; exact h.lfr, ?_, h5⟩
  · intro k' v'; rw [h2.maps, h.maps]
  · obtain ⟨x, hx⟩ := h.cnt
    apply nk_le_succ (by rw [h2.lsz, h.lsz]) x
    intro i hi hne
    rw [(h5 i).1]; exact hx i hi hne

variable [DecidableEq α]

theorem setNoRehash_spec {H : Hash α} {t : Tbl α V} (wf : WF H t) (k : Key α) (o : Obj) (v : Option V)
    (room : (∃ i j, k = .int i ∧ arrIdx t.asize i = some j) ∨ (t.lastfree ≠ none ∧ nk t < t.size)) :
    ∃ t', setNoRehash H t k o v = .ok t' ∧ Stored H t t' k v ∧
      ((∃ i j, k = .int i ∧ arrIdx t.asize i = some j) → nk t' = nk t ∧ t'.lastfree = t.lastfree) ∧
      nk t' ≤ nk t + 1 ∧ (t.lastfree ≠ none → t'.lastfree ≠ none) ∧
      (∀ Q : NKey α → Prop, Q (.live k o) → (∀ i, i < t.size → Q (t.node i).key) →
        ∀ i, i < t'.size → Q (t'.node i).key) := by
  unfold setNoRehash
  obtain ⟨r, h1, h2, h3, h4⟩ := getKey_spec wf k
  rw [h1]
  simp only [Res.bind_ok]
  cases r with
  | some c =>
    simp only []
    cases c with
    | arr j =>
      obtain ⟨i, e, ha⟩ := h3 j rfl
      subst e
      obtain ⟨t', g1, g2, g3, g4⟩ := store_arr wf i j ha v
      have hnk : nk t' = nk t := by unfold nk Tbl.size; rw [g2.lsz, g3]
      exact ⟨t', g1, g2, fun _ => ⟨hnk, g4⟩, by omega, by rw [g4]; exact id, by
        intro Q _ hq i hi
        rw [g3]; exact hq i (by unfold Tbl.size at hi ⊢; rw [g2.lsz] at hi; exact hi)⟩
    | node p =>
      obtain ⟨hp, hlf, ⟨o', hk⟩, hn⟩ := h4 p rfl
      obtain ⟨t', g1, g2, g3, g4, g5, g6⟩ := store_node wf k o' p hp hlf hk v
      have hnk : nk t' = nk t := by
        unfold nk Tbl.size; rw [g2.lsz]
        have : (fun i => !(t'.node i).key.isNil) = (fun i => !(t.node i).key.isNil) := by
          funext i; rw [(g5 i).1]
        rw [this]
      exact ⟨t', g1, g2, fun _ => ⟨hnk, g3⟩, by omega, by rw [g3]; exact id, by
        intro Q _ hq i hi
        rw [(g5 i).1]; exact hq i (by unfold Tbl.size at hi ⊢; rw [g2.lsz] at hi; exact hi)⟩
  | none =>
    obtain ⟨hna, hnk⟩ := h2 rfl
    have room' : t.lastfree ≠ none ∧ nk t < t.size := by
      rcases room with ⟨i, j, e, h⟩ | h
      · rw [hna i e] at h; cases h
      · exact h
    rcases insertKey_spec wf k o hna hnk with ⟨t', p, g1, g2⟩ | ⟨l, g1, g2, g3⟩
    · rw [g1]; simp only [Res.bind_ok]
      obtain ⟨t'', f1, f2, f3, f4, f5⟩ := g2.stored v
      refine ⟨t'', f1, f2, ?_, f4, fun _ => f3, ?_⟩
      · rintro ⟨i, j, e, h⟩; rw [hna i e] at h; cases h
      · intro Q hk hq i hi
        have hi' : i < t.size := by unfold Tbl.size at hi ⊢; rw [f2.lsz] at hi; exact hi
        rw [(f5 i).1]
        by_cases e : i = p
        · subst e; rw [g2.key]; exact hk
        · obtain ⟨σ, hσ⟩ := g2.keep
          obtain ⟨a, b⟩ := hσ.src i hi' e
          rw [b]; exact hq _ a
    · exfalso
      rcases g3 with h | h
      · exact room'.1 h
      · have := nk_full h; omega

end Verif.Table
