import Verif.Table.Rehash
/-! The full table invariant (structure, contents, object identities of keys) and raw assignment. -/
namespace Verif.Table
open Verif.Arith (LInt)
variable {α V : Type}

/-- Distinct live keys have distinct objects, and on the way from the main position of a live key to
its node there is no dead key with the same object address. -/
structure ObjInv (H : Hash α) (t : Tbl α V) : Prop where
  objU : ∀ i j, i < t.size → j < t.size → ∀ k k' o, o ≠ none → (t.node i).key = .live k o →
    (t.node j).key = .live k' o → k = k'
  ord : ∀ i j, i < t.size → j < t.size → i ≠ j → ∀ k o, o ≠ none → (t.node j).key = .live k o →
    Reach (nxOf t.node) (mainpos H t.lsize k) i → Reach (nxOf t.node) i j → ∀ k', (t.node i).key ≠ .dead k' o

structure Inv (H : Hash α) (t : Tbl α V) : Prop where
  wf : WF H t
  obj : ObjInv H t

/-- The environment's promise about object identities when key `k` with object `o` is assigned: a live
key of the table that is the same object is the same key. -/
def ObjOK (t : Tbl α V) (k : Key α) (o : Obj) : Prop :=
  o ≠ none → ∀ i, i < t.size → ∀ k', (t.node i).key = .live k' o → k' = k

theorem ObjInv.congr {H : Hash α} {t t' : Tbl α V} (h : ObjInv H t) (hl : t'.lsize = t.lsize)
    (hn : ∀ i, (t'.node i).key = (t.node i).key ∧ (t'.node i).next = (t.node i).next) : ObjInv H t' := by
  have hs : t'.size = t.size := by unfold Tbl.size; rw [hl]
  have hnx : nxOf t'.node = nxOf t.node := by funext i; unfold nxOf; rw [(hn i).2]
  constructor
  · intro i j hi hj k k' o ho h1 h2
    rw [(hn i).1] at h1; rw [(hn j).1] at h2
    exact h.objU i j (by omega) (by omega) k k' o ho h1 h2
  · intro i j hi hj hne k o ho h1 h2 h3 k'
    rw [(hn j).1] at h1; rw [hnx, hl] at h2; rw [hnx] at h3; rw [(hn i).1]
    exact h.ord i j (by omega) (by omega) hne k o ho h1 h2 h3 k'

/-- a table without dead keys whose objects come from `t` and `(k,o)` -/
theorem ObjInv.fresh {H : Hash α} {t t' : Tbl α V} (h : ObjInv H t) {k : Key α} {o : Obj} (hok : ObjOK t k o)
    (hq : ∀ i, i < t'.size → (t'.node i).key = .nil ∨ ∃ k1 o1, (t'.node i).key = .live k1 o1 ∧
      (o1 = none ∨ (k1 = k ∧ o1 = o) ∨ ∃ j, j < t.size ∧ (t.node j).key = .live k1 o1)) : ObjInv H t' := by
  constructor
  · intro i j hi hj k1 k2 o1 ho h1 h2
    have src : ∀ i, i < t'.size → ∀ k1, (t'.node i).key = .live k1 o1 →
        ((k1 = k ∧ o1 = o) ∨ ∃ j, j < t.size ∧ (t.node j).key = .live k1 o1) := by
      intro i hi k1 h
      rcases hq i hi with g | ⟨k3, o3, g1, g2⟩
      · rw [h] at g; cases g
      · rw [h] at g1; cases g1
        rcases g2 with g | g | g
        · exact absurd g ho
        · exact .inl g
        · exact .inr g
    rcases src i hi k1 h1 with ⟨a, b⟩ | ⟨x, hx, a⟩
    · rcases src j hj k2 h2 with ⟨c, d⟩ | ⟨y, hy, c⟩
      · rw [a, c]
      · subst b; rw [a]; exact (hok ho y hy _ c).symm
    · rcases src j hj k2 h2 with ⟨c, d⟩ | ⟨y, hy, c⟩
      · subst d; rw [c]; exact hok ho x hx _ a
      · exact h.objU x y hx hy _ _ _ ho a c
  · intro i j hi _ _ _ _ _ _ _ _ k' hd
    rcases hq i hi with g | ⟨_, _, g, _⟩
    · rw [hd] at g; cases g
    · rw [hd] at g; cases g

theorem Inserted.objInv {H : Hash α} {t t' : Tbl α V} {k : Key α} {o : Obj} {p : Nat} (wf : WF H t)
    (h : ObjInv H t) (hok : ObjOK t k o) (hi : Inserted H t t' k o p) : ObjInv H t' := by
  have hs : t'.size = t.size := by unfold Tbl.size; rw [hi.lsz]
  obtain ⟨σ, hσ⟩ := hi.keep
  constructor
  · intro i j h1 h2 k1 k2 o1 ho g1 g2
    by_cases e1 : i = p
    · subst e1; rw [hi.key] at g1; cases g1
      by_cases e2 : j = i
      · subst e2; rw [hi.key] at g2; cases g2; rfl
      · obtain ⟨a, b⟩ := hσ.src j (by omega) e2
        rw [b] at g2; exact (hok ho _ a _ g2).symm
    · obtain ⟨a, b⟩ := hσ.src i (by omega) e1
      rw [b] at g1
      by_cases e2 : j = p
      · subst e2; rw [hi.key] at g2; cases g2
        exact hok ho _ a _ g1
      · obtain ⟨c, d⟩ := hσ.src j (by omega) e2
        rw [d] at g2
        exact h.objU _ _ a c _ _ _ ho g1 g2
  · intro i j h1 h2 hne k1 o1 ho g1 r1 r2 k' hd
    have e1 : i ≠ p := by intro e; rw [e, hi.key] at hd; cases hd
    obtain ⟨a, b⟩ := hσ.src i (by omega) e1
    rw [b] at hd
    by_cases e2 : j = p
    · subst e2; rw [hi.key] at g1; cases g1
      rw [hi.lsz] at r1
      have := hσ.new i e1 r1 r2
      rw [wf.vnil _ a (by intro k o h; rw [hd] at h; cases h)] at this; cases this
    · obtain ⟨c, d⟩ := hσ.src j (by omega) e2
      rw [d] at g1
      have hm := mainpos_lt' H t k1
      rw [hi.lsz] at r1
      obtain ⟨s1, s2⟩ := hσ.ord i j (mainpos H t.lsize k1) (by omega) (by omega) hm e1 e2
        (by simp [hpOf, g1, NKey.key?]) r1 r2
      exact h.ord _ _ a c (fun e => hne (hσ.inj i j (by omega) (by omega) e1 e2 e)) k1 o1 ho g1 s1 s2 k' hd

variable [DecidableEq α]

/-- raw assignment on a normalised key -/
theorem rawset_key {H : Hash α} {t : Tbl α V} (inv : Inv H t) (k : Key α) (o : Obj) (hok : ObjOK t k o)
    (v : Option V) :
    (rawset H t (.key k o) v = .err "table overflow") ∨
    ∃ t', rawset H t (.key k o) v = .ok t' ∧ Inv H t' ∧
      ∀ k' v', Maps t' k' v' ↔ (k' = k ∧ v = some v') ∨ (k' ≠ k ∧ Maps t k' v') := by
  have wf := inv.wf
  unfold rawset get
  obtain ⟨r, h1, h2, h3, h4⟩ := getKey_spec wf k
  dsimp only
  rw [h1]
  simp only [Res.bind_ok]
  cases r with
  | some c =>
    right
    simp only []
    cases c with
    | arr j =>
      obtain ⟨i, e, ha⟩ := h3 j rfl
      subst e
      obtain ⟨t', g1, g2, g3, _⟩ := store_arr wf i j ha v
      exact ⟨t', g1, ⟨g2.wf, inv.obj.congr g2.lsz (by intro i; rw [g3]; exact ⟨rfl, rfl⟩)⟩, g2.maps⟩
    | node p =>
      obtain ⟨hp, hlf, ⟨o', hk⟩, hn⟩ := h4 p rfl
      obtain ⟨t', g1, g2, _, _, g5, _⟩ := store_node wf k o' p hp hlf hk v
      exact ⟨t', g1, ⟨g2.wf, inv.obj.congr g2.lsz g5⟩, g2.maps⟩
  | none =>
    simp only []
    obtain ⟨hna, hnk⟩ := h2 rfl
    have hek : ∀ v, ¬ Maps t k v := by
      rintro v (⟨i, j, e, h, _⟩ | ⟨j, o', hj, h, _⟩)
      · rw [hna i e] at h; cases h
      · exact hnk j hj o' h
    unfold newkey newkeyNorm
    rcases insertKey_spec wf k o hna hnk with ⟨t', p, g1, g2⟩ | ⟨l, g1, g2, g3⟩
    · right
      simp only [g1, Res.bind_ok, Res.pure_eq]
      obtain ⟨t'', f1, f2, f3, f4, f5⟩ := g2.stored v
      refine ⟨t'', f1, ⟨f2.wf, ?_⟩, f2.maps⟩
      exact (Inserted.objInv wf inv.obj hok g2).congr (by rw [f2.lsz, g2.lsz]) f5
    · simp only [g1, Res.bind_ok, Res.pure_eq]
      rcases rehash_spec g2 k (by intro v hm; exact hek v hm) with hm | ⟨t', q1, q2, q3, q4, _, qQ⟩
      · left; rw [hm]; rfl
      · right
        rw [q1]
        simp only [Res.bind_ok]
        obtain ⟨t'', s1, s2, _, _, _, sQ⟩ := setNoRehash_spec q2 k o v q4
        refine ⟨t'', ?_, ⟨s2.wf, ?_⟩, ?_⟩
        · rw [← s1]
          unfold setNoRehash
          cases getKey H t' k with
          | err m => rfl
          | ub => rfl
          | ok r =>
            cases r with
            | some c => rfl
            | none =>
              simp only [Res.bind_ok]
              cases insertKey H t' k o with
              | err m => rfl
              | ub => rfl
              | ok r => cases r <;> rfl
        · apply inv.obj.fresh hok
          apply sQ (fun nk => nk = .nil ∨ ∃ k1 o1, nk = .live k1 o1 ∧
            (o1 = none ∨ (k1 = k ∧ o1 = o) ∨ ∃ j, j < t.size ∧ (t.node j).key = .live k1 o1))
          · exact .inr ⟨k, o, rfl, .inr (.inl ⟨rfl, rfl⟩)⟩
          · apply qQ (fun nk => nk = .nil ∨ ∃ k1 o1, nk = .live k1 o1 ∧
              (o1 = none ∨ (k1 = k ∧ o1 = o) ∨ ∃ j, j < t.size ∧ (t.node j).key = .live k1 o1))
            · exact .inl rfl
            · intro i; exact .inr ⟨_, _, rfl, .inl rfl⟩
            · intro i hi hv
              right
              cases hk : (t.node i).key with
              | live k1 o1 => exact ⟨k1, o1, rfl, .inr (.inr ⟨i, hi, hk⟩)⟩
              | nil =>
                have hv' : (t.node i).val.isSome = true := hv
                rw [wf.vnil i hi (by intro k o h; rw [hk] at h; cases h)] at hv'; cases hv'
              | dead k1 o1 =>
                have hv' : (t.node i).val.isSome = true := hv
                rw [wf.vnil i hi (by intro k o h; rw [hk] at h; cases h)] at hv'; cases hv'
        · intro k' v'
          rw [s2.maps, q3]
          exact Iff.rfl

/-- raw reading on a normalised key -/
theorem rawget_key {H : Hash α} {t : Tbl α V} (wf : WF H t) (k : Key α) (o : Obj) :
    ∃ r, rawget H t (.key k o) = .ok r ∧ ∀ v, r = some v ↔ Maps t k v := by
  unfold rawget get
  obtain ⟨r, h1, h2, h3, h4⟩ := getKey_spec wf k
  dsimp only
  rw [h1]
  simp only [Res.bind_ok]
  cases r with
  | none =>
    obtain ⟨hna, hnk⟩ := h2 rfl
    refine ⟨none, rfl, ?_⟩
    intro v
    constructor
    · intro h; cases h
    · rintro (⟨i, j, e, h, _⟩ | ⟨j, o', hj, h, _⟩)
      · rw [hna i e] at h; cases h
      · exact absurd h (hnk j hj o')
  | some c =>
    simp only []
    cases c with
    | arr j =>
      obtain ⟨i, e, ha⟩ := h3 j rfl
      subst e
      refine ⟨t.arr j, by unfold load; dsimp only; rw [if_pos (arrIdx_lt ha).1], ?_⟩
      intro v
      constructor
      · intro h; exact .inl ⟨i, j, rfl, ha, h⟩
      · rintro (⟨i', j', e, h, h'⟩ | ⟨j', o', hj, h, _⟩)
        · cases e; rw [ha] at h; cases h; exact h'
        · have := wf.disj j' hj _ _ h; rw [ha] at this; cases this
    | node p =>
      obtain ⟨hp, hlf, ⟨o', hk⟩, hn⟩ := h4 p rfl
      refine ⟨(t.node p).val, by unfold load; dsimp only; rw [if_pos hp], ?_⟩
      intro v
      constructor
      · intro h; exact .inr ⟨p, o', hp, hk, h⟩
      · rintro (⟨i', j', e, h, h'⟩ | ⟨j', o2, hj, h, h'⟩)
        · rw [hn i' e] at h; cases h
        · have := wf.uniq p j' hp hj k o' o2 hk h; subst this; exact h'

omit [DecidableEq α] in
theorem collect_inv {H : Hash α} {t : Tbl α V} (inv : Inv H t) (p : Nat → Bool) :
    Inv H (collect t p) ∧ ∀ k v, Maps (collect t p) k v ↔ Maps t k v := by
  have wf := inv.wf
  have hnode : ∀ i, ((collect t p).node i) = t.node i ∨
      ∃ k o, (t.node i).key = .live k (some o) ∧ (t.node i).val = none ∧
        (collect t p).node i = ⟨.dead k (some o), none, (t.node i).next⟩ := by
    intro i
    unfold collect
    dsimp only
    split
    · rename_i k o h1 h2
      split
      · exact .inr ⟨k, o, h1, h2, by rw [h2]⟩
      · exact .inl rfl
    · exact .inl rfl
  have hval : ∀ i, ((collect t p).node i).val = (t.node i).val := by
    intro i
    rcases hnode i with h | ⟨k, o, h1, h2, h3⟩
    · rw [h]
    · rw [h3, h2]
  have hlive : ∀ i k o, ((collect t p).node i).key = .live k o → (t.node i).key = .live k o := by
    intro i k o h
    rcases hnode i with g | ⟨k', o', h1, h2, h3⟩
    · rw [g] at h; exact h
    · rw [h3] at h; cases h
  have hk? : ∀ i, ((collect t p).node i).key.key? = (t.node i).key.key? := by
    intro i
    rcases hnode i with g | ⟨k', o', h1, h2, h3⟩
    · rw [g]
    · rw [h3, h1]; rfl
  have hnext : ∀ i, ((collect t p).node i).next = (t.node i).next := by
    intro i
    rcases hnode i with g | ⟨k', o', h1, h2, h3⟩
    · rw [g]
    · rw [h3]
  have hnil : ∀ i, ((collect t p).node i).key = .nil ↔ (t.node i).key = .nil := by
    intro i
    rcases hnode i with g | ⟨k', o', h1, h2, h3⟩
    · rw [g]
    · rw [h3, h1]; simp
  have hnx : nxOf (collect t p).node = nxOf t.node := by funext i; unfold nxOf; rw [hnext]
  have hhp : hpOf H t.lsize (collect t p).node = hpOf H t.lsize t.node := by
    funext i; unfold hpOf; rw [hk?]
  refine ⟨⟨⟨wf.asz, wf.lsz, ?_, ?_, ?_, ?_, ?_, ?_, ?_⟩, ?_, ?_⟩, ?_⟩
  · intro l hl
    obtain ⟨h1, h2⟩ := wf.lf l hl
    exact ⟨h1, fun i a b h => h2 i a b ((hnil i).1 h)⟩
  · intro h; obtain ⟨a, b⟩ := wf.dummy h; exact ⟨a, (hnil 0).2 b⟩
  · intro i hi; rw [hnext]; exact wf.nonneg i hi
  · rw [hnx]; show Chain t.size _ (hpOf H t.lsize (collect t p).node); rw [hhp]; exact wf.chain
  · intro i j hi hj k o o' h1 h2
    exact wf.uniq i j hi hj k o o' (hlive i k o h1) (hlive j k o' h2)
  · intro i hi h
    rw [hval]
    rcases hnode i with g | ⟨k', o', h1, h2, h3⟩
    · rw [g] at h; exact wf.vnil i hi h
    · exact h2
  · intro i hi k o h; exact wf.disj i hi k o (hlive i _ o h)
  · intro i j hi hj k k' o ho h1 h2
    exact inv.obj.objU i j hi hj k k' o ho (hlive i k o h1) (hlive j k' o h2)
  · intro i j hi hj hne k o ho h1 r1 r2 k' hd
    rw [hnx] at r1 r2
    have hj' := hlive j k o h1
    rcases hnode i with g | ⟨k2, o2, g1, g2, g3⟩
    · rw [g] at hd
      exact inv.obj.ord i j hi hj hne k o ho hj' r1 r2 k' hd
    · rw [g3] at hd
      simp only [NKey.dead.injEq] at hd
      rw [hd.2] at g1
      have := inv.obj.objU i j hi hj _ _ o ho g1 hj'
      subst this
      exact hne (wf.uniq i j hi hj _ _ _ g1 hj')
  · intro k v
    constructor
    · rintro (h | ⟨j, o, hj, h1, h2⟩)
      · exact .inl h
      · exact .inr ⟨j, o, hj, hlive j k o h1, by rw [← hval]; exact h2⟩
    · rintro (h | ⟨j, o, hj, h1, h2⟩)
      · exact .inl h
      · refine .inr ⟨j, o, hj, ?_, by rw [hval]; exact h2⟩
        rcases hnode j with g | ⟨k2, o2, g1, g2, g3⟩
        · rw [g]; exact h1
        · rw [g2] at h2; cases h2

theorem resize_inv {H : Hash α} {t : Tbl α V} (inv : Inv H t) (na nh : Nat) (hna : na ≤ 2 ^ 31)
    (hnh : nh < 2 ^ 32) (hneed : need t na ≤ nh) :
    (resize H t na nh = .err "table overflow") ∨
    (∃ t', resize H t na nh = .ok t' ∧ Inv H t' ∧ ∀ k v, Maps t' k v ↔ Maps t k v) := by
  rcases resize_spec inv.wf na nh hna hnh hneed with ⟨_, h⟩ | ⟨_, t', h1, h2, h3, h4, h5, hQ, h6⟩
  · exact .inl h
  · refine .inr ⟨t', h1, ⟨h2, ?_⟩, h6⟩
    apply inv.obj.fresh (k := .int 0) (o := none) (by intro h; exact absurd rfl h)
    apply hQ (fun nk => nk = .nil ∨ ∃ k1 o1, nk = .live k1 o1 ∧
      (o1 = none ∨ (k1 = .int 0 ∧ o1 = none) ∨ ∃ j, j < t.size ∧ (t.node j).key = .live k1 o1))
    · exact .inl rfl
    · intro i; exact .inr ⟨_, _, rfl, .inl rfl⟩
    · intro i hi hv
      right
      cases hk : (t.node i).key with
      | live k1 o1 => exact ⟨k1, o1, rfl, .inr (.inr ⟨i, hi, hk⟩)⟩
      | nil => rw [inv.wf.vnil i hi (by intro k o h; rw [hk] at h; cases h)] at hv; cases hv
      | dead k1 o1 => rw [inv.wf.vnil i hi (by intro k o h; rw [hk] at h; cases h)] at hv; cases hv

omit [DecidableEq α] in
theorem new_inv (H : Hash α) : Inv H (new : Tbl α V) ∧ ∀ k v, ¬ Maps (new : Tbl α V) k v := by
  refine ⟨⟨fresh_wf H 0 _ 0 none (by omega) (by omega) (.inr ⟨rfl, rfl⟩), ?_, ?_⟩, ?_⟩
  · intro i j _ _ k k' o _ h; simp [new, dummyNode] at h
  · intro i j _ _ _ k o _ h; simp [new, dummyNode] at h
  · rintro k v (⟨i, j, e, h, _⟩ | ⟨j, o, hj, h, _⟩)
    · simp [new, arrIdx] at h
    · simp [new, dummyNode] at h

end Verif.Table
