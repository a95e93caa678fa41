import Verif.Table.Length
/-! Traversal with `next`. -/
namespace Verif.Table
open Verif.Arith (LInt)
variable {α V : Type}

/-- total number of positions of a traversal -/
def total (t : Tbl α V) : Nat := t.asize + t.size

/-- the entry at a position -/
def entryAt (t : Tbl α V) (p : Nat) : Option (Key α × Obj × V) :=
  if p < t.asize then (t.arr p).map (fun v => (.int (BitVec.ofNat 64 (p + 1)), none, v))
  else if p < total t then
    match (t.node (p - t.asize)).val, (t.node (p - t.asize)).key with
    | some v, .live k o => some (k, o, v)
    | _, _ => none
  else none

/-- `t` is `t0` after assignments to existing fields and collections -/
structure Sh (t0 t : Tbl α V) : Prop where
  asz : t.asize = t0.asize
  lsz : t.lsize = t0.lsize
  nxt : ∀ i, (t.node i).next = (t0.node i).next
  arr : ∀ i, i < t.asize → (t.arr i).isSome → (t0.arr i).isSome
  key : ∀ i, (t.node i).key = (t0.node i).key ∨
    ∃ k o, (t0.node i).key = .live k (some o) ∧ (t.node i).key = .dead k (some o)
  val : ∀ i, (t.node i).val.isSome → (t0.node i).val.isSome

theorem Sh.refl (t : Tbl α V) : Sh t t := ⟨rfl, rfl, fun _ => rfl, fun _ _ h => h, fun _ => .inl rfl, fun _ h => h⟩

theorem Sh.size {t0 t : Tbl α V} (h : Sh t0 t) : t.size = t0.size := by unfold Tbl.size; rw [h.lsz]
theorem Sh.total {t0 t : Tbl α V} (h : Sh t0 t) : total t = total t0 := by unfold Table.total; rw [h.size, h.asz]

theorem Sh.trans {t0 t1 t2 : Tbl α V} (h : Sh t0 t1) (h' : Sh t1 t2) : Sh t0 t2 := by
  refine ⟨by rw [h'.asz, h.asz], by rw [h'.lsz, h.lsz], fun i => by rw [h'.nxt, h.nxt], ?_, ?_, ?_⟩
  · intro i hi hv; exact h.arr i (by rw [h'.asz] at hi; exact hi) (h'.arr i hi hv)
  · intro i
    rcases h'.key i with e | ⟨k, o, e1, e2⟩
    · rw [e]; exact h.key i
    · rcases h.key i with e3 | ⟨k', o', e3, e4⟩
      · rw [e3] at e1; exact .inr ⟨k, o, e1, e2⟩
      · rw [e1] at e4; cases e4
  · intro i hv; exact h.val i (h'.val i hv)

/-- an entry present after the modifications was present before, at the same position, with the same key -/
theorem Sh.entry {t0 t : Tbl α V} (h : Sh t0 t) {p : Nat} {k : Key α} {o : Obj} {v : V}
    (he : entryAt t p = some (k, o, v)) : ∃ v0, entryAt t0 p = some (k, o, v0) := by
  unfold entryAt at he ⊢
  rw [h.asz, h.total] at he
  by_cases hp : p < t0.asize
  · rw [if_pos hp] at he ⊢
    obtain ⟨w, h1, h2⟩ := Option.map_eq_some_iff.1 he
    cases h2
    have := h.arr p (by rw [h.asz]; exact hp) (by rw [h1]; rfl)
    obtain ⟨v0, hv0⟩ := Option.isSome_iff_exists.1 this
    exact ⟨v0, by rw [hv0]; rfl⟩
  · rw [if_neg hp] at he ⊢
    by_cases hp2 : p < Table.total t0
    · rw [if_pos hp2] at he ⊢
      cases hv : (t.node (p - t0.asize)).val with
      | none => simp [hv] at he
      | some w =>
        cases hk : (t.node (p - t0.asize)).key with
        | nil => simp [hv, hk] at he
        | dead k' o' => simp [hv, hk] at he
        | live k' o' =>
          simp only [hv, hk, Option.some.injEq, Prod.mk.injEq] at he
          have h1 := h.val (p - t0.asize) (by rw [hv]; rfl)
          obtain ⟨v0, hv0⟩ := Option.isSome_iff_exists.1 h1
          refine ⟨v0, ?_⟩
          rcases h.key (p - t0.asize) with e | ⟨k2, o2, e1, e2⟩
          · rw [hk] at e; simp only [hv0, ← e, he.1, he.2.1]
          · rw [hk] at e2; cases e2
    · rw [if_neg hp2] at he; cases he

theorem entry_maps {H : Hash α} {t : Tbl α V} (wf : WF H t) {k : Key α} {v : V} :
    Maps t k v ↔ ∃ p o, entryAt t p = some (k, o, v) := by
  have h31 := wf.asz
  constructor
  · rintro (⟨i, j, e, h1, h2⟩ | ⟨j, o, hj, h1, h2⟩)
    · obtain ⟨h3, h4⟩ := arrIdx_lt h1
      refine ⟨j, none, ?_⟩
      unfold entryAt
      rw [if_pos h3, h2]
      have : i = BitVec.ofNat 64 (j + 1) := by
        apply arrIdx_inj h1; rw [arrIdx_ofNat (by omega)]; exact if_pos h3
      rw [e, this]; rfl
    · refine ⟨t.asize + j, o, ?_⟩
      unfold entryAt
      rw [if_neg (by omega), if_pos (by unfold total; omega)]
      rw [show t.asize + j - t.asize = j by omega, h1, h2]
  · rintro ⟨p, o, he⟩
    unfold entryAt at he
    by_cases hp : p < t.asize
    · rw [if_pos hp] at he
      obtain ⟨w, g1, g2⟩ := Option.map_eq_some_iff.1 he
      cases g2
      exact .inl ⟨_, p, rfl, by rw [arrIdx_ofNat (by omega)]; exact if_pos hp, g1⟩
    · rw [if_neg hp] at he
      by_cases hp2 : p < total t
      · rw [if_pos hp2] at he
        split at he
        · rename_i v' k' o' g1 g2
          cases he
          exact .inr ⟨_, _, by unfold total at hp2; omega, g2, g1⟩
        · cases he
      · rw [if_neg hp2] at he; cases he

/-- two positions with the same key are equal -/
theorem entry_inj {H : Hash α} {t : Tbl α V} (wf : WF H t) {p q : Nat} {k : Key α} {o o' : Obj} {v v' : V}
    (h1 : entryAt t p = some (k, o, v)) (h2 : entryAt t q = some (k, o', v')) : p = q := by
  have h31 := wf.asz
  have cls : ∀ p o v, entryAt t p = some (k, o, v) →
      (p < t.asize ∧ k = .int (BitVec.ofNat 64 (p + 1))) ∨
      (t.asize ≤ p ∧ p - t.asize < t.size ∧ (t.node (p - t.asize)).key = .live k o) := by
    intro p o v he
    unfold entryAt at he
    by_cases hp : p < t.asize
    · rw [if_pos hp] at he
      obtain ⟨w, g1, g2⟩ := Option.map_eq_some_iff.1 he
      cases g2; exact .inl ⟨hp, rfl⟩
    · rw [if_neg hp] at he
      by_cases hp2 : p < total t
      · rw [if_pos hp2] at he
        split at he
        · rename_i v' k' o' g1 g2
          cases he
          exact .inr ⟨by omega, by unfold total at hp2; omega, g2⟩
        · cases he
      · rw [if_neg hp2] at he; cases he
  rcases cls p o v h1 with ⟨a, b⟩ | ⟨a, b, c⟩
  · rcases cls q o' v' h2 with ⟨d, e⟩ | ⟨d, e, f⟩
    · rw [b] at e
      simp only [Key.int.injEq] at e
      have := congrArg BitVec.toNat e
      simp at this; omega
    · rw [b] at f
      have := wf.disj _ e _ _ f
      rw [arrIdx_ofNat (by omega), if_pos a] at this; cases this
  · rcases cls q o' v' h2 with ⟨d, e⟩ | ⟨d, e, f⟩
    · rw [e] at c
      have := wf.disj _ b _ _ c
      rw [arrIdx_ofNat (by omega), if_pos d] at this; cases this
    · have := wf.uniq _ _ b e _ _ _ c f; omega

/-- a search stops at the first match -/
theorem search_hit {H : Hash α} {t : Tbl α V} (wf : WF H t) (p : Node α V → Bool) (i j : Nat)
    (hi : i < t.size) (hr : Reach (nxOf t.node) i j) (hp : p (t.node j) = true)
    (hfirst : ∀ x, Reach (nxOf t.node) i x → Reach (nxOf t.node) x j → x ≠ j → p (t.node x) = false) :
    search t p (t.size + 1) (i : Int) = .ok (some j) := by
  obtain ⟨d, hd1, hd2⟩ := wf.chain.bound
  have main : ∀ i j, Reach (nxOf t.node) i j → ∀ fuel, i < t.size → d i < fuel → p (t.node j) = true →
      (∀ x, Reach (nxOf t.node) i x → Reach (nxOf t.node) x j → x ≠ j → p (t.node x) = false) →
      search t p fuel (i : Int) = .ok (some j) := by
    intro i j h
    induction h with
    | refl i =>
      intro fuel hi hf hp _
      cases fuel with
      | zero => omega
      | succ fuel =>
        unfold search
        rw [getNode_ok t i hi]
        simp only [Res.bind_ok, Int.toNat_natCast]
        rw [if_pos hp]; rfl
    | @step i k j hik hkj ih =>
      intro fuel hi hf hp hfirst
      cases fuel with
      | zero => omega
      | succ fuel =>
        have hk := wf.chain.bnd i hi k hik
        have hne : i ≠ j := by
          intro e
          subst e
          have e := wf.chain.acyclic hi (.step hik (.refl k)) hkj
          subst e
          have := hd2 i hi i hik; omega
        have hpi := hfirst i (.refl _) (.step hik hkj) hne
        unfold search
        rw [getNode_ok t i hi]
        simp only [Res.bind_ok, Int.toNat_natCast]
        rw [if_neg (by rw [hpi]; simp)]
        have hz : (t.node i).next ≠ 0 := by intro e; rw [nxOf_none.2 e] at hik; cases hik
        rw [if_neg hz]
        obtain ⟨k', _, h2, h3⟩ := wf.nx_step hi hz
        rw [hik] at h2; cases h2
        rw [h3]
        have := hd2 i hi k hik
        exact ih fuel hk (by omega) hp (fun x r1 r2 => hfirst x (.step hik r1) r2)
  exact main i j hr _ hi (by have := hd1 i hi; omega) hp hfirst

variable [DecidableEq α]

/-- the key handed out for position `p` brings the next call back to position `p + 1` -/
theorem findindex_spec {H : Hash α} {t0 t : Tbl α V} (inv0 : Inv H t0) (wf : WF H t) (sh : Sh t0 t)
    {p : Nat} {k : Key α} {o : Obj} {v : V} (he : entryAt t0 p = some (k, o, v)) :
    findindex H t (.key k o) = .ok (p + 1) := by
  have wf0 := inv0.wf
  have h31 := wf0.asz
  unfold entryAt at he
  unfold findindex
  dsimp only
  by_cases hp : p < t0.asize
  · rw [if_pos hp] at he
    obtain ⟨w, g1, g2⟩ := Option.map_eq_some_iff.1 he
    cases g2
    have e : arrayindex (.int (BitVec.ofNat 64 (p + 1)) : Key α) = p + 1 := by
      rw [arrayindex_int]
      have : (BitVec.ofNat 64 (p + 1)).toNat = p + 1 := by simp; omega
      rw [this, if_pos (by omega)]
    rw [e, if_pos ⟨by omega, by rw [sh.asz]; omega⟩]
    rfl
  · rw [if_neg hp] at he
    by_cases hp2 : p < total t0
    · rw [if_pos hp2] at he
      split at he
      · rename_i v' k' o' g1 g2
        cases he
        generalize hj : p - t0.asize = j at *
        have hjs : j < t0.size := by unfold total at hp2; omega
        have hnr : ¬ (arrayindex k ≠ 0 ∧ arrayindex k ≤ t.asize) := by
          rw [sh.asz, ← inRange_iff h31]
          intro hr
          cases k with
          | oth x => cases hr
          | int i =>
            unfold inRange at hr
            dsimp only at hr
            rw [wf0.disj j hjs i o g2] at hr; cases hr
        rw [if_neg hnr]
        have hnx : nxOf t.node = nxOf t0.node := by funext i; unfold nxOf; rw [sh.nxt]
        have hm := mainpos_lt' H t0 k
        have hreach := wf0.chain.reach j hjs (mainpos H t0.lsize k) (by simp [hpOf, g2, NKey.key?])
        have hs := search_hit wf (nextMatch k o) (mainpos H t.lsize k) j
          (by rw [sh.size, sh.lsz]; exact hm) (by rw [hnx, sh.lsz]; exact hreach)
          (by
            unfold nextMatch
            rcases sh.key j with e | ⟨k2, o2, e1, e2⟩
            · rw [e, g2]; simp
            · rw [g2] at e1; cases e1; rw [e2]; simp)
          (by
            intro x r1 r2 hne
            rw [hnx, sh.lsz] at r1
            rw [hnx] at r2
            have hx := r1.lt wf0.chain hm
            unfold nextMatch
            rcases sh.key x with e | ⟨k2, o2, e1, e2⟩
            · rw [e]
              cases hk : (t0.node x).key with
              | nil => rfl
              | live k3 o3 =>
                simp only [decide_eq_false_iff_not]
                intro e3; subst e3
                exact hne (wf0.uniq x j hx hjs _ _ _ hk g2)
              | dead k3 o3 =>
                simp only [Bool.and_eq_false_iff, decide_eq_false_iff_not]
                cases ho : o with
                | none => left; rfl
                | some a =>
                  right
                  intro e4
                  rw [e4] at hk
                  rw [ho] at g2
                  exact inv0.obj.ord x j hx hjs hne k (some a) (by simp) g2 r1 r2 k3 hk
            · rw [e2]
              simp only [Bool.and_eq_false_iff, decide_eq_false_iff_not]
              right
              intro e4
              rw [e4] at e1
              have := inv0.obj.objU x j hx hjs _ _ o (by rw [← e4]; simp) e1 g2
              subst this
              exact hne (wf0.uniq x j hx hjs _ _ _ e1 g2))
        rw [hs]
        simp only [Res.bind_ok, Res.pure_eq]
        congr 1
        rw [sh.asz]; omega
      · cases he
    · rw [if_neg hp2] at he; cases he

omit [DecidableEq α] in
theorem nextArr_spec (t : Tbl α V) : ∀ cnt i, i + cnt = t.asize →
    (nextArr t cnt i = none ∧ ∀ p, i ≤ p → p < t.asize → entryAt t p = none) ∨
    (∃ p e, nextArr t cnt i = some e ∧ i ≤ p ∧ p < t.asize ∧ entryAt t p = some e ∧
      ∀ q, i ≤ q → q < p → entryAt t q = none) := by
  intro cnt
  induction cnt with
  | zero => intro i h; exact .inl ⟨rfl, fun p h1 h2 => by omega⟩
  | succ c ih =>
    intro i h
    unfold nextArr
    have hi : i < t.asize := by omega
    have he : entryAt t i = (t.arr i).map (fun v => (.int (BitVec.ofNat 64 (i + 1)), none, v)) := by
      unfold entryAt; rw [if_pos hi]
    cases hv : t.arr i with
    | some v =>
      right
      exact ⟨i, _, rfl, Nat.le_refl _, hi, by rw [he, hv]; rfl, fun q a b => by omega⟩
    | none =>
      simp only []
      rw [hv] at he
      rcases ih (i + 1) (by omega) with ⟨h1, h2⟩ | ⟨p, e, h1, h2, h3, h4, h5⟩
      · left
        refine ⟨h1, ?_⟩
        intro p a b
        by_cases e : p = i
        · subst e; exact he
        · exact h2 p (by omega) b
      · right
        refine ⟨p, e, h1, by omega, h3, h4, ?_⟩
        intro q a b
        by_cases e : q = i
        · subst e; exact he
        · exact h5 q (by omega) b

omit [DecidableEq α] in
theorem nextNode_spec {H : Hash α} {t : Tbl α V} (wf : WF H t) : ∀ cnt i, i + cnt = t.size →
    (nextNode t cnt i = .ok none ∧ ∀ p, t.asize + i ≤ p → entryAt t p = none) ∨
    (∃ p e, nextNode t cnt i = .ok (some e) ∧ t.asize + i ≤ p ∧ p < total t ∧ entryAt t p = some e ∧
      ∀ q, t.asize + i ≤ q → q < p → entryAt t q = none) := by
  intro cnt
  induction cnt with
  | zero =>
    intro i h
    refine .inl ⟨rfl, fun p h1 => ?_⟩
    unfold entryAt total
    rw [if_neg (by omega), if_neg (by omega)]
  | succ c ih =>
    intro i h
    unfold nextNode
    have hi : i < t.size := by omega
    have he : entryAt t (t.asize + i) = match (t.node i).val, (t.node i).key with
        | some v, .live k o => some (k, o, v)
        | _, _ => none := by
      unfold entryAt total
      rw [if_neg (by omega), if_pos (by omega), show t.asize + i - t.asize = i by omega]
    cases hv : (t.node i).val with
    | some v =>
      cases hk : (t.node i).key with
      | live k o =>
        right
        refine ⟨t.asize + i, _, rfl, Nat.le_refl _, by unfold total; omega, by rw [he, hv, hk], fun q a b => by omega⟩
      | nil =>
        have := wf.vnil i hi (by intro k o h; rw [hk] at h; cases h)
        rw [hv] at this; cases this
      | dead k o =>
        have := wf.vnil i hi (by intro k o h; rw [hk] at h; cases h)
        rw [hv] at this; cases this
    | none =>
      simp only []
      rw [hv] at he
      simp only at he
      rcases ih (i + 1) (by omega) with ⟨h1, h2⟩ | ⟨p, e, h1, h2, h3, h4, h5⟩
      · left
        refine ⟨h1, ?_⟩
        intro p a
        by_cases e : p = t.asize + i
        · subst e; exact he
        · exact h2 p (by omega)
      · right
        refine ⟨p, e, h1, by omega, h3, h4, ?_⟩
        intro q a b
        by_cases e : q = t.asize + i
        · subst e; exact he
        · exact h5 q (by omega) b

/-- `next` finds the first entry at or after the position of its argument -/
theorem next_spec {H : Hash α} {t : Tbl α V} (wf : WF H t) (k : RawKey α) (i : Nat) (hi : i ≤ total t)
    (hk : findindex H t k = .ok i) :
    (next H t k = .ok none ∧ ∀ p, i ≤ p → entryAt t p = none) ∨
    (∃ p e, next H t k = .ok (some e) ∧ i ≤ p ∧ p < total t ∧ entryAt t p = some e ∧
      ∀ q, i ≤ q → q < p → entryAt t q = none) := by
  unfold next
  rw [hk]
  simp only [Res.bind_ok]
  have hn : ∀ j, i - t.asize = j → (∀ p, i ≤ p → p < t.asize → entryAt t p = none) →
      (nextNode t (t.size - j) j = .ok none ∧ ∀ p, i ≤ p → entryAt t p = none) ∨
      (∃ p e, nextNode t (t.size - j) j = .ok (some e) ∧ i ≤ p ∧ p < total t ∧ entryAt t p = some e ∧
        ∀ q, i ≤ q → q < p → entryAt t q = none) := by
    intro j hj hlow
    unfold total at hi
    rcases nextNode_spec wf (t.size - j) j (by omega) with ⟨h1, h2⟩ | ⟨p, e, h1, h2, h3, h4, h5⟩
    · left
      refine ⟨h1, ?_⟩
      intro p hp
      by_cases hpa : p < t.asize
      · exact hlow p hp hpa
      · exact h2 p (by omega)
    · refine .inr ⟨p, e, h1, by omega, h3, h4, ?_⟩
      intro q a b
      by_cases hpa : q < t.asize
      · exact hlow q a hpa
      · exact h5 q (by omega) b
  by_cases hia : i ≤ t.asize
  · rcases nextArr_spec t (t.asize - i) i (by omega) with ⟨h1, h2⟩ | ⟨p, e, h1, h2, h3, h4, h5⟩
    · rw [h1]
      exact hn _ rfl h2
    · rw [h1]
      exact .inr ⟨p, e, rfl, h2, by unfold total; omega, h4, h5⟩
  · rw [show t.asize - i = 0 by omega]
    simp only [nextArr]
    exact hn _ rfl (fun p a b => by omega)

/-- modifications of existing fields keep the shape -/
theorem applyMod_spec {H : Hash α} {t : Tbl α V} (inv : Inv H t) (m : Mod α V) :
    ∃ t', applyMod H t m = .ok t' ∧ Inv H t' ∧ Sh t t' := by
  cases m with
  | gc p =>
    refine ⟨_, rfl, (collect_inv inv p).1, ?_⟩
    refine ⟨rfl, rfl, ?_, fun _ _ h => h, ?_, ?_⟩ <;> intro i <;> unfold collect <;> dsimp only <;> split
    · split <;> rfl
    · rfl
    · rename_i k o h1 h2
      split
      · exact .inr ⟨k, o, h1, rfl⟩
      · exact .inl rfl
    · exact .inl rfl
    · split <;> exact id
    · exact id
  | assign k v =>
    have wf := inv.wf
    unfold applyMod
    dsimp only
    cases hn : k.norm with
    | none =>
      have hg : ∃ r, rawget H t k = .ok r ∧ r = none := by
        cases k with
        | nil => exact ⟨none, rfl, rfl⟩
        | nan =>
          unfold rawget get
          dsimp only
          obtain ⟨r, h1, h2⟩ := search_spec wf (fun _ => false) (hashmod t.lsize H.nan) (hashmod_lt _ _)
          rw [h1]
          cases r with
          | none => exact ⟨none, rfl, rfl⟩
          | some j => exact absurd h2.2 (by simp)
        | fltInt i => cases hn
        | key k o => cases hn
      obtain ⟨r, h1, h2⟩ := hg
      rw [h1, h2]
      exact ⟨t, rfl, inv, Sh.refl t⟩
    | some k' =>
      rw [rawget_norm H t k k' hn, rawset_norm H t k k' hn]
      unfold rawget rawset get
      obtain ⟨r, h1, h2, h3, h4⟩ := getKey_spec wf k'
      dsimp only
      rw [h1]
      simp only [Res.bind_ok]
      cases r with
      | none => exact ⟨t, rfl, inv, Sh.refl t⟩
      | some c =>
        simp only []
        cases c with
        | arr j =>
          obtain ⟨i, e, ha⟩ := h3 j rfl
          subst e
          have hj := (arrIdx_lt ha).1
          have hl : load t (.arr j) = .ok (t.arr j) := by unfold load; dsimp only; rw [if_pos hj]
          rw [hl]
          simp only [Res.bind_ok]
          cases hv : t.arr j with
          | none => exact ⟨t, rfl, inv, Sh.refl t⟩
          | some w =>
            simp only []
            obtain ⟨t', g1, g2, g3, g4⟩ := store_arr wf i j ha v
            refine ⟨t', g1, ⟨g2.wf, inv.obj.congr g2.lsz (by intro i; rw [g3]; exact ⟨rfl, rfl⟩)⟩, ?_⟩
            refine ⟨g2.asz, g2.lsz, fun i => by rw [g3], ?_, fun i => .inl (by rw [g3]), fun i => by rw [g3]; exact id⟩
            intro x hx hsome
            unfold store at g1
            dsimp only at g1
            rw [if_pos hj] at g1
            cases g1
            simp only [upd] at hsome
            by_cases e : x = j
            · rw [e, hv]; rfl
            · rw [if_neg e] at hsome; exact hsome
        | node p =>
          obtain ⟨hp, hlf, ⟨o', hk⟩, hna⟩ := h4 p rfl
          have hl : load t (.node p) = .ok (t.node p).val := by unfold load; dsimp only; rw [if_pos hp]
          rw [hl]
          simp only [Res.bind_ok]
          cases hv : (t.node p).val with
          | none => exact ⟨t, rfl, inv, Sh.refl t⟩
          | some w =>
            simp only []
            obtain ⟨t', g1, g2, g3, g4, g5, g6, g7⟩ := store_node wf k' o' p hp hlf hk v
            refine ⟨t', g1, ⟨g2.wf, inv.obj.congr g2.lsz g5⟩, ?_⟩
            refine ⟨g2.asz, g2.lsz, fun i => (g5 i).2, fun i _ => by rw [g4]; exact id, fun i => .inl (g5 i).1, ?_⟩
            intro x hsome
            by_cases e : x = p
            · rw [e, hv]; rfl
            · rw [g6 x e] at hsome; exact hsome

theorem applyMods_spec {H : Hash α} : ∀ (ms : List (Mod α V)) {t : Tbl α V}, Inv H t →
    ∃ t', applyMods H ms t = .ok t' ∧ Inv H t' ∧ Sh t t' := by
  intro ms
  induction ms with
  | nil => intro t inv; exact ⟨t, rfl, inv, Sh.refl t⟩
  | cons m ms ih =>
    intro t inv
    obtain ⟨t1, h1, h2, h3⟩ := applyMod_spec inv m
    obtain ⟨t2, g1, g2, g3⟩ := ih h2
    exact ⟨t2, by unfold applyMods; rw [h1]; exact g1, g2, h3.trans g3⟩

/-- the whole traversal, position by position -/
theorem traverse_spec {H : Hash α} {t0 : Tbl α V} (inv0 : Inv H t0) (mods : Nat → List (Mod α V)) :
    ∀ fuel n (t : Tbl α V) k i, Inv H t → Sh t0 t → findindex H t k = .ok i → i ≤ total t0 → total t0 - i < fuel →
    ∃ l tf ps, traverse H mods fuel n t k = .ok (l, tf) ∧ Inv H tf ∧ Sh t tf ∧
      List.Pairwise (· < ·) ps ∧ (∀ p ∈ ps, i ≤ p) ∧
      l.map (fun e => some e.1) = ps.map (fun p => (entryAt t0 p).map (fun e => e.1)) ∧
      (∀ p, i ≤ p → (entryAt tf p).isSome → p ∈ ps) ∧
      ((∀ n, mods n = []) → ∀ e ∈ l, ∃ p o, entryAt t p = some (e.1, o, e.2)) := by
  intro fuel
  induction fuel with
  | zero => intro n t k i _ _ _ _ h; omega
  | succ fuel ih =>
    intro n t k i inv sh hk hi hf
    unfold traverse
    rcases next_spec inv.wf k i (by rw [sh.total]; exact hi) hk with ⟨h1, h2⟩ | ⟨p, e, h1, h2, h3, h4, h5⟩
    · rw [h1]
      refine ⟨[], t, [], rfl, inv, Sh.refl t, .nil, by simp, rfl, ?_, by simp⟩
      intro p hp hs; rw [h2 p hp] at hs; cases hs
    · obtain ⟨k', o, v⟩ := e
      rw [h1]
      simp only [Res.bind_ok]
      obtain ⟨t1, g1, g2, g3⟩ := applyMods_spec (mods n) inv
      rw [g1]
      simp only [Res.bind_ok]
      obtain ⟨v0, he0⟩ := sh.entry h4
      rw [sh.total] at h3
      have hfi := findindex_spec inv0 g2.wf (sh.trans g3) he0
      obtain ⟨l, tf, ps, r1, r2, r3, r4, r5, r6, r7, r8⟩ := ih (n + 1) t1 (.key k' o) (p + 1) g2 (sh.trans g3) hfi
        (by omega) (by omega)
      rw [r1]
      refine ⟨(k', v) :: l, tf, p :: ps, rfl, r2, g3.trans r3, ?_, ?_, ?_, ?_, ?_⟩
      · rw [List.pairwise_cons]
        exact ⟨fun q hq => by have := r5 q hq; omega, r4⟩
      · intro q hq
        rcases List.mem_cons.1 hq with e | e
        · omega
        · have := r5 q e; omega
      · simp only [List.map_cons, r6, he0, Option.map_some]
      · intro q hq hs
        by_cases hqp : p < q
        · exact List.mem_cons_of_mem _ (r7 q hqp hs)
        · by_cases e : q = p
          · rw [e]; exact List.mem_cons_self
          · obtain ⟨⟨k2, o2, v2⟩, hv2⟩ := Option.isSome_iff_exists.1 hs
            obtain ⟨v3, hv3⟩ := (g3.trans r3).entry hv2
            rw [h5 q hq (by omega)] at hv3; cases hv3
      · intro hm e he
        rw [hm n] at g1
        simp only [applyMods, Res.ok.injEq] at g1
        subst g1
        rcases List.mem_cons.1 he with e1 | e1
        · subst e1; exact ⟨p, o, h4⟩
        · exact r8 hm e e1

end Verif.Table
