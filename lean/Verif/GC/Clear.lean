import Verif.GC.Atomic

/-!
# Ephemeron tables, and clearing weak tables
-/
namespace Verif.GC

theorem NonStr.le {s s' : G} (h : Le0 s s') {i : Id} : NonStr s' i ↔ NonStr s i := by
  constructor
  · rintro ⟨o', ho', hk⟩
    obtain ⟨o, ho, hs⟩ := h.obj' ho'
    exact ⟨o, ho, by rw [← hs.kind]; exact hk⟩
  · rintro ⟨o, ho, hk⟩
    obtain ⟨o', ho', hs⟩ := h.objs i o ho
    exact ⟨o', ho', by rw [hs.kind]; exact hk⟩

/-- only strings have been marked -/
def Quiet (s s' : G) : Prop := ∀ j, NonStr s j → (NW s' j ↔ NW s j)

theorem Quiet.trans {a b c : G} (hl : Le0 a b) (h : Quiet a b) (h' : Quiet b c) : Quiet a c :=
  fun j hj => (h' j ((NonStr.le hl).mpr hj)).trans (h j hj)

theorem EphOk.mono {s s' : G} (h : Le0 s s') (hq : Quiet s s') {o o' : Obj} (hs : Shr o o') (he : EphOk s o.nodes) : EphOk s' o'.nodes := by
  intro x hx
  rcases hs.node_mem hx with h1 | ⟨h1, _⟩
  · rcases he x h1 with h2 | ⟨r, hr, hw, hn⟩
    · exact .inl (h.monoV h2)
    · exact .inr ⟨r, hr, fun hh => hw ((hq r hn).mp hh), (NonStr.le h).mpr hn⟩
  · left; rw [h1]; exact fun r h => nomatch h

/-- the tables of a list -/
def Tabs (s : G) (hs : List Id) : Prop := ∀ h ∈ hs, NW s h ∧ ∃ o, s.obj h = some o ∧ o.kind = .table

theorem Tabs.le {s s' : G} (h : Le0 s s') {hs : List Id} (ht : Tabs s hs) : Tabs s' hs := by
  intro i hi
  obtain ⟨h1, o, ho, hk⟩ := ht i hi
  obtain ⟨o', ho', hs⟩ := h.objs i o ho
  exact ⟨h.nw i h1, o', ho', by rw [hs.kind]; exact hk⟩

def Mts (s : G) (hs : List Id) : Prop := ∀ h ∈ hs, ∀ o, s.obj h = some o → MtNW s o

theorem Mts.le {s s' : G} (h : Le0 s s') {hs : List Id} (ht : Mts s hs) : Mts s' hs := by
  intro i hi o' ho'
  obtain ⟨o, ho, hs⟩ := h.obj' ho'
  exact (ht i hi o ho).mono h hs

theorem L.pop {h : Id} {hs : List Id} {s : G} (hl : L .at2 (h :: hs) s) : L .at2 hs s where
  lst i hi := hl.lst i (hi.imp id (.imp id fun h => List.mem_cons_of_mem _ h))
  lstw := hl.lstw
  prop := hl.prop
  fix := hl.fix

theorem J.pop {h : Id} {hs : List Id} {s : G} (hj : J .at2 (h :: hs) [] s) : J .at2 hs [h] s where
  blk i o ho hc := by
    rcases hj.blk i o ho hc with h1 | (h1 | h1) | h1 | h1
    · exact .inl h1
    · exact nomatch h1.1
    · rcases List.mem_cons.mp h1 with rfl | h1
      · exact .inr (.inr (.inl (by simp)))
      · exact .inr (.inl (.inr h1))
    · exact nomatch h1
    · exact .inr (.inr (.inr h1))
  gry i o ho hc := by
    rcases hj.gry i o ho hc with h1 | h1 | (h1 | h1) | h1 | h1
    · exact .inl h1
    · exact .inr (.inl h1)
    · exact nomatch h1.1
    · rcases List.mem_cons.mp h1 with rfl | h1
      · exact .inr (.inr (.inr (.inl (by simp))))
      · exact .inr (.inr (.inl (.inr h1)))
    · exact nomatch h1
    · exact .inr (.inr (.inr (.inr h1)))

theorem convPass_ok (n : Nat) (hs : List Id) : ∀ (c : Bool) (s : G), Full s → L .at2 hs s → PhOk .at2 s → Tabs s hs →
    (s.oof = false → Mts s hs) →
    Le s (convPass n hs c s).2 ∧ L .at2 [] (convPass n hs c s).2 ∧
    ((convPass n hs c s).2.oof = false → J .at2 hs [] s → s.gray = [] →
      J .at2 [] [] (convPass n hs c s).2 ∧ (convPass n hs c s).2.gray = [] ∧
      ((convPass n hs c s).1 = false → c = false ∧ Quiet s (convPass n hs c s).2 ∧
        ∀ j ∈ (convPass n hs c s).2.ephemeron, j ∈ s.ephemeron ∨
          ∀ o, (convPass n hs c s).2.obj j = some o → EphOk (convPass n hs c s).2 o.nodes)) := by
  induction hs with
  | nil => exact fun c s _ hl _ _ _ => ⟨.refl s, hl, fun _ hj hg => ⟨hj, hg, fun h => ⟨h, fun _ _ => .rfl, fun _ h => .inl h⟩⟩⟩
  | cons h hs ih =>
    intro c s hf hl hp ht hmt
    obtain ⟨hnw, o, ho, hk⟩ := ht h (by simp)
    simp only [convPass, ho]
    have hfix := hl.nofix ho (by rw [hk]; simp)
    obtain ⟨c1, hb, hob⟩ := black_cstep (st := .at2) (pend := hs) (ex := [h]) (g := s.gray) hnw hfix (by simp)
      (fun j hj => hj) (fun j hj => .inr hj)
    have hq1 : ∀ j, NW (nw2black s h) j ↔ NW s j := by
      intro j
      unfold nw2black
      rw [if_neg (by rw [hnw]; simp)]
      by_cases hj : j = h
      · subst hj
        exact ⟨fun _ => hnw, fun _ => NW_of_ne_white (.inl (by rw [setCol_col, if_pos rfl]))⟩
      · exact NW_setCol_ne s h _ j hj
    have hg1 : (nw2black s h).gray = s.gray := by unfold nw2black; split <;> rfl
    have he1 : (nw2black s h).ephemeron = s.ephemeron := by unfold nw2black; split <;> rfl
    rw [show ({ nw2black s h with gray := s.gray } : G) = nw2black s h by unfold nw2black; split <;> rfl] at c1 hb hob
    generalize nw2black s h = s0 at c1 hb hob hq1 hg1 he1 ⊢
    have ho0 : s0.obj h = some o := by rw [hob]; exact ho
    obtain ⟨⟨c2, hv⟩, hq⟩ := traverseephemeron_ok n (st := .at2) (pend := hs) (ex := [h]) ho0 hk hb (by simp) (c1.le.full hf)
      (hp.le c1.le.toLe0) (fun hs0 => ((hmt (c1.le.oof hs0)) h (by simp) o ho).mono c1.le.toLe0 (.refl o))
    generalize traverseephemeron n s0 h o = p at c2 hv hq ⊢
    obtain ⟨m, s1⟩ := p
    dsimp only at c2 hv hq ⊢
    have c12 : CStep .at2 hs [h] s s1 := c1.trans c2
    have hl1 : L .at2 hs s1 := c12.l hl.pop
    have hf1 := c12.le.full hf
    have hp1 := hp.le c12.le.toLe0
    have ht1 : Tabs s1 hs := Tabs.le c12.le.toLe0 fun i hi => ht i (by simp [hi])
    have hm1 : s1.oof = false → Mts s1 hs := fun hs1 => Mts.le c12.le.toLe0 fun i hi => hmt (c12.le.oof hs1) i (by simp [hi])
    have hj1 : s1.oof = false → J .at2 (h :: hs) [] s → J .at2 hs [] s1 := fun hs1 hj => (c12.j hs1 hj.pop).discharge (hv hs1)
    split
    · obtain ⟨c3, hg3⟩ := propagateall_ok n n (ex := []) hf1 hl1 hp1
      generalize propagateall n n s1 = s2 at c3 hg3 ⊢
      obtain ⟨i1, i2, i3⟩ := ih true s2 (c3.le.full hf1) (c3.l hl1) (hp1.le c3.le.toLe0) (ht1.le c3.le.toLe0)
        (fun hs2 => (hm1 (c3.le.oof hs2)).le c3.le.toLe0)
      refine ⟨c12.le.trans (c3.le.trans i1), i2, fun hoof hj hg => ?_⟩
      have hs2 := i1.oof hoof
      obtain ⟨k1, k2, k3⟩ := i3 hoof (c3.j hs2 (hj1 (c3.le.oof hs2) hj)) (hg3 hs2)
      exact ⟨k1, k2, fun h => nomatch (k3 h).1⟩
    · next hm =>
      have hm : m = false := by simpa using hm
      obtain ⟨i1, i2, i3⟩ := ih c s1 hf1 hl1 hp1 ht1 hm1
      refine ⟨c12.le.trans i1, i2, fun hoof hj hg => ?_⟩
      have hs1 := i1.oof hoof
      obtain ⟨q1, q2, q3, _⟩ := hq hs1 hm
      obtain ⟨k1, k2, k3⟩ := i3 hoof (hj1 hs1 hj) (by rw [q2, hg1, hg])
      refine ⟨k1, k2, fun hc => ⟨(k3 hc).1, ?_, fun j hje => ?_⟩⟩
      · have : Quiet s s1 := fun j hj => (q1 j (by unfold NonStr; rw [hob]; exact hj)).trans (hq1 j)
        exact this.trans c12.le.toLe0 (k3 hc).2.1
      · rcases (k3 hc).2.2 j hje with h5 | h5
        · rcases q3 j h5 with h6 | ⟨rfl, h6⟩
          · rw [he1] at h6; exact .inl h6
          · refine .inr fun o' ho' => ?_
            obtain ⟨o1, ho1, hs'⟩ := i1.obj' ho'
            exact (h6 o1 ho1).mono i1.toLe0 (k3 hc).2.1 hs'
        · exact .inr h5

def EphAll (s : G) : Prop := ∀ j ∈ s.ephemeron, ∀ o, s.obj j = some o → EphOk s o.nodes

/-- `J` when nothing is gray -/
theorem J.done {s : G} (hj : J .at2 [] [] s) (hg : s.gray = []) {i : Id} {o : Obj} (ho : s.obj i = some o) (hn : NW s i)
    (hf : i ∉ s.fixedgc) : Done .at2 s i o := by
  rcases NW_iff.mp hn with hc | hc
  · rcases hj.blk i o ho hc with h | (h | h) | h | h
    · rw [hg] at h; exact nomatch h
    · exact nomatch h.1
    · exact nomatch h
    · exact nomatch h
    · exact h
  · rcases hj.gry i o ho hc with h | h | (h | h) | h | h
    · exact absurd h hf
    · rw [hg] at h; exact nomatch h
    · exact nomatch h.1
    · exact nomatch h
    · exact nomatch h
    · exact h.1

theorem converge_ok (n k : Nat) : ∀ s, Full s → L .at2 [] s → PhOk .at2 s → (s.oof = false → J .at2 [] [] s ∧ s.gray = []) →
    Le0 s (converge n k s) ∧ L .at2 [] (converge n k s) ∧
    ((converge n k s).oof = false → J .at2 [] [] (converge n k s) ∧ (converge n k s).gray = [] ∧ EphAll (converge n k s)) ∧
    (∀ th ∈ s.twups, th ∈ (converge n k s).twups) := by
  induction k with
  | zero =>
    intro s hf hl hp hj
    rw [converge]
    exact ⟨(oof_ext s).le.toLe0, ((oof_ext s).cstep (ex := [])).l hl, (fun h => nomatch h), fun _ h => h⟩
  | succ k ih =>
    intro s hf hl hp hj
    rw [converge]
    have hle : Le0 s { s with ephemeron := [] } := {
      objs := fun _ o ho => ⟨o, ho, .refl o⟩
      none := fun _ h => h
      upc := fun _ _ h => h
      upo := fun _ _ _ t h => ⟨t, h⟩
      nw := fun _ h => h
      wh := fun _ _ => rfl
      fixd := fun _ _ h => h
      oof := fun h => h
      rest := ⟨_, _, _, _, _, _, _, _, _, _, _, rfl⟩
      weak := List.suffix_refl _
      allweak := List.suffix_refl _
      tws := fun _ h => .inl h }
    have hl0 : L .at2 s.ephemeron { s with ephemeron := [] } := {
      lst := fun i hi => by
        rcases hi with hi | hi | hi
        · exact hl.lst i (.inl hi)
        · exact nomatch hi.1
        · obtain ⟨h1, o, ho, hk⟩ := hl.lstw i (.inr (.inr hi))
          exact ⟨h1, o, ho, by rw [hk]; rfl⟩
      lstw := fun i hi => hl.lstw i (by
        rcases hi with hi | hi | hi
        · exact .inl hi
        · exact .inr (.inl hi)
        · exact nomatch hi)
      prop := fun h => nomatch h
      fix := hl.fix }
    have hd : ∀ i o, Done .at2 s i o → Done .at2 { s with ephemeron := [] } i o ∨ i ∈ s.ephemeron := by
      intro i o hd
      unfold Done at hd ⊢
      revert hd
      cases o.kind with
      | str => exact .inl
      | udata => exact .inl
      | arr => exact .inl
      | ccl => exact .inl
      | proto => exact .inl
      | thread => exact .inl
      | lcl => exact .inl
      | table =>
        rintro ⟨h1, h2 | h2 | h2 | h2⟩
        · exact .inl ⟨h1, .inl h2⟩
        · exact .inl ⟨h1, .inr (.inl h2)⟩
        · exact .inr h2.1
        · exact .inl ⟨h1, .inr (.inr (.inr h2))⟩
    have hj0 : s.oof = false → J .at2 s.ephemeron [] { s with ephemeron := [] } := fun hs => {
      blk := fun i o ho hc => by
        rcases (hj hs).1.blk i o ho hc with h | (h | h) | h | h
        · exact .inl h
        · exact nomatch h.1
        · exact nomatch h
        · exact nomatch h
        · exact (hd i o h).elim (fun h => .inr (.inr (.inr h))) (fun h => .inr (.inl (.inr h)))
      gry := fun i o ho hc => by
        rcases (hj hs).1.gry i o ho hc with h | h | (h | h) | h | h
        · exact .inl h
        · exact .inr (.inl h)
        · exact nomatch h.1
        · exact nomatch h
        · exact nomatch h
        · exact (hd i o h.1).elim (fun h => .inr (.inr (.inr (.inr ⟨h, fun h => nomatch h⟩)))) (fun h => .inr (.inr (.inl (.inr h)))) }
    have hm0 : s.oof = false → Mts { s with ephemeron := [] } s.ephemeron := by
      intro hs i hi o ho
      obtain ⟨h1, o', ho', hk⟩ := hl.lstw i (.inr (.inr hi))
      rw [show s.obj i = some o from ho] at ho'
      cases ho'
      have := (hj hs).1.done (hj hs).2 ho h1 (hl.nofix ho (by rw [hk]; simp))
      unfold Done at this
      rw [hk] at this
      exact this.1
    obtain ⟨i1, i2, i3⟩ := convPass_ok n s.ephemeron false { s with ephemeron := [] } (hle.full hf) hl0 hp
      (fun i hi => hl.lstw i (.inr (.inr hi))) hm0
    have heq : ({ s with ephemeron := [] } : G).ephemeron = [] := rfl
    have htw : ({ s with ephemeron := [] } : G).twups = s.twups := rfl
    have hgr : ({ s with ephemeron := [] } : G).gray = s.gray := rfl
    have hoof : ({ s with ephemeron := [] } : G).oof = s.oof := rfl
    generalize ({ s with ephemeron := [] } : G) = s0 at hle hl0 hj0 i1 i2 i3 heq htw hgr hoof ⊢
    generalize convPass n s.ephemeron false s0 = p at i1 i2 i3 ⊢
    obtain ⟨c, s1⟩ := p
    dsimp only at i1 i2 i3 ⊢
    have le1 := hle.trans i1.toLe0
    have tw1 : ∀ th ∈ s.twups, th ∈ s1.twups := fun th h => i1.tw th (by rw [htw]; exact h)
    have fin : s1.oof = false → _ := fun hs1 =>
      i3 hs1 (hj0 (le1.oof hs1)) (by rw [hgr]; exact (hj (le1.oof hs1)).2)
    split
    · obtain ⟨k1, k2, k3, k4⟩ := ih s1 (le1.full hf) i2 (hp.le le1) (fun hs1 => ⟨(fin hs1).1, (fin hs1).2.1⟩)
      exact ⟨le1.trans k1, k2, k3, fun th h => k4 th (tw1 th h)⟩
    · next hc =>
      refine ⟨le1, i2, fun hs1 => ⟨(fin hs1).1, (fin hs1).2.1, fun j hj' => ?_⟩, tw1⟩
      rcases ((fin hs1).2.2 (by simpa using hc)).2.2 j hj' with h | h
      · rw [heq] at h; exact nomatch h
      · exact h

/-! ## Clearing -/

/-- the relation of nodes in `Shr` -/
abbrev NodeShr (x x' : Node) : Prop := x' = x ∨ (x'.val = .nil ∧ ∀ r, x'.key ≠ .ref r)

theorem clearNode (x : Node) (c : Bool) : NodeShr x (removeIfNil { x with val := if c then .nil else x.val }) ∧
    (removeIfNil { x with val := if c then .nil else x.val }).val = (if c then .nil else x.val) ∧
    ∀ r, (removeIfNil { x with val := if c then .nil else x.val }).key = .ref r → x.key = .ref r ∧ c = false ∧ x.val ≠ .nil := by
  refine ⟨?_, removeIfNil_val _, ?_⟩
  · cases c with
    | false => exact removeIfNil_or x
    | true =>
      right
      refine ⟨removeIfNil_val _, fun r hr => ?_⟩
      exact (removeIfNil_key hr).2 rfl
  · intro r hr
    have := removeIfNil_key hr
    cases c with
    | false => exact ⟨this.1, rfl, this.2⟩
    | true => exact absurd rfl this.2

theorem valsLoop_ok (n : Nat) (vs : List Val) : ∀ s, ValsIn s vs →
    SExt s (valsLoop n vs s).2 ∧ List.Forall₂ (fun v v' => v' = v ∨ v' = .nil) vs (valsLoop n vs s).1 ∧
    ((valsLoop n vs s).2.oof = false → ∀ v ∈ (valsLoop n vs s).1, NWv (valsLoop n vs s).2 v) := by
  induction vs with
  | nil => exact fun s _ => ⟨.refl s, .nil, fun _ => by simp [valsLoop]⟩
  | cons v vs ih =>
    intro s hi
    rw [valsLoop]
    obtain ⟨h1, h2, h3⟩ := isclearedV_ok n (s := s) (v := v) (fun r hr => hi r (by simp [hr]))
    generalize isclearedV n s v = p at h1 h2 h3 ⊢
    obtain ⟨c, s1⟩ := p
    dsimp only at h1 h2 h3 ⊢
    obtain ⟨h4, h5, h6⟩ := ih s1 (fun r hr => h1.le.isSome (hi r (by simp [hr])))
    refine ⟨h1.trans h4, .cons ?_ h5, fun ho w hw => ?_⟩
    · cases c with
      | false => exact .inl rfl
      | true => exact .inr rfl
    · rcases List.mem_cons.mp hw with rfl | hw
      · cases c with
        | false => exact h4.monoV (h2 (h4.oof ho) rfl)
        | true => exact fun r h => nomatch h
      · exact h6 ho w hw

/-- the values of a node are marked, and empty nodes have no key -/
def NodeV (s : G) (x : Node) : Prop := NWv s x.val ∧ (x.val = .nil → ∀ r, x.key ≠ .ref r)

theorem nvalsLoop_ok (n : Nat) (vs : List Node) : ∀ s, NodesIn s vs →
    SExt s (nvalsLoop n vs s).2 ∧ List.Forall₂ NodeShr vs (nvalsLoop n vs s).1 ∧
    ((nvalsLoop n vs s).2.oof = false → ∀ v ∈ (nvalsLoop n vs s).1, NodeV (nvalsLoop n vs s).2 v) := by
  induction vs with
  | nil => exact fun s _ => ⟨.refl s, .nil, fun _ => by simp [nvalsLoop]⟩
  | cons v vs ih =>
    intro s hi
    rw [nvalsLoop]
    obtain ⟨h1, h2, h3⟩ := isclearedV_ok n (s := s) (v := v.val) (fun r hr => (hi v (by simp)).2 r hr)
    generalize isclearedV n s v.val = p at h1 h2 h3 ⊢
    obtain ⟨c, s1⟩ := p
    dsimp only at h1 h2 h3 ⊢
    obtain ⟨h4, h5, h6⟩ := ih s1 (hi.tail.le h1.le.toLe0)
    obtain ⟨g1, g2, g3⟩ := clearNode v c
    refine ⟨h1.trans h4, .cons g1 h5, fun ho w hw => ?_⟩
    rcases List.mem_cons.mp hw with rfl | hw
    · refine ⟨?_, fun hv r hr => ?_⟩
      · rw [g2]
        cases c with
        | false => exact h4.monoV (h2 (h4.oof ho) rfl)
        | true => exact fun r h => nomatch h
      · obtain ⟨_, h8, h9⟩ := g3 r hr
        subst h8
        rw [g2] at hv
        exact h9 hv
    · exact h6 ho w hw

theorem keysLoop_ok (n : Nat) (vs : List Node) : ∀ s, NodesIn s vs →
    SExt s (keysLoop n vs s).2 ∧ List.Forall₂ NodeShr vs (keysLoop n vs s).1 ∧
    ((keysLoop n vs s).2.oof = false → (∀ v ∈ (keysLoop n vs s).1, NWk (keysLoop n vs s).2 v.key) ∧
      (EphOk s vs → ∀ v ∈ (keysLoop n vs s).1, NWv (keysLoop n vs s).2 v.val)) := by
  induction vs with
  | nil => exact fun s _ => ⟨.refl s, .nil, fun _ => by simp [keysLoop]⟩
  | cons v vs ih =>
    intro s hi
    rw [keysLoop]
    have h0 : SExt s (if v.val = .nil then (false, s) else isclearedK n s v.key).2 ∧
        ((if v.val = .nil then (false, s) else isclearedK n s v.key).2.oof = false → v.val ≠ .nil →
          (if v.val = .nil then (false, s) else isclearedK n s v.key).1 = false →
          NWk (if v.val = .nil then (false, s) else isclearedK n s v.key).2 v.key) := by
      split
      · next h => exact ⟨.refl s, fun _ h' => absurd h h'⟩
      · obtain ⟨h1, h2, h3⟩ := isclearedK_ok n (s := s) (v := v.key) (fun r hr => (hi v (by simp)).1 r hr)
        exact ⟨h1, fun ho _ => h2 ho⟩
    generalize (if v.val = .nil then (false, s) else isclearedK n s v.key) = p at h0 ⊢
    obtain ⟨c, s1⟩ := p
    obtain ⟨h1, h2⟩ := h0
    dsimp only at h1 h2 ⊢
    obtain ⟨h4, h5, h6⟩ := ih s1 (hi.tail.le h1.le.toLe0)
    obtain ⟨g1, g2, g3⟩ := clearNode v c
    refine ⟨h1.trans h4, .cons g1 h5, fun ho => ⟨fun w hw => ?_, fun he w hw => ?_⟩⟩
    · rcases List.mem_cons.mp hw with rfl | hw
      · intro r hr
        obtain ⟨h7, h8, h9⟩ := g3 r hr
        exact h4.mono (h2 (h4.oof ho) h9 h8 r h7)
      · exact (h6 ho).1 w hw
    · rcases List.mem_cons.mp hw with rfl | hw
      · rw [g2]
        cases c with
        | true => exact fun r h => nomatch h
        | false =>
          intro r hr
          have hr : v.val = .ref r := hr
          rcases he v (by simp) with h | ⟨q, hq, hw, hn⟩
          · exact h4.mono (h1.mono (h r hr))
          · have := h2 (h4.oof ho) (by rw [hr]; simp) rfl q hq
            exact absurd ((h1.str q hn).mp this) hw
      · refine (h6 ho).2 ?_ w hw
        intro x hx
        rcases he x (by simp [hx]) with h | ⟨q, hq, hw, hn⟩
        · exact .inl (h1.monoV h)
        · exact .inr ⟨q, hq, fun h => hw ((h1.str q hn).mp h), (NonStr.mext h1.toMExt).mpr hn⟩

/-- a step that only marks strings and clears entries -/
structure QStep (s s' : G) : Prop extends CStep .at2 [] [] s s' where
  quiet : Quiet s s'
  gray : s'.gray = s.gray
  wk : s'.weak = s.weak
  aw : s'.allweak = s.allweak
  ep : s'.ephemeron = s.ephemeron

theorem QStep.refl (s : G) : QStep s s := ⟨.refl _ _ _ s, fun _ _ => .rfl, rfl, rfl, rfl, rfl⟩

theorem QStep.trans {a b c : G} (h : QStep a b) (h' : QStep b c) : QStep a c :=
  ⟨h.toCStep.trans h'.toCStep, h.quiet.trans h.le.toLe0 h'.quiet, h'.gray.trans h.gray, h'.wk.trans h.wk, h'.aw.trans h.aw, h'.ep.trans h.ep⟩

theorem SExt.qstep {s s' : G} (h : SExt s s') : QStep s s' := by
  refine ⟨h.cstep, h.str, h.same, ?_, ?_, ?_⟩ <;> obtain ⟨c, g, f, rfl⟩ := h.eq <;> rfl

theorem setObj_qstep {s : G} {i : Id} {o o' : Obj} (ho : s.obj i = some o) (hs : Shr o o') : QStep s (s.setObj i (some o')) :=
  ⟨setObj_cstep ho hs, fun _ _ => .rfl, rfl, rfl, rfl, rfl⟩

/-- the values of a table are marked -/
def ValsOk (s : G) (o : Obj) : Prop := ValsNW s o ∧ ∀ x ∈ o.nodes, NodeV s x

theorem NodeV.mono {s s' : G} (h : Le0 s s') {x : Node} (hx : NodeV s x) : NodeV s' x := ⟨h.monoV hx.1, hx.2⟩

theorem ValsOk.mono {s s' : G} (h : Le0 s s') {o o' : Obj} (hs : Shr o o') (hv : ValsOk s o) : ValsOk s' o' := by
  refine ⟨hv.1.mono h hs, fun x hx => ?_⟩
  rcases hs.node_mem hx with h1 | ⟨h1, h2⟩
  · exact (hv.2 x h1).mono h
  · exact ⟨by rw [h1]; exact fun r h => (nomatch h), fun _ => h2⟩

/-- something is true of the tables of a list -/
def On (hs : List Id) (s : G) (P : G → Obj → Prop) : Prop := ∀ h ∈ hs, ∀ o, s.obj h = some o → P s o

theorem On.mono {P : G → Obj → Prop} (hP : ∀ {s s' : G} {o o' : Obj}, Le0 s s' → Shr o o' → P s o → P s' o') {hs : List Id} {s s' : G}
    (h : Le0 s s') (ho : On hs s P) : On hs s' P := by
  intro i hi o' ho'
  obtain ⟨o, h1, h2⟩ := h.obj' ho'
  exact hP h h2 (ho i hi o h1)

theorem clearbyvalues_ok (n : Nat) (hs : List Id) : ∀ s, Full s → (∀ h ∈ hs, (s.obj h).isSome) →
    QStep s (clearbyvalues n hs s) ∧ ((clearbyvalues n hs s).oof = false → On hs (clearbyvalues n hs s) ValsOk) := by
  induction hs with
  | nil => exact fun s _ _ => ⟨.refl s, fun _ h hh => nomatch hh⟩
  | cons h hs ih =>
    intro s hf hi
    obtain ⟨o, ho⟩ := Option.isSome_iff_exists.mp (hi h (by simp))
    simp only [clearbyvalues, ho]
    obtain ⟨h1, h2, h3⟩ := valsLoop_ok n o.vals s (hf.vals ho)
    generalize valsLoop n o.vals s = p at h1 h2 h3 ⊢
    obtain ⟨vs, s1⟩ := p
    dsimp only at h1 h2 h3 ⊢
    obtain ⟨h4, h5, h6⟩ := nvalsLoop_ok n o.nodes s1 ((hf.nodes ho).le h1.le.toLe0)
    generalize nvalsLoop n o.nodes s1 = p at h4 h5 h6 ⊢
    obtain ⟨l, s2⟩ := p
    dsimp only at h4 h5 h6 ⊢
    have ho2 : s2.obj h = some o := by rw [h4.obj, h1.obj]; exact ho
    have hs2 : Shr o { o with vals := vs, nodes := l } := { Shr.refl o with vals := h2, nodes := h5 }
    have q3 := setObj_qstep ho2 hs2
    have ho3 := setObj_self s2 h { o with vals := vs, nodes := l }
    have hoof : (s2.setObj h (some { o with vals := vs, nodes := l })).oof = s2.oof := rfl
    have hval : s2.oof = false → ValsOk (s2.setObj h (some { o with vals := vs, nodes := l })) { o with vals := vs, nodes := l } :=
      fun hs2 => ⟨fun v hv => h4.monoV (h3 (h4.oof hs2) v hv), h6 hs2⟩
    have q := (h1.qstep.trans h4.qstep).trans q3
    generalize s2.setObj h (some { o with vals := vs, nodes := l }) = s3 at q3 ho3 hoof hval q ⊢
    obtain ⟨k1, k2⟩ := ih s3 (q.le.full hf) (fun t ht => q.le.isSome (hi t (by simp [ht])))
    refine ⟨q.trans k1, fun hoo t ht o' ho' => ?_⟩
    rcases List.mem_cons.mp ht with rfl | ht
    · obtain ⟨o1, h7, h8⟩ := k1.le.obj' ho'
      rw [ho3] at h7
      cases h7
      exact (hval (hoof ▸ k1.le.oof hoo)).mono k1.le.toLe0 h8
    · exact k2 hoo t ht o' ho'

/-- the keys of a table are marked -/
theorem clearbykeys_ok (n : Nat) (hs : List Id) : ∀ s, Full s → (∀ h ∈ hs, (s.obj h).isSome) →
    QStep s (clearbykeys n hs s) ∧ ((clearbykeys n hs s).oof = false → On hs (clearbykeys n hs s) TWeak ∧
      ∀ h ∈ hs, (∀ o, s.obj h = some o → EphOk s o.nodes) → ∀ o', (clearbykeys n hs s).obj h = some o' →
        ∀ x ∈ o'.nodes, NWv (clearbykeys n hs s) x.val) := by
  induction hs with
  | nil => exact fun s _ _ => ⟨.refl s, fun _ => ⟨fun h hh => (nomatch hh), fun h hh => nomatch hh⟩⟩
  | cons h hs ih =>
    intro s hf hi
    obtain ⟨o, ho⟩ := Option.isSome_iff_exists.mp (hi h (by simp))
    simp only [clearbykeys, ho]
    obtain ⟨h1, h2, h3⟩ := keysLoop_ok n o.nodes s (hf.nodes ho)
    generalize keysLoop n o.nodes s = p at h1 h2 h3 ⊢
    obtain ⟨l, s2⟩ := p
    dsimp only at h1 h2 h3 ⊢
    have ho2 : s2.obj h = some o := by rw [h1.obj]; exact ho
    have hs2 : Shr o { o with nodes := l } := { Shr.refl o with nodes := h2 }
    have q3 := setObj_qstep ho2 hs2
    have ho3 := setObj_self s2 h { o with nodes := l }
    have hoof : (s2.setObj h (some { o with nodes := l })).oof = s2.oof := rfl
    have hkey : s2.oof = false → TWeak (s2.setObj h (some { o with nodes := l })) { o with nodes := l } := fun hs2 => (h3 hs2).1
    have hval : s2.oof = false → EphOk s o.nodes → ∀ x ∈ l, NWv (s2.setObj h (some { o with nodes := l })) x.val := fun hs2 he => (h3 hs2).2 he
    have q := h1.qstep.trans q3
    generalize s2.setObj h (some { o with nodes := l }) = s3 at q3 ho3 hoof hkey hval q ⊢
    obtain ⟨k1, k2⟩ := ih s3 (q.le.full hf) (fun t ht => q.le.isSome (hi t (by simp [ht])))
    have hhead : (clearbykeys n hs s3).oof = false → ∀ o', (clearbykeys n hs s3).obj h = some o' → Shr { o with nodes := l } o' := by
      intro hoo o' ho'
      obtain ⟨o1, h7, h8⟩ := k1.le.obj' ho'
      rw [ho3] at h7
      cases h7
      exact h8
    refine ⟨q.trans k1, fun hoo => ⟨fun t ht o' ho' => ?_, fun t ht he o' ho' => ?_⟩⟩
    · rcases List.mem_cons.mp ht with rfl | ht
      · exact (hkey (hoof ▸ k1.le.oof hoo)).mono k1.le.toLe0 (hhead hoo o' ho')
      · exact (k2 hoo).1 t ht o' ho'
    · rcases List.mem_cons.mp ht with rfl | ht
      · intro x hx
        rcases (hhead hoo o' ho').node_mem hx with h9 | h9
        · exact k1.le.monoV (hval (hoof ▸ k1.le.oof hoo) (he o ho) x h9)
        · rw [h9.1]; exact fun r h => nomatch h
      · refine (k2 hoo).2 t ht ?_ o' ho'
        intro o1 ho1
        obtain ⟨o0, h5, h6⟩ := q.le.obj' ho1
        exact (he o0 h5).mono q.le.toLe0 q.quiet h6

end Verif.GC
