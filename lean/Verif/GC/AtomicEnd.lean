import Verif.GC.Clear

/-!
# At the end of the atomic phase, marked objects refer only to marked objects
-/
namespace Verif.GC

/-- fields that a type of object does not have are empty; the upvalues of a thread are its open upvalues -/
structure Shape (s : G) (i : Id) (o : Obj) : Prop where
  mt : o.mt ≠ none → o.kind = .table ∨ o.kind = .udata ∨ o.kind = .arr
  vals : o.vals ≠ [] → o.kind ≠ .str
  nodes : o.nodes ≠ [] → o.kind = .table
  ups : o.ups ≠ [] → o.kind = .lcl ∨ o.kind = .thread
  cache : o.cache ≠ none → o.kind = .proto
  own : o.kind = .thread → ∀ u ∈ o.ups, ∃ sl t, s.up u = .opn i sl t

theorem forall₂_ne_nil {α β : Type} {R : α → β → Prop} {l : List α} {m : List β} (h : List.Forall₂ R l m) (hm : m ≠ []) : l ≠ [] := by
  cases h with
  | nil => exact absurd rfl hm
  | cons _ _ => simp

theorem Shape.le {s s' : G} (h : Le0 s s') {i : Id} {o o' : Obj} (hs : Shr o o') (hsh : Shape s i o) : Shape s' i o' where
  mt hm := by rw [hs.kind]; exact hsh.mt (hs.mt ▸ hm)
  vals hv := by rw [hs.kind]; exact hsh.vals (forall₂_ne_nil hs.vals hv)
  nodes hv := by rw [hs.kind]; exact hsh.nodes (forall₂_ne_nil hs.nodes hv)
  ups hv := by rw [hs.kind]; exact hsh.ups (hs.ups ▸ hv)
  cache hv := by
    rw [hs.kind]
    rcases hs.cache with h1 | h1
    · exact hsh.cache (h1 ▸ hv)
    · exact absurd h1 hv
  own hk u hu := by
    obtain ⟨sl, t, h1⟩ := hsh.own (hs.kind ▸ hk) u (hs.ups ▸ hu)
    obtain ⟨t', h2⟩ := h.upo u i sl t h1
    exact ⟨sl, t', h2⟩

def Shapes (s : G) : Prop := ∀ i o, s.obj i = some o → Shape s i o

theorem Shapes.le {s s' : G} (h : Le0 s s') (hs : Shapes s) : Shapes s' := by
  intro i o' ho'
  obtain ⟨o, ho, h1⟩ := h.obj' ho'
  exact (hs i o ho).le h h1

theorem Shape.getD_mem {l : List Val} {k : Nat} {r : Id} (h : l.getD k .nil = .ref r) : Val.ref r ∈ l := by
  rw [List.getD_eq_getElem?_getD] at h
  cases hk : l[k]? with
  | none => rw [hk] at h; cases h
  | some v =>
    rw [hk] at h
    have h : v = .ref r := h
    subst h
    exact List.mem_of_getElem? hk

/-- open upvalues belong to threads -/
def UpT (s : G) : Prop := ∀ u th sl t, s.up u = .opn th sl t → ∃ o, s.obj th = some o ∧ o.kind = .thread ∧ u ∈ o.ups

theorem UpT.le {s s' : G} (h : Le0 s s') (hu : UpT s) : UpT s' := by
  intro u th sl t hup
  cases h1 : s.up u with
  | closed v => rw [h.upc u v h1] at hup; cases hup
  | opn th' sl' t' =>
    obtain ⟨t'', h2⟩ := h.upo u th' sl' t' h1
    rw [hup] at h2
    cases h2
    obtain ⟨o, ho, hk, hm⟩ := hu u th sl t' h1
    obtain ⟨o', ho', hs⟩ := h.objs th o ho
    exact ⟨o', ho', by rw [hs.kind]; exact hk, by rw [hs.ups]; exact hm⟩

/-- marked objects refer to marked objects -/
def Closed (s : G) : Prop := ∀ i o, s.obj i = some o → NW s i → ∀ r, Ref s o r → NW s r

/-- every table that is marked refers only to marked objects -/
def TabsStrong (s : G) : Prop := ∀ i o, s.obj i = some o → NW s i → o.kind = .table → TStrong s o

theorem closed_of {s : G} (hsh : Shapes s) (hut : UpT s) (hl : L .at2 [] s) (hj : J .at2 [] [] s) (hg : s.gray = []) (ht : TabsStrong s) : Closed s := by
  intro i o ho hn r hr
  have sh := hsh i o ho
  by_cases hk : o.kind = .str
  · exfalso
    cases hr with
    | mt h => rcases sh.mt (by rw [h]; simp) with h | h | h <;> rw [hk] at h <;> cases h
    | val h => exact sh.vals (List.ne_nil_of_mem h) hk
    | key h _ => have := sh.nodes (List.ne_nil_of_mem h); rw [hk] at this; cases this
    | nval h _ => have := sh.nodes (List.ne_nil_of_mem h); rw [hk] at this; cases this
    | up h _ => rcases sh.ups (List.ne_nil_of_mem h) with h | h <;> rw [hk] at h <;> cases h
    | cache h => have := sh.cache (by rw [h]; simp); rw [hk] at this; cases this
  · have hd := hj.done hg ho hn (hl.nofix ho hk)
    have thr : ∀ th oth sl t, s.obj th = some oth → oth.kind = .thread → NW s th → ∀ u, s.up u = .opn th sl t → NWv s (s.upGet u) := by
      intro th oth sl t hth hkt hnt u hu r hr
      have hd := hj.done hg hth hnt (hl.nofix hth (by rw [hkt]; simp))
      unfold Done at hd
      rw [hkt] at hd
      unfold G.upGet at hr
      rw [hu] at hr
      dsimp only at hr
      rw [hth] at hr
      exact hd.2.1 _ (Shape.getD_mem hr) r rfl
    unfold Done at hd
    cases hr with
    | mt h =>
      rcases sh.mt (by rw [h]; simp) with h1 | h1 | h1 <;> rw [h1] at hd <;> exact hd.1 r h
    | val h =>
      have := sh.vals (List.ne_nil_of_mem h)
      cases hk' : o.kind with
      | str => exact absurd hk' this
      | udata => rw [hk'] at hd; exact hd.2 _ h r rfl
      | arr => rw [hk'] at hd; exact hd.2 _ h r rfl
      | ccl => rw [hk'] at hd; exact hd _ h r rfl
      | proto => rw [hk'] at hd; exact hd.1 _ h r rfl
      | lcl => rw [hk'] at hd; exact hd.1 _ h r rfl
      | thread => rw [hk'] at hd; exact hd.2.1 _ h r rfl
      | table => exact (ht i o ho hn hk').1 _ h r rfl
    | key h h' => exact ((ht i o ho hn (sh.nodes (List.ne_nil_of_mem h))).2 _ h).2 r h'
    | nval h h' => exact ((ht i o ho hn (sh.nodes (List.ne_nil_of_mem h))).2 _ h).1 r h'
    | @up u _ h h' =>
      rcases sh.ups (List.ne_nil_of_mem h) with h1 | h1
      · rw [h1] at hd
        have := hd.2 u h
        unfold UpOk at this
        cases hu : s.up u with
        | closed v =>
          rw [hu] at this
          unfold G.upGet at h'
          rw [hu] at h'
          exact this r h'
        | opn th sl t =>
          rw [hu] at this
          rcases this with h2 | h2
          · exact h2 r h'
          · obtain ⟨oth, hth, hkt, _⟩ := hut u th sl t hu
            exact thr th oth sl t hth hkt h2 u hu r h'
      · obtain ⟨sl, t, hu⟩ := sh.own h1 u h
        exact thr i o sl t ho h1 hn u hu r h'
    | cache h =>
      rw [sh.cache (by rw [h]; simp)] at hd
      exact hd.2 r h

/-- what must hold when the atomic phase starts -/
structure AtPre (s : G) : Prop where
  full : Full s
  l : L .prop [] s
  j : J .prop [] [] s
  upc : UpC s
  run : (s.obj s.running).isSome
  reg : ∀ r, s.registry = .ref r → (s.obj r).isSome
  mts : ValsIn s s.mts
  tbf : ∀ i ∈ s.finobj ++ s.tobefnz, (s.obj i).isSome

theorem Full.congr {s s' : G} (hf : Full s) (h1 : s'.obj = s.obj) (h2 : s'.up = s.up) : Full s' := by
  intro i o ho r hr
  have hget : ∀ u, s'.upGet u = s.upGet u := fun u => by unfold G.upGet; rw [h1, h2]
  rw [h1] at ho ⊢
  refine hf i o ho r ?_
  cases hr with
  | mt h => exact .mt h
  | val h => exact .val h
  | key h h' => exact .key h h'
  | nval h h' => exact .nval h h'
  | up h h' => exact .up h (hget _ ▸ h')
  | cache h => exact .cache h

/-- `atomicMark` after its first line -/
def atomicRun (n : Nat) (ga : List Id) (s : G) : G :=
  let s := markobject n s s.running
  let s := markvalue n s s.registry
  let s := markmt n s
  let s := propagateall n n s
  let s := remarkupvals n s
  let s := propagateall n n s
  let s := { s with gray := ga }
  let s := propagateall n n s
  converge n n s

theorem MExt.running {s s' : G} (h : MExt s s') : s'.running = s.running := by
  obtain ⟨c, g, f, rfl⟩ := h.eq; rfl
theorem MExt.registry {s s' : G} (h : MExt s s') : s'.registry = s.registry := by
  obtain ⟨c, g, f, rfl⟩ := h.eq; rfl
theorem MExt.mts {s s' : G} (h : MExt s s') : s'.mts = s.mts := by
  obtain ⟨c, g, f, rfl⟩ := h.eq; rfl

theorem UpC.mext {s s' : G} (h : MExt s s') (hu : UpC s) : UpC s' :=
  hu.le h.le (fun th ht => by rw [h.twups] at ht; exact h.le.isSome (hu.tws th ht))

theorem UpC.cstep {st : Stage} {pend ex : List Id} {s s' : G} (h : CStep st pend ex s s') (hu : UpC s) : UpC s' :=
  hu.le h.le (fun th ht => by
    rcases h.le.tws th ht with h1 | h1
    · exact h.le.isSome (hu.tws th h1)
    · exact h.le.isSome h1.1)

theorem Le0.twNW {s s' : G} (h : Le0 s s') (ht : ∀ th ∈ s.twups, NW s th) : ∀ th ∈ s'.twups, NW s' th := by
  intro th h1
  rcases h.tws th h1 with h2 | h2
  · exact h.nw th (ht th h2)
  · exact h2.2

theorem atomicRun_ok (n : Nat) {ga : List Id} {s : G} (hf : Full s) (hl : L .at1 ga s) (hj : J .at1 ga [] s) (hu : UpC s) (hp : PhOk .at1 s)
    (hrun : (s.obj s.running).isSome) (hreg : ∀ r, s.registry = .ref r → (s.obj r).isSome) (hmts : ValsIn s s.mts) :
    Le0 s (atomicRun n ga s) ∧ L .at2 [] (atomicRun n ga s) ∧ (∀ th ∈ (atomicRun n ga s).twups, NW (atomicRun n ga s) th) ∧
    ((atomicRun n ga s).oof = false → J .at2 [] [] (atomicRun n ga s) ∧ (atomicRun n ga s).gray = [] ∧ EphAll (atomicRun n ga s) ∧
      NW (atomicRun n ga s) s.running ∧ NWv (atomicRun n ga s) s.registry ∧ ∀ v ∈ s.mts, NWv (atomicRun n ga s) v) := by
  unfold atomicRun
  dsimp only
  obtain ⟨a1, b1⟩ := markobject_ok n hf hrun
  generalize markobject n s s.running = s1 at a1 b1 ⊢
  obtain ⟨a2, b2⟩ := markvalue_ok n (s := s1) (v := s1.registry) (a1.full hf) (fun r hr => a1.le.isSome (hreg r (a1.registry ▸ hr)))
  generalize markvalue n s1 s1.registry = s2 at a2 b2 ⊢
  rw [a1.registry] at b2
  have a12 := a1.trans a2
  obtain ⟨a3, b3⟩ := foldMark_ok' n (s := s2) (vs := s2.mts) (a12.full hf) (fun r hr => a12.le.isSome (hmts r (a12.mts ▸ hr)))
  unfold markmt
  generalize foldMark (markobject n) s2.mts s2 = s3 at a3 b3 ⊢
  rw [a12.mts] at b3
  have a13 := a12.trans a3
  have c3 : CStep .at1 ga [] s s3 := a13.cstep
  have roots3 : s3.oof = false → NW s3 s.running ∧ NWv s3 s.registry ∧ ∀ v ∈ s.mts, NWv s3 v := fun h =>
    ⟨a3.mono (a2.mono (b1 (a2.oof (a3.oof h)))), a3.monoV (b2 (a3.oof h)), b3 h⟩
  obtain ⟨c4, g4⟩ := propagateall_ok n n (ex := []) (c3.le.full hf) (c3.l hl) (hp.le c3.le.toLe0)
  generalize propagateall n n s3 = s4 at c4 g4 ⊢
  have c34 := c3.trans c4
  obtain ⟨r1, r2, r3, r4, r5⟩ := remark_ok n (pend := ga) (c34.le.full hf) (hu.cstep c34)
  generalize remarkupvals n s4 = s5 at r1 r2 r3 r4 r5 ⊢
  have le5 : Le0 s s5 := c34.le.toLe0.trans r1
  have hp5 : PhOk .at2 s5 := by
    have := hp.le le5
    rcases this with h | h
    · exact nomatch h.1
    · exact .inr ⟨by simp, h.2⟩
  have hl5 := r4 (c34.l hl)
  obtain ⟨c6, g6⟩ := propagateall_ok n n (ex := []) (le5.full hf) hl5 hp5
  generalize propagateall n n s5 = s6 at c6 g6 ⊢
  have le6 := le5.trans c6.le.toLe0
  have hl6 := c6.l hl5
  -- the list `grayagain` becomes the gray list
  have le7 : Le0 s6 { s6 with gray := ga } := {
    objs := fun _ o ho => ⟨o, ho, .refl o⟩
    none := fun _ h => h
    upc := fun _ _ h => h
    upo := fun _ _ _ t h => ⟨t, h⟩
    nw := fun _ h => h
    wh := fun _ _ => rfl
    fixd := fun _ _ h => h
    oof := fun h => h
    rest := ⟨_, _, _, _, _, _, _, _, _, _, _, rfl⟩
    weak := List.suffix_refl _
    allweak := List.suffix_refl _
    tws := fun _ h => .inl h }
  have hl7 : L .at2 [] { s6 with gray := ga } := {
    lst := fun i hi => by
      rcases hi with hi | hi | hi
      · exact hl6.lst i (.inr (.inr hi))
      · exact nomatch hi.1
      · exact nomatch hi
    lstw := hl6.lstw
    prop := fun h => nomatch h
    fix := hl6.fix }
  have hj7 : s6.oof = false → J .at2 [] [] { s6 with gray := ga } := by
    intro h6
    have h5 := c6.le.oof h6
    have hj6 := c6.j h6 (r5 h5 (c34.j (r1.oof h5) hj))
    have hg6 := g6 h6
    constructor
    · intro i o ho hc
      rcases hj6.blk i o ho hc with h | (h | h) | h | h
      · rw [hg6] at h; exact nomatch h
      · exact nomatch h.1
      · exact .inl h
      · exact nomatch h
      · exact .inr (.inr (.inr h))
    · intro i o ho hc
      rcases hj6.gry i o ho hc with h | h | (h | h) | h | h
      · exact .inl h
      · rw [hg6] at h; exact nomatch h
      · exact nomatch h.1
      · exact .inr (.inl h)
      · exact nomatch h
      · exact .inr (.inr (.inr (.inr h)))
  have oof7 : ({ s6 with gray := ga } : G).oof = s6.oof := rfl
  generalize ({ s6 with gray := ga } : G) = s7 at le7 hl7 hj7 oof7 ⊢
  have le67 := le6.trans le7
  obtain ⟨c8, g8⟩ := propagateall_ok n n (ex := []) (le67.full hf) hl7 ((hp5.le c6.le.toLe0).le le7)
  generalize propagateall n n s7 = s8 at c8 g8 ⊢
  have le8 := le67.trans c8.le.toLe0
  obtain ⟨k1, k2, k3, _⟩ := converge_ok n n s8 (le8.full hf) (c8.l hl7) (((hp5.le c6.le.toLe0).le le7).le c8.le.toLe0)
    (fun h8 => ⟨c8.j h8 (hj7 (oof7 ▸ c8.le.oof h8)), g8 h8⟩)
  generalize converge n n s8 = s9 at k1 k2 k3 ⊢
  refine ⟨le8.trans k1, k2, (((c6.le.toLe0.trans le7).trans c8.le.toLe0).trans k1).twNW fun th ht => (r3 th ht).2, fun h9 => ⟨(k3 h9).1, (k3 h9).2.1, (k3 h9).2.2, ?_⟩⟩
  have le49 : Le0 s3 s9 := (((c4.le.toLe0.trans r1).trans c6.le.toLe0).trans le7).trans (c8.le.toLe0.trans k1)
  have := roots3 (le49.oof h9)
  exact ⟨le49.nw _ this.1, le49.monoV this.2.1, fun v hv => le49.monoV (this.2.2 v hv)⟩

theorem atomicMark_ok (n : Nat) {s : G} (hp : AtPre s) :
    Le0 { s with grayagain := [], phase := .atomic } (atomicMark n s) ∧ L .at2 [] (atomicMark n s) ∧ (∀ th ∈ (atomicMark n s).twups, NW (atomicMark n s) th) ∧
    ((atomicMark n s).oof = false → J .at2 [] [] (atomicMark n s) ∧ (atomicMark n s).gray = [] ∧ EphAll (atomicMark n s) ∧
      NW (atomicMark n s) s.running ∧ NWv (atomicMark n s) s.registry ∧ ∀ v ∈ s.mts, NWv (atomicMark n s) v) := by
  unfold atomicMark
  have hl0 : L .at1 s.grayagain { s with grayagain := [], phase := .atomic } := {
    lst := fun i hi => hp.l.lst i (by
      rcases hi with hi | hi | hi
      · exact .inl hi
      · exact nomatch hi.1
      · exact .inr (.inl ⟨rfl, hi⟩))
    lstw := hp.l.lstw
    prop := fun h => nomatch h
    fix := hp.l.fix }
  have hd : ∀ i o, Done .prop s i o → Done .at1 { s with grayagain := [], phase := .atomic } i o := by
    intro i o hd
    unfold Done at hd ⊢
    revert hd
    cases o.kind with
    | str => exact id
    | udata => exact id
    | arr => exact id
    | ccl => exact id
    | proto => exact id
    | table => exact id
    | thread => exact fun h => absurd rfl h.1
    | lcl =>
      refine fun hd => ⟨hd.1, fun u hu => ?_⟩
      have := hd.2 u hu
      unfold UpOk at this ⊢
      show (match s.up u with | .closed v => _ | .opn th _ t => _)
      cases hup : s.up u with
      | closed v => rw [hup] at this; exact this
      | opn th sl t => rw [hup] at this; exact .inl this
  have ip : ∀ i, InPend .prop [] s i → InPend .at1 s.grayagain { s with grayagain := [], phase := .atomic } i := by
    rintro i (h | h)
    · exact .inr h.2
    · exact nomatch h
  have hj0 : J .at1 s.grayagain [] { s with grayagain := [], phase := .atomic } := {
    blk := fun i o ho hc => (hp.j.blk i o ho hc).imp id (.imp (ip i) (.imp id (hd i o)))
    gry := fun i o ho hc => (hp.j.gry i o ho hc).imp id (.imp id (.imp (ip i) (.imp id fun h => ⟨hd i o h.1, fun h => nomatch h⟩))) }
  exact atomicRun_ok n (ga := s.grayagain) (hp.full.congr rfl rfl) hl0 hj0 ⟨hp.upc.opn, hp.upc.tws⟩ (.inr ⟨by simp, rfl⟩) hp.run hp.reg hp.mts

theorem Le0.tobefnz {s s' : G} (h : Le0 s s') : s'.tobefnz = s.tobefnz := by
  obtain ⟨_, _, _, _, _, _, _, _, _, _, _, rfl⟩ := h.rest; rfl
theorem Le0.finobj {s s' : G} (h : Le0 s s') : s'.finobj = s.finobj := by
  obtain ⟨_, _, _, _, _, _, _, _, _, _, _, rfl⟩ := h.rest; rfl

theorem isSome_of_lstw {st : Stage} {pend : List Id} {s : G} (hl : L st pend s) {i : Id} (h : i ∈ s.weak ∨ i ∈ s.allweak ∨ i ∈ s.ephemeron) :
    (s.obj i).isSome := by
  obtain ⟨_, o, ho, _⟩ := hl.lstw i h
  rw [ho]; rfl

theorem take_suffix {α : Type} {l m : List α} (h : l <:+ m) : ∀ x ∈ m, x ∈ m.take (m.length - l.length) ∨ x ∈ l := by
  obtain ⟨p, rfl⟩ := h
  intro x hx
  have : (p ++ l).length - l.length = p.length := by simp
  rw [this, List.take_left']
  · exact List.mem_append.mp hx
  · rfl

theorem atomicClear_ok (n : Nat) {s : G} (hf : Full s) (hl : L .at2 [] s) (hp : PhOk .at2 s)
    (hj : s.oof = false → J .at2 [] [] s ∧ s.gray = [] ∧ EphAll s) (htb : ∀ i ∈ s.finobj ++ s.tobefnz, (s.obj i).isSome) :
    ∃ s2 s4, Le0 s s2 ∧ Quiet s s2 ∧ Le0 (separatetobefnz s2) s4 ∧ atomicClear n s = clearcache s4 ∧ L .at2 [] s4 ∧
      (s4.oof = false → J .at2 [] [] s4 ∧ s4.gray = [] ∧ TabsStrong s4 ∧ ∀ i ∈ s4.tobefnz, NW s4 i) := by
  unfold atomicClear
  dsimp only
  -- values of weak tables
  obtain ⟨q1, v1⟩ := clearbyvalues_ok n s.weak s hf (fun h hh => isSome_of_lstw hl (.inl hh))
  generalize clearbyvalues n s.weak s = s1 at q1 v1 ⊢
  obtain ⟨q2, v2⟩ := clearbyvalues_ok n s1.allweak s1 (q1.le.full hf) (fun h hh => isSome_of_lstw (q1.l hl) (.inr (.inl hh)))
  generalize clearbyvalues n s1.allweak s1 = s2 at q2 v2 ⊢
  have q12 := q1.trans q2
  have hf2 := q12.le.full hf
  have hl2 := q12.l hl
  have hp2 := hp.le q12.le.toLe0
  have onw2 : s2.oof = false → On s2.weak s2 ValsOk := fun h => by
    rw [q12.wk]
    exact (v1 (q2.le.oof h)).mono (fun a b => ValsOk.mono a b) q2.le.toLe0
  have ona2 : s2.oof = false → On s2.allweak s2 ValsOk := fun h => by
    rw [q2.aw]
    exact v2 h
  have hj2 : s2.oof = false → J .at2 [] [] s2 ∧ s2.gray = [] := fun h =>
    ⟨q12.j h (hj (q12.le.oof h)).1, by rw [q12.gray]; exact (hj (q12.le.oof h)).2.1⟩
  have htb2 : ∀ i ∈ s2.finobj ++ s2.tobefnz, (s2.obj i).isSome := fun i hi =>
    q12.le.isSome (htb i (by rw [q12.le.finobj, q12.le.tobefnz] at hi; exact hi))
  refine ⟨s2, ?_⟩
  -- finalizers
  have hf3 : Full (separatetobefnz s2) := hf2.congr rfl rfl
  have hl3 : L .at2 [] (separatetobefnz s2) := ⟨hl2.lst, hl2.lstw, hl2.prop, hl2.fix⟩
  have hp3 : PhOk .at2 (separatetobefnz s2) := hp2
  have hj3 : (separatetobefnz s2).oof = false → J .at2 [] [] (separatetobefnz s2) := fun h => ⟨(hj2 h).1.blk, (hj2 h).1.gry⟩
  have onw3 : (separatetobefnz s2).oof = false → On (separatetobefnz s2).weak (separatetobefnz s2) ValsOk := onw2
  have ona3 : (separatetobefnz s2).oof = false → On (separatetobefnz s2).allweak (separatetobefnz s2) ValsOk := ona2
  have hw3 : (separatetobefnz s2).weak = s2.weak := rfl
  have ha3 : (separatetobefnz s2).allweak = s2.allweak := rfl
  have htb3 : ∀ i ∈ (separatetobefnz s2).tobefnz, ((separatetobefnz s2).obj i).isSome := by
    intro i hi
    refine htb2 i ?_
    rcases List.mem_append.mp hi with h | h
    · exact List.mem_append_right _ h
    · exact List.mem_append_left _ (List.mem_filter.mp h).1
  rw [← hw3, ← ha3]
  clear hw3 ha3
  generalize separatetobefnz s2 = s3 at hf3 hl3 hp3 hj3 onw3 ona3 htb3 ⊢
  obtain ⟨a4, b4⟩ := foldMark_ok' n (s := s3) (vs := s3.tobefnz.map .ref) hf3 (fun r hr => by
    obtain ⟨i, hi, he⟩ := List.mem_map.mp hr
    cases he
    exact htb3 r hi)
  unfold markbeingfnz
  generalize foldMark (markobject n) (s3.tobefnz.map .ref) s3 = s4 at a4 b4 ⊢
  have c4 : CStep .at2 [] [] s3 s4 := a4.cstep
  obtain ⟨c5, g5⟩ := propagateall_ok n n (ex := []) (c4.le.full hf3) (c4.l hl3) (hp3.le c4.le.toLe0)
  generalize propagateall n n s4 = s5 at c5 g5 ⊢
  have c45 := c4.trans c5
  obtain ⟨k1, k2, k3, _⟩ := converge_ok n n s5 (c45.le.full hf3) (c45.l hl3) (hp3.le c45.le.toLe0)
    (fun h => ⟨c45.j h (hj3 (c45.le.oof h)), g5 h⟩)
  generalize converge n n s5 = s6 at k1 k2 k3 ⊢
  have le6 : Le0 s3 s6 := c45.le.toLe0.trans k1
  have hf6 := le6.full hf3
  -- keys
  obtain ⟨q7, v7⟩ := clearbykeys_ok n s6.ephemeron s6 hf6 (fun h hh => isSome_of_lstw k2 (.inr (.inr hh)))
  generalize clearbykeys n s6.ephemeron s6 = s7 at q7 v7 ⊢
  obtain ⟨q8, v8⟩ := clearbykeys_ok n s7.allweak s7 (q7.le.full hf6) (fun h hh => isSome_of_lstw (q7.l k2) (.inr (.inl hh)))
  generalize clearbykeys n s7.allweak s7 = s8 at q8 v8 ⊢
  have q78 := q7.trans q8
  obtain ⟨q9, v9⟩ := clearbyvalues_ok n (s8.weak.take (s8.weak.length - s3.weak.length)) s8 (q78.le.full hf6)
    (fun h hh => isSome_of_lstw (q78.l k2) (.inl (List.mem_of_mem_take hh)))
  generalize hs9 : clearbyvalues n (s8.weak.take (s8.weak.length - s3.weak.length)) s8 = s9 at q9 v9 ⊢
  obtain ⟨q10, v10⟩ := clearbyvalues_ok n (s9.allweak.take (s9.allweak.length - s3.allweak.length)) s9 (q9.le.full (q78.le.full hf6))
    (fun h hh => isSome_of_lstw (q9.l (q78.l k2)) (.inr (.inl (List.mem_of_mem_take hh))))
  generalize clearbyvalues n (s9.allweak.take (s9.allweak.length - s3.allweak.length)) s9 = s10 at q10 v10 ⊢
  have q910 := q9.trans q10
  have q := q78.trans q910
  have le10 : Le0 s3 s10 := le6.trans q.le.toLe0
  refine ⟨s10, q12.le.toLe0, q12.quiet, le10, rfl, q.l k2, fun h10 => ?_⟩
  have h9 := q10.le.oof h10
  have h8 := q9.le.oof h9
  have h7 := q8.le.oof h8
  have h6 := q7.le.oof h7
  have h3 := le10.oof h10
  have hj10 := q.j h10 (k3 h6).1
  have hg10 : s10.gray = [] := by rw [q.gray]; exact (k3 h6).2.1
  refine ⟨hj10, hg10, ?_, ?_⟩
  · intro i o ho hn hk
    have hd := hj10.done hg10 ho hn ((q.l k2).nofix ho (by rw [hk]; simp))
    unfold Done at hd
    rw [hk] at hd
    rcases hd.2 with h | ⟨hw, ht⟩ | ⟨hw, ht⟩ | hw
    · exact h
    · -- weak values
      have hv : ValsOk s10 o := by
        rw [q910.wk] at hw
        have hsuf : s3.weak <:+ s8.weak := le6.weak.trans (by rw [q78.wk]; exact List.suffix_refl _)
        rcases take_suffix hsuf i hw with h | h
        · exact (v9 h9).mono (fun a b => ValsOk.mono a b) q10.le.toLe0 i h o ho
        · exact (onw3 h3).mono (fun a b => ValsOk.mono a b) le10 i h o ho
      exact ⟨hv.1, fun x hx => ⟨(hv.2 x hx).1, ht x hx⟩⟩
    · -- ephemerons
      rw [q.ep] at hw
      obtain ⟨o7, ho7, hs7⟩ := (q8.trans q910).le.obj' ho
      have hkey : TWeak s10 o := (v7 h7).1.mono (fun a b => TWeak.mono a b) (q8.trans q910).le.toLe0 i hw o ho
      have hval := (v7 h7).2 i hw ((k3 h6).2.2 i hw) o7 ho7
      refine ⟨ht.1, fun x hx => ⟨?_, hkey x hx⟩⟩
      rcases hs7.node_mem hx with h | h
      · exact (q8.trans q910).le.monoV (hval x h)
      · rw [h.1]; exact fun r h => nomatch h
    · -- all weak
      have hkey : TWeak s10 o := by
        have hw7 : i ∈ s7.allweak := by rw [q910.aw, q8.aw] at hw; exact hw
        exact (v8 h8).1.mono (fun a b => TWeak.mono a b) q910.le.toLe0 i hw7 o ho
      have hv : ValsOk s10 o := by
        rw [q10.aw] at hw
        have hsuf : s3.allweak <:+ s9.allweak := le6.allweak.trans (by rw [q9.aw, q78.aw]; exact List.suffix_refl _)
        rcases take_suffix hsuf i hw with h | h
        · exact v10 h10 i h o ho
        · exact (ona3 h3).mono (fun a b => ValsOk.mono a b) le10 i h o ho
      exact ⟨hv.1, fun x hx => ⟨(hv.2 x hx).1, hkey x hx⟩⟩
  · intro i hi
    rw [le10.tobefnz] at hi
    have h4 : s4.oof = false := c5.le.oof (k1.oof h6)
    have := b4 h4 (.ref i) (List.mem_map.mpr ⟨i, hi, rfl⟩) i rfl
    exact ((c5.le.toLe0.trans k1).trans q.le.toLe0).nw i this

end Verif.GC
