import Verif.GC.AtomicEnd

/-!
# The invariant of all reachable states
-/
namespace Verif.GC

/-- not about to be freed -/
def Live (s : G) (i : Id) : Prop := s.col i ≠ .white (!s.white)
def Ok (s : G) (i : Id) : Prop := (s.obj i).isSome ∧ Live s i

structure Core (s : G) : Prop where
  dom : ∀ i, (s.obj i).isSome ↔ i ∈ s.allgc ∨ i ∈ s.finobj ∨ i ∈ s.tobefnz ∨ i ∈ s.fixedgc
  nodup : (s.allgc ++ (s.finobj ++ (s.tobefnz ++ s.fixedgc))).Nodup
  fin : ∀ i, i ∈ s.finobj ∨ i ∈ s.tobefnz → s.fin i = true
  shapes : Shapes s
  fixed : ∀ i ∈ s.fixedgc, s.col i = .gray ∧ ∃ o, s.obj i = some o ∧ o.kind = .str
  main : ∃ o, s.obj s.main = some o ∧ o.kind = .thread
  run : ∃ o, s.obj s.running = some o ∧ o.kind = .thread
  upt : UpT s
  upnd : ∀ i o, s.obj i = some o → o.kind = .thread → o.ups.Nodup
  tw : ∀ u th sl t, s.up u = .opn th sl t → Live s th → th ∈ s.twups
  twe : ∀ th ∈ s.twups, Ok s th
  closed : ∀ i o, s.obj i = some o → Live s i → ∀ r, Ref s o r → Ok s r
  roots : ∀ r, Root s r → Ok s r
  fins : ∀ i, i ∈ s.finobj ∨ i ∈ s.tobefnz → Live s i
  bad : s.bad = false

/-- while objects are marked -/
structure MarkInv (ex : List Id) (s : G) : Prop where
  live : ∀ i, (s.obj i).isSome → Live s i
  j : J .prop [] ex s
  l : L .prop [] s
  main : NW s s.main

/-- the objects that the current sweep has visited -/
def swept (s : G) : List Id :=
  match s.phase with
  | .swpallgc => (split s.sweepgc s.allgc).1
  | .swpfinobj => s.allgc ++ (split s.sweepgc s.finobj).1
  | .swptobefnz => s.allgc ++ s.finobj ++ (split s.sweepgc s.tobefnz).1
  | _ => s.allgc ++ s.finobj ++ s.tobefnz

/-- while objects are swept, and until the next cycle starts -/
structure SweepInv (s : G) : Prop where
  swept : ∀ i ∈ swept s, s.col i = .white s.white
  ptr : s.issweepphase = true → ∀ i, s.sweepgc = .after i → i ∈ curList s

structure Inv (s : G) : Prop where
  core : Core s
  phase : s.phase ≠ .atomic
  mark : s.keepinvariant = true → MarkInv [] s
  sweep : s.keepinvariant = false → SweepInv s

theorem NW.live {s : G} {i : Id} (h : NW s i) : Live s i := by
  intro h1
  simp [NW, G.isWhite, h1, Color.isWhite] at h

theorem Core.full {s : G} (h : Core s) (hl : ∀ i, (s.obj i).isSome → Live s i) : Full s :=
  fun i o ho r hr => (h.closed i o ho (hl i (by rw [ho]; rfl)) r hr).1

/-- everything a program can get at exists and stays -/
theorem Core.acc {s : G} (h : Core s) {i : Id} (ha : Acc s i) : Ok s i := by
  induction ha with
  | root hr => exact h.roots _ hr
  | step _ ho hr ih => exact h.closed _ _ ho ih.2 _ hr

/-- the fields that marking does not change -/
structure Same (s s' : G) : Prop where
  allgc : s'.allgc = s.allgc
  finobj : s'.finobj = s.finobj
  tobefnz : s'.tobefnz = s.tobefnz
  fixedgc : s'.fixedgc = s.fixedgc
  fin : s'.fin = s.fin
  white : s'.white = s.white
  main : s'.main = s.main
  running : s'.running = s.running
  registry : s'.registry = s.registry
  mts : s'.mts = s.mts
  strcache : s'.strcache = s.strcache
  bad : s'.bad = s.bad

theorem Le0.same {s s' : G} (h : Le0 s s') : Same s s' := by
  obtain ⟨_, _, _, _, _, _, _, _, _, _, _, rfl⟩ := h.rest
  constructor <;> rfl

theorem Shapes.congr {s s' : G} (h : Shapes s) (h1 : s'.obj = s.obj) (h2 : s'.up = s.up) : Shapes s' := by
  intro i o ho
  rw [h1] at ho
  have := h i o ho
  exact ⟨this.mt, this.vals, this.nodes, this.ups, this.cache, by rw [h2]; exact this.own⟩

theorem UpT.congr {s s' : G} (h : UpT s) (h1 : s'.obj = s.obj) (h2 : s'.up = s.up) : UpT s' := by
  unfold UpT
  rw [h1, h2]; exact h

theorem Core.atPre {s : G} (hc : Core s) (hm : MarkInv [] s) : AtPre s where
  full := hc.full hm.live
  l := hm.l
  j := hm.j
  upc := {
    opn := fun u th sl t hu => by
      obtain ⟨o, ho, _, hmem⟩ := hc.upt u th sl t hu
      exact ⟨o, ho, hmem, hc.tw u th sl t hu (hm.live th (by rw [ho]; rfl))⟩
    tws := fun th ht => (hc.twe th ht).1 }
  run := (hc.roots _ .running).1
  reg r hr := (hc.roots r (.registry hr)).1
  mts r hr := (hc.roots r (.mts hr)).1
  tbf i hi := (hc.dom i).mpr (by rcases List.mem_append.mp hi with h | h <;> simp [h])

theorem nodup_move {α : Type} {a f t x : List α} (p : α → Bool) (h : (a ++ (f ++ (t ++ x))).Nodup) :
    (a ++ (f.filter (fun i => !p i) ++ ((t ++ f.filter p) ++ x))).Nodup := by
  refine (List.Perm.nodup_iff ?_).mpr h
  refine List.Perm.append_left a ?_
  have h1 : (f.filter (fun i => !p i) ++ f.filter p).Perm f := by
    have := List.filter_append_perm p f
    exact List.perm_append_comm.trans this
  calc f.filter (fun i => !p i) ++ ((t ++ f.filter p) ++ x)
      = f.filter (fun i => !p i) ++ (t ++ (f.filter p ++ x)) := by simp
    _ |>.Perm (f.filter (fun i => !p i) ++ (f.filter p ++ (t ++ x))) := List.Perm.append_left _ (by
        rw [← List.append_assoc, ← List.append_assoc]; exact List.Perm.append_right x List.perm_append_comm)
    _ |>.Perm (f ++ (t ++ x)) := by rw [← List.append_assoc]; exact List.Perm.append_right _ h1

/-- after the atomic phase, the objects that are still white are the ones that nothing refers to -/
theorem atomic_core (n : Nat) {s : G} (hc : Core s) (hm : MarkInv [] s) (ho : (atomic n s).oof = false) : Core (atomic n s) := by
  unfold atomic at ho ⊢
  dsimp only at ho ⊢
  obtain ⟨le1, l1, tw1, f1⟩ := atomicMark_ok n (hc.atPre hm)
  have ph1 : PhOk .at2 (atomicMark n s) := .inr ⟨by simp, le1.phase⟩
  have full1 := le1.full ((hc.full hm.live).congr rfl rfl)
  generalize atomicMark n s = s1 at le1 l1 tw1 f1 ph1 full1 ho ⊢
  obtain ⟨s2, s4, le2, _, le4, heq, l4, f4⟩ := atomicClear_ok n full1 l1 ph1 (fun h => ⟨(f1 h).1, (f1 h).2.1, (f1 h).2.2.1⟩) (by
    intro i hi
    rw [le1.same.finobj, le1.same.tobefnz] at hi
    exact le1.isSome ((hc.dom i).mpr (by rcases List.mem_append.mp hi with h | h <;> [exact .inr (.inl h); exact .inr (.inr (.inl h))])))
  rw [heq] at ho ⊢
  have oof4 : s4.oof = false := ho
  obtain ⟨j4, g4, ts4, tb4⟩ := f4 oof4
  have oof2 : s2.oof = false := le4.oof oof4
  obtain ⟨_, _, _, nwrun, nwreg, nwmts⟩ := f1 (le2.oof oof2)
  have le12 := le1.trans le2
  have sm2 := le12.same
  have sm4 := le4.same
  have sh4 : Shapes s4 := ((hc.shapes.congr (s' := { s with grayagain := [], phase := .atomic }) rfl rfl).le le12 |>.congr
    (s' := separatetobefnz s2) rfl rfl).le le4
  have ut4 : UpT s4 := ((hc.upt.congr (s' := { s with grayagain := [], phase := .atomic }) rfl rfl).le le12 |>.congr
    (s' := separatetobefnz s2) rfl rfl).le le4
  have closed4 := closed_of sh4 ut4 l4 j4 g4 ts4
  have nw24 : ∀ i, NW s2 i → NW s4 i := fun i hi => le4.nw i hi
  have nw04 : ∀ i, NW s i → NW s4 i := fun i hi => nw24 i (le12.nw i hi)
  have nw14 : ∀ i, NW s1 i → NW s4 i := fun i hi => nw24 i (le2.nw i hi)
  have obj40 : ∀ i o4, s4.obj i = some o4 → ∃ o, s.obj i = some o ∧ Shr o o4 := by
    intro i o4 h4
    obtain ⟨o2, h2, hs2⟩ := le4.obj' h4
    obtain ⟨o, h0, hs0⟩ := le12.obj' (show s2.obj i = some o2 from h2)
    exact ⟨o, h0, hs0.trans hs2⟩
  have obj04 : ∀ i o, s.obj i = some o → ∃ o4, s4.obj i = some o4 ∧ Shr o o4 := by
    intro i o h0
    obtain ⟨o2, h2, hs2⟩ := le12.objs i o h0
    obtain ⟨o4, h4, hs4⟩ := le4.objs i o2 h2
    exact ⟨o4, h4, hs2.trans hs4⟩
  have some40 : ∀ i, (s4.obj i).isSome ↔ (s.obj i).isSome := by
    intro i
    constructor
    · intro h
      obtain ⟨o4, h4⟩ := Option.isSome_iff_exists.mp h
      obtain ⟨o, h0, _⟩ := obj40 i o4 h4
      rw [h0]; rfl
    · intro h
      obtain ⟨o, h0⟩ := Option.isSome_iff_exists.mp h
      obtain ⟨o4, h4, _⟩ := obj04 i o h0
      rw [h4]; rfl
  have kind04 : ∀ i k, (∃ o, s.obj i = some o ∧ o.kind = k) → ∃ o, s4.obj i = some o ∧ o.kind = k := by
    rintro i k ⟨o, h0, hk⟩
    obtain ⟨o4, h4, hs⟩ := obj04 i o h0
    exact ⟨o4, h4, by rw [hs.kind]; exact hk⟩
  have hwhite : s4.white = s.white := sm4.white.trans sm2.white
  -- white objects have the old white
  have dead : ∀ i, (s.obj i).isSome → ¬ NW s4 i → s4.col i = .white s.white := by
    intro i hi hn
    have h2 : ¬ NW s2 i := fun h => hn (nw24 i h)
    have hc0 : s4.col i = s.col i := (le4.wh i hn).trans (le12.wh i h2)
    rw [hc0]
    have hn0 : ¬ NW s i := fun h => hn (nw04 i h)
    have := hm.live i hi
    unfold Live at this
    cases hcol : s.col i with
    | white b =>
      rw [hcol] at this
      cases b <;> cases hw : s.white <;> simp_all
    | gray => exact absurd (NW_of_ne_white (.inr hcol)) hn0
    | black => exact absurd (NW_of_ne_white (.inl hcol)) hn0
  have live : ∀ i, Live { clearcache s4 with white := !(clearcache s4).white } i → (s.obj i).isSome → NW s4 i := by
    intro i hl hi
    by_contra hn
    have := dead i hi hn
    refine hl ?_
    show s4.col i = .white (!(!s4.white))
    rw [this, hwhite, Bool.not_not]
  have fixd : ∀ i ∈ s.fixedgc, s4.col i = .gray := fun i hi => by
    refine le4.fixd i ?_ (le12.fixd i hi (hc.fixed i hi).1)
    show i ∈ s2.fixedgc
    rw [sm2.fixedgc]; exact hi
  have fixedgc4 : s4.fixedgc = s.fixedgc := sm4.fixedgc.trans sm2.fixedgc
  have finobj4 : s4.finobj = s.finobj.filter fun i => !s2.isWhite i := by
    rw [sm4.finobj]; show s2.finobj.filter _ = _; rw [sm2.finobj]
  have tobefnz4 : s4.tobefnz = s.tobefnz ++ s.finobj.filter fun i => s2.isWhite i := by
    rw [sm4.tobefnz]; show s2.tobefnz ++ s2.finobj.filter _ = _; rw [sm2.finobj, sm2.tobefnz]
  have allgc4 : s4.allgc = s.allgc := sm4.allgc.trans sm2.allgc
  have finmem : ∀ i, i ∈ s4.finobj ∨ i ∈ s4.tobefnz ↔ i ∈ s.finobj ∨ i ∈ s.tobefnz := by
    intro i
    rw [finobj4, tobefnz4]
    cases hw : s2.isWhite i <;> simp [hw] <;> tauto
  have okOf : ∀ i, (s.obj i).isSome → NW s4 i → Ok { clearcache s4 with white := !(clearcache s4).white } i := fun i hi hn =>
    ⟨(some40 i).mpr hi, NW.live (s := { clearcache s4 with white := !(clearcache s4).white }) hn⟩
  exact {
    dom := fun i => by
      show (s4.obj i).isSome ↔ i ∈ s4.allgc ∨ i ∈ s4.finobj ∨ i ∈ s4.tobefnz ∨ i ∈ s4.fixedgc
      rw [some40, hc.dom, allgc4, fixedgc4]
      have := finmem i
      tauto
    nodup := by
      show (s4.allgc ++ (s4.finobj ++ (s4.tobefnz ++ s4.fixedgc))).Nodup
      rw [allgc4, fixedgc4, finobj4, tobefnz4]
      exact nodup_move _ hc.nodup
    fin := fun i hi => by
      show s4.fin i = true
      rw [sm4.fin]
      show s2.fin i = true
      rw [sm2.fin]
      exact hc.fin i ((finmem i).mp hi)
    shapes := sh4.congr rfl rfl
    fixed := fun i hi => by
      have hi' : i ∈ s.fixedgc := fixedgc4 ▸ hi
      exact ⟨fixd i hi', kind04 i .str (hc.fixed i hi').2⟩
    main := by
      have := kind04 _ _ hc.main
      rw [show s.main = s4.main from (sm4.main.trans sm2.main).symm] at this
      exact this
    run := by
      have := kind04 _ _ hc.run
      rw [show s.running = s4.running from (sm4.running.trans sm2.running).symm] at this
      exact this
    upt := ut4.congr rfl rfl
    upnd := fun i o4 h4 hk => by
      obtain ⟨o, h0, hs⟩ := obj40 i o4 h4
      rw [hs.ups]
      exact hc.upnd i o h0 (hs.kind ▸ hk)
    tw := fun u th sl t hu hl => by
      obtain ⟨o4, h4, hk4, hmem⟩ := ut4 u th sl t hu
      have hn := live th hl ((some40 th).mp (by rw [h4]; rfl))
      have hd := j4.done g4 h4 hn (l4.nofix h4 (by rw [hk4]; simp))
      unfold Done at hd
      rw [hk4] at hd
      exact hd.2.2 (List.ne_nil_of_mem hmem)
    twe := fun th ht => by
      have hn : NW s4 th := le4.twNW (s := separatetobefnz s2) (le2.twNW tw1) th ht
      refine okOf th ?_ hn
      rcases le4.tws th ht with h | h
      · rcases le12.tws th h with h | h
        · exact (hc.twe th h).1
        · exact h.1
      · have h1 : (s2.obj th).isSome := h.1
        obtain ⟨o2, h2⟩ := Option.isSome_iff_exists.mp h1
        obtain ⟨o, h0, _⟩ := le12.obj' h2
        exact (show (s.obj th) = some o from h0) ▸ rfl
    closed := fun i o4 h4 hl r hr => by
      have h0 := (some40 i).mp (by rw [show s4.obj i = some o4 from h4]; rfl)
      have hr' : Ref s4 o4 r := by
        cases hr with
        | mt h => exact .mt h
        | val h => exact .val h
        | key h h' => exact .key h h'
        | nval h h' => exact .nval h h'
        | up h h' => exact .up h h'
        | cache h => exact .cache h
      have hn := closed4 i o4 h4 (live i hl h0) r hr'
      refine okOf r ?_ hn
      have := (le4.full (s := separatetobefnz s2) ((le2.full full1).congr rfl rfl)) i o4 h4 r hr'
      exact (some40 r).mp this
    roots := fun r hr => by
      cases hr with
      | main =>
        show Ok _ s4.main
        rw [sm4.main]
        show Ok _ s2.main
        rw [sm2.main]
        exact okOf _ (hc.roots _ .main).1 (nw04 _ hm.main)
      | running =>
        show Ok _ s4.running
        rw [sm4.running]
        show Ok _ s2.running
        rw [sm2.running]
        exact okOf _ (hc.roots _ .running).1 (nw14 _ nwrun)
      | registry h =>
        have h : s4.registry = .ref r := h
        rw [sm4.registry] at h
        have h : s2.registry = .ref r := h
        rw [sm2.registry] at h
        exact okOf _ (hc.roots _ (.registry h)).1 (nw14 _ (nwreg r h))
      | mts h =>
        have h : Val.ref r ∈ s4.mts := h
        rw [sm4.mts] at h
        have h : Val.ref r ∈ s2.mts := h
        rw [sm2.mts] at h
        exact okOf _ (hc.roots _ (.mts h)).1 (nw14 _ (nwmts _ h r rfl))
      | strcache h =>
        have h : r ∈ s4.strcache.filter fun i => !s4.isWhite i := h
        obtain ⟨h1, h2⟩ := List.mem_filter.mp h
        rw [sm4.strcache] at h1
        have h1 : r ∈ s2.strcache := h1
        rw [sm2.strcache] at h1
        exact okOf _ (hc.roots _ (.strcache h1)).1 (by simpa [NW] using h2)
      | fixed h =>
        have h : r ∈ s4.fixedgc := h
        rw [fixedgc4] at h
        exact okOf _ (hc.roots _ (.fixed h)).1 (NW_of_ne_white (.inr (fixd r h)))
    fins := fun i hi => by
      refine NW.live (s := { clearcache s4 with white := !(clearcache s4).white }) (?_ : NW s4 i)
      rcases hi with hi | hi
      · have hi : i ∈ s4.finobj := hi
        rw [finobj4] at hi
        exact nw24 i (by simpa [NW] using (List.mem_filter.mp hi).2)
      · exact tb4 i hi
    bad := by
      show s4.bad = false
      rw [sm4.bad]
      show s2.bad = false
      rw [sm2.bad]
      exact hc.bad }

end Verif.GC
