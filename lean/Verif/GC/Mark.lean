import Verif.GC.Spec

/-!
# Marking
-/
namespace Verif.GC

def NW (s : G) (i : Id) : Prop := s.isWhite i = false
def NWv (s : G) (v : Val) : Prop := ∀ r, v = .ref r → NW s r
def NWk (s : G) (k : Key) : Prop := ∀ r, k = .ref r → NW s r

/-- objects that go to a gray list -/
def Trav : Kind → Bool
  | .str | .udata | .arr => false
  | _ => true

/-- every reference of every object refers to an object -/
def Full (s : G) : Prop := ∀ i o, s.obj i = some o → ∀ r, Ref s o r → (s.obj r).isSome

/-- the effect of marking -/
structure MExt (s s' : G) : Prop where
  eq : ∃ c g f, s' = { s with col := c, gray := g, oof := f }
  oof : s'.oof = false → s.oof = false
  keep : ∀ i, NW s i → s'.col i = s.col i
  white : ∀ i, ¬ NW s' i → s'.col i = s.col i
  new : s'.oof = false → ∀ i, ¬ NW s i → NW s' i → ∃ o, s.obj i = some o ∧
    (s'.col i = .gray ∧ i ∈ s'.gray ∧ Trav o.kind = true ∨
     s'.col i = .black ∧ Trav o.kind = false ∧ (o.kind ≠ .str → (∀ m, o.mt = some m → NW s' m) ∧ ∀ v ∈ o.vals, NWv s' v))
  gray : ∀ i ∈ s.gray, i ∈ s'.gray
  graynew : ∀ i ∈ s'.gray, i ∈ s.gray ∨ (¬ NW s i ∧ NW s' i ∧ ∃ o, s.obj i = some o ∧ Trav o.kind = true)

theorem NW_col {s s' : G} {i : Id} (h : s'.col i = s.col i) : NW s' i ↔ NW s i := by
  simp [NW, G.isWhite, h]

theorem MExt.mono {s s' : G} (h : MExt s s') {i : Id} (hi : NW s i) : NW s' i :=
  (NW_col (h.keep i hi)).mpr hi

theorem MExt.monoV {s s' : G} (h : MExt s s') {v : Val} (hv : NWv s v) : NWv s' v :=
  fun r hr => h.mono (hv r hr)

theorem MExt.obj {s s' : G} (h : MExt s s') : s'.obj = s.obj := by
  obtain ⟨c, g, f, rfl⟩ := h.eq; rfl

theorem MExt.up {s s' : G} (h : MExt s s') : s'.up = s.up := by
  obtain ⟨c, g, f, rfl⟩ := h.eq; rfl

theorem MExt.phase {s s' : G} (h : MExt s s') : s'.phase = s.phase := by
  obtain ⟨c, g, f, rfl⟩ := h.eq; rfl

theorem MExt.upGet {s s' : G} (h : MExt s s') (u : Nat) : s'.upGet u = s.upGet u := by
  obtain ⟨c, g, f, rfl⟩ := h.eq; rfl

theorem MExt.refl (s : G) : MExt s s where
  eq := ⟨s.col, s.gray, s.oof, rfl⟩
  oof h := h
  keep _ _ := rfl
  white _ _ := rfl
  new _ i h h' := absurd h' h
  gray _ h := h
  graynew _ h := .inl h

theorem MExt.trans {s s' s'' : G} (h : MExt s s') (h' : MExt s' s'') : MExt s s'' where
  eq := by
    obtain ⟨c, g, f, rfl⟩ := h.eq
    obtain ⟨c', g', f', rfl⟩ := h'.eq
    exact ⟨c', g', f', rfl⟩
  oof hf := h.oof (h'.oof hf)
  keep i hi := (h'.keep i (h.mono hi)).trans (h.keep i hi)
  white i hi := (h'.white i hi).trans (h.white i fun hn => hi (h'.mono hn))
  new hf i hi hi' := by
    by_cases hm : NW s' i
    · obtain ⟨o, ho, hd⟩ := h.new (h'.oof hf) i hi hm
      refine ⟨o, ho, ?_⟩
      rw [h'.keep i hm]
      rcases hd with ⟨a, b, c⟩ | ⟨a, b, c⟩
      · exact .inl ⟨a, h'.gray i b, c⟩
      · exact .inr ⟨a, b, fun hk => ⟨fun m hm => h'.mono ((c hk).1 m hm), fun v hv => h'.monoV ((c hk).2 v hv)⟩⟩
    · have := h'.new hf i hm hi'
      rw [h.obj] at this
      exact this
  gray i hi := h'.gray i (h.gray i hi)
  graynew i hi := by
    rcases h'.graynew i hi with hg | ⟨hg, hg', hg''⟩
    · rcases h.graynew i hg with h1 | ⟨h1, h2, h3⟩
      · exact .inl h1
      · exact .inr ⟨h1, h'.mono h2, h3⟩
    · rw [h.obj] at hg''
      exact .inr ⟨fun hn => hg (h.mono hn), hg', hg''⟩

theorem MExt.full {s s' : G} (h : MExt s s') (hf : Full s) : Full s' := by
  obtain ⟨c, g, f, rfl⟩ := h.eq
  intro i o ho r hr
  refine hf i o ho r ?_
  cases hr with
  | mt h => exact .mt h
  | val h => exact .val h
  | key h h' => exact .key h h'
  | nval h h' => exact .nval h h'
  | up h h' => exact .up h h'
  | cache h => exact .cache h

/-- what is proved about each marking function -/
def MarkOk (s s' : G) (P : G → Prop) : Prop := MExt s s' ∧ (s'.oof = false → P s')

theorem setCol_col (s : G) (i : Id) (c : Color) (j : Id) : (s.setCol i c).col j = if j = i then c else s.col j := rfl

theorem NW_setCol_ne (s : G) (i : Id) (c : Color) (j : Id) (h : j ≠ i) : NW (s.setCol i c) j ↔ NW s j := by
  simp [NW, G.isWhite, setCol_col, h]

theorem not_NW {s : G} {i : Id} : ¬ NW s i ↔ s.isWhite i = true := by
  simp [NW]

theorem oof_ext (s : G) : MExt s { s with oof := true } where
  eq := ⟨_, _, _, rfl⟩
  oof h := nomatch h
  keep _ _ := rfl
  white _ _ := rfl
  new h := nomatch h
  gray _ h := h
  graynew _ h := .inl h

/-- an object without references to follow is painted -/
theorem paint_ext {s : G} {i : Id} {o : Obj} (ho : s.obj i = some o) (hw : ¬ NW s i) (hk : o.kind = .str) :
    MExt s (s.setCol i .black) where
  eq := ⟨_, _, _, rfl⟩
  oof h := h
  keep j hj := by
    rw [setCol_col, if_neg]
    rintro rfl
    exact hw hj
  white j hj := by
    rw [setCol_col, if_neg]
    rintro rfl
    exact hj (by simp [NW, G.isWhite, setCol_col, Color.isWhite])
  new _ j hj hj' := by
    by_cases h : j = i
    · subst h
      refine ⟨o, ho, .inr ⟨by simp [setCol_col], by rw [hk]; rfl, fun h => absurd hk h⟩⟩
    · exact absurd ((NW_setCol_ne s i _ j h).mp hj') hj
  gray _ h := h
  graynew _ h := .inl h

theorem linkGray_ext {s : G} {i : Id} {o : Obj} (ho : s.obj i = some o) (hw : ¬ NW s i) (hk : Trav o.kind = true) :
    MExt s (link s .gray i) ∧ NW (link s .gray i) i := by
  have hc : s.col i ≠ .gray := by
    intro h
    exact hw (by simp [NW, G.isWhite, h, Color.isWhite])
  have hl : link s .gray i = { s.setCol i .gray with gray := i :: s.gray } := by
    simp [link, hc, G.setCol]
  rw [hl]
  have hcol : ∀ j, ({ s.setCol i .gray with gray := i :: s.gray } : G).col j = if j = i then .gray else s.col j := fun _ => rfl
  have hnw : NW ({ s.setCol i .gray with gray := i :: s.gray } : G) i := by
    unfold NW G.isWhite
    rw [hcol, if_pos rfl]
    rfl
  refine ⟨⟨⟨_, _, _, rfl⟩, fun h => h, ?_, ?_, ?_, ?_, ?_⟩, hnw⟩
  · intro j hj
    rw [hcol, if_neg]
    rintro rfl
    exact hw hj
  · intro j hj
    rw [hcol, if_neg]
    rintro rfl
    exact hj hnw
  · intro _ j hj hj'
    by_cases h : j = i
    · subst h
      exact ⟨o, ho, .inl ⟨by rw [hcol, if_pos rfl], by simp, hk⟩⟩
    · exact absurd ((NW_col (by rw [hcol, if_neg h])).mp hj') hj
  · intro j hj
    exact List.mem_cons_of_mem _ hj
  · intro j hj
    rcases List.mem_cons.mp hj with rfl | h
    · exact .inr ⟨hw, hnw, o, ho, hk⟩
    · exact .inl h

theorem foldMark_ok {mark : G → Id → G}
    (hm : ∀ s i, Full s → (s.obj i).isSome → MarkOk s (mark s i) fun s' => NW s' i)
    (vs : List Val) : ∀ s, Full s → (∀ r, Val.ref r ∈ vs → (s.obj r).isSome) →
      MarkOk s (foldMark mark vs s) fun s' => ∀ v ∈ vs, NWv s' v := by
  induction vs with
  | nil => exact fun s _ _ => ⟨.refl s, fun _ v hv => absurd hv (by simp)⟩
  | cons v vs ih =>
    intro s hf he
    have skip : ∀ v, (∀ r, v ≠ Val.ref r) →
        MarkOk s (foldMark mark vs s) fun s' => ∀ w ∈ v :: vs, NWv s' w := by
      intro v hv
      obtain ⟨h2, h3⟩ := ih s hf (fun r hr => he r (by simp [hr]))
      refine ⟨h2, fun ho w hw => ?_⟩
      rcases List.mem_cons.mp hw with rfl | hw
      · exact fun r hr => absurd hr (hv r)
      · exact h3 ho w hw
    cases v with
    | nil => exact skip .nil (by simp)
    | prim => exact skip .prim (by simp)
    | ref i =>
      rw [foldMark]
      obtain ⟨h1, h2⟩ := hm s i hf (he i (by simp))
      obtain ⟨h3, h4⟩ := ih (mark s i) (h1.full hf) (by
        intro r hr
        rw [h1.obj]
        exact he r (by simp [hr]))
      refine ⟨h1.trans h3, fun ho w hw => ?_⟩
      rcases List.mem_cons.mp hw with rfl | hw
      · intro r hr
        cases hr
        exact h3.mono (h2 (h3.oof ho))
      · exact h4 ho w hw

theorem mark_ok (n : Nat) :
    (∀ s i, Full s → (s.obj i).isSome → ¬ NW s i → MarkOk s (reallymark n s i) fun s' => NW s' i) ∧
    (∀ s i, Full s → (s.obj i).isSome → MarkOk s (markobject n s i) fun s' => NW s' i) := by
  induction n with
  | zero =>
    constructor
    · intro s i _ _ _
      rw [reallymark]
      exact ⟨oof_ext s, fun h => nomatch h⟩
    · intro s i _ _
      rw [markobject]
      exact ⟨oof_ext s, fun h => nomatch h⟩
  | succ n ih =>
    constructor
    · intro s i hf hi hw
      obtain ⟨o, ho⟩ := Option.isSome_iff_exists.mp hi
      have leaf : o.kind = .str → MarkOk s (s.setCol i .black) fun s' => NW s' i := fun hk =>
        ⟨paint_ext ho hw hk, fun _ => by simp [NW, G.isWhite, setCol_col, Color.isWhite]⟩
      have lnk : Trav o.kind = true → MarkOk s (link s .gray i) fun s' => NW s' i := fun hk =>
        ⟨(linkGray_ext ho hw hk).1, fun _ => (linkGray_ext ho hw hk).2⟩
      have ud : ∀ s1, Trav o.kind = false → MarkOk s s1 (fun s' => ∀ m, o.mt = some m → NW s' m) →
          MarkOk s (foldMark (markobject n) o.vals (s1.setCol i .black)) fun s' => NW s' i := by
        intro s1 hk h1
        obtain ⟨h1, hmt⟩ := h1
        have hnw : NW (s1.setCol i .black) i := by simp [NW, G.isWhite, setCol_col, Color.isWhite]
        have hfull : Full (s1.setCol i .black) := by
          have := h1.full hf
          intro j oj hj r hr
          refine this j oj hj r ?_
          cases hr with
          | mt h => exact .mt h
          | val h => exact .val h
          | key h h' => exact .key h h'
          | nval h h' => exact .nval h h'
          | up h h' => exact .up h h'
          | cache h => exact .cache h
        obtain ⟨h2, hv⟩ := foldMark_ok ih.2 o.vals (s1.setCol i .black) hfull (by
          intro r hr
          have : (s1.setCol i .black).obj = s.obj := h1.obj
          rw [this]
          exact hf i o ho r (.val hr))
        generalize foldMark (markobject n) o.vals (s1.setCol i .black) = s2 at h2 hv ⊢
        refine ⟨⟨?_, ?_, ?_, ?_, ?_, ?_, ?_⟩, fun _ => h2.mono hnw⟩
        · obtain ⟨c, g, f, rfl⟩ := h1.eq
          obtain ⟨c', g', f', rfl⟩ := h2.eq
          exact ⟨c', g', f', rfl⟩
        · exact fun h => h1.oof (h2.oof h)
        · intro j hj
          have hne : j ≠ i := by
            rintro rfl
            exact hw hj
          rw [h2.keep j ((NW_setCol_ne s1 i _ j hne).mpr (h1.mono hj)), setCol_col, if_neg hne, h1.keep j hj]
        · intro j hj
          have hne : j ≠ i := by
            rintro rfl
            exact hj (h2.mono hnw)
          rw [h2.white j hj, setCol_col, if_neg hne]
          exact h1.white j fun h => hj (h2.mono ((NW_setCol_ne s1 i _ j hne).mpr h))
        · intro ho2 j hj hj'
          by_cases hne : j = i
          · subst hne
            refine ⟨o, ho, .inr ⟨?_, hk, fun _ => ⟨fun m hm => ?_, hv ho2⟩⟩⟩
            · rw [h2.keep j hnw, setCol_col, if_pos rfl]
            · have := hmt (h2.oof ho2) m hm
              by_cases hmi : m = j
              · subst hmi
                exact h2.mono hnw
              · exact h2.mono ((NW_setCol_ne s1 j _ m hmi).mpr this)
          · by_cases hm : NW s1 j
            · have hm' := (NW_setCol_ne s1 i .black j hne).mpr hm
              obtain ⟨oj, hoj, hd⟩ := h1.new (h2.oof ho2) j hj hm
              refine ⟨oj, hoj, ?_⟩
              rw [h2.keep j hm', setCol_col, if_neg hne]
              have up : ∀ r, NW s1 r → NW s2 r := by
                intro r hr
                by_cases hri : r = i
                · subst hri; exact h2.mono hnw
                · exact h2.mono ((NW_setCol_ne s1 i _ r hri).mpr hr)
              rcases hd with ⟨a, b, c⟩ | ⟨a, b, c⟩
              · exact .inl ⟨a, h2.gray j b, c⟩
              · exact .inr ⟨a, b, fun hk => ⟨fun m hm => up m ((c hk).1 m hm), fun v hv r hr => up r ((c hk).2 v hv r hr)⟩⟩
            · have := h2.new ho2 j (fun h => hm ((NW_setCol_ne s1 i _ j hne).mp h)) hj'
              have ho' : (s1.setCol i .black).obj = s.obj := h1.obj
              rw [ho'] at this
              exact this
        · intro j hj
          exact h2.gray j (h1.gray j hj)
        · intro j hj
          rcases h2.graynew j hj with hg | ⟨hg, hg', hg''⟩
          · rcases h1.graynew j hg with hg | ⟨hg, hg', hg''⟩
            · exact .inl hg
            · refine .inr ⟨hg, ?_, hg''⟩
              by_cases hji : j = i
              · subst hji; exact h2.mono hnw
              · exact h2.mono ((NW_setCol_ne s1 i _ j hji).mpr hg')
          · have hne : j ≠ i := by
              rintro rfl
              exact hg hnw
            have ho' : (s1.setCol i .black).obj = s.obj := h1.obj
            rw [ho'] at hg''
            exact .inr ⟨fun h => hg ((NW_setCol_ne s1 i _ j hne).mpr (h1.mono h)), hg', hg''⟩
      have mtOk : MarkOk s (match o.mt with
          | none => s
          | some m => markobject n s m) (fun s' => ∀ m, o.mt = some m → NW s' m) := by
        cases hm : o.mt with
        | none => exact ⟨.refl s, fun _ m h => nomatch h⟩
        | some m =>
          obtain ⟨h1, h2⟩ := ih.2 s m hf (hf i o ho m (.mt hm))
          exact ⟨h1, fun h m' hm' => by cases hm'; exact h2 h⟩
      simp only [reallymark, ho]
      cases hk : o.kind with
      | str => exact leaf hk
      | udata => exact ud _ (by rw [hk]; rfl) mtOk
      | arr => exact ud _ (by rw [hk]; rfl) mtOk
      | lcl => exact lnk (by rw [hk]; rfl)
      | ccl => exact lnk (by rw [hk]; rfl)
      | table => exact lnk (by rw [hk]; rfl)
      | thread => exact lnk (by rw [hk]; rfl)
      | proto => exact lnk (by rw [hk]; rfl)
    · intro s i hf hi
      obtain ⟨o, ho⟩ := Option.isSome_iff_exists.mp hi
      simp only [markobject, ho]
      split
      · exact ih.1 s i hf hi (not_NW.mpr ‹_›)
      · exact ⟨.refl s, fun _ => Bool.eq_false_iff.mpr ‹_›⟩

end Verif.GC
