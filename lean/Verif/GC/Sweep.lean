import Verif.GC.Core

/-!
# Sweeping, and the steps of the collector
-/
namespace Verif.GC

/-- only colours, ages and gray lists change -/
theorem Core.color {s s' : G} (h : Core s) (sm : Same s s') (ho : s'.obj = s.obj) (hu : s'.up = s.up) (ht : s'.twups = s.twups)
    (hl : ∀ i, (s.obj i).isSome → Live s i → Live s' i)
    (hb : ∀ i o, s.obj i = some o → Live s' i → Live s i ∨ o.kind = .str) (hf : ∀ i ∈ s.fixedgc, s'.col i = s.col i) : Core s' := by
  have ok : ∀ i, Ok s i → Ok s' i := fun i hi => ⟨by rw [ho]; exact hi.1, hl i hi.1 hi.2⟩
  have hget : ∀ u, s'.upGet u = s.upGet u := fun u => by unfold G.upGet; rw [ho, hu]
  exact {
    dom := by rw [ho, sm.allgc, sm.finobj, sm.tobefnz, sm.fixedgc]; exact h.dom
    nodup := by rw [sm.allgc, sm.finobj, sm.tobefnz, sm.fixedgc]; exact h.nodup
    fin := by rw [sm.finobj, sm.tobefnz, sm.fin]; exact h.fin
    shapes := h.shapes.congr ho hu
    fixed := fun i hi => by
      rw [sm.fixedgc] at hi
      rw [hf i hi, ho]
      exact h.fixed i hi
    main := by rw [ho, sm.main]; exact h.main
    run := by rw [ho, sm.running]; exact h.run
    upt := h.upt.congr ho hu
    upnd := by rw [ho]; exact h.upnd
    tw := fun u th sl t hup hli => by
      rw [hu] at hup
      rw [ht]
      obtain ⟨o, hoo, hk, _⟩ := h.upt u th sl t hup
      rcases hb th o hoo hli with h1 | h1
      · exact h.tw u th sl t hup h1
      · rw [hk] at h1; cases h1
    twe := fun th hth => by rw [ht] at hth; exact ok th (h.twe th hth)
    closed := fun i o hoi hli r hr => by
      rw [ho] at hoi
      rcases hb i o hoi hli with h1 | h1
      · refine ok r (h.closed i o hoi h1 r ?_)
        cases hr with
        | mt h => exact .mt h
        | val h => exact .val h
        | key h h' => exact .key h h'
        | nval h h' => exact .nval h h'
        | up h h' => exact .up h (by rw [← hget]; exact h')
        | cache h => exact .cache h
      · exfalso
        have sh := h.shapes i o hoi
        cases hr with
        | mt h => rcases sh.mt (by rw [h]; simp) with h | h | h <;> rw [h1] at h <;> cases h
        | val h => exact sh.vals (List.ne_nil_of_mem h) h1
        | key h _ => have := sh.nodes (List.ne_nil_of_mem h); rw [h1] at this; cases this
        | nval h _ => have := sh.nodes (List.ne_nil_of_mem h); rw [h1] at this; cases this
        | up h _ => rcases sh.ups (List.ne_nil_of_mem h) with h | h <;> rw [h1] at h <;> cases h
        | cache h => have := sh.cache (by rw [h]; simp); rw [h1] at this; cases this
    roots := fun r hr => by
      refine ok r (h.roots r ?_)
      cases hr with
      | main => rw [sm.main]; exact .main
      | running => rw [sm.running]; exact .running
      | registry h => exact .registry (sm.registry ▸ h)
      | mts h => exact .mts (sm.mts ▸ h)
      | strcache h => exact .strcache (sm.strcache ▸ h)
      | fixed h => exact .fixed (sm.fixedgc ▸ h)
    fins := fun i hi => by
      rw [sm.finobj, sm.tobefnz] at hi
      exact hl i ((h.dom i).mpr (by tauto)) (h.fins i hi)
    bad := sm.bad.trans h.bad }

/-! ## Freeing an object -/

theorem upGet_closed {s : G} {u : Nat} {v : Val} (h : s.up u = .closed v) : s.upGet u = v := by
  unfold G.upGet; rw [h]

theorem upGet_congr {s s' : G} {u : Nat} (h : s'.up u = s.up u) (ho : ∀ th sl t, s.up u = .opn th sl t → s'.obj th = s.obj th) :
    s'.upGet u = s.upGet u := by
  unfold G.upGet
  rw [h]
  cases hu : s.up u with
  | closed v => rfl
  | opn th sl t => dsimp only; rw [ho th sl t hu]

theorem closeAll_ok (us : List Nat) : ∀ s : G, ∃ f, closeAll us s = { s with up := f } ∧
    (∀ u, G.upGet { s with up := f } u = s.upGet u) ∧ (∀ u, f u = s.up u ∨ ∃ v, f u = .closed v) ∧
    (∀ u, u ∉ us → f u = s.up u) ∧ (∀ u ∈ us, ∃ v, f u = .closed v) := by
  induction us with
  | nil => exact fun s => ⟨s.up, rfl, fun _ => rfl, fun _ => .inl rfl, fun _ _ => rfl, fun _ h => nomatch h⟩
  | cons w us ih =>
    intro s
    obtain ⟨f, h1, h2, h3, h4, h5⟩ := ih (s.setUp w (.closed (s.upGet w)))
    have hw : ∀ u, (s.setUp w (.closed (s.upGet w))).up u = if u = w then .closed (s.upGet w) else s.up u := fun _ => rfl
    have hg : ∀ u, (s.setUp w (.closed (s.upGet w))).upGet u = s.upGet u := by
      intro u
      by_cases hu : u = w
      · subst hu
        exact upGet_closed (by rw [hw, if_pos rfl])
      · exact upGet_congr (by rw [hw, if_neg hu]) (fun _ _ _ _ => rfl)
    refine ⟨f, h1, fun u => (h2 u).trans (hg u), fun u => ?_, fun u hu => ?_, fun u hu => ?_⟩
    · rcases h3 u with h | h
      · rw [h, hw]
        split
        · exact .inr ⟨_, rfl⟩
        · exact .inl rfl
      · exact .inr h
    · rw [List.mem_cons, not_or] at hu
      rw [h4 u hu.2, hw, if_neg hu.1]
    · by_cases hm : u ∈ us
      · exact h5 u hm
      · rcases List.mem_cons.mp hu with rfl | hu
        · rw [h4 u hm, hw, if_pos rfl]; exact ⟨_, rfl⟩
        · exact absurd hu hm

/-- what sweeping a part `l` of a list leaves alone -/
structure Fr (l : List Id) (s s' : G) : Prop where
  phase : s'.phase = s.phase
  white : s'.white = s.white
  allgc : s'.allgc = s.allgc
  finobj : s'.finobj = s.finobj
  tobefnz : s'.tobefnz = s.tobefnz
  fixedgc : s'.fixedgc = s.fixedgc
  sweepgc : s'.sweepgc = s.sweepgc
  fin : s'.fin = s.fin
  oof : s'.oof = s.oof
  col : ∀ i, i ∉ l → s'.col i = s.col i
  obj : ∀ i, i ∉ l → s'.obj i = s.obj i

theorem Fr.refl (l : List Id) (s : G) : Fr l s s := ⟨rfl, rfl, rfl, rfl, rfl, rfl, rfl, rfl, rfl, fun _ _ => rfl, fun _ _ => rfl⟩

theorem Fr.trans {l m : List Id} {a b c : G} (h : Fr l a b) (h' : Fr m b c) : Fr (l ++ m) a c := by
  constructor
  · exact h'.phase.trans h.phase
  · exact h'.white.trans h.white
  · exact h'.allgc.trans h.allgc
  · exact h'.finobj.trans h.finobj
  · exact h'.tobefnz.trans h.tobefnz
  · exact h'.fixedgc.trans h.fixedgc
  · exact h'.sweepgc.trans h.sweepgc
  · exact h'.fin.trans h.fin
  · exact h'.oof.trans h.oof
  · intro i hi
    rw [List.mem_append, not_or] at hi
    exact (h'.col i hi.2).trans (h.col i hi.1)
  · intro i hi
    rw [List.mem_append, not_or] at hi
    exact (h'.obj i hi.2).trans (h.obj i hi.1)

theorem Fr.mono {l m : List Id} {s s' : G} (h : Fr l s s') (hm : ∀ i ∈ l, i ∈ m) : Fr m s s' :=
  ⟨h.phase, h.white, h.allgc, h.finobj, h.tobefnz, h.fixedgc, h.sweepgc, h.fin, h.oof,
   fun i hi => h.col i fun h => hi (hm i h), fun i hi => h.obj i fun h => hi (hm i h)⟩

theorem isDead_iff {s : G} {i : Id} : s.isDead i = true ↔ ¬ Live s i := by
  simp [G.isDead, Live]

/-- an object that stays becomes white -/
theorem whiten_core {s : G} {c : Id} (h : Core s) (hc : (s.obj c).isSome) (hl : Live s c) (hf : c ∉ s.fixedgc) (a : Age) :
    Core ((s.setCol c (.white s.white)).setAge c a) := by
  have hcol : ∀ i, ((s.setCol c (.white s.white)).setAge c a).col i = if i = c then .white s.white else s.col i := fun _ => rfl
  have hlive : ∀ i, Live ((s.setCol c (.white s.white)).setAge c a) i ↔ Live s i := by
    intro i
    unfold Live
    rw [hcol]
    show _ ≠ Color.white (!s.white) ↔ _
    by_cases hi : i = c
    · subst hi
      rw [if_pos rfl]
      have : (Color.white s.white) ≠ .white (!s.white) := by cases s.white <;> simp
      exact ⟨fun _ => hl, fun _ => this⟩
    · rw [if_neg hi]
  refine h.color (by constructor <;> rfl) rfl rfl rfl (fun i _ => (hlive i).mpr) (fun i o _ hi => .inl ((hlive i).mp hi)) ?_
  intro i hi
  rw [hcol, if_neg]
  rintro rfl
  exact hf hi

theorem free_core {s : G} {pre post : List Id} {c : Id} {o : Obj} (h : Core { s with allgc := pre ++ c :: post }) (ho : s.obj c = some o)
    (hd : ¬ Live s c) : Core { freeobj s c o with allgc := pre ++ post } ∧ Fr [c] s (freeobj s c o) := by
  obtain ⟨f, hf, hget, hfu, hfn, hfc⟩ : ∃ f, freeobj s c o = { s with up := f, obj := fun j => if j = c then none else s.obj j } ∧
      (∀ u, G.upGet { s with up := f } u = s.upGet u) ∧ (∀ u, f u = s.up u ∨ ∃ v, f u = .closed v) ∧
      (∀ u, u ∉ o.ups ∨ o.kind ≠ .thread → f u = s.up u) ∧ (o.kind = .thread → ∀ u ∈ o.ups, ∃ v, f u = .closed v) := by
    unfold freeobj
    by_cases hk : o.kind = .thread
    · rw [if_pos hk]
      obtain ⟨f, h1, h2, h3, h4, h5⟩ := closeAll_ok o.ups s
      rw [h1]
      exact ⟨f, rfl, h2, h3, fun u hu => h4 u (hu.elim id fun h => absurd hk h), fun _ => h5⟩
    · rw [if_neg hk]
      exact ⟨s.up, rfl, fun _ => rfl, fun _ => .inl rfl, fun _ _ => rfl, fun h => absurd h hk⟩
  rw [hf]
  have upt : ∀ u th sl t, s.up u = .opn th sl t → ∃ o, s.obj th = some o ∧ o.kind = .thread ∧ u ∈ o.ups := h.upt
  -- the open upvalues that are left
  have hopn : ∀ u th sl t, f u = .opn th sl t → s.up u = .opn th sl t ∧ th ≠ c := by
    intro u th sl t hu
    have h1 : s.up u = .opn th sl t := by
      rcases hfu u with h1 | ⟨v, h1⟩
      · rw [← h1]; exact hu
      · rw [h1] at hu; cases hu
    refine ⟨h1, ?_⟩
    rintro rfl
    obtain ⟨o', ho', hk, hm⟩ := upt u th sl t h1
    rw [ho] at ho'
    cases ho'
    obtain ⟨v, hv⟩ := hfc hk u hm
    rw [hv] at hu; cases hu
  have hget' : ∀ u, G.upGet { s with up := f, obj := fun j => if j = c then none else s.obj j, allgc := pre ++ post } u = s.upGet u := by
    intro u
    rw [← hget]
    unfold G.upGet
    dsimp only
    cases hu : f u with
    | closed v => rfl
    | opn th sl t =>
      dsimp only
      rw [if_neg (hopn u th sl t hu).2]
  have ok : ∀ i, Ok { s with allgc := pre ++ c :: post } i →
      Ok { s with up := f, obj := fun j => if j = c then none else s.obj j, allgc := pre ++ post } i := by
    intro i hi
    refine ⟨?_, hi.2⟩
    show (if i = c then none else s.obj i).isSome
    rw [if_neg]
    · exact hi.1
    · rintro rfl
      exact hd hi.2
  have nc : ∀ i oi, (if i = c then none else s.obj i) = some oi → i ≠ c ∧ s.obj i = some oi := by
    intro i oi hi
    by_cases hic : i = c
    · rw [if_pos hic] at hi; cases hi
    · rw [if_neg hic] at hi; exact ⟨hic, hi⟩
  have okc : ∀ i, Ok { s with allgc := pre ++ c :: post } i → i ≠ c := by
    rintro i hi rfl
    exact hd hi.2
  have thr : ∀ i, Ok { s with allgc := pre ++ c :: post } i → (∃ o, s.obj i = some o ∧ o.kind = .thread) →
      ∃ o, (if i = c then none else s.obj i) = some o ∧ o.kind = .thread := by
    intro i hi h1
    rw [if_neg (okc i hi)]
    exact h1
  have nd := h.nodup
  have nd' : (pre ++ c :: post ++ (s.finobj ++ (s.tobefnz ++ s.fixedgc))).Nodup := nd
  have hperm : (pre ++ c :: post ++ (s.finobj ++ (s.tobefnz ++ s.fixedgc))).Perm (c :: (pre ++ post ++ (s.finobj ++ (s.tobefnz ++ s.fixedgc)))) := by
    rw [← List.cons_append]
    exact List.Perm.append_right _ List.perm_middle
  have nd2 := (hperm.nodup_iff.mp nd')
  rw [List.nodup_cons] at nd2
  refine ⟨?_, ⟨rfl, rfl, rfl, rfl, rfl, rfl, rfl, rfl, rfl, fun _ _ => rfl, fun i hi => if_neg (by simpa using hi)⟩⟩
  exact {
    dom := fun i => by
      show (if i = c then none else s.obj i).isSome ↔ i ∈ pre ++ post ∨ i ∈ s.finobj ∨ i ∈ s.tobefnz ∨ i ∈ s.fixedgc
      by_cases hi : i = c
      · subst hi
        rw [if_pos rfl]
        have := nd2.1
        simp only [List.mem_append, not_or] at this
        simp only [List.mem_append]
        simp [this]
      · rw [if_neg hi]
        have := h.dom i
        simp only [List.mem_append, List.mem_cons, hi, false_or] at this ⊢
        exact this
    nodup := nd2.2
    fin := h.fin
    shapes := fun i oi hoi => by
      obtain ⟨hic, hoi⟩ := nc i oi hoi
      have sh := h.shapes i oi hoi
      refine ⟨sh.mt, sh.vals, sh.nodes, sh.ups, sh.cache, fun hk u hu => ?_⟩
      obtain ⟨sl, t, hup⟩ := sh.own hk u hu
      have hup : s.up u = .opn i sl t := hup
      refine ⟨sl, t, ?_⟩
      show f u = _
      rw [hfn u, hup]
      by_cases hkc : o.kind = .thread
      · left
        intro hm
        obtain ⟨sl', t', h'⟩ := (h.shapes c o ho).own hkc u hm
        have h' : s.up u = .opn c sl' t' := h'
        rw [hup] at h'
        cases h'
        exact hic rfl
      · exact .inr hkc
    fixed := fun i hi => by
      refine ⟨(h.fixed i hi).1, ?_⟩
      have hic : i ≠ c := by
        rintro rfl
        exact nd2.1 (by simp only [List.mem_append]; exact .inr (.inr (.inr hi)))
      show ∃ o, (if i = c then none else s.obj i) = some o ∧ _
      rw [if_neg hic]
      exact (h.fixed i hi).2
    main := thr _ (h.roots _ .main) h.main
    run := thr _ (h.roots _ .running) h.run
    upt := fun u th sl t hu => by
      obtain ⟨h1, h2⟩ := hopn u th sl t hu
      obtain ⟨o', ho', hk⟩ := upt u th sl t h1
      refine ⟨o', ?_, hk⟩
      show (if th = c then none else s.obj th) = _
      rw [if_neg h2]; exact ho'
    upnd := fun i oi hoi => h.upnd i oi (nc i oi hoi).2
    tw := fun u th sl t hu hl => h.tw u th sl t (hopn u th sl t hu).1 hl
    twe := fun th ht => ok th (h.twe th ht)
    closed := fun i oi hoi hl r hr => by
      refine ok r (h.closed i oi (nc i oi hoi).2 hl r ?_)
      cases hr with
      | mt h => exact .mt h
      | val h => exact .val h
      | key h h' => exact .key h h'
      | nval h h' => exact .nval h h'
      | up h h' => exact .up h (by rw [hget'] at h'; exact h')
      | cache h => exact .cache h
    roots := fun r hr => by
      refine ok r (h.roots r ?_)
      cases hr with
      | main => exact .main
      | running => exact .running
      | registry h => exact .registry h
      | mts h => exact .mts h
      | strcache h => exact .strcache h
      | fixed h => exact .fixed h
    fins := h.fins
    bad := h.bad }

theorem sweepOne_core {s : G} {pre post : List Id} {c : Id} (h : Core { s with allgc := pre ++ c :: post }) :
    Core { (sweepOne s c).2 with allgc := (if (sweepOne s c).1 then pre ++ [c] else pre) ++ post } ∧ Fr [c] s (sweepOne s c).2 ∧
    ((sweepOne s c).1 = true → (sweepOne s c).2.col c = .white s.white) := by
  have hs : (s.obj c).isSome := (h.dom c).mpr (.inl (by simp))
  obtain ⟨o, ho⟩ := Option.isSome_iff_exists.mp hs
  have hcf : c ∉ s.fixedgc := by
    intro hc
    have := h.nodup
    rw [List.nodup_append] at this
    exact this.2.2 c (by simp) c (by simp only [List.mem_append]; exact .inr (.inr hc)) rfl
  have e : sweepOne s c = if s.isDead c then (false, freeobj s c o) else (true, (s.setCol c (.white s.white)).setAge c .new) := by
    unfold sweepOne; rw [ho]
  generalize sweepOne s c = p at e ⊢
  by_cases hd : s.isDead c
  · rw [if_pos hd] at e
    subst e
    obtain ⟨h1, h2⟩ := free_core h ho (isDead_iff.mp hd)
    exact ⟨by simpa using h1, h2, fun h => nomatch h⟩
  · rw [if_neg hd] at e
    subst e
    have hl : Live s c := by
      by_contra hn
      exact hd (isDead_iff.mpr hn)
    refine ⟨?_, ⟨rfl, rfl, rfl, rfl, rfl, rfl, rfl, rfl, rfl, fun i hi => if_neg (by simpa using hi), fun _ _ => rfl⟩, fun _ => if_pos rfl⟩
    have := whiten_core h (c := c) hs hl hcf .new
    dsimp only
    rw [if_pos rfl, List.append_assoc]
    exact this

/-- a part of the list `allgc` has been swept -/
structure SwA (pre post : List Id) (s : G) (pre' post' : List Id) (s' : G) : Prop where
  core : Core { s' with allgc := pre' ++ post' }
  fr : Fr post s s'
  pre : ∃ l, pre' = pre ++ l ∧ (∀ i ∈ l, i ∈ post ∧ s'.col i = .white s.white)
  post : post' <:+ post

theorem SwA.refl {pre post : List Id} {s : G} (h : Core { s with allgc := pre ++ post }) : SwA pre post s pre post s :=
  ⟨h, .refl _ _, ⟨[], by simp, fun _ h => nomatch h⟩, List.suffix_refl _⟩

theorem nodup_post {s : G} {pre post : List Id} (h : Core { s with allgc := pre ++ post }) : (pre ++ post).Nodup :=
  (List.nodup_append.mp h.nodup).1

theorem SwA.cons {s s1 s' : G} {pre post pre' post' : List Id} {c : Id} (h : Core { s with allgc := pre ++ c :: post })
    (e : sweepOne s c = (true, s1) ∧ SwA (pre ++ [c]) post s1 pre' post' s' ∨ sweepOne s c = (false, s1) ∧ SwA pre post s1 pre' post' s') :
    SwA pre (c :: post) s pre' post' s' := by
  obtain ⟨_, h2, h3⟩ := sweepOne_core h
  have nd := nodup_post h
  have hcp : c ∉ post := by
    rw [List.nodup_append] at nd
    exact (List.nodup_cons.mp nd.2.1).1
  rcases e with ⟨e, h4⟩ | ⟨e, h4⟩ <;> rw [e] at h2 h3
  · have h2 : Fr [c] s s1 := h2
    have hw := h2.white
    refine ⟨h4.core, (h2.trans h4.fr).mono (by simp), ?_, h4.post.trans (List.suffix_cons c post)⟩
    obtain ⟨l, hl, hm⟩ := h4.pre
    refine ⟨c :: l, by rw [hl]; simp, fun i hi => ?_⟩
    rcases List.mem_cons.mp hi with rfl | hi
    · refine ⟨by simp, ?_⟩
      rw [h4.fr.col i hcp]
      exact h3 rfl
    · exact ⟨List.mem_cons_of_mem _ (hm i hi).1, by rw [(hm i hi).2, hw]⟩
  · have h2 : Fr [c] s s1 := h2
    have hw := h2.white
    refine ⟨h4.core, (h2.trans h4.fr).mono (by simp), ?_, h4.post.trans (List.suffix_cons c post)⟩
    obtain ⟨l, hl, hm⟩ := h4.pre
    exact ⟨l, hl, fun i hi => ⟨List.mem_cons_of_mem _ (hm i hi).1, by rw [(hm i hi).2, hw]⟩⟩

theorem sweeplist_all (n : Nat) : ∀ (pre post : List Id) (s : G), Core { s with allgc := pre ++ post } →
    SwA pre post s (sweeplist n pre post s).1 (sweeplist n pre post s).2.1 (sweeplist n pre post s).2.2 := by
  induction n with
  | zero => exact fun pre post s h => .refl h
  | succ n ih =>
    intro pre post s h
    cases post with
    | nil => exact .refl h
    | cons c post =>
      have h1 := (sweepOne_core h).1
      simp only [sweeplist]
      cases e : sweepOne s c with
      | mk k s1 =>
        rw [e] at h1
        dsimp only at h1 ⊢
        cases k with
        | true => exact SwA.cons h (.inl ⟨e, ih (pre ++ [c]) post s1 (by simpa using h1)⟩)
        | false => exact SwA.cons h (.inr ⟨e, ih pre post s1 (by simpa using h1)⟩)

theorem sweeptolive_all (post : List Id) : ∀ (pre : List Id) (s : G), Core { s with allgc := pre ++ post } →
    SwA pre post s (sweeptolive pre post s).1 (sweeptolive pre post s).2.1 (sweeptolive pre post s).2.2 ∧
    ((sweeptolive pre post s).1 = pre → (sweeptolive pre post s).2.1 = []) := by
  induction post with
  | nil => exact fun pre s h => ⟨.refl h, fun _ => rfl⟩
  | cons c post ih =>
    intro pre s h
    have h1 := (sweepOne_core h).1
    simp only [sweeptolive]
    cases e : sweepOne s c with
    | mk k s1 =>
      rw [e] at h1
      dsimp only at h1 ⊢
      cases k with
      | true => exact ⟨SwA.cons h (.inl ⟨e, .refl (by simpa using h1)⟩), by simp⟩
      | false =>
        obtain ⟨h2, h3⟩ := ih pre s1 (by simpa using h1)
        exact ⟨SwA.cons h (.inr ⟨e, h2⟩), h3⟩

/-! ## Lists without dead objects -/

theorem sweeplist_live (n : Nat) : ∀ (pre post : List Id) (s : G), Core s → (∀ i ∈ post, Ok s i ∧ i ∉ s.fixedgc) →
    Core (sweeplist n pre post s).2.2 ∧ Fr post s (sweeplist n pre post s).2.2 ∧
    (sweeplist n pre post s).1 ++ (sweeplist n pre post s).2.1 = pre ++ post ∧
    (∀ i, s.col i = .white s.white → (sweeplist n pre post s).2.2.col i = .white s.white) ∧
    (∀ i ∈ (sweeplist n pre post s).1, i ∈ pre ∨ (sweeplist n pre post s).2.2.col i = .white s.white) := by
  induction n with
  | zero => exact fun pre post s h _ => ⟨h, .refl _ _, rfl, fun _ h => h, fun _ h => .inl h⟩
  | succ n ih =>
    intro pre post s h hl
    cases post with
    | nil => exact ⟨h, .refl _ _, rfl, fun _ h => h, fun _ h => .inl h⟩
    | cons c post =>
      obtain ⟨⟨hs, hlc⟩, hcf⟩ := hl c (by simp)
      obtain ⟨o, ho⟩ := Option.isSome_iff_exists.mp hs
      have hd : s.isDead c = false := by
        rw [← Bool.not_eq_true, isDead_iff, not_not]; exact hlc
      have e : sweepOne s c = (true, (s.setCol c (.white s.white)).setAge c .new) := by
        unfold sweepOne
        rw [ho, hd]
        rfl
      simp only [sweeplist, e, if_true]
      have h1 := whiten_core h hs hlc hcf .new
      have fr1 : Fr [c] s ((s.setCol c (.white s.white)).setAge c .new) :=
        ⟨rfl, rfl, rfl, rfl, rfl, rfl, rfl, rfl, rfl, fun i hi => if_neg (by simpa using hi), fun _ _ => rfl⟩
      have hc1 : ((s.setCol c (.white s.white)).setAge c .new).col c = .white s.white := if_pos rfl
      generalize (s.setCol c (.white s.white)).setAge c .new = s1 at h1 fr1 hc1 ⊢
      have keepW : ∀ i, s.col i = .white s.white → s1.col i = .white s1.white := by
        intro i hi
        rw [fr1.white]
        by_cases hic : i = c
        · rw [hic]; exact hc1
        · rw [fr1.col i (by simpa using hic)]; exact hi
      obtain ⟨g1, g2, g3, g4, g5⟩ := ih (pre ++ [c]) post s1 h1 (by
        intro i hi
        obtain ⟨⟨hsi, hli⟩, hfi⟩ := hl i (by simp [hi])
        refine ⟨⟨?_, ?_⟩, by rw [fr1.fixedgc]; exact hfi⟩
        · exact (h1.dom i).mpr (by rw [fr1.allgc, fr1.finobj, fr1.tobefnz, fr1.fixedgc]; exact (h.dom i).mp hsi)
        · unfold Live
          rw [fr1.white]
          by_cases hic : i = c
          · rw [hic, hc1]; cases s.white <;> simp
          · rw [fr1.col i (by simpa using hic)]; exact hli)
      rw [fr1.white] at g4 g5
      refine ⟨g1, (fr1.trans g2).mono (by simp), by rw [g3]; simp, fun i hi => g4 i (by rw [keepW i hi, fr1.white]), ?_⟩
      intro i hi
      rcases g5 i hi with h | h
      · rcases List.mem_append.mp h with h | h
        · exact .inl h
        · rw [List.mem_singleton] at h
          subst h
          exact .inr (g4 i hc1)
      · exact .inr h

/-! ## The pointer into the list -/

theorem split_append (p : Ptr) (l : List Id) : (split p l).1 ++ (split p l).2 = l := by
  cases p with
  | null => simp [split]
  | head => simp [split]
  | after i =>
    induction l with
    | nil => simp [split]
    | cons c l ih =>
      simp only [split]
      split
      · simp
      · simpa using ih

theorem split_mkPtr {pre post : List Id} (h : (pre ++ post).Nodup) : split (mkPtr pre post) (pre ++ post) = (pre, post) := by
  unfold mkPtr
  by_cases hp : post = []
  · rw [if_pos hp, hp]; simp [split]
  · rw [if_neg hp]
    cases hl : pre.getLast? with
    | none =>
      rw [List.getLast?_eq_none_iff] at hl
      subst hl
      simp [split]
    | some i =>
      dsimp only
      obtain ⟨init, rfl⟩ := List.getLast?_eq_some_iff.mp hl
      have hni : i ∉ init := by
        have := (List.nodup_append.mp h).1
        rw [List.nodup_append] at this
        exact fun hi => this.2.2 i hi i (by simp) rfl
      clear h hl
      induction init with
      | nil => simp [split]
      | cons c init ih =>
        rw [List.mem_cons, not_or] at hni
        simp only [List.cons_append, split]
        rw [if_neg (Ne.symm hni.1)]
        have := ih hni.2
        rw [List.append_assoc] at this ⊢
        rw [this]

theorem mkPtr_after {pre post : List Id} {i : Id} (h : mkPtr pre post = .after i) : i ∈ pre := by
  unfold mkPtr at h
  split at h
  · cases h
  · cases hl : pre.getLast? with
    | none => rw [hl] at h; cases h
    | some j =>
      rw [hl] at h
      cases h
      exact List.mem_of_getLast? hl

/-! ## Steps -/

theorem entersweep_inv {s : G} (h : Core s) : Inv (entersweep s) ∧ (entersweep s).oof = s.oof := by
  have h0 : Core { { s with phase := .swpallgc } with allgc := [] ++ s.allgc } :=
    h.color (by constructor <;> rfl) rfl rfl rfl (fun _ _ h => h) (fun _ _ _ h => .inl h) (fun _ _ => rfl)
  obtain ⟨h1, _⟩ := sweeptolive_all s.allgc [] _ h0
  unfold entersweep
  have hw : ({ s with phase := Phase.swpallgc } : G).white = s.white := rfl
  have ho : ({ s with phase := Phase.swpallgc } : G).oof = s.oof := rfl
  have hph : ({ s with phase := Phase.swpallgc } : G).phase = .swpallgc := rfl
  generalize ({ s with phase := Phase.swpallgc } : G) = s0 at h1 hw ho hph ⊢
  generalize sweeptolive [] s.allgc s0 = p at h1 ⊢
  obtain ⟨pre, post, s1⟩ := p
  dsimp only at h1 ⊢
  have hp1 : s1.phase = .swpallgc := h1.fr.phase.trans hph
  have nd := nodup_post h1.core
  refine ⟨⟨?_, ?_, ?_, ?_⟩, ?_⟩
  · exact h1.core.color (by constructor <;> rfl) rfl rfl rfl (fun _ _ h => h) (fun _ _ _ h => .inl h) (fun _ _ => rfl)
  · rw [hp1]; simp
  · intro hk
    simp [G.keepinvariant, hp1] at hk
  · intro _
    constructor
    · intro i hi
      unfold swept at hi
      dsimp only at hi
      rw [hp1] at hi
      dsimp only at hi
      rw [split_mkPtr nd] at hi
      obtain ⟨l, hl, hm⟩ := h1.pre
      have hi : i ∈ pre := hi
      rw [hl] at hi
      show s1.col i = .white s1.white
      rw [h1.fr.white]
      exact (hm i (by simpa using hi)).2
    · intro _ i hi
      unfold curList
      dsimp only
      rw [hp1]
      exact List.mem_append_left _ (mkPtr_after hi)
  · exact h1.fr.oof.trans ho

theorem not_fixed {s : G} (h : Core s) {i : Id} (hi : i ∈ s.allgc ∨ i ∈ s.finobj ∨ i ∈ s.tobefnz) : i ∉ s.fixedgc := by
  intro hf
  have nd := h.nodup
  rw [List.nodup_append, List.nodup_append, List.nodup_append] at nd
  rcases hi with hi | hi | hi
  · exact nd.2.2 i hi i (by simp [hf]) rfl
  · exact nd.2.1.2.2 i hi i (by simp [hf]) rfl
  · exact nd.2.1.2.1.2.2 i hi i hf rfl

/-- the phases in which the lists are swept -/
theorem sweepstep_inv {s : G} (h : Inv s) {next : Phase} {p : Ptr}
    (hp : (s.phase = .swpallgc ∧ next = .swpfinobj ∧ p = .head) ∨ (s.phase = .swpfinobj ∧ next = .swptobefnz ∧ p = .head) ∨
      (s.phase = .swptobefnz ∧ next = .swpend ∧ p = .null)) : Inv (sweepstep s next p) ∧ (sweepstep s next p).oof = s.oof := by
  have hk : s.keepinvariant = false := by
    rcases hp with hp | hp | hp <;> simp [G.keepinvariant, hp.1]
  have hsw := h.sweep hk
  unfold sweepstep
  by_cases hn : s.sweepgc = .null
  · rw [if_pos hn]
    refine ⟨⟨?_, ?_, ?_, fun _ => ⟨?_, ?_⟩⟩, rfl⟩
    · exact h.core.color (by constructor <;> rfl) rfl rfl rfl (fun _ _ h => h) (fun _ _ _ h => .inl h) (fun _ _ => rfl)
    · rcases hp with hp | hp | hp <;> rw [hp.2.1] <;> simp
    · intro hk'
      rcases hp with hp | hp | hp <;> simp [G.keepinvariant, hp.2.1] at hk'
    · intro i hi
      refine hsw.swept i ?_
      rcases hp with ⟨hp, rfl, rfl⟩ | ⟨hp, rfl, rfl⟩ | ⟨hp, rfl, rfl⟩ <;> simp only [swept, hp, hn, split] at hi ⊢ <;> simpa using hi
    · intro _ i hi
      rcases hp with ⟨hp, rfl, rfl⟩ | ⟨hp, rfl, rfl⟩ | ⟨hp, rfl, rfl⟩ <;> cases hi
  · rw [if_neg hn]
    have hsp := split_append s.sweepgc (curList s)
    rcases hp with hp | hp | hp
    · have hcl : curList s = s.allgc := by simp [curList, hp.1]
      have hswe : ∀ i ∈ (split s.sweepgc s.allgc).1, s.col i = .white s.white := fun i hi => hsw.swept i (by simp only [swept, hp.1]; exact hi)
      rw [hcl] at hsp ⊢
      generalize split s.sweepgc s.allgc = q at hsp hswe ⊢
      obtain ⟨pre, post⟩ := q
      dsimp only at hsp hswe ⊢
      have h0 : Core { s with allgc := pre ++ post } := by rw [hsp]; exact h.core
      have h1 := sweeplist_all 100 pre post s h0
      have nd0 := nodup_post h0
      generalize sweeplist 100 pre post s = r at h1 ⊢
      obtain ⟨pre', post', s1⟩ := r
      dsimp only at h1 ⊢
      have hp1 : s1.phase = .swpallgc := h1.fr.phase.trans hp.1
      have nd := nodup_post h1.core
      have e : setCurList s1 (pre' ++ post') = { s1 with allgc := pre' ++ post' } := by simp [setCurList, hp1]
      rw [e]
      refine ⟨⟨?_, ?_, ?_, fun _ => ⟨?_, ?_⟩⟩, h1.fr.oof⟩
      · exact h1.core.color (by constructor <;> rfl) rfl rfl rfl (fun _ _ h => h) (fun _ _ _ h => .inl h) (fun _ _ => rfl)
      · show s1.phase ≠ _; rw [hp1]; simp
      · intro hk'; simp [G.keepinvariant, hp1] at hk'
      · intro i hi
        unfold swept at hi
        dsimp only at hi
        rw [hp1] at hi
        dsimp only at hi
        rw [split_mkPtr nd] at hi
        have hi : i ∈ pre' := hi
        obtain ⟨l, hl, hm⟩ := h1.pre
        rw [hl] at hi
        show s1.col i = .white s1.white
        rw [h1.fr.white]
        rcases List.mem_append.mp hi with hi | hi
        · rw [h1.fr.col i fun hq => (List.nodup_append.mp nd0).2.2 i hi i hq rfl]
          exact hswe i hi
        · exact (hm i hi).2
      · intro _ i hi
        unfold curList
        dsimp only
        rw [hp1]
        exact List.mem_append_left _ (mkPtr_after hi)
    · have hcl : curList s = s.finobj := by simp [curList, hp.1]
      have hswe : ∀ i, i ∈ s.allgc ∨ i ∈ (split s.sweepgc s.finobj).1 → s.col i = .white s.white := fun i hi =>
        hsw.swept i (by simp only [swept, hp.1, List.mem_append]; exact hi)
      rw [hcl] at hsp ⊢
      generalize split s.sweepgc s.finobj = q at hsp hswe ⊢
      obtain ⟨pre, post⟩ := q
      dsimp only at hsp hswe ⊢
      have hmem : ∀ i ∈ post, i ∈ s.finobj := fun i hi => by rw [← hsp]; exact List.mem_append_right _ hi
      obtain ⟨g1, g2, g3, g4, g5⟩ := sweeplist_live 100 pre post s h.core (fun i hi =>
        ⟨⟨(h.core.dom i).mpr (.inr (.inl (hmem i hi))), h.core.fins i (.inl (hmem i hi))⟩, not_fixed h.core (.inr (.inl (hmem i hi)))⟩)
      generalize sweeplist 100 pre post s = r at g1 g2 g3 g4 g5 ⊢
      obtain ⟨pre', post', s1⟩ := r
      dsimp only at g1 g2 g3 g4 g5 ⊢
      have hp1 : s1.phase = .swpfinobj := g2.phase.trans hp.1
      rw [hsp] at g3
      have e : setCurList s1 (pre' ++ post') = s1 := by
        rw [g3, ← g2.finobj]
        unfold setCurList
        split
        · next h => rw [hp1] at h; cases h
        · rfl
        · next h => exact absurd hp1 h
      rw [e]
      have nd : (pre' ++ post').Nodup := by
        rw [g3]
        have := h.core.nodup
        rw [List.nodup_append, List.nodup_append] at this
        exact this.2.1.1
      have hfo : s1.finobj = pre' ++ post' := g2.finobj.trans g3.symm
      refine ⟨⟨?_, ?_, ?_, fun _ => ⟨?_, ?_⟩⟩, g2.oof⟩
      · exact g1.color (by constructor <;> rfl) rfl rfl rfl (fun _ _ h => h) (fun _ _ _ h => .inl h) (fun _ _ => rfl)
      · show s1.phase ≠ _; rw [hp1]; simp
      · intro hk'; simp [G.keepinvariant, hp1] at hk'
      · intro i hi
        unfold swept at hi
        dsimp only at hi
        rw [hp1] at hi
        dsimp only at hi
        rw [hfo, split_mkPtr nd, g2.allgc] at hi
        show s1.col i = .white s1.white
        rw [g2.white]
        rcases List.mem_append.mp hi with hi | hi
        · exact g4 i (hswe i (.inl hi))
        · rcases g5 i hi with h | h
          · exact g4 i (hswe i (.inr h))
          · exact h
      · intro _ i hi
        unfold curList
        dsimp only
        rw [hp1]
        show i ∈ s1.finobj
        rw [hfo]
        exact List.mem_append_left _ (mkPtr_after hi)
    · have hcl : curList s = s.tobefnz := by simp [curList, hp.1]
      have hswe : ∀ i, (i ∈ s.allgc ∨ i ∈ s.finobj) ∨ i ∈ (split s.sweepgc s.tobefnz).1 → s.col i = .white s.white := fun i hi =>
        hsw.swept i (by simp only [swept, hp.1, List.mem_append]; exact hi)
      rw [hcl] at hsp ⊢
      generalize split s.sweepgc s.tobefnz = q at hsp hswe ⊢
      obtain ⟨pre, post⟩ := q
      dsimp only at hsp hswe ⊢
      have hmem : ∀ i ∈ post, i ∈ s.tobefnz := fun i hi => by rw [← hsp]; exact List.mem_append_right _ hi
      obtain ⟨g1, g2, g3, g4, g5⟩ := sweeplist_live 100 pre post s h.core (fun i hi =>
        ⟨⟨(h.core.dom i).mpr (.inr (.inr (.inl (hmem i hi)))), h.core.fins i (.inr (hmem i hi))⟩, not_fixed h.core (.inr (.inr (hmem i hi)))⟩)
      generalize sweeplist 100 pre post s = r at g1 g2 g3 g4 g5 ⊢
      obtain ⟨pre', post', s1⟩ := r
      dsimp only at g1 g2 g3 g4 g5 ⊢
      have hp1 : s1.phase = .swptobefnz := g2.phase.trans hp.1
      rw [hsp] at g3
      have e : setCurList s1 (pre' ++ post') = s1 := by
        rw [g3, ← g2.tobefnz]
        unfold setCurList
        split
        · next h => rw [hp1] at h; cases h
        · next h => rw [hp1] at h; cases h
        · rfl
      rw [e]
      have nd : (pre' ++ post').Nodup := by
        rw [g3]
        have := h.core.nodup
        rw [List.nodup_append, List.nodup_append, List.nodup_append] at this
        exact this.2.1.2.1.1
      have hfo : s1.tobefnz = pre' ++ post' := g2.tobefnz.trans g3.symm
      refine ⟨⟨?_, ?_, ?_, fun _ => ⟨?_, ?_⟩⟩, g2.oof⟩
      · exact g1.color (by constructor <;> rfl) rfl rfl rfl (fun _ _ h => h) (fun _ _ _ h => .inl h) (fun _ _ => rfl)
      · show s1.phase ≠ _; rw [hp1]; simp
      · intro hk'; simp [G.keepinvariant, hp1] at hk'
      · intro i hi
        unfold swept at hi
        dsimp only at hi
        rw [hp1] at hi
        dsimp only at hi
        rw [hfo, split_mkPtr nd, g2.allgc, g2.finobj] at hi
        show s1.col i = .white s1.white
        rw [g2.white]
        rcases List.mem_append.mp hi with hi | hi
        · exact g4 i (hswe i (.inl (List.mem_append.mp hi)))
        · rcases g5 i hi with h | h
          · exact g4 i (hswe i (.inr h))
          · exact h
      · intro _ i hi
        unfold curList
        dsimp only
        rw [hp1]
        show i ∈ s1.tobefnz
        rw [hfo]
        exact List.mem_append_left _ (mkPtr_after hi)

/-- marking does not touch the rest -/
theorem MExt.same {s s' : G} (h : MExt s s') : Same s s' := by
  obtain ⟨_, _, _, rfl⟩ := h.eq
  constructor <;> rfl

theorem MExt.live {s s' : G} (h : MExt s s') {i : Id} (hi : Live s i) : Live s' i := by
  by_cases hn : NW s' i
  · exact hn.live
  · unfold Live
    rw [h.white i hn, h.same.white]; exact hi

theorem Core.mext {s s' : G} (hc : Core s) (h : MExt s s') (hl : ∀ i, (s.obj i).isSome → Live s i) : Core s' :=
  hc.color h.same h.obj h.up h.twups (fun _ _ hi => h.live hi) (fun i _ ho _ => .inl (hl i (by rw [ho]; rfl)))
    (fun i hi => h.keep i (NW_of_ne_white (.inr (hc.fixed i hi).1)))

theorem Core.le {s s' : G} (hc : Core s) (hl : ∀ i, (s.obj i).isSome → Live s i) (le : Le s s') :
    Core s' ∧ ∀ i, (s'.obj i).isSome → Live s' i := by
  have sm := le.same
  have some' : ∀ i, (s'.obj i).isSome ↔ (s.obj i).isSome := by
    intro i
    constructor
    · intro h
      obtain ⟨o', h'⟩ := Option.isSome_iff_exists.mp h
      obtain ⟨o, ho, _⟩ := le.obj' h'
      rw [ho]; rfl
    · exact le.isSome
  have live : ∀ i, (s'.obj i).isSome → Live s' i := by
    intro i hi
    by_cases hn : NW s' i
    · exact hn.live
    · unfold Live
      rw [le.wh i hn, sm.white]
      exact hl i ((some' i).mp hi)
  have ok : ∀ i, (s.obj i).isSome → Ok s' i := fun i hi => ⟨(some' i).mpr hi, live i ((some' i).mpr hi)⟩
  have kd : ∀ i k, (∃ o, s.obj i = some o ∧ o.kind = k) → ∃ o, s'.obj i = some o ∧ o.kind = k := by
    rintro i k ⟨o, h0, hk⟩
    obtain ⟨o4, h4, hs⟩ := le.objs i o h0
    exact ⟨o4, h4, by rw [hs.kind]; exact hk⟩
  refine ⟨?_, live⟩
  exact {
    dom := fun i => by rw [some', sm.allgc, sm.finobj, sm.tobefnz, sm.fixedgc]; exact hc.dom i
    nodup := by rw [sm.allgc, sm.finobj, sm.tobefnz, sm.fixedgc]; exact hc.nodup
    fin := by rw [sm.finobj, sm.tobefnz, sm.fin]; exact hc.fin
    shapes := hc.shapes.le le.toLe0
    fixed := fun i hi => by
      rw [sm.fixedgc] at hi
      exact ⟨le.fixd i hi (hc.fixed i hi).1, kd i _ (hc.fixed i hi).2⟩
    main := by rw [sm.main]; exact kd _ _ hc.main
    run := by rw [sm.running]; exact kd _ _ hc.run
    upt := hc.upt.le le.toLe0
    upnd := fun i o4 h4 hk => by
      obtain ⟨o, h0, hs⟩ := le.obj' h4
      rw [hs.ups]
      exact hc.upnd i o h0 (hs.kind ▸ hk)
    tw := fun u th sl t hup hli => by
      cases h1 : s.up u with
      | closed v => rw [le.upc u v h1] at hup; cases hup
      | opn th' sl' t' =>
        obtain ⟨t'', h2⟩ := le.upo u th' sl' t' h1
        rw [hup] at h2
        cases h2
        obtain ⟨o, ho, _⟩ := hc.upt u th sl t' h1
        exact le.tw th (hc.tw u th sl t' h1 (hl th (by rw [ho]; rfl)))
    twe := fun th ht => by
      rcases le.tws th ht with h | h
      · exact ok th (hc.twe th h).1
      · exact ok th h.1
    closed := fun i o hoi _ r hr => by
      have := le.full (hc.full hl) i o hoi r hr
      exact ⟨this, live r this⟩
    roots := fun r hr => by
      refine ok r (hc.roots r ?_).1
      cases hr with
      | main => rw [sm.main]; exact .main
      | running => rw [sm.running]; exact .running
      | registry h => exact .registry (sm.registry ▸ h)
      | mts h => exact .mts (sm.mts ▸ h)
      | strcache h => exact .strcache (sm.strcache ▸ h)
      | fixed h => exact .fixed (sm.fixedgc ▸ h)
    fins := fun i hi => by
      rw [sm.finobj, sm.tobefnz] at hi
      exact (ok i ((hc.dom i).mpr (by tauto))).2
    bad := sm.bad.trans hc.bad }

theorem Core.phase {s : G} (hc : Core s) (p : Phase) : Core { s with phase := p } :=
  hc.color (by constructor <;> rfl) rfl rfl rfl (fun _ _ h => h) (fun _ _ _ h => .inl h) (fun _ _ => rfl)

theorem MarkInv.phase {ex : List Id} {s : G} (hm : MarkInv ex s) (p : Phase) : MarkInv ex { s with phase := p } :=
  ⟨hm.live, ⟨hm.j.blk, hm.j.gry⟩, ⟨hm.l.lst, hm.l.lstw, hm.l.prop, hm.l.fix⟩, hm.main⟩

theorem restart_inv (n : Nat) {s : G} (h : Inv s) (hp : s.phase = .pause) (ho : (restartcollection n s).oof = false) :
    Core (restartcollection n s) ∧ MarkInv [] (restartcollection n s) := by
  have hsw := h.sweep (by simp [G.keepinvariant, hp])
  have hw : ∀ i, (s.obj i).isSome → s.col i = .white s.white ∨ (i ∈ s.fixedgc ∧ s.col i = .gray) := by
    intro i hi
    have hsw' : ∀ j, j ∈ s.allgc ∨ j ∈ s.finobj ∨ j ∈ s.tobefnz → s.col j = .white s.white := fun j hj =>
      hsw.swept j (by simp only [swept, hp, List.mem_append]; tauto)
    rcases (h.core.dom i).mp hi with h1 | h1 | h1 | h1
    · exact .inl (hsw' i (.inl h1))
    · exact .inl (hsw' i (.inr (.inl h1)))
    · exact .inl (hsw' i (.inr (.inr h1)))
    · exact .inr ⟨h1, (h.core.fixed i h1).1⟩
  have c0 : Core (cleargraylists s) :=
    h.core.color (by constructor <;> rfl) rfl rfl rfl (fun _ _ h => h) (fun _ _ _ h => .inl h) (fun _ _ => rfl)
  have live0 : ∀ i, ((cleargraylists s).obj i).isSome → Live (cleargraylists s) i := by
    intro i hi
    show s.col i ≠ .white (!s.white)
    rcases hw i hi with h1 | ⟨_, h1⟩ <;> rw [h1]
    · cases s.white <;> simp
    · simp
  have j0 : J .prop [] [] (cleargraylists s) := by
    constructor
    · intro i o hoi hc
      have hc : s.col i = .black := hc
      rcases hw i (by rw [show s.obj i = some o from hoi]; rfl) with h1 | ⟨_, h1⟩ <;> rw [hc] at h1 <;> cases h1
    · intro i o hoi hc
      have hc : s.col i = .gray := hc
      rcases hw i (by rw [show s.obj i = some o from hoi]; rfl) with h1 | ⟨h1, _⟩
      · rw [hc] at h1; cases h1
      · exact .inl h1
  have l0 : L .prop [] (cleargraylists s) := {
    lst := fun i hi => by
      rcases hi with hi | hi | hi
      · exact nomatch hi
      · exact nomatch hi.2
      · exact nomatch hi
    lstw := fun i hi => by
      rcases hi with hi | hi | hi <;> exact nomatch hi
    prop := fun _ => ⟨rfl, rfl⟩
    fix := fun i hi => (h.core.fixed i hi).2 }
  have full0 := c0.full live0
  unfold restartcollection at ho ⊢
  dsimp only at ho ⊢
  generalize cleargraylists s = s0 at c0 live0 j0 l0 full0 ho ⊢
  obtain ⟨a1, b1⟩ := markobject_ok n full0 (c0.roots _ .main).1
  generalize markobject n s0 s0.main = s1 at a1 b1 ho ⊢
  obtain ⟨a2, b2⟩ := markvalue_ok n (s := s1) (v := s1.registry) (a1.full full0) (fun r hr =>
    a1.le.isSome (c0.roots r (.registry (a1.registry ▸ hr))).1)
  generalize markvalue n s1 s1.registry = s2 at a2 b2 ho ⊢
  have a12 := a1.trans a2
  obtain ⟨a3, _⟩ := foldMark_ok' n (s := s2) (vs := s2.mts) (a12.full full0) (fun r hr => a12.le.isSome (c0.roots r (.mts (a12.mts ▸ hr))).1)
  unfold markmt at ho ⊢
  generalize foldMark (markobject n) s2.mts s2 = s3 at a3 ho ⊢
  have a13 := a12.trans a3
  obtain ⟨a4, _⟩ := foldMark_ok' n (s := s3) (vs := s3.tobefnz.map .ref) (a13.full full0) (fun r hr => by
    obtain ⟨i, hi, he⟩ := List.mem_map.mp hr
    cases he
    exact a13.le.isSome ((c0.dom r).mpr (.inr (.inr (.inl (a13.same.tobefnz ▸ hi))))))
  unfold markbeingfnz at ho ⊢
  generalize foldMark (markobject n) (s3.tobefnz.map .ref) s3 = s4 at a4 ho ⊢
  have a14 := a13.trans a4
  have cs : CStep .prop [] [] s0 s4 := a14.cstep
  refine ⟨c0.mext a14 live0, fun i hi => a14.live (live0 i (by rw [← a14.obj]; exact hi)), cs.j ho j0, cs.l l0, ?_⟩
  rw [a14.same.main]
  exact ((a2.trans a3).trans a4).mono (b1 (((a2.trans a3).trans a4).oof ho))

/-- sweeping does not need the bound -/
theorem entersweep_oof (s : G) : (entersweep s).oof = s.oof := by
  unfold entersweep
  have key : ∀ (post pre : List Id) (t : G), (sweeptolive pre post t).2.2.oof = t.oof := by
    intro post
    induction post with
    | nil => exact fun _ _ => rfl
    | cons c post ih =>
      intro pre t
      simp only [sweeptolive]
      have h1 : (sweepOne t c).2.oof = t.oof := by
        unfold sweepOne
        cases t.obj c with
        | none => rfl
        | some o =>
          dsimp only
          split
          · unfold freeobj
            dsimp only
            split
            · obtain ⟨f, h, _⟩ := closeAll_ok o.ups t
              rw [h]; rfl
            · rfl
          · rfl
      split
      · exact h1
      · rw [ih, h1]
  exact key _ _ _

theorem singlestep_inv (n : Nat) {s : G} (h : Inv s) (ho : (singlestep n s).oof = false) : Inv (singlestep n s) := by
  unfold singlestep at ho ⊢
  cases hp : s.phase with
  | pause =>
    rw [hp] at ho
    obtain ⟨h1, h2⟩ := restart_inv n h hp ho
    exact ⟨h1.phase _, by simp, fun _ => h2.phase _, fun h => by simp [G.keepinvariant] at h⟩
  | propagate =>
    rw [hp] at ho
    have hm := h.mark (by simp [G.keepinvariant, hp])
    dsimp only at ho ⊢
    by_cases hg : s.gray = []
    · rw [if_pos hg]
      exact ⟨h.core.phase _, by simp, fun _ => hm.phase _, fun h => by simp [G.keepinvariant] at h⟩
    · rw [if_neg hg] at ho ⊢
      have cs : CStep .prop [] [] s (propagatemark n s) := propagatemark_ok n (h.core.full hm.live) hm.l (.inl ⟨rfl, hp⟩) hg
      generalize propagatemark n s = s1 at cs ho ⊢
      obtain ⟨h1, h2⟩ := h.core.le hm.live cs.le
      have hp1 := cs.le.phase.trans hp
      refine ⟨h1, by rw [hp1]; simp, fun _ => ⟨h2, cs.j ho hm.j, cs.l hm.l, ?_⟩, fun h => by simp [G.keepinvariant, hp1] at h⟩
      rw [cs.le.same.main]
      exact cs.le.nw _ hm.main
  | enteratomic =>
    rw [hp] at ho
    dsimp only at ho ⊢
    have hm := h.mark (by simp [G.keepinvariant, hp])
    have hoo := entersweep_oof (atomic n s)
    exact (entersweep_inv (atomic_core n h.core hm (hoo ▸ ho))).1
  | atomic => exact absurd hp h.phase
  | swpallgc => exact (sweepstep_inv h (.inl ⟨hp, rfl, rfl⟩)).1
  | swpfinobj => exact (sweepstep_inv h (.inr (.inl ⟨hp, rfl, rfl⟩))).1
  | swptobefnz => exact (sweepstep_inv h (.inr (.inr ⟨hp, rfl, rfl⟩))).1
  | swpend =>
    have hsw := h.sweep (by simp [G.keepinvariant, hp])
    refine ⟨h.core.phase _, by simp, fun h => by simp [G.keepinvariant] at h, fun _ => ⟨fun i hi => hsw.swept i ?_, fun h => ?_⟩⟩
    · simp only [swept, hp] at hi ⊢; exact hi
    · simp [G.issweepphase] at h
  | callfin =>
    have hsw := h.sweep (by simp [G.keepinvariant, hp])
    refine ⟨h.core.phase _, by simp, fun h => by simp [G.keepinvariant] at h, fun _ => ⟨fun i hi => hsw.swept i ?_, fun h => ?_⟩⟩
    · simp only [swept, hp] at hi ⊢; exact hi
    · simp [G.issweepphase] at h

end Verif.GC
