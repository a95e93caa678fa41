import Verif.GC.Frame

/-!
# Strong references, and that the collector keeps them
-/
namespace Verif.GC

/-- Table `i` has weak references: its metatable says so, or said so when the collector visited it in this cycle (changes of `__mode`
count from the next cycle on). -/
def WeakT (s : G) (i : Id) (o : Obj) : Prop :=
  (∃ m t, o.mt = some m ∧ s.obj m = some t ∧ (t.wk = true ∨ t.wv = true)) ∨ (s.keepinvariant = true ∧ i ∈ s.allweak)

/-- The value of an upvalue: its own, or in a slot in use of a stack. -/
def UpIs (s : G) (u : Nat) (v : Val) : Prop :=
  s.up u = .closed v ∨ ∃ th sl t o, s.up u = .opn th sl t ∧ s.obj th = some o ∧ (o.vals.take o.top)[sl]? = some v

/-- Strong references of an object. -/
inductive SRef (s : G) (i : Id) (o : Obj) : Id → Prop
  | mt {r} : o.kind = .table ∨ o.kind = .udata ∨ o.kind = .arr → o.mt = some r → SRef s i o r
  | val {r} : o.kind ≠ .thread → ¬ (o.kind = .table ∧ WeakT s i o) → .ref r ∈ o.vals → SRef s i o r
  | stack {r} : o.kind = .thread → .ref r ∈ o.vals.take o.top → SRef s i o r
  | key {x r} : o.kind = .table → ¬ WeakT s i o → x ∈ o.nodes → x.val ≠ .nil → x.key = .ref r → SRef s i o r
  | nval {x r} : o.kind = .table → ¬ WeakT s i o → x ∈ o.nodes → x.val = .ref r → SRef s i o r
  | up {u r} : o.kind = .lcl → u ∈ o.ups → UpIs s u (.ref r) → SRef s i o r

/-- The roots that keep objects alive (the string cache does not). -/
inductive SRoot (s : G) : Id → Prop
  | main : SRoot s s.main
  | running : SRoot s s.running
  | registry {r} : s.registry = .ref r → SRoot s r
  | mts {r} : Val.ref r ∈ s.mts → SRoot s r
  | fixed {r} : r ∈ s.fixedgc → SRoot s r

/-- Objects that can be reached through strong references. -/
inductive SReach (s : G) : Id → Prop
  | root {r} : SRoot s r → SReach s r
  | step {i o r} : SReach s i → s.obj i = some o → SRef s i o r → SReach s r

theorem UpIs.get {s : G} {u : Nat} {v : Val} (h : UpIs s u v) : s.upGet u = v := by
  unfold G.upGet
  rcases h with h | ⟨th, sl, t, o, h1, h2, h3⟩
  · rw [h]
  · rw [h1]
    dsimp only
    rw [h2]
    dsimp only
    rw [List.getElem?_take] at h3
    split at h3
    · rw [List.getD_eq_getElem?_getD, h3]; rfl
    · cases h3

theorem SReach.acc {s : G} {i : Id} (h : SReach s i) : Acc s i := by
  induction h with
  | root h =>
    refine .root ?_
    cases h with
    | main => exact .main
    | running => exact .running
    | registry h => exact .registry h
    | mts h => exact .mts h
    | fixed h => exact .fixed h
  | step _ ho h ih =>
    refine .step ih ho ?_
    cases h with
    | mt _ h => exact .mt h
    | val _ _ h => exact .val h
    | stack _ h => exact .val (List.mem_of_mem_take h)
    | key _ _ h _ h' => exact .key h h'
    | nval _ _ h h' => exact .nval h h'
    | up _ h h' => exact .up h h'.get

/-- How an object that is kept looks after a step of the collector. Weak tables may have lost entries; entries without a value and slots
of a stack that are not in use do not matter. -/
def Unchanged (s : G) (i : Id) (o o' : Obj) : Prop :=
  Hdr o o' ∧ (¬ (o.kind = .table ∧ WeakT s i o) → Frz o o')

theorem forall₂_mem_left {α β : Type} {R : α → β → Prop} {l : List α} {m : List β} (h : List.Forall₂ R l m) {a : α} (ha : a ∈ l) :
    ∃ b ∈ m, R a b := by
  induction h with
  | nil => exact absurd ha (by simp)
  | cons h1 _ ih =>
    rcases List.mem_cons.mp ha with rfl | ha
    · exact ⟨_, by simp, h1⟩
    · obtain ⟨b, hb, hr⟩ := ih ha
      exact ⟨b, by simp [hb], hr⟩

theorem Frz.node {o o' : Obj} (h : Frz o o') {x : Node} (hx : x ∈ o.nodes) (hv : x.val ≠ .nil) : x ∈ o'.nodes := by
  obtain ⟨y, hy, rfl | h1⟩ := forall₂_mem_left h.nodes hx
  · exact hy
  · exact absurd h1.1 hv

/-- a step that keeps strong references -/
structure SKeep (s s' : G) : Prop where
  rt : Rt s s'
  objs : ∀ i o, SReach s i → s.obj i = some o → ∃ o', s'.obj i = some o' ∧ Unchanged s i o o'
  up : ∀ u v, UpIs s u v → UpIs s' u v
  wk : ∀ i o o', SReach s i → s.obj i = some o → o.kind = .table → s'.obj i = some o' → o'.mt = o.mt → WeakT s' i o' → WeakT s i o

theorem SKeep.reach {s s' : G} (h : SKeep s s') {i : Id} (hi : SReach s i) : SReach s' i := by
  induction hi with
  | root hr =>
    refine .root ?_
    cases hr with
    | main => rw [← h.rt.main]; exact .main
    | running => rw [← h.rt.running]; exact .running
    | registry h1 => exact .registry (by rw [h.rt.registry]; exact h1)
    | mts h1 => exact .mts (by rw [h.rt.mts]; exact h1)
    | fixed h1 => exact .fixed (by rw [h.rt.fixedgc]; exact h1)
  | @step j o r hj ho hr ih =>
    obtain ⟨o', ho', hh, hf⟩ := h.objs j o hj ho
    have hw : ¬ (o.kind = .table ∧ WeakT s j o) → ¬ (o'.kind = .table ∧ WeakT s' j o') := by
      rintro h1 ⟨h2, h3⟩
      rw [hh.kind] at h2
      exact h1 ⟨h2, h.wk j o o' hj ho h2 ho' hh.mt h3⟩
    refine .step ih ho' ?_
    cases hr with
    | mt h1 h2 => exact .mt (by rw [hh.kind]; exact h1) (by rw [hh.mt]; exact h2)
    | val h1 h2 h3 => exact .val (by rw [hh.kind]; exact h1) (hw h2) (by rw [(hf h2).vals h1]; exact h3)
    | stack h1 h2 =>
      refine .stack (by rw [hh.kind]; exact h1) ?_
      rw [hh.top, (hf fun h => by rw [h1] at h; cases h.1).stack]
      exact h2
    | key h1 h2 h3 h4 h5 =>
      have h2' : ¬ (o.kind = .table ∧ WeakT s j o) := fun h => h2 h.2
      have hk : o'.kind = .table := by rw [hh.kind]; exact h1
      exact .key hk (fun h => hw h2' ⟨hk, h⟩) ((hf h2').node h3 h4) h4 h5
    | nval h1 h2 h3 h4 =>
      have h2' : ¬ (o.kind = .table ∧ WeakT s j o) := fun h => h2 h.2
      have hk : o'.kind = .table := by rw [hh.kind]; exact h1
      exact .nval hk (fun h => hw h2' ⟨hk, h⟩) ((hf h2').node h3 (by rw [h4]; simp)) h4
    | up h1 h2 h3 => exact .up (by rw [hh.kind]; exact h1) (by rw [hh.ups]; exact h2) (h.up _ _ h3)

theorem weakT_mode {s : G} {i : Id} {o : Obj} (hm : modeOf s o ≠ (false, false)) : WeakT s i o := by
  unfold modeOf at hm
  cases h1 : o.mt with
  | none => rw [h1] at hm; exact absurd rfl hm
  | some m =>
    rw [h1] at hm
    dsimp only at hm
    cases h2 : s.obj m with
    | none => rw [h2] at hm; exact absurd rfl hm
    | some t =>
      rw [h2] at hm
      refine .inl ⟨m, t, h1, h2, ?_⟩
      dsimp only at hm
      cases h3 : t.wk <;> cases h4 : t.wv <;> simp_all

theorem mode_weakT {s : G} {i : Id} {o : Obj} (h : WeakT s i o) : modeOf s o ≠ (false, false) ∨ (s.keepinvariant = true ∧ i ∈ s.allweak) := by
  rcases h with ⟨m, t, h1, h2, h3⟩ | h
  · left
    unfold modeOf
    rw [h1]
    dsimp only
    rw [h2]
    dsimp only
    rcases h3 with h3 | h3 <;> rw [h3] <;> simp
  · exact .inr h

/-- marking, in a state in which the collector marks -/
theorem Keep.strong {s s' : G} (h : Keep s s') (hi : Inv s) (hk : s.keepinvariant = true) : SKeep s s' where
  rt := h.rt
  objs i o _ ho := by
    obtain ⟨o', h1, h2, h3⟩ := h.objs i o ho
    refine ⟨o', h1, h2, fun hn => h3 ?_⟩
    have hl := (hi.mark hk).l
    rintro ⟨o1, ho1, hw⟩
    rw [ho] at ho1
    cases ho1
    rcases hw with ⟨h4, h5⟩ | hw
    · exact hn ⟨h4, weakT_mode h5⟩
    · obtain ⟨_, o1, ho1, h4⟩ := hl.lstw i hw
      rw [ho] at ho1
      cases ho1
      rw [(hl.prop rfl).1, (hl.prop rfl).2] at hw
      rcases hw with hw | hw | hw
      · cases hw
      · exact hn ⟨h4, .inr ⟨hk, hw⟩⟩
      · cases hw
  up u v hu := by
    rcases hu with hu | ⟨th, sl, t, o, h1, h2, h3⟩
    · exact .inl (h.upc u v hu)
    · obtain ⟨t', h4⟩ := h.upo u th sl t h1
      obtain ⟨o', h5, h6, h7⟩ := h.objs th o h2
      refine .inr ⟨th, sl, t', o', h4, h5, ?_⟩
      obtain ⟨o1, ho1, hkt, _⟩ := hi.core.upt u th sl t h1
      rw [h2] at ho1
      cases ho1
      rw [h6.top, (h7 ?_).stack]
      · exact h3
      · rintro ⟨o1, ho1, hw⟩
        rw [h2] at ho1
        cases ho1
        rcases hw with hw | hw
        · rw [hkt] at hw; cases hw.1
        · obtain ⟨_, o1, ho1, h8⟩ := (hi.mark hk).l.lstw th hw
          rw [h2] at ho1
          cases ho1
          rw [hkt] at h8; cases h8
  wk i o o' _ ho hkt ho' hmt hw := by
    rcases mode_weakT hw with h1 | ⟨_, h1⟩
    · rw [h.mode hmt] at h1
      exact weakT_mode h1
    · obtain ⟨o1, ho1, hw⟩ := h.lists i o ho (.inr (.inl h1))
      rw [ho] at ho1
      cases ho1
      rcases hw with hw | hw
      · exact weakT_mode hw.2
      · have hl := (hi.mark hk).l
        rw [(hl.prop rfl).1, (hl.prop rfl).2] at hw
        rcases hw with hw | hw | hw
        · cases hw
        · exact .inr ⟨hk, hw⟩
        · cases hw

/-! ## Sweeping -/

structure Sw (s s' : G) : Prop where
  rt : Rt s s'
  objs : ∀ i o, s.obj i = some o → Live s i → s'.obj i = some o ∧ Live s' i
  up : ∀ u v, UpIs s u v → UpIs s' u v
  upt : UpT s'
  sub : ∀ i o, s'.obj i = some o → s.obj i = some o
  keep : s'.keepinvariant = true → s.keepinvariant = true
  allweak : s'.allweak = s.allweak

theorem Sw.refl {s : G} (h : UpT s) : Sw s s := ⟨.refl s, fun _ _ h h' => ⟨h, h'⟩, fun _ _ h => h, h, fun _ _ h => h, id, rfl⟩

theorem Sw.trans {a b c : G} (h : Sw a b) (h' : Sw b c) : Sw a c where
  rt := h.rt.trans h'.rt
  objs i o ho hl := h'.objs i o (h.objs i o ho hl).1 (h.objs i o ho hl).2
  up u v hu := h'.up u v (h.up u v hu)
  upt := h'.upt
  sub i o ho := h.sub i o (h'.sub i o ho)
  keep hk := h.keep (h'.keep hk)
  allweak := h'.allweak.trans h.allweak

theorem sweepOne_sw {s : G} (h : UpT s) (c : Id) : Sw s (sweepOne s c).2 := by
  unfold sweepOne
  split
  · exact ⟨⟨rfl, rfl, rfl, rfl, rfl⟩, fun _ _ h h' => ⟨h, h'⟩, fun _ _ h => h, h, fun _ _ h => h, id, rfl⟩
  · next o ho =>
    split
    · next hd =>
      have hd := isDead_iff.mp hd
      obtain ⟨f, hf, hget, hfu, hfc⟩ : ∃ f, freeobj s c o = { s with up := f, obj := fun j => if j = c then none else s.obj j } ∧
          (∀ u, G.upGet { s with up := f } u = s.upGet u) ∧ (∀ u, f u = s.up u ∨ ∃ v, f u = .closed v) ∧
          (o.kind = .thread → ∀ u ∈ o.ups, ∃ v, f u = .closed v) := by
        unfold freeobj
        by_cases hk : o.kind = .thread
        · rw [if_pos hk]
          obtain ⟨f, h1, h2, h3, h4, h5⟩ := closeAll_ok o.ups s
          rw [h1]
          exact ⟨f, rfl, h2, h3, fun _ => h5⟩
        · rw [if_neg hk]
          exact ⟨s.up, rfl, fun _ => rfl, fun _ => .inl rfl, fun h => absurd h hk⟩
      rw [hf]
      have hopn : ∀ u th sl t, f u = .opn th sl t → s.up u = .opn th sl t ∧ th ≠ c := by
        intro u th sl t hu
        have h1 : s.up u = .opn th sl t := by
          rcases hfu u with h1 | ⟨v, h1⟩
          · rw [← h1]; exact hu
          · rw [h1] at hu; cases hu
        refine ⟨h1, ?_⟩
        rintro rfl
        obtain ⟨o', ho', hk, hm⟩ := h u th sl t h1
        rw [ho] at ho'
        cases ho'
        obtain ⟨v, hv⟩ := hfc hk u hm
        rw [hv] at hu; cases hu
      refine ⟨⟨rfl, rfl, rfl, rfl, rfl⟩, fun i oi hi hl => ⟨?_, hl⟩, fun u v hu => ?_, ?_, ?_, id, rfl⟩
      · show (if i = c then none else s.obj i) = _
        rw [if_neg]
        · exact hi
        · rintro rfl; exact hd hl
      · have hv := hget u
        cases hfx : f u with
        | closed w =>
          refine .inl ?_
          show f u = _
          have : G.upGet { s with up := f } u = w := upGet_closed hfx
          rw [hfx, ← this, hv, hu.get]
        | opn th sl t =>
          obtain ⟨h1, h2⟩ := hopn u th sl t hfx
          rcases hu with hu | ⟨th', sl', t', o', h3, h4, h5⟩
          · rw [h1] at hu; cases hu
          · rw [h1] at h3
            cases h3
            exact .inr ⟨th, sl, t, o', hfx, by show (if th = c then none else s.obj th) = _; rw [if_neg h2]; exact h4, h5⟩
      · intro u th sl t hu
        obtain ⟨h1, h2⟩ := hopn u th sl t hu
        obtain ⟨o', ho', hk⟩ := h u th sl t h1
        refine ⟨o', ?_, hk⟩
        show (if th = c then none else s.obj th) = _
        rw [if_neg h2]; exact ho'
      · intro i oi hi
        have hi : (if i = c then none else s.obj i) = some oi := hi
        by_cases e : i = c
        · rw [if_pos e] at hi; cases hi
        · rw [if_neg e] at hi; exact hi
    · refine ⟨⟨rfl, rfl, rfl, rfl, rfl⟩, fun i oi hi hl => ⟨hi, ?_⟩, fun _ _ h => h, h, fun _ _ h => h, id, rfl⟩
      show (if i = c then Color.white s.white else s.col i) ≠ .white (!s.white)
      split
      · cases s.white <;> simp
      · exact hl

theorem sweeplist_sw (n : Nat) : ∀ (pre post : List Id) (s : G), UpT s → Sw s (sweeplist n pre post s).2.2 := by
  induction n with
  | zero => exact fun _ _ s h => .refl h
  | succ n ih =>
    intro pre post s h
    cases post with
    | nil => exact .refl h
    | cons c post =>
      have h1 := sweepOne_sw h c
      simp only [sweeplist]
      generalize sweepOne s c = p at h1 ⊢
      exact h1.trans (ih _ _ _ h1.upt)

theorem sweeptolive_sw (post : List Id) : ∀ (pre : List Id) (s : G), UpT s → Sw s (sweeptolive pre post s).2.2 := by
  induction post with
  | nil => exact fun _ s h => .refl h
  | cons c post ih =>
    intro pre s h
    have h1 := sweepOne_sw h c
    simp only [sweeptolive]
    generalize sweepOne s c = p at h1 ⊢
    split
    · exact h1
    · exact h1.trans (ih _ _ h1.upt)

theorem Sw.congr {s s' s'' : G} (h : Sw s s') (e : ∃ a f t p ph, s'' = { s' with allgc := a, finobj := f, tobefnz := t, sweepgc := p, phase := ph })
    (hph : s''.keepinvariant = true → s.keepinvariant = true) : Sw s s'' := by
  obtain ⟨a, f, t, p, ph, rfl⟩ := e
  exact ⟨⟨h.rt.main, h.rt.running, h.rt.registry, h.rt.mts, h.rt.fixedgc⟩, h.objs, h.up, h.upt, h.sub, hph, h.allweak⟩

theorem Sw.strong {s s' : G} (h : Sw s s') (hc : Core s) : SKeep s s' where
  rt := h.rt
  objs i o hi ho := ⟨o, (h.objs i o ho (hc.acc hi.acc).2).1, .refl o, fun _ => .refl o⟩
  up := h.up
  wk i o o' _ ho _ ho' hmt hw := by
    have := h.sub i o' ho'
    rw [ho] at this
    cases this
    rcases hw with ⟨m, t, h1, h2, h3⟩ | ⟨h1, h2⟩
    · exact .inl ⟨m, t, h1, h.sub m t h2, h3⟩
    · exact .inr ⟨h.keep h1, h.allweak ▸ h2⟩

/-! ## Steps of the collector -/

/-- a step of the collector, except calls of finalizers -/
inductive Collect : G → G → Prop
  | gc {s} (n : Nat) : (singlestep n s).oof = false → Collect s (singlestep n s)
  | sweep {s} : s.keepinvariant = true → Collect s (entersweep s)
  | hurry {s} : s.phase = .propagate → Collect s { s with phase := .enteratomic }

/-- a step after which strong references are kept -/
def Kept (s s' : G) : Prop :=
  ∀ i, SReach s i → SReach s' i ∧ (∃ o o', s.obj i = some o ∧ s'.obj i = some o' ∧ Unchanged s i o o')

theorem SKeep.kept {s s' : G} (h : SKeep s s') (hc : Core s) : Kept s s' ∧ ∀ u v, UpIs s u v → UpIs s' u v := by
  refine ⟨fun i hi => ⟨h.reach hi, ?_⟩, h.up⟩
  obtain ⟨o, ho⟩ := Option.isSome_iff_exists.mp (hc.acc hi.acc).1
  obtain ⟨o', h1, h2⟩ := h.objs i o hi ho
  exact ⟨o, o', ho, h1, h2⟩

theorem SKeep.phase {s : G} {p : Phase} (hp : ({ s with phase := p } : G).keepinvariant = true → s.keepinvariant = true ∨ s.allweak = []) :
    SKeep s { s with phase := p } where
  rt := ⟨rfl, rfl, rfl, rfl, rfl⟩
  objs i o _ ho := ⟨o, ho, .refl o, fun _ => .refl o⟩
  up _ _ h := h
  wk i o o' _ ho _ ho' _ hw := by
    have ho' : s.obj i = some o' := ho'
    rw [ho] at ho'
    cases ho'
    rcases hw with h1 | ⟨h1, h2⟩
    · exact .inl h1
    · rcases hp h1 with h3 | h3
      · exact .inr ⟨h3, h2⟩
      · have h2 : i ∈ s.allweak := h2
        rw [h3] at h2; cases h2

/-- two parts of a step, of which the second only looks at what is left -/
theorem SKeep.trans {a b c : G} (h : SKeep a b) (h' : SKeep b c) : SKeep a c where
  rt := h.rt.trans h'.rt
  objs i o hi ho := by
    obtain ⟨o1, h1, h2, h3⟩ := h.objs i o hi ho
    obtain ⟨o2, h4, h5, h6⟩ := h'.objs i o1 (h.reach hi) h1
    refine ⟨o2, h4, h2.trans h5, fun hn => (h3 hn).trans (h6 ?_)⟩
    rintro ⟨h7, h8⟩
    rw [h2.kind] at h7
    exact hn ⟨h7, h.wk i o o1 hi ho h7 h1 h2.mt h8⟩
  up u v hu := h'.up u v (h.up u v hu)
  wk i o o' hi ho hk ho' hmt hw := by
    obtain ⟨o1, h1, h2, h3⟩ := h.objs i o hi ho
    obtain ⟨o2, h4, h5, h6⟩ := h'.objs i o1 (h.reach hi) h1
    rw [ho'] at h4
    cases h4
    exact h.wk i o o1 hi ho hk h1 h2.mt (h'.wk i o1 o' (h.reach hi) h1 (by rw [h2.kind]; exact hk) ho' h5.mt hw)

theorem entersweep_sw {s : G} (h : UpT s) : Sw { s with phase := .swpallgc } (entersweep s) := by
  have h1 := sweeptolive_sw s.allgc [] { s with phase := .swpallgc } h
  unfold entersweep
  have hph := h1.keep
  generalize sweeptolive [] s.allgc { s with phase := .swpallgc } = p at h1 hph ⊢
  obtain ⟨pre, post, s1⟩ := p
  exact h1.congr ⟨_, s1.finobj, s1.tobefnz, _, s1.phase, rfl⟩ hph

theorem setCurList_eq (s : G) (l : List Id) : ∃ a f t, setCurList s l = { s with allgc := a, finobj := f, tobefnz := t } := by
  unfold setCurList
  split
  · exact ⟨l, s.finobj, s.tobefnz, rfl⟩
  · exact ⟨s.allgc, l, s.tobefnz, rfl⟩
  · exact ⟨s.allgc, s.finobj, l, rfl⟩

theorem sweepstep_skeep {s : G} (h : Inv s) (next : Phase) (p : Ptr)
    (hn : ({ s with phase := next } : G).keepinvariant = false) : SKeep s (sweepstep s next p) := by
  refine Sw.strong ?_ h.core
  unfold sweepstep
  split
  · exact (Sw.refl h.core.upt).congr ⟨s.allgc, s.finobj, s.tobefnz, p, next, rfl⟩ fun hk => absurd (show ({ s with phase := next } : G).keepinvariant = true from hk) (by rw [hn]; simp)
  · generalize split s.sweepgc (curList s) = q
    obtain ⟨pre, post⟩ := q
    dsimp only
    have h1 := sweeplist_sw 100 pre post s h.core.upt
    have hk := h1.keep
    generalize sweeplist 100 pre post s = r at h1 hk ⊢
    obtain ⟨pre', post', s1⟩ := r
    dsimp only at h1 hk ⊢
    obtain ⟨a, f, t, e⟩ := setCurList_eq s1 (pre' ++ post')
    rw [e]
    exact h1.congr ⟨a, f, t, mkPtr pre' post', s1.phase, rfl⟩ hk

theorem collect_skeep {s s' : G} (h : Inv s) (hc : Collect s s') : SKeep s s' := by
  cases hc with
  | hurry hp => exact .phase fun _ => .inl (by simp [G.keepinvariant, hp])
  | sweep hk =>
    have h1 : SKeep s { s with phase := .swpallgc } := .phase fun hk => by simp [G.keepinvariant] at hk
    exact h1.trans ((entersweep_sw h.core.upt).strong (h.core.phase _))
  | gc n ho =>
    unfold singlestep at ho ⊢
    cases hp : s.phase with
    | pause =>
      dsimp only
      have m := restart_mk n s
      have hob : (restartcollection n s).obj = s.obj := m.obj
      have hup : (restartcollection n s).up = s.up := m.up
      have haw : (restartcollection n s).allweak = [] := m.allweak
      exact {
        rt := ⟨m.rt.main, m.rt.running, m.rt.registry, m.rt.mts, m.rt.fixedgc⟩
        objs := fun i o _ ho => ⟨o, by show (restartcollection n s).obj i = _; rw [hob]; exact ho, .refl o, fun _ => .refl o⟩
        up := fun u v hu => by
          rcases hu with hu | ⟨th, sl, t, o, h1, h2, h3⟩
          · exact .inl (by show (restartcollection n s).up u = _; rw [hup]; exact hu)
          · exact .inr ⟨th, sl, t, o, by show (restartcollection n s).up u = _; rw [hup]; exact h1,
              by show (restartcollection n s).obj th = _; rw [hob]; exact h2, h3⟩
        wk := fun i o o' _ ho _ ho' _ hw => by
          have ho' : (restartcollection n s).obj i = some o' := ho'
          rw [hob, ho] at ho'
          cases ho'
          rcases hw with ⟨m, t, h1, h2, h3⟩ | ⟨_, h2⟩
          · exact .inl ⟨m, t, h1, by rw [← hob]; exact h2, h3⟩
          · have h2 : i ∈ (restartcollection n s).allweak := h2
            rw [haw] at h2; cases h2 }
    | propagate =>
      dsimp only
      have hk : s.keepinvariant = true := by simp [G.keepinvariant, hp]
      split
      · exact .phase fun _ => .inl hk
      · exact (propagatemark_keep n (.refl s)).strong h hk
    | enteratomic =>
      dsimp only
      rw [hp] at ho
      have hk : s.keepinvariant = true := by simp [G.keepinvariant, hp]
      have k1 : Keep s { atomic n s with phase := .swpallgc } := (atomic_keep n s).mks ⟨rfl, rfl, rfl, rfl, rfl, ⟨rfl, rfl, rfl, rfl, rfl⟩⟩
      have hoo : (atomic n s).oof = false := by rw [← entersweep_oof]; exact ho
      have c1 := (atomic_core n h.core (h.mark hk) hoo).phase .swpallgc
      have h2 := entersweep_sw (s := atomic n s) (atomic_core n h.core (h.mark hk) hoo).upt
      exact (k1.strong h hk).trans (h2.strong c1)
    | atomic => exact absurd hp h.phase
    | swpallgc => exact sweepstep_skeep h _ _ (by simp [G.keepinvariant])
    | swpfinobj => exact sweepstep_skeep h _ _ (by simp [G.keepinvariant])
    | swptobefnz => exact sweepstep_skeep h _ _ (by simp [G.keepinvariant])
    | swpend => exact .phase fun hk => by simp [G.keepinvariant] at hk
    | callfin => exact .phase fun hk => by simp [G.keepinvariant] at hk

end Verif.GC
