import Verif.GC.GarbageOps

/-!
# A cycle frees what could not be reached when it began
-/
namespace Verif.GC

/-- the phase stays, and while the collector sweeps, so does the colour of a dead object; an object that is not there stays away -/
structure Fc (x : Id) (s s' : G) : Prop where
  phase : s'.phase = s.phase
  dead : s.keepinvariant = false → ¬ Live s x → ¬ Live s' x
  dom : s.obj x = none → s'.obj x = none

section
variable {x : Id}

theorem Fc.refl (s : G) : Fc x s s := ⟨rfl, fun _ h => h, fun h => h⟩

theorem Fc.trans {a b c : G} (h : Fc x a b) (h' : Fc x b c) : Fc x a c where
  phase := h'.phase.trans h.phase
  dead hk hl := h'.dead (by rw [keep_congr h.phase]; exact hk) (h.dead hk hl)
  dom h1 := h'.dom (h.dom h1)

/-- nothing the collector looks at changes -/
theorem Fc.same {s s' : G} (h1 : s'.phase = s.phase) (h2 : s'.white = s.white) (h3 : s'.col = s.col) (h4 : s'.obj = s.obj) : Fc x s s' :=
  ⟨h1, fun _ h => by unfold Live at h ⊢; rw [h2, h3]; exact h, fun h => by rw [h4]; exact h⟩

theorem Fc.setObj {s : G} {i : Id} {o : Option Obj} (h : i ≠ x ∨ o = none) : Fc x s (s.setObj i o) := by
  refine ⟨rfl, fun _ h => h, fun hn => ?_⟩
  show (if x = i then o else s.obj x) = none
  split
  · next e => exact h.resolve_left fun h => h e.symm
  · exact hn

theorem Fc.setObj' {s : G} {i : Id} {o o' : Obj} (h : s.obj i = some o) : Fc x s (s.setObj i (some o')) := by
  refine ⟨rfl, fun _ h => h, fun hn => ?_⟩
  show (if x = i then some o' else s.obj x) = none
  split
  · next e => rw [e, h] at hn; cases hn
  · exact hn

theorem Fc.fail (s : G) : Fc x s s.fail := .same rfl rfl rfl rfl

theorem Fc.setCol {s : G} {i : Id} (hi : i ≠ x) (c : Color) : Fc x s (s.setCol i c) := by
  refine ⟨rfl, fun _ h => ?_, fun h => h⟩
  unfold Live at h ⊢
  show ¬ ((if x = i then c else s.col x) ≠ _)
  rw [if_neg (Ne.symm hi)]
  exact h

theorem modify_fc (s : G) (i : Id) (f : Obj → Obj) : Fc x s (modify s i f) := by
  unfold modify
  split
  · exact .fail s
  · next o ho => exact .setObj' ho

theorem push_fc (s : G) (v : Val) : Fc x s (push s v) := by
  unfold push
  split
  · exact .fail s
  · next o ho => exact .setObj' ho

theorem barrier_fc (n : Nat) (s : G) {i : Id} (v : Val) (hi : i ≠ x) : Fc x s (barrier n s i v) := by
  refine ⟨barrier_phase n s i v, fun hk hl => ?_, fun h => by rw [(barrier_frame n s i v).1]; exact h⟩
  unfold barrier
  split
  · split
    · exact (Fc.fail s).dead hk hl
    · split
      · unfold barrierF
        split
        · exact (Fc.fail s).dead hk hl
        · rw [hk]
          dsimp only [Bool.false_eq_true, if_false]
          split
          · next h => cases h
          · split
            · exact (Fc.setCol hi _).dead hk hl
            · exact (Fc.fail s).dead hk hl
      · exact hl
  · exact hl

theorem barrierback_fc (s : G) {i : Id} (v : Val) (hi : i ≠ x) : Fc x s (barrierback s i v) := by
  have hlink : Fc x s (link s .grayagain i) := by
    unfold link
    dsimp only
    split
    · exact .fail s
    · exact (Fc.setCol (s := s) hi .gray).trans (.same rfl rfl rfl rfl)
  unfold barrierback
  split
  · split
    · exact .fail s
    · split
      · dsimp only
        split
        · exact hlink.trans (.same rfl rfl rfl rfl)
        · exact hlink
      · exact .refl s
  · exact .refl s

theorem upvalbarrier_fc (n : Nat) (s : G) (v : Val) : Fc x s (upvalbarrier n s v) := by
  unfold upvalbarrier
  split
  · next r =>
    split
    · next hk =>
      refine ⟨?_, fun h => absurd hk (by rw [h]; simp), fun h => ?_⟩
      rotate_left
      · have h1 := (upvalbarrier_mk n s (.ref r)).1
        unfold upvalbarrier at h1
        dsimp only at h1
        rw [if_pos hk] at h1
        rw [h1]; exact h
      have := (reallymark_phase n).2 s r
      dsimp only
      split
      · exact this
      · exact this
    · exact .refl s
  · exact .refl s

theorem closeAll_fc (us : List Nat) (s : G) : Fc x s (closeAll us s) := by
  obtain ⟨f, h, _⟩ := closeAll_ok us s
  rw [h]
  exact .same rfl rfl rfl rfl

theorem sweepOne_fc (s : G) (c : Id) : Fc x s (sweepOne s c).2 := by
  unfold sweepOne
  split
  · exact .fail s
  · next o ho =>
    split
    · unfold freeobj
      split
      · exact (closeAll_fc o.ups s).trans (.setObj (.inr rfl))
      · exact .setObj (.inr rfl)
    · next hd =>
      refine ⟨rfl, fun _ hl => ?_, fun h => h⟩
      have hc : c ≠ x := by
        rintro rfl
        exact hd (isDead_iff.mpr hl)
      exact ((Fc.setCol (s := s) hc (.white s.white)).dead ‹_› hl)

theorem sweeplist_fc (n : Nat) : ∀ (pre post : List Id) (s : G), Fc x s (sweeplist n pre post s).2.2 := by
  induction n with
  | zero => exact fun _ _ s => .refl s
  | succ n ih =>
    intro pre post s
    cases post with
    | nil => exact .refl s
    | cons c post =>
      have h1 := sweepOne_fc (x := x) s c
      simp only [sweeplist]
      generalize sweepOne s c = p at h1 ⊢
      exact h1.trans (ih _ _ _)

theorem sweeptolive_fc (post : List Id) : ∀ (pre : List Id) (s : G), Fc x s (sweeptolive pre post s).2.2 := by
  induction post with
  | nil => exact fun _ s => .refl s
  | cons c post ih =>
    intro pre s
    have h1 := sweepOne_fc (x := x) s c
    simp only [sweeptolive]
    generalize sweepOne s c = p at h1 ⊢
    split
    · exact h1
    · exact h1.trans (ih _ _)

theorem checkfinalizer_fc (s : G) {i : Id} (hi : i ≠ x) : Fc x s (checkfinalizer s i) := by
  unfold checkfinalizer
  split
  · exact .refl s
  · have key : ∀ s1, Fc x s s1 → Fc x s (if i ∈ s1.allgc then { s1 with allgc := s1.allgc.erase i, finobj := i :: s1.finobj }.setFin i true else s1.fail) := by
      intro s1 h1
      split
      · exact h1.trans (.same rfl rfl rfl rfl)
      · exact h1.trans (.fail _)
    refine key _ ?_
    split
    · have h2 : Fc x s (s.setCol i (.white s.white)) := .setCol hi _
      generalize s.setCol i (.white s.white) = s2 at h2 ⊢
      dsimp only
      split
      · generalize split s2.sweepgc s2.allgc = p
        obtain ⟨pre, post⟩ := p
        dsimp only
        have h3 := sweeptolive_fc (x := x) post pre s2
        generalize sweeptolive pre post s2 = q at h3 ⊢
        obtain ⟨pre', post', s3⟩ := q
        exact h2.trans (h3.trans (.same rfl rfl rfl rfl))
      · exact h2
    · exact .refl s

theorem closeUps_fc (n : Nat) (th : Id) (level : Nat) (us : List Nat) : ∀ s : G, Fc x s (closeUps n th level us s) := by
  induction us with
  | nil => exact fun s => .refl s
  | cons u us ih =>
    intro s
    rw [closeUps]
    split
    · split
      · refine Fc.trans ?_ (ih _)
        unfold closeUp
        have h1 := modify_fc (x := x) s th fun o => { o with ups := o.ups.erase u }
        have h2 : ∀ t : G, Fc x t (t.setUp u (.closed (s.upGet u))) := fun t => .same rfl rfl rfl rfl
        exact (h1.trans (h2 _)).trans (upvalbarrier_fc n _ _)
      · exact ih s
    · exact ih s

theorem exec_fc (n : Nat) {s : G} (a : Op) (hv : Valid s a) (hacc : ∀ i, Acc s i → i ≠ x) (hx : ∀ k, a ≠ .new k x) (hn : a ≠ .intern x) :
    Fc x s (exec n s a) := by
  cases a with
  | new k i =>
    have hi : i ≠ x := by
      rintro rfl
      exact hx k rfl
    refine Fc.trans ?_ (push_fc _ _)
    exact ((Fc.setObj (s := s) (o := some { kind := k }) (.inl hi)).trans (Fc.setCol hi (.white s.white))).trans (.same rfl rfl rfl rfl)
  | setstack th slot v => exact modify_fc _ _ _
  | settop th top => exact modify_fc _ _ _
  | growstack th k => exact modify_fc _ _ _
  | setarr t j v => exact (modify_fc _ _ _).trans (barrierback_fc _ _ (hacc _ hv.1.1))
  | setnode t j v => exact (modify_fc _ _ _).trans (barrierback_fc _ _ (hacc _ hv.1))
  | newkey t j k => exact (modify_fc _ _ _).trans (barrierback_fc _ _ (hacc _ hv.1))
  | rehash t vals nodes => exact modify_fc _ _ _
  | setmode t wk wv => exact modify_fc _ _ _
  | setmt i m gc =>
    have hi := hacc i hv.1
    have h1 := modify_fc (x := x) s i fun o => { o with mt := m }
    simp only [exec]
    cases m with
    | none => exact h1
    | some m =>
      have h2 := h1.trans (barrier_fc n _ (.ref m) hi)
      dsimp only
      split
      · exact h2.trans (checkfinalizer_fc _ hi)
      · exact h2
  | setfield i j v => exact (modify_fc _ _ _).trans (barrier_fc n _ _ (hacc _ hv.1))
  | addfield i v => exact (modify_fc _ _ _).trans (barrier_fc n _ _ (hacc _ hv.1))
  | capture th slot u =>
    simp only [exec]
    have h1 := modify_fc (x := x) s th fun o => { o with ups := u :: o.ups }
    split
    · exact h1.trans (.same rfl rfl rfl rfl)
    · exact h1.trans (.same rfl rfl rfl rfl)
  | addup i u => exact modify_fc _ _ _
  | initup i u => exact (modify_fc _ _ _).trans (.same rfl rfl rfl rfl)
  | setup i u v =>
    simp only [exec]
    split
    · exact modify_fc _ _ _
    · have h2 : Fc x s (s.setUp u (.closed v)) := .same rfl rfl rfl rfl
      exact h2.trans (upvalbarrier_fc n (s.setUp u (.closed v)) v)
  | close th level =>
    simp only [exec]
    split
    · exact .fail s
    · exact closeUps_fc n th level _ s
  | join i j u =>
    simp only [exec]
    have h1 := modify_fc (x := x) s i fun o => { o with ups := o.ups.set j u }
    split
    · exact h1.trans (.same rfl rfl rfl rfl)
    · exact h1.trans (upvalbarrier_fc n _ _)
  | setcache p c =>
    simp only [exec]
    split
    · exact .refl s
    · exact modify_fc _ _ _
  | intern i =>
    have hi : i ≠ x := fun h => hn (by rw [h])
    simp only [exec]
    refine Fc.trans ?_ (push_fc _ _)
    split
    · exact .setCol hi _
    · exact .refl s
  | addstr i => exact .same rfl rfl rfl rfl
  | setreg v => exact .same rfl rfl rfl rfl
  | setmts vs => exact .same rfl rfl rfl rfl
  | resume th => exact .same rfl rfl rfl rfl

theorem entersweep_fc (s : G) (h : ¬ Live s x) : (entersweep s).phase = .swpallgc ∧ ¬ Live (entersweep s) x := by
  have h1 := sweeptolive_fc (x := x) s.allgc [] { s with phase := .swpallgc }
  unfold entersweep
  generalize sweeptolive [] s.allgc { s with phase := .swpallgc } = p at h1 ⊢
  obtain ⟨pre, post, s1⟩ := p
  exact ⟨h1.phase, h1.dead rfl h⟩

theorem sweepstep_fc (s : G) (next : Phase) (p : Ptr) (hk : s.keepinvariant = false) (h : s.obj x = none ∨ ¬ Live s x) :
    ((sweepstep s next p).phase = next ∨ (sweepstep s next p).phase = s.phase) ∧
    ((sweepstep s next p).obj x = none ∨ ¬ Live (sweepstep s next p) x) := by
  unfold sweepstep
  split
  · exact ⟨.inl rfl, h⟩
  · generalize split s.sweepgc (curList s) = q
    obtain ⟨pre, post⟩ := q
    dsimp only
    have h1 := sweeplist_fc (x := x) 100 pre post s
    generalize sweeplist 100 pre post s = r at h1 ⊢
    obtain ⟨pre', post', s1⟩ := r
    dsimp only at h1 ⊢
    obtain ⟨a, f, t, e⟩ := setCurList_eq s1 (pre' ++ post')
    rw [e]
    exact ⟨.inr h1.phase, h.imp h1.dom (h1.dead hk)⟩

end

/-- What a cycle that begins in `s` has to keep: what can be reached from the roots, from objects with finalizers, or from an open upvalue
of a thread with open upvalues. The last because `remarkupvals` (lgc.c:455-481) marks the values of such upvalues even if the thread is
not reachable any more; see `garbage_kept`. -/
inductive Held (s : G) : Id → Prop
  | root {r} : Root s r → Held s r
  | fin {r} : r ∈ s.finobj ∨ r ∈ s.tobefnz → Held s r
  | up {th o u r} : th ∈ s.twups → s.obj th = some o → u ∈ o.ups → s.upGet u = .ref r → Held s r
  | step {i o r} : Held s i → s.obj i = some o → Ref s o r → Held s r

/-- A cycle that begins in `s`: steps of the collector in any order with operations of the program, until the sweep is over. The program
does not look up the string `i` in the string table, and no new object gets the address `i`. (A full collection during a cycle
abandons it, and starts a new one: that step is not one of this cycle. Finalizers are called after the sweep.) -/
inductive CycleRun (i : Id) (s : G) : G → Prop
  | start (n : Nat) : s.phase = .pause → (singlestep n s).oof = false → CycleRun i s (singlestep n s)
  | op {s1} (n : Nat) (a : Op) : CycleRun i s s1 → s1.phase ≠ .callfin → Valid s1 a → ¬ Missed s1 a → a ≠ .intern i → (∀ k, a ≠ .new k i) →
      (exec n s1 a).oof = false → CycleRun i s (exec n s1 a)
  | gc {s1} (n : Nat) : CycleRun i s s1 → s1.phase ≠ .callfin → (singlestep n s1).oof = false → CycleRun i s (singlestep n s1)
  | hurry {s1} : CycleRun i s s1 → s1.phase = .propagate → CycleRun i s { s1 with phase := .enteratomic }

theorem CycleRun.reachable {i : Id} {s s' : G} (h : Reachable s) (hc : CycleRun i s s') : Reachable s' := by
  induction hc with
  | start n _ ho => exact .step h (.gc n ho)
  | op n a _ _ hv hm _ _ ho ih => exact .step ih (.op n a hv hm ho)
  | gc n _ _ ho ih => exact .step ih (.gc n ho)
  | hurry _ hp ih => exact .step ih (.hurry hp)

/-- what is not held, when a cycle begins -/
def DSet (s : G) (i : Id) (j : Id) : Prop := (s.obj j).isSome ∧ ¬ Held s j ∧ ∀ o, s.obj j = some o → o.kind = .str → j = i

theorem Shape.str {s : G} {i : Id} {o : Obj} (h : Shape s i o) (hk : o.kind = .str) {r : Id} : ¬ Ref s o r := by
  intro hr
  cases hr with
  | mt h1 => rcases h.mt (by rw [h1]; simp) with h2 | h2 | h2 <;> rw [hk] at h2 <;> cases h2
  | val h1 => exact h.vals (List.ne_nil_of_mem h1) hk
  | key h1 _ => have := h.nodes (List.ne_nil_of_mem h1); rw [hk] at this; cases this
  | nval h1 _ => have := h.nodes (List.ne_nil_of_mem h1); rw [hk] at this; cases this
  | up h1 _ => rcases h.ups (List.ne_nil_of_mem h1) with h2 | h2 <;> rw [hk] at h2 <;> cases h2
  | cache h1 => have := h.cache (by rw [h1]; simp); rw [hk] at this; cases this

theorem start_z {s : G} {i : Id} (h : Inv s) (hp : s.phase = .pause) : Z (DSet s i) i s.white (cleargraylists s) where
  dom j hj := by
    obtain ⟨o, ho⟩ := Option.isSome_iff_exists.mp hj.1
    exact ⟨o, ho, hj.2.2 o ho⟩
  refs j o r hj ho hr hd := by
    have hr : Ref s o r := by
      cases hr with
      | mt h => exact .mt h
      | val h => exact .val h
      | key h h' => exact .key h h'
      | nval h h' => exact .nval h h'
      | up h h' => exact .up h h'
      | cache h => exact .cache h
    have ho : s.obj j = some o := ho
    by_cases hh : Held s j
    · exact hd.2.1 (.step hh ho hr)
    · apply hj
      refine ⟨by rw [ho]; rfl, hh, fun o' ho' hk => ?_⟩
      rw [ho] at ho'
      cases ho'
      exact absurd hr ((h.core.shapes j o ho).str hk)
  tws th hth o ho u hu r hr hd := hd.2.1 (.up hth ho hu hr)
  roots r hr hd := hd.2.1 (.root (Root.less' (s := s) (s' := cleargraylists s) ⟨rfl, rfl, rfl, rfl, rfl⟩ (fun _ h => h) hr))
  fins r hr hd := hd.2.1 (.fin hr)
  lists r hr := by simp [cleargraylists] at hr
  col j hj := by
    have hk : s.keepinvariant = false := by simp [G.keepinvariant, hp]
    refine (h.sweep hk).swept j ?_
    simp only [swept, hp]
    rcases (h.core.dom j).mp hj.1 with h1 | h1 | h1 | h1
    · simp [h1]
    · simp [h1]
    · simp [h1]
    · exact absurd (.root (.fixed h1)) hj.2.1
  white := rfl

/-- a dead object that is still there has not been visited by the sweep -/
theorem dead_phase {s : G} (h : Inv s) {i : Id} (hi : (s.obj i).isSome) (hl : ¬ Live s i) (hk : s.keepinvariant = false) : s.phase = .swpallgc := by
  have ha : i ∈ s.allgc := by
    rcases (h.core.dom i).mp hi with h1 | h1 | h1 | h1
    · exact h1
    · exact absurd (h.core.fins i (.inl h1)) hl
    · exact absurd (h.core.fins i (.inr h1)) hl
    · refine absurd ?_ hl
      unfold Live
      rw [(h.core.fixed i h1).1]
      simp
  have hs := (h.sweep hk).swept i
  have hl' : i ∉ swept s := by
    intro h1
    apply hl
    unfold Live
    rw [hs h1]
    cases s.white <;> simp
  cases hp : s.phase with
  | swpallgc => rfl
  | _ => first
    | (simp [G.keepinvariant, hp] at hk; done)
    | (simp [swept, hp, ha] at hl'; done)

theorem cycle_inv {s s' : G} {i : Id} (h : Reachable s) (hi : (s.obj i).isSome) (hh : ¬ Held s i) (hc : CycleRun i s s') :
    (s'.keepinvariant = true ∧ Z (DSet s i) i s.white s') ∨
    (s'.keepinvariant = false ∧ s'.phase ≠ .pause ∧ (s'.obj i = none ∨ ¬ Live s' i)) := by
  have hd : DSet s i i := ⟨hi, hh, fun _ _ _ => rfl⟩
  induction hc with
  | start n hp _ =>
    left
    have h1 := start_z (i := i) (reachable_inv h).1 hp
    have h2 := restart_z n h1
    unfold singlestep
    rw [hp]
    exact ⟨rfl, h2.phase _⟩
  | @op s1 n a hc _ hv hm hn hnew ho ih =>
    have inv := (reachable_inv (hc.reachable h)).1
    rcases ih with ⟨hk, hz⟩ | ⟨hk, hp, hl⟩
    · left
      have hp : s1.issweepphase = false := by
        cases hp : s1.phase <;> simp [G.keepinvariant, hp] at hk <;> simp [G.issweepphase, hp]
      have h2 := exec_fc (x := i) n a hv (fun j hj e => hz.acc hj (by rw [e]; exact hd)) hnew hn
      exact ⟨by rw [keep_congr h2.phase]; exact hk, exec_z n a hz hv hp hn⟩
    · right
      have h2 := exec_fc (x := i) n a hv (fun j hj e => ?_) hnew hn
      · exact ⟨by rw [keep_congr h2.phase]; exact hk, by rw [h2.phase]; exact hp, hl.imp h2.dom (h2.dead hk)⟩
      · subst e
        have ok := inv.core.acc hj
        rcases hl with hl | hl
        · have := ok.1
          rw [hl] at this; cases this
        · exact hl ok.2
  | @hurry s1 hc hp ih =>
    rcases ih with ⟨hk, hz⟩ | ⟨hk, _, hl⟩
    · exact .inl ⟨rfl, hz.phase _⟩
    · simp [G.keepinvariant, hp] at hk
  | @gc s1 n hc hcf ho ih =>
    have inv := (reachable_inv (hc.reachable h)).1
    rcases ih with ⟨hk, hz⟩ | ⟨hk, hpp, hl⟩
    · unfold singlestep at ho ⊢
      cases hp : s1.phase with
      | propagate =>
        left
        dsimp only
        by_cases hg : s1.gray = []
        · rw [if_pos hg]
          exact ⟨rfl, hz.phase _⟩
        · rw [if_neg hg]
          have hm := inv.mark hk
          have cs : CStep .prop [] [] s1 (propagatemark n s1) := propagatemark_ok n (inv.core.full hm.live) hm.l (.inl ⟨rfl, hp⟩) hg
          exact ⟨by rw [keep_congr cs.le.phase]; exact hk, propagatemark_z n hz⟩
      | enteratomic =>
        right
        have h1 := entersweep_fc (atomic n s1) (atomic_z n hz i hd)
        exact ⟨by simp [G.keepinvariant, h1.1], by rw [h1.1]; simp, .inr h1.2⟩
      | atomic => exact absurd hp inv.phase
      | _ => simp [G.keepinvariant, hp] at hk
    · right
      have key : ∀ p q, (p = .swpfinobj ∨ p = .swptobefnz ∨ p = .swpend) → (sweepstep s1 p q).keepinvariant = false ∧
          (sweepstep s1 p q).phase ≠ .pause ∧ ((sweepstep s1 p q).obj i = none ∨ ¬ Live (sweepstep s1 p q) i) := by
        intro p q hp
        have h1 := sweepstep_fc s1 p q hk hl
        refine ⟨?_, ?_, h1.2⟩
        · rcases h1.1 with h2 | h2
          · rcases hp with rfl | rfl | rfl <;> simp [G.keepinvariant, h2]
          · rw [keep_congr h2]; exact hk
        · rcases h1.1 with h2 | h2
          · rcases hp with rfl | rfl | rfl <;> simp [h2]
          · rw [h2]; exact hpp
      unfold singlestep
      cases hp : s1.phase with
      | pause => exact absurd hp hpp
      | callfin => exact absurd hp hcf
      | swpallgc => exact key _ _ (.inl rfl)
      | swpfinobj => exact key _ _ (.inr (.inl rfl))
      | swptobefnz => exact key _ _ (.inr (.inr rfl))
      | swpend => exact ⟨by simp [G.keepinvariant], by simp, hl⟩
      | _ => simp [G.keepinvariant, hp] at hk

/-- as long as the object is there, the sweep of the list of objects is not over -/
theorem cycle_frees {s s' : G} {i : Id} (h : Reachable s) (hi : (s.obj i).isSome) (hh : ¬ Held s i) (hc : CycleRun i s s') :
    s'.obj i = none ∨ s'.keepinvariant = true ∨ s'.phase = .swpallgc := by
  rcases cycle_inv h hi hh hc with h1 | ⟨hk, _, hl⟩
  · exact .inr (.inl h1.1)
  · cases ho : s'.obj i with
    | none => exact .inl rfl
    | some o =>
      rw [ho] at hl
      exact .inr (.inr (dead_phase (reachable_inv (hc.reachable h)).1 (by rw [ho]; rfl) (hl.resolve_left (by simp)) hk))

end Verif.GC
