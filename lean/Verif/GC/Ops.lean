import Verif.GC.Sweep

/-!
# The operations of the program keep the invariant
-/
namespace Verif.GC

/-! ## Changing the contents of an object -/

theorem Core.upd {s s' : G} {i : Id} {o o' : Obj} (h : Core s) (sm : Same s s') (hcol : s'.col = s.col) (ho : s.obj i = some o)
    (hobj : s'.obj = (s.setObj i (some o')).obj) (hk : o'.kind = o.kind) (hsh : Shape s' i o')
    (hown : ∀ j oj, j ≠ i → s.obj j = some oj → oj.kind = .thread → ∀ u ∈ oj.ups, ∃ sl t, s'.up u = .opn j sl t)
    (hupt : ∀ u th sl t, s'.up u = .opn th sl t → (th ≠ i ∧ ∃ t', s.up u = .opn th sl t') ∨ (th = i ∧ o.kind = .thread ∧ u ∈ o'.ups))
    (hnd : o'.kind = .thread → o'.ups.Nodup)
    (htw : ∀ u th sl t, s'.up u = .opn th sl t → Live s th → th ∈ s'.twups)
    (htwe : ∀ th ∈ s'.twups, th ∈ s.twups ∨ Ok s th)
    (hr : Live s i → ∀ r, Ref s' o' r → Ok s r)
    (hget : ∀ j oj, j ≠ i → s.obj j = some oj → Live s j → ∀ u ∈ oj.ups, ∀ r, s'.upGet u = .ref r → s.upGet u = .ref r ∨ Ok s r) : Core s' := by
  have hob : ∀ j, s'.obj j = if j = i then some o' else s.obj j := fun j => by rw [hobj]; rfl
  have live : ∀ j, Live s' j ↔ Live s j := fun j => by unfold Live; rw [hcol, sm.white]
  have some' : ∀ j, (s'.obj j).isSome ↔ (s.obj j).isSome := by
    intro j
    rw [hob]
    by_cases hj : j = i
    · subst hj; rw [if_pos rfl, ho]; simp
    · rw [if_neg hj]
  have ok : ∀ j, Ok s j → Ok s' j := fun j hj => ⟨(some' j).mpr hj.1, (live j).mpr hj.2⟩
  have kd : ∀ j k, (∃ o, s.obj j = some o ∧ o.kind = k) → ∃ o, s'.obj j = some o ∧ o.kind = k := by
    rintro j k ⟨oj, hj, hkj⟩
    rw [hob]
    by_cases hji : j = i
    · subst hji
      rw [ho] at hj
      cases hj
      exact ⟨o', if_pos rfl, hk.trans hkj⟩
    · exact ⟨oj, by rw [if_neg hji]; exact hj, hkj⟩
  exact {
    dom := fun j => by rw [some', sm.allgc, sm.finobj, sm.tobefnz, sm.fixedgc]; exact h.dom j
    nodup := by rw [sm.allgc, sm.finobj, sm.tobefnz, sm.fixedgc]; exact h.nodup
    fin := by rw [sm.finobj, sm.tobefnz, sm.fin]; exact h.fin
    shapes := fun j oj hj => by
      rw [hob] at hj
      by_cases hji : j = i
      · subst hji
        rw [if_pos rfl] at hj
        cases hj
        exact hsh
      · rw [if_neg hji] at hj
        have sh := h.shapes j oj hj
        exact ⟨sh.mt, sh.vals, sh.nodes, sh.ups, sh.cache, fun hkj u hu => hown j oj hji hj hkj u hu⟩
    fixed := fun j hj => by
      rw [sm.fixedgc] at hj
      exact ⟨by rw [hcol]; exact (h.fixed j hj).1, kd j _ (h.fixed j hj).2⟩
    main := by rw [sm.main]; exact kd _ _ h.main
    run := by rw [sm.running]; exact kd _ _ h.run
    upt := fun u th sl t hu => by
      rcases hupt u th sl t hu with ⟨h1, t', h2⟩ | ⟨h1, h2, h3⟩
      · obtain ⟨oth, hoth, hkm⟩ := h.upt u th sl t' h2
        exact ⟨oth, by rw [hob, if_neg h1]; exact hoth, hkm⟩
      · subst h1
        exact ⟨o', by rw [hob, if_pos rfl], hk.trans h2, h3⟩
    upnd := fun j oj hj hkj => by
      rw [hob] at hj
      by_cases hji : j = i
      · rw [if_pos hji] at hj
        cases hj
        exact hnd hkj
      · rw [if_neg hji] at hj
        exact h.upnd j oj hj hkj
    tw := fun u th sl t hu hl => htw u th sl t hu ((live th).mp hl)
    twe := fun th ht => by
      rcases htwe th ht with h1 | h1
      · exact ok th (h.twe th h1)
      · exact ok th h1
    closed := fun j oj hj hl r hrr => by
      rw [live] at hl
      rw [hob] at hj
      by_cases hji : j = i
      · subst hji
        rw [if_pos rfl] at hj
        cases hj
        exact ok r (hr hl r hrr)
      · rw [if_neg hji] at hj
        cases hrr with
        | mt h1 => exact ok r (h.closed j oj hj hl r (.mt h1))
        | val h1 => exact ok r (h.closed j oj hj hl r (.val h1))
        | key h1 h2 => exact ok r (h.closed j oj hj hl r (.key h1 h2))
        | nval h1 h2 => exact ok r (h.closed j oj hj hl r (.nval h1 h2))
        | cache h1 => exact ok r (h.closed j oj hj hl r (.cache h1))
        | up h1 h2 =>
          rcases hget j oj hji hj hl _ h1 r h2 with h3 | h3
          · exact ok r (h.closed j oj hj hl r (.up h1 h3))
          · exact ok r h3
    roots := fun r hrr => by
      refine ok r (h.roots r ?_)
      cases hrr with
      | main => rw [sm.main]; exact .main
      | running => rw [sm.running]; exact .running
      | registry h => exact .registry (sm.registry ▸ h)
      | mts h => exact .mts (sm.mts ▸ h)
      | strcache h => exact .strcache (sm.strcache ▸ h)
      | fixed h => exact .fixed (sm.fixedgc ▸ h)
    fins := fun j hj => by
      rw [sm.finobj, sm.tobefnz] at hj
      exact (live j).mpr (h.fins j hj)
    bad := sm.bad.trans h.bad }

theorem setObj_same (s : G) (i : Id) (o : Option Obj) : Same s (s.setObj i o) := by constructor <;> rfl

/-- an upvalue of another object, or of a slot that was not changed -/
theorem upGet_setObj {s : G} (h : Core s) {i : Id} {o o' : Obj} (ho : s.obj i = some o) (u : Nat) :
    (s.setObj i (some o')).upGet u = s.upGet u ∨ (o.kind = .thread ∧ ∃ sl, (s.setObj i (some o')).upGet u = o'.vals.getD sl .nil ∧
      s.upGet u = o.vals.getD sl .nil) := by
  cases hu : s.up u with
  | closed v => exact .inl (by rw [upGet_closed (s := s) hu, upGet_closed (s := s.setObj i (some o')) hu])
  | opn th sl t =>
    by_cases hth : th = i
    · subst hth
      obtain ⟨o2, ho2, hk, _⟩ := h.upt u th sl t hu
      rw [ho] at ho2
      cases ho2
      refine .inr ⟨hk, sl, ?_, ?_⟩
      · unfold G.upGet
        rw [show (s.setObj th (some o')).up u = .opn th sl t from hu]
        dsimp only
        rw [setObj_obj, if_pos rfl]
      · unfold G.upGet
        rw [hu]
        dsimp only
        rw [ho]
    · refine .inl (upGet_congr rfl fun th' sl' t' hu' => ?_)
      rw [hu] at hu'
      cases hu'
      rw [setObj_obj, if_neg hth]

theorem content_core {s : G} {i : Id} {o o' : Obj} {v : Val} (h : Core s) (hi : Live s i) (hv : ∀ r, v = .ref r → Ok s r)
    (ho : s.obj i = some o) (hk : o'.kind = o.kind) (hups : o'.ups = o.ups) (hsh : Shape s i o')
    (href : ∀ r, Ref s o' r → Ref s o r ∨ v = .ref r) : Core (s.setObj i (some o')) := by
  have href' : ∀ r, Ref s o' r → Ok s r := fun r hr => (href r hr).elim (h.closed i o ho hi r) (hv r)
  have hget : ∀ u r, (s.setObj i (some o')).upGet u = .ref r → s.upGet u = .ref r ∨ Ok s r := by
    intro u r hr
    rcases upGet_setObj h ho u with h1 | ⟨_, sl, h1, _⟩
    · exact .inl (h1 ▸ hr)
    · rw [h1] at hr
      exact .inr (href' r (.val (Shape.getD_mem hr)))
  refine h.upd (setObj_same s i _) rfl ho rfl hk ⟨hsh.mt, hsh.vals, hsh.nodes, hsh.ups, hsh.cache, hsh.own⟩ ?_ ?_ ?_ ?_ ?_ ?_ ?_
  · exact fun j oj _ hj hkj u hu => (h.shapes j oj hj).own hkj u hu
  · intro u th sl t hu
    by_cases hth : th = i
    · subst hth
      obtain ⟨o2, ho2, hk2, hm⟩ := h.upt u th sl t hu
      rw [ho] at ho2
      cases ho2
      exact .inr ⟨rfl, hk2, by rw [hups]; exact hm⟩
    · exact .inl ⟨hth, t, hu⟩
  · exact fun hk' => by rw [hups]; exact h.upnd i o ho (hk ▸ hk')
  · exact fun u th sl t hu hl => h.tw u th sl t hu hl
  · exact fun th ht => .inl ht
  · intro _ r hr
    cases hr with
    | mt h1 => exact href' r (.mt h1)
    | val h1 => exact href' r (.val h1)
    | key h1 h2 => exact href' r (.key h1 h2)
    | nval h1 h2 => exact href' r (.nval h1 h2)
    | cache h1 => exact href' r (.cache h1)
    | up h1 h2 => exact (hget _ r h2).elim (fun h3 => href' r (.up h1 h3)) id
  · exact fun j oj _ _ _ u _ r hr => hget u r hr

/-! ## The tri-colour invariant -/

theorem MarkInv.upd {ex ex' : List Id} {s s' : G} {i : Id} {o o' : Obj} (h : MarkInv ex s) (sm : Same s s') (hcol : s'.col = s.col)
    (hlists : s'.gray = s.gray ∧ s'.grayagain = s.grayagain ∧ s'.weak = s.weak ∧ s'.allweak = s.allweak ∧ s'.ephemeron = s.ephemeron)
    (ho : s.obj i = some o) (hobj : s'.obj = (s.setObj i (some o')).obj) (hk : o'.kind = o.kind) (hex : ∀ j ∈ ex, j ∈ ex')
    (hup : ∀ j oj, j ≠ i → s.obj j = some oj → NW s j → ∀ u ∈ oj.ups, UpOk .prop s u → UpOk .prop s' u)
    (hd : i ∈ ex' ∨ (NW s i → Done .prop s i o → (s.col i = .gray → i ∈ s.allweak) → Done .prop s' i o')) : MarkInv ex' s' := by
  have hob : ∀ j, s'.obj j = if j = i then some o' else s.obj j := fun j => by rw [hobj]; rfl
  have nw : ∀ j, NW s' j ↔ NW s j := fun j => NW_col (by rw [hcol])
  obtain ⟨hg, hga, hw, ha, he⟩ := hlists
  have ip : ∀ j, InPend .prop [] s' j ↔ InPend .prop [] s j := fun j => by simp [InPend, hga]
  have kd : ∀ j (P : Kind → Prop), (∃ o, s.obj j = some o ∧ P o.kind) → ∃ o, s'.obj j = some o ∧ P o.kind := by
    rintro j P ⟨oj, hj, hkj⟩
    rw [hob]
    by_cases hji : j = i
    · subst hji
      rw [ho] at hj
      cases hj
      exact ⟨o', if_pos rfl, by rw [hk]; exact hkj⟩
    · exact ⟨oj, by rw [if_neg hji]; exact hj, hkj⟩
  have hdone : ∀ j oj, j ≠ i → s.obj j = some oj → NW s j → Done .prop s j oj → Done .prop s' j oj := by
    intro j oj hji hj hn hd
    unfold Done at hd ⊢
    have e1 : ∀ v, NWv s v → NWv s' v := fun v hv r hr => (nw r).mpr (hv r hr)
    have e2 : ∀ v, NWk s v → NWk s' v := fun v hv r hr => (nw r).mpr (hv r hr)
    have e3 : ValsNW s oj → ValsNW s' oj := fun hv v hm => e1 v (hv v hm)
    have e4 : MtNW s oj → MtNW s' oj := fun hv m hm => (nw m).mpr (hv m hm)
    revert hd
    cases hkj : oj.kind with
    | str => exact id
    | udata => exact fun hd => ⟨e4 hd.1, e3 hd.2⟩
    | arr => exact fun hd => ⟨e4 hd.1, e3 hd.2⟩
    | ccl => exact e3
    | proto => exact fun hd => ⟨e3 hd.1, fun c hc => (nw c).mpr (hd.2 c hc)⟩
    | lcl => exact fun hd => ⟨e3 hd.1, fun u hu => hup j oj hji hj hn u hu (hd.2 u hu)⟩
    | thread => exact fun hd => absurd rfl hd.1
    | table =>
      rw [hw, ha, he]
      exact fun hd => ⟨e4 hd.1, hd.2.imp (fun h => ⟨e3 h.1, fun x hx => ⟨e1 _ (h.2 x hx).1, e2 _ (h.2 x hx).2⟩⟩)
        (.imp (fun h => ⟨h.1, fun x hx => e2 _ (h.2 x hx)⟩) (.imp (fun h => ⟨h.1, e3 h.2.1, h.2.2⟩) id))⟩
  refine ⟨?_, ⟨?_, ?_⟩, ⟨?_, ?_, ?_, ?_⟩, ?_⟩
  · intro j hj
    unfold Live
    rw [hcol, sm.white]
    refine h.live j ?_
    rw [hob] at hj
    by_cases hji : j = i
    · rw [hji, ho]; rfl
    · rw [if_neg hji] at hj; exact hj
  · intro j oj hj hc
    rw [hcol] at hc
    rw [hob] at hj
    rw [hg, ip]
    by_cases hji : j = i
    · subst hji
      rw [if_pos rfl] at hj
      cases hj
      rcases h.j.blk j o ho hc with h1 | h1 | h1 | h1
      · exact .inl h1
      · exact .inr (.inl h1)
      · exact .inr (.inr (.inl (hex j h1)))
      · exact .inr (.inr (hd.imp id fun h2 => h2 (NW_of_ne_white (.inl hc)) h1 fun hgr => by rw [hc] at hgr; cases hgr))
    · rw [if_neg hji] at hj
      exact (h.j.blk j oj hj hc).imp id (.imp id (.imp (hex j) (hdone j oj hji hj (NW_of_ne_white (.inl hc)))))
  · intro j oj hj hc
    rw [hcol] at hc
    rw [hob] at hj
    rw [hg, ip, sm.fixedgc, ha]
    by_cases hji : j = i
    · subst hji
      rw [if_pos rfl] at hj
      cases hj
      rcases h.j.gry j o ho hc with h1 | h1 | h1 | h1 | h1
      · exact .inl h1
      · exact .inr (.inl h1)
      · exact .inr (.inr (.inl h1))
      · exact .inr (.inr (.inr (.inl (hex j h1))))
      · exact .inr (.inr (.inr (hd.imp id fun h2 => ⟨h2 (NW_of_ne_white (.inr hc)) h1.1 fun _ => h1.2 rfl, h1.2⟩)))
    · rw [if_neg hji] at hj
      exact (h.j.gry j oj hj hc).imp id (.imp id (.imp id (.imp (hex j) fun h1 => ⟨hdone j oj hji hj (NW_of_ne_white (.inr hc)) h1.1, h1.2⟩)))
  · intro j hj
    rw [hg, ip] at hj
    exact ⟨(nw j).mpr (h.l.lst j hj).1, kd j (fun k => Trav k = true) (h.l.lst j hj).2⟩
  · intro j hj
    rw [hw, ha, he] at hj
    exact ⟨(nw j).mpr (h.l.lstw j hj).1, kd j (fun k => k = .table) (h.l.lstw j hj).2⟩
  · rw [hw, he]; exact h.l.prop
  · intro j hj
    rw [sm.fixedgc] at hj
    exact kd j (fun k => k = .str) (h.l.fix j hj)
  · rw [sm.main]; exact (nw _).mpr h.main

theorem MarkInv.setObj {ex ex' : List Id} {s : G} {i : Id} {o o' : Obj} (h : MarkInv ex s) (ho : s.obj i = some o) (hk : o'.kind = o.kind)
    (hex : ∀ j ∈ ex, j ∈ ex') (hd : i ∈ ex' ∨ (NW s i → Done .prop s i o → (s.col i = .gray → i ∈ s.allweak) → Done .prop (s.setObj i (some o')) i o')) :
    MarkInv ex' (s.setObj i (some o')) :=
  h.upd (setObj_same s i _) rfl ⟨rfl, rfl, rfl, rfl, rfl⟩ ho rfl hk hex (fun _ _ _ _ _ _ _ h => h) hd

theorem SweepInv.congr {s s' : G} (h : SweepInv s) (sm : Same s s') (hp : s'.phase = s.phase) (hs : s'.sweepgc = s.sweepgc)
    (hc : ∀ i, s.col i = .white s.white → s'.col i = .white s.white) : SweepInv s' := by
  have e1 : GC.swept s' = GC.swept s := by unfold GC.swept; rw [hp, hs, sm.allgc, sm.finobj, sm.tobefnz]
  have e2 : curList s' = curList s := by unfold curList; rw [hp, sm.allgc, sm.finobj, sm.tobefnz]
  have e3 : s'.issweepphase = s.issweepphase := by unfold G.issweepphase; rw [hp]
  refine ⟨fun i hi => ?_, fun h1 i hi => ?_⟩
  · rw [e1] at hi
    rw [sm.white]
    exact hc i (h.swept i hi)
  · rw [hs] at hi
    rw [e2]
    exact h.ptr (e3 ▸ h1) i hi

theorem keep_congr {s s' : G} (hp : s'.phase = s.phase) : s'.keepinvariant = s.keepinvariant := by
  unfold G.keepinvariant; rw [hp]

/-- a store without a barrier -/
theorem op_plain {s : G} {i : Id} {o o' : Obj} (v : Val) (h : Inv s) (hi : Live s i) (hv : ∀ r, v = .ref r → Ok s r)
    (ho : s.obj i = some o) (hk : o'.kind = o.kind) (hups : o'.ups = o.ups) (hsh : Shape s i o')
    (href : ∀ r, Ref s o' r → Ref s o r ∨ v = .ref r)
    (hd : s.keepinvariant = true → s.weak = [] → s.ephemeron = [] → NW s i →
      Done .prop s i o → (s.col i = .gray → i ∈ s.allweak) → Done .prop (s.setObj i (some o')) i o') :
    Inv (s.setObj i (some o')) where
  core := content_core h.core hi hv ho hk hups hsh href
  phase := h.phase
  mark hkp := (h.mark hkp).setObj ho hk (fun _ h => h) (.inr (hd hkp ((h.mark hkp).l.prop rfl).1 ((h.mark hkp).l.prop rfl).2))
  sweep hkp := (h.sweep hkp).congr (setObj_same s i _) rfl rfl (fun _ h => h)

/-- the exception is gone -/
theorem MarkInv.close {s : G} {i : Id} {o : Obj} (h : MarkInv [i] s) (ho : s.obj i = some o)
    (hb : s.col i = .black → i ∈ s.gray ∨ i ∈ s.grayagain ∨ Done .prop s i o)
    (hg : s.col i = .gray → i ∈ s.fixedgc ∨ i ∈ s.gray ∨ i ∈ s.grayagain ∨ (Done .prop s i o ∧ i ∈ s.allweak)) : MarkInv [] s := by
  refine ⟨h.live, ⟨?_, ?_⟩, h.l, h.main⟩
  · intro j oj hj hc
    rcases h.j.blk j oj hj hc with h1 | h1 | h1 | h1
    · exact .inl h1
    · exact .inr (.inl h1)
    · rw [List.mem_singleton] at h1
      subst h1
      rw [ho] at hj
      cases hj
      rcases hb hc with h1 | h1 | h1
      · exact .inl h1
      · exact .inr (.inl (.inl ⟨rfl, h1⟩))
      · exact .inr (.inr (.inr h1))
    · exact .inr (.inr (.inr h1))
  · intro j oj hj hc
    rcases h.j.gry j oj hj hc with h1 | h1 | h1 | h1 | h1
    · exact .inl h1
    · exact .inr (.inl h1)
    · exact .inr (.inr (.inl h1))
    · rw [List.mem_singleton] at h1
      subst h1
      rw [ho] at hj
      cases hj
      rcases hg hc with h1 | h1 | h1 | h1
      · exact .inl h1
      · exact .inr (.inl h1)
      · exact .inr (.inr (.inl (.inl ⟨rfl, h1⟩)))
      · exact .inr (.inr (.inr (.inr ⟨h1.1, fun _ => h1.2⟩)))
    · exact .inr (.inr (.inr (.inr h1)))

/-- what the invariant says about one object -/
theorem MarkInv.at {s : G} {i : Id} {o : Obj} (h : MarkInv [] s) (ho : s.obj i = some o) :
    (s.col i = .black → i ∈ s.gray ∨ i ∈ s.grayagain ∨ Done .prop s i o) ∧
    (s.col i = .gray → i ∈ s.fixedgc ∨ i ∈ s.gray ∨ i ∈ s.grayagain ∨ (Done .prop s i o ∧ i ∈ s.allweak)) := by
  constructor
  · intro hc
    rcases h.j.blk i o ho hc with h1 | h1 | h1 | h1
    · exact .inl h1
    · exact .inr (.inl (h1.elim (fun h => h.2) fun h => nomatch h))
    · exact nomatch h1
    · exact .inr (.inr h1)
  · intro hc
    rcases h.j.gry i o ho hc with h1 | h1 | h1 | h1 | h1
    · exact .inl h1
    · exact .inr (.inl h1)
    · exact .inr (.inr (.inl (h1.elim (fun h => h.2) fun h => nomatch h)))
    · exact nomatch h1
    · exact .inr (.inr (.inr ⟨h1.1, h1.2 rfl⟩))

theorem setAge_core {s : G} (h : Core s) (i : Id) (a : Age) : Core (s.setAge i a) :=
  h.color (by constructor <;> rfl) rfl rfl rfl (fun _ _ h => h) (fun _ _ _ h => .inl h) (fun _ _ => rfl)

theorem MarkInv.setAge {ex : List Id} {s : G} (h : MarkInv ex s) (i : Id) (a : Age) : MarkInv ex (s.setAge i a) :=
  ⟨h.live, ⟨h.j.blk, h.j.gry⟩, ⟨h.l.lst, h.l.lstw, h.l.prop, h.l.fix⟩, h.main⟩

theorem MarkInv.mext {ex : List Id} {s s' : G} (h : MarkInv ex s) (m : MExt s s') (ho : s'.oof = false) : MarkInv ex s' := by
  have cs : CStep .prop [] ex s s' := m.cstep
  exact ⟨fun i hi => m.live (h.live i (by rw [← m.obj]; exact hi)), cs.j ho h.j, cs.l h.l, by rw [m.same.main]; exact m.mono h.main⟩

theorem MExt.grayagain {s s' : G} (h : MExt s s') : s'.grayagain = s.grayagain := by
  obtain ⟨_, _, _, rfl⟩ := h.eq; rfl
theorem MExt.allweak {s s' : G} (h : MExt s s') : s'.allweak = s.allweak := by
  obtain ⟨_, _, _, rfl⟩ := h.eq; rfl

/-- in the other phases, nothing is black -/
theorem not_black {s : G} (h : Core s) (hs : SweepInv s) (hk : s.keepinvariant = false) (hp : s.issweepphase = false) (_ha : s.phase ≠ .atomic)
    {i : Id} (hi : (s.obj i).isSome) : s.col i ≠ .black := by
  intro hb
  have hsw : swept s = s.allgc ++ s.finobj ++ s.tobefnz := by
    unfold swept
    cases hph : s.phase <;> simp [G.keepinvariant, G.issweepphase, hph] at hk hp ⊢
  have hw : i ∈ s.allgc ∨ i ∈ s.finobj ∨ i ∈ s.tobefnz → False := by
    intro h1
    have := hs.swept i (by rw [hsw]; simp only [List.mem_append]; tauto)
    rw [hb] at this
    cases this
  rcases (h.dom i).mp hi with h1 | h1 | h1 | h1
  · exact hw (.inl h1)
  · exact hw (.inr (.inl h1))
  · exact hw (.inr (.inr h1))
  · rw [(h.fixed i h1).1] at hb; cases hb

/-- a store followed by `luaC_barrier` -/
theorem op_fwd (n : Nat) {s : G} {i : Id} {o o' : Obj} {v : Val} (h : Inv s) (hi : Live s i) (hv : ∀ r, v = .ref r → Ok s r)
    (ho : s.obj i = some o) (hk : o'.kind = o.kind) (hups : o'.ups = o.ups) (hsh : Shape s i o')
    (href : ∀ r, Ref s o' r → Ref s o r ∨ v = .ref r)
    (hd : s.keepinvariant = true → ∀ t : G, (∀ j, NW s j → NW t j) → t.up = s.up → t.allweak = s.allweak → s.weak = [] → s.ephemeron = [] →
      NW s i → Done .prop s i o → (s.col i = .black → NWv t v) → (s.col i = .gray → i ∈ s.allweak) → Done .prop t i o')
    (hoof : (barrier n (s.setObj i (some o')) i v).oof = false) : Inv (barrier n (s.setObj i (some o')) i v) := by
  have c1 : Core (s.setObj i (some o')) := content_core h.core hi hv ho hk hups hsh href
  have m1 : s.keepinvariant = true → MarkInv [i] (s.setObj i (some o')) := fun hkp =>
    (h.mark hkp).setObj ho hk (fun _ h => nomatch h) (.inl (by simp))
  have s1 : s.keepinvariant = false → SweepInv (s.setObj i (some o')) := fun hkp =>
    (h.sweep hkp).congr (setObj_same s i _) rfl rfl (fun _ h => h)
  have hnw : ∀ j, NW (s.setObj i (some o')) j ↔ NW s j := fun _ => .rfl
  have ho1 : (s.setObj i (some o')).obj i = some o' := setObj_self s i o'
  have hsome : ∀ j, (s.obj j).isSome → ((s.setObj i (some o')).obj j).isSome := by
    intro j hj
    rw [setObj_obj]
    split
    · rfl
    · exact hj
  -- without marking
  have plain : (s.keepinvariant = true → s.col i = .black → NWv s v) → Inv (s.setObj i (some o')) := by
    intro hb
    refine ⟨c1, h.phase, fun hkp => ?_, s1⟩
    have hat := (h.mark hkp).at ho
    have hl := (h.mark hkp).l.prop rfl
    refine (m1 hkp).close ho1 ?_ ?_
    · intro hc
      have hc : s.col i = .black := hc
      exact (hat.1 hc).imp id (.imp id fun hdn => hd hkp _ (fun _ h => h) rfl rfl hl.1 hl.2 (NW_of_ne_white (.inl hc)) hdn (fun _ r hr => hb hkp hc r hr)
        (fun hg => by rw [hc] at hg; cases hg))
    · intro hc
      have hc : s.col i = .gray := hc
      exact (hat.2 hc).imp id (.imp id (.imp id fun hdn => ⟨hd hkp _ (fun _ h => h) rfl rfl hl.1 hl.2 (NW_of_ne_white (.inr hc)) hdn.1
        (fun hb => by rw [hc] at hb; cases hb) (fun _ => hdn.2), hdn.2⟩))
  cases v with
  | nil => exact plain fun _ _ r hr => nomatch hr
  | prim => exact plain fun _ _ r hr => nomatch hr
  | ref v =>
    have hvok := hv v rfl
    obtain ⟨ov, hov⟩ := Option.isSome_iff_exists.mp (hsome v hvok.1)
    unfold barrier at hoof ⊢
    dsimp only at hoof ⊢
    rw [hov] at hoof ⊢
    dsimp only at hoof ⊢
    by_cases hcond : ((s.setObj i (some o')).col i = .black && (s.setObj i (some o')).isWhite v) = true
    · rw [if_pos hcond] at hoof ⊢
      rw [Bool.and_eq_true, decide_eq_true_eq] at hcond
      have hblk : s.col i = .black := hcond.1
      have hwh : ¬ NW s v := not_NW.mpr hcond.2
      unfold barrierF at hoof ⊢
      have hdd : ((s.setObj i (some o')).isDead v || (s.setObj i (some o')).isDead i) = false := by
        rw [Bool.or_eq_false_iff, ← Bool.not_eq_true, isDead_iff, not_not, ← Bool.not_eq_true, isDead_iff, not_not]
        exact ⟨hvok.2, hi⟩
      rw [hdd] at hoof ⊢
      rw [if_neg (by simp)] at hoof ⊢
      by_cases hkp : (s.setObj i (some o')).keepinvariant = true
      · rw [if_pos hkp] at hoof ⊢
        have hkp0 : s.keepinvariant = true := hkp
        have hm1 := m1 hkp0
        obtain ⟨a, b⟩ := (mark_ok n).1 _ v (c1.full hm1.live) (by rw [hov]; rfl) hwh
        dsimp only at hoof ⊢
        generalize reallymark n (s.setObj i (some o')) v = s2 at a b hoof ⊢
        have hoof2 : s2.oof = false := by
          split at hoof
          · exact hoof
          · exact hoof
        have c2 := c1.mext a hm1.live
        have m2 := hm1.mext a hoof2
        have hcol : s2.col i = .black := (a.keep i (NW_of_ne_white (.inl hblk))).trans hblk
        have hat := (h.mark hkp0).at ho
        have hl := (h.mark hkp0).l.prop rfl
        have m3 : MarkInv [] s2 := by
          refine m2.close (by rw [a.obj]; exact ho1) ?_ (fun hg => by rw [hcol] at hg; cases hg)
          intro _
          rcases hat.1 hblk with h1 | h1 | h1
          · exact .inl (a.gray i h1)
          · exact .inr (.inl (by rw [a.grayagain]; exact h1))
          · refine .inr (.inr (hd hkp0 s2 (fun j hj => a.mono hj) a.up a.allweak hl.1 hl.2 (NW_of_ne_white (.inl hblk)) h1 (fun _ => ?_) (fun hg => by rw [hblk] at hg; cases hg)))
            intro r hr
            cases hr
            exact b hoof2
        have hph : s2.phase = s.phase := a.phase
        have hkp2 : s2.keepinvariant = true := by rw [keep_congr hph]; exact hkp0
        split
        · exact ⟨setAge_core c2 _ _, by rw [show (s2.setAge v .old0).phase = s2.phase from rfl, hph]; exact h.phase,
            fun _ => m3.setAge _ _, fun hf => by rw [show (s2.setAge v .old0).keepinvariant = s2.keepinvariant from rfl, hkp2] at hf; cases hf⟩
        · exact ⟨c2, by rw [hph]; exact h.phase, fun _ => m3, fun hf => by rw [hkp2] at hf; cases hf⟩
      · rw [if_neg hkp] at hoof ⊢
        have hkp0 : s.keepinvariant = false := Bool.eq_false_iff.mpr hkp
        by_cases hsp : (s.setObj i (some o')).issweepphase = true
        · rw [if_pos hsp]
          have hnf : i ∉ s.fixedgc := fun hf => by
            rw [(h.core.fixed i hf).1] at hblk; cases hblk
          have c2 := whiten_core (c := i) c1 (by rw [ho1]; rfl) hi hnf ((s.setObj i (some o')).age i)
          refine ⟨c2.color (by constructor <;> rfl) rfl rfl rfl (fun _ _ h => h) (fun _ _ _ h => .inl h) (fun _ _ => rfl), h.phase,
            fun hf => absurd hf hkp, fun _ => (s1 hkp0).congr (by constructor <;> rfl) rfl rfl fun j hj => ?_⟩
          show (if j = i then _ else s.col j) = _
          split
          · rfl
          · exact hj
        · exact absurd hblk (not_black h.core (h.sweep hkp0) hkp0 (Bool.eq_false_iff.mpr hsp) h.phase (by rw [ho]; rfl))
    · rw [if_neg hcond] at hoof ⊢
      refine plain fun _ hb r hr => ?_
      cases hr
      by_contra hn
      refine hcond ?_
      rw [Bool.and_eq_true, decide_eq_true_eq]
      exact ⟨hb, not_NW.mp hn⟩

/-- a store into a table followed by `luaC_barrierback` -/
theorem op_back {s : G} {i : Id} {o o' : Obj} {v : Val} (h : Inv s) (hof : s.oof = false) (hi : Live s i) (hv : ∀ r, v = .ref r → Ok s r)
    (ho : s.obj i = some o) (hkt : o.kind = .table) (hk : o'.kind = o.kind) (hups : o'.ups = o.ups) (hsh : Shape s i o')
    (href : ∀ r, Ref s o' r → Ref s o r ∨ v = .ref r)
    (hd : s.keepinvariant = true → s.weak = [] → s.ephemeron = [] → NW s i → Done .prop s i o → (s.col i = .black → NWv s v) → (s.col i = .gray → i ∈ s.allweak) →
      Done .prop (s.setObj i (some o')) i o') : Inv (barrierback (s.setObj i (some o')) i v) ∧
    (barrierback (s.setObj i (some o')) i v).oof = s.oof := by
  have c1 : Core (s.setObj i (some o')) := content_core h.core hi hv ho hk hups hsh href
  have m1 : s.keepinvariant = true → MarkInv [i] (s.setObj i (some o')) := fun hkp =>
    (h.mark hkp).setObj ho hk (fun _ h => nomatch h) (.inl (by simp))
  have s1 : s.keepinvariant = false → SweepInv (s.setObj i (some o')) := fun hkp =>
    (h.sweep hkp).congr (setObj_same s i _) rfl rfl (fun _ h => h)
  have ho1 : (s.setObj i (some o')).obj i = some o' := setObj_self s i o'
  have hsome : ∀ j, (s.obj j).isSome → ((s.setObj i (some o')).obj j).isSome := by
    intro j hj
    rw [setObj_obj]
    split
    · rfl
    · exact hj
  have plain : (s.keepinvariant = true → s.col i = .black → NWv s v) → Inv (s.setObj i (some o')) := by
    intro hb
    refine ⟨c1, h.phase, fun hkp => ?_, s1⟩
    have hat := (h.mark hkp).at ho
    have hl := (h.mark hkp).l.prop rfl
    refine (m1 hkp).close ho1 ?_ ?_
    · intro hc
      have hc : s.col i = .black := hc
      exact (hat.1 hc).imp id (.imp id fun hdn => hd hkp hl.1 hl.2 (NW_of_ne_white (.inl hc)) hdn (fun _ => hb hkp hc) (fun hg => by rw [hc] at hg; cases hg))
    · intro hc
      have hc : s.col i = .gray := hc
      exact (hat.2 hc).imp id (.imp id (.imp id fun hdn => ⟨hd hkp hl.1 hl.2 (NW_of_ne_white (.inr hc)) hdn.1 (fun hb => by rw [hc] at hb; cases hb) (fun _ => hdn.2), hdn.2⟩))
  cases v with
  | nil => exact ⟨plain (fun _ _ r hr => nomatch hr), rfl⟩
  | prim => exact ⟨plain (fun _ _ r hr => nomatch hr), rfl⟩
  | ref v =>
    have hvok := hv v rfl
    obtain ⟨ov, hov⟩ := Option.isSome_iff_exists.mp (hsome v hvok.1)
    unfold barrierback
    dsimp only
    rw [hov]
    dsimp only
    by_cases hcond : ((s.setObj i (some o')).col i = .black && (s.setObj i (some o')).isWhite v) = true
    · rw [if_pos hcond]
      rw [Bool.and_eq_true, decide_eq_true_eq] at hcond
      have hblk : (s.setObj i (some o')).col i = .black := hcond.1
      have hnf : i ∉ s.fixedgc := fun hf => by
        have : s.col i = .black := hblk
        rw [(h.core.fixed i hf).1] at this; cases this
      obtain ⟨l1, l2, l3, l4, l5, l6, _, _, _⟩ := link_cstep (st := .prop) (pend := []) (ex := [i]) (l := .grayagain) hblk (by simp) (by simp)
        ⟨o', ho1, by rw [if_pos rfl, hk, hkt]; rfl⟩ (fun _ => .inl rfl)
      have hl6 := l6 rfl
      have e : link (s.setObj i (some o')) .grayagain i =
          { (s.setObj i (some o')).setCol i .gray with grayagain := i :: (s.setObj i (some o')).grayagain } := by
        unfold link; rw [if_neg (by rw [hblk]; simp)]; rfl
      have hcol : ∀ j, (link (s.setObj i (some o')) .grayagain i).col j = if j = i then .gray else s.col j := fun j => by rw [e]; rfl
      have ptr : (link (s.setObj i (some o')) .grayagain i).sweepgc = s.sweepgc := by rw [e]; rfl
      have tw : (link (s.setObj i (some o')) .grayagain i).twups = (s.setObj i (some o')).twups := by rw [e]; rfl
      have hoof : (link (s.setObj i (some o')) .grayagain i).oof = s.oof := by rw [e]; rfl
      clear e
      have sm := l1.le.same
      have hph := l1.le.phase
      generalize link (s.setObj i (some o')) .grayagain i = s2 at l1 l2 l3 l4 l5 hl6 hcol ptr tw hoof sm hph ⊢
      have hlive : ∀ j, Live s2 j ↔ Live (s.setObj i (some o')) j := by
        intro j
        unfold Live
        rw [sm.white, hcol]
        by_cases hj : j = i
        · subst hj
          rw [if_pos rfl, hblk]
          simp
        · rw [if_neg hj]; rfl
      have c2 : Core s2 := c1.color sm l2 l3 tw (fun j _ => (hlive j).mpr) (fun j _ _ hj => .inl ((hlive j).mp hj)) (fun j hj => by
        rw [hcol, if_neg]
        · rfl
        · rintro rfl; exact hnf hj)
      have i2 : Inv s2 := by
        refine ⟨c2, by rw [hph]; exact h.phase, fun hkp => ?_, fun hkp => ?_⟩
        · have hkp0 : s.keepinvariant = true := by rw [keep_congr hph] at hkp; exact hkp
          have hm1 := m1 hkp0
          have m2 : MarkInv [i] s2 := by
            exact ⟨fun j hj => (hlive j).mpr (hm1.live j (by rw [← l2]; exact hj)), l1.j (hoof.trans hof) hm1.j, l1.l hm1.l,
              by rw [sm.main]; exact l1.le.nw _ hm1.main⟩
          exact m2.close (by rw [l2]; exact ho1) (fun _ => .inr (.inl hl6)) (fun _ => .inr (.inr (.inl hl6)))
        · have hkp0 : s.keepinvariant = false := by rw [keep_congr hph] at hkp; exact hkp
          refine (s1 hkp0).congr sm hph ptr fun j hj => ?_
          rw [hcol, if_neg]
          · exact hj
          · rintro rfl
            rw [hblk] at hj; cases hj
      split
      · exact ⟨⟨setAge_core i2.core _ _, i2.phase, fun hkp => (i2.mark hkp).setAge _ _, fun hkp =>
          (i2.sweep hkp).congr (by constructor <;> rfl) rfl rfl (fun _ h => h)⟩, hoof⟩
      · exact ⟨i2, hoof⟩
    · rw [if_neg hcond]
      refine ⟨plain fun _ hb r hr => ?_, rfl⟩
      cases hr
      by_contra hn
      refine hcond ?_
      rw [Bool.and_eq_true, decide_eq_true_eq]
      exact ⟨hb, not_NW.mp hn⟩

/-! ## Barriers of upvalues -/

/-- what marking looks at -/
def view (o : Obj) : Kind × Option Id × List Val := (o.kind, o.mt, o.vals)

def Comm (m : G → G) (s : G) : Prop :=
  (∀ (g : Id → Option Obj) (f : Nat → UpVal), (∀ j, (g j).map view = (s.obj j).map view) →
    m { s with obj := g, up := f } = { m s with obj := g, up := f }) ∧ (m s).obj = s.obj ∧ ((m s).oof = false → s.oof = false)

theorem foldMark_comm {mark : G → Id → G} (h : ∀ s i, Comm (fun s => mark s i) s) : ∀ (vs : List Val) (s : G), Comm (foldMark mark vs) s := by
  intro vs
  induction vs with
  | nil => exact fun s => ⟨fun _ _ _ => rfl, rfl, fun h => h⟩
  | cons v vs ih =>
    intro s
    cases v with
    | nil => exact ih s
    | prim => exact ih s
    | ref i =>
      obtain ⟨a, b, c⟩ := h s i
      obtain ⟨a', b', c'⟩ := ih (mark s i)
      refine ⟨fun g f hv => ?_, b'.trans b, fun ho => c (c' ho)⟩
      simp only [foldMark]
      rw [show mark { s with obj := g, up := f } i = { mark s i with obj := g, up := f } from a g f hv]
      exact a' g f fun j => by rw [show (mark s i).obj = s.obj from b]; exact hv j

theorem mark_comm (n : Nat) : (∀ s i, Comm (fun s => reallymark n s i) s) ∧ (∀ s i, Comm (fun s => markobject n s i) s) := by
  induction n with
  | zero =>
    constructor
    · intro s i
      simp only [reallymark]
      exact ⟨fun _ _ _ => rfl, rfl, fun h => nomatch h⟩
    · intro s i
      simp only [markobject]
      exact ⟨fun _ _ _ => rfl, rfl, fun h => nomatch h⟩
  | succ n ih =>
    constructor
    · intro s i
      cases ho : s.obj i with
      | none =>
        refine ⟨fun g f hv => ?_, ?_, ?_⟩
        · have : g i = none := by have := hv i; rw [ho] at this; simpa using this
          simp only [reallymark, ho, this]
          rfl
        · simp only [reallymark, ho]; rfl
        · simp only [reallymark, ho]; exact fun h => h
      | some o =>
        have hview : ∀ g : Id → Option Obj, (∀ j, (g j).map view = (s.obj j).map view) →
            ∃ o2, g i = some o2 ∧ o2.kind = o.kind ∧ o2.mt = o.mt ∧ o2.vals = o.vals := by
          intro g hv
          have := hv i
          rw [ho] at this
          cases hg : g i with
          | none => rw [hg] at this; cases this
          | some o2 =>
            rw [hg] at this
            simp only [Option.map_some, Option.some.injEq, view, Prod.mk.injEq] at this
            exact ⟨o2, rfl, this⟩
        have leaf : o.kind = .str → Comm (fun s => reallymark (n + 1) s i) s := by
          intro hk
          refine ⟨fun g f hv => ?_, ?_, ?_⟩
          · obtain ⟨o2, hg, h1, h2, h3⟩ := hview g hv
            simp only [reallymark, ho, hg, h1, hk]
            rfl
          · simp only [reallymark, ho, hk]; rfl
          · simp only [reallymark, ho, hk]; exact fun h => h
        have lnk : Trav o.kind = true → Comm (fun s => reallymark (n + 1) s i) s := by
          intro hk
          have e : ∀ s' : G, ∀ o', s'.obj i = some o' → o'.kind = o.kind → reallymark (n + 1) s' i = link s' .gray i := by
            intro s' o' h1 h2
            simp only [reallymark, h1]
            rw [h2]
            cases hk' : o.kind <;> simp [hk', Trav] at hk ⊢
          refine ⟨fun g f hv => ?_, ?_, ?_⟩
          · obtain ⟨o2, hg, h1, h2, h3⟩ := hview g hv
            dsimp only
            rw [e s o ho rfl, e { s with obj := g, up := f } o2 hg h1]
            unfold link
            split <;> rfl
          · dsimp only
            rw [e s o ho rfl]
            unfold link
            split <;> rfl
          · dsimp only
            rw [e s o ho rfl]
            unfold link
            split <;> exact fun h => h
        have ud : o.kind = .udata ∨ o.kind = .arr → Comm (fun s => reallymark (n + 1) s i) s := by
          intro hk
          have e : ∀ s' : G, ∀ o', s'.obj i = some o' → o'.kind = o.kind → o'.mt = o.mt → o'.vals = o.vals →
              reallymark (n + 1) s' i = foldMark (markobject n) o.vals ((markobjectN n s' o.mt).setCol i .black) := by
            intro s' o' h1 h2 h3 h4
            simp only [reallymark, h1]
            rw [h2, h3, h4]
            rcases hk with hk | hk <;> rw [hk] <;> dsimp only <;> cases o.mt <;> rfl
          have hN : Comm (fun s => markobjectN n s o.mt) s := by
            cases o.mt with
            | none => exact ⟨fun _ _ _ => rfl, rfl, fun h => h⟩
            | some m => exact ih.2 s m
          obtain ⟨a, b, c⟩ := hN
          obtain ⟨a', b', c'⟩ := foldMark_comm ih.2 o.vals ((markobjectN n s o.mt).setCol i .black)
          refine ⟨fun g f hv => ?_, ?_, ?_⟩
          · obtain ⟨o2, hg, h1, h2, h3⟩ := hview g hv
            dsimp only
            rw [e s o ho rfl rfl rfl, e { s with obj := g, up := f } o2 hg h1 h2 h3]
            rw [show markobjectN n { s with obj := g, up := f } o.mt = { markobjectN n s o.mt with obj := g, up := f } from a g f hv]
            exact a' g f fun j => by rw [show ((markobjectN n s o.mt).setCol i .black).obj = s.obj from b]; exact hv j
          · dsimp only
            rw [e s o ho rfl rfl rfl]
            exact b'.trans b
          · dsimp only
            rw [e s o ho rfl rfl rfl]
            exact fun h => c (c' h)
        cases hk : o.kind with
        | str => exact leaf hk
        | udata => exact ud (.inl hk)
        | arr => exact ud (.inr hk)
        | lcl => exact lnk (by rw [hk]; rfl)
        | ccl => exact lnk (by rw [hk]; rfl)
        | table => exact lnk (by rw [hk]; rfl)
        | thread => exact lnk (by rw [hk]; rfl)
        | proto => exact lnk (by rw [hk]; rfl)
    · intro s i
      obtain ⟨a, b, c⟩ := ih.1 s i
      have hnone : ∀ g : Id → Option Obj, (∀ j, (g j).map view = (s.obj j).map view) → ((g i).isSome = (s.obj i).isSome) := by
        intro g hv
        have := congrArg Option.isSome (hv i)
        simpa using this
      cases ho : s.obj i with
      | none =>
        refine ⟨fun g f hv => ?_, ?_, ?_⟩
        · have : g i = none := by have := hnone g hv; rw [ho] at this; simpa using this
          simp only [markobject, ho, this]
          rfl
        · simp only [markobject, ho]; rfl
        · simp only [markobject, ho]; exact fun h => h
      | some o =>
        refine ⟨fun g f hv => ?_, ?_, ?_⟩
        · obtain ⟨o2, hg⟩ := Option.isSome_iff_exists.mp (show (g i).isSome = true by rw [hnone g hv, ho]; rfl)
          simp only [markobject, ho, hg]
          rw [show ({ s with obj := g, up := f } : G).isWhite i = s.isWhite i from rfl]
          split
          · exact a g f hv
          · rfl
        · simp only [markobject, ho]
          split
          · exact b
          · rfl
        · simp only [markobject, ho]
          split
          · exact c
          · exact fun h => h

theorem upvalbarrier_comm (n : Nat) (v : Val) (s : G) : Comm (fun s => upvalbarrier n s v) s := by
  cases v with
  | nil => exact ⟨fun _ _ _ => rfl, rfl, fun h => h⟩
  | prim => exact ⟨fun _ _ _ => rfl, rfl, fun h => h⟩
  | ref v =>
    obtain ⟨a, b, c⟩ := (mark_comm n).2 s v
    simp only [upvalbarrier]
    refine ⟨fun g f hv => ?_, ?_, ?_⟩
    · have hkc : ({ s with obj := g, up := f } : G).keepinvariant = s.keepinvariant := rfl
      have a := a g f hv
      have hold : ({ markobject n s v with obj := g, up := f } : G).isOld v = (markobject n s v).isOld v := rfl
      dsimp only at a ⊢
      by_cases hkp : s.keepinvariant = true
      · rw [if_pos (hkc.trans hkp), if_pos hkp, a, hold]
        split <;> rfl
      · rw [if_neg (by rw [hkc]; exact hkp), if_neg hkp]
    · dsimp only
      split
      · split
        · exact b
        · exact b
      · rfl
    · dsimp only
      split
      · split
        · exact c
        · exact c
      · exact fun h => h

structure UB (v : Val) (s t : G) : Prop where
  inv : Inv t
  nw : s.keepinvariant = true → NWv t v
  obj : t.obj = s.obj
  up : t.up = s.up
  phase : t.phase = s.phase
  ok : ∀ j, Ok s j → Ok t j
  live : ∀ j, (s.obj j).isSome → Live t j → Live s j

theorem upvalbarrier_inv (n : Nat) {s : G} {v : Val} (h : Inv s) (hv : ∀ r, v = .ref r → Ok s r)
    (hoof : (upvalbarrier n s v).oof = false) : UB v s (upvalbarrier n s v) := by
  cases v with
  | nil => exact ⟨h, fun _ r hr => (nomatch hr), rfl, rfl, rfl, fun _ h => h, fun _ _ h => h⟩
  | prim => exact ⟨h, fun _ r hr => (nomatch hr), rfl, rfl, rfl, fun _ h => h, fun _ _ h => h⟩
  | ref v =>
    simp only [upvalbarrier] at hoof ⊢
    by_cases hkp : s.keepinvariant = true
    · rw [if_pos hkp] at hoof ⊢
      have hm := h.mark hkp
      obtain ⟨a, b⟩ := (mark_ok n).2 s v (h.core.full hm.live) (hv v rfl).1
      generalize markobject n s v = t at a b hoof ⊢
      have hoof : t.oof = false := by split at hoof <;> exact hoof
      have c2 := h.core.mext a hm.live
      have m2 := hm.mext a hoof
      have hkp2 : t.keepinvariant = true := by rw [keep_congr a.phase]; exact hkp
      have ut : UB (.ref v) s t := ⟨⟨c2, by rw [a.phase]; exact h.phase, fun _ => m2, fun hf => by rw [hkp2] at hf; cases hf⟩,
        fun _ r hr => by cases hr; exact b hoof, a.obj, a.up, a.phase, fun j hj => ⟨by rw [a.obj]; exact hj.1, a.live hj.2⟩,
        fun j hj _ => hm.live j hj⟩
      split
      · exact ut
      · exact ⟨⟨setAge_core c2 _ _, ut.inv.phase, fun _ => m2.setAge _ _,
          fun hf => by rw [show (t.setAge v .old0).keepinvariant = t.keepinvariant from rfl, hkp2] at hf; cases hf⟩,
          ut.nw, ut.obj, ut.up, ut.phase, ut.ok, ut.live⟩
    · rw [if_neg hkp] at hoof ⊢
      exact ⟨h, fun hk => absurd hk hkp, rfl, rfl, rfl, fun _ h => h, fun _ _ h => h⟩

/-- changes of an object and of upvalues, after what is stored was marked -/
theorem op_up {t s' : G} {i : Id} {o o' : Obj} (h : Inv t) (sm : Same t s') (hcol : s'.col = t.col) (hph : s'.phase = t.phase)
    (hsg : s'.sweepgc = t.sweepgc)
    (hlists : s'.gray = t.gray ∧ s'.grayagain = t.grayagain ∧ s'.weak = t.weak ∧ s'.allweak = t.allweak ∧ s'.ephemeron = t.ephemeron)
    (ho : t.obj i = some o) (hobj : s'.obj = (t.setObj i (some o')).obj) (hk : o'.kind = o.kind) (hc : Core s')
    (hup : t.keepinvariant = true → ∀ j oj, j ≠ i → t.obj j = some oj → NW t j → ∀ u ∈ oj.ups, UpOk .prop t u → UpOk .prop s' u)
    (hd : t.keepinvariant = true → NW t i → Done .prop t i o → (t.col i = .gray → i ∈ t.allweak) → Done .prop s' i o') : Inv s' where
  core := hc
  phase := by rw [hph]; exact h.phase
  mark hkp := by
    rw [keep_congr hph] at hkp
    exact (h.mark hkp).upd sm hcol hlists ho hobj hk (fun _ h => h) (hup hkp) (.inr (hd hkp))
  sweep hkp := by
    rw [keep_congr hph] at hkp
    exact (h.sweep hkp).congr sm hph hsg fun j hj => by rw [hcol]; exact hj

end Verif.GC
