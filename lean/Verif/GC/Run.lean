import Verif.GC.Exec

/-!
# Every step keeps the invariant
-/
namespace Verif.GC

/-! ## Closing upvalues -/

theorem closeUp_inv (n : Nat) {s : G} {th : Id} {u : Nat} {o : Obj} {sl : Nat} {tt : Bool} (h : Inv s) (hl : Live s th) (ho : s.obj th = some o)
    (hk : o.kind = .thread) (hu : u ∈ o.ups) (hup : s.up u = .opn th sl tt) :
    ((closeUp n th u s).oof = false → s.oof = false) ∧ ((closeUp n th u s).oof = false → Inv (closeUp n th u s) ∧ Live (closeUp n th u s) th ∧
      ∀ w, w ≠ u → (closeUp n th u s).up w = s.up w) ∧
      (closeUp n th u s).obj th = some { o with ups := o.ups.erase u } := by
  have hget : s.upGet u = o.vals.getD sl .nil := by unfold G.upGet; rw [hup]; dsimp only; rw [ho]
  have hvr : ∀ r, s.upGet u = .ref r → Ok s r := fun r hr => h.core.closed th o ho hl r (.up hu hr)
  unfold closeUp
  dsimp only
  rw [modify_eq ho]
  generalize hv : s.upGet u = v at hget hvr ⊢
  have sh := h.core.shapes th o ho
  have nd := h.core.upnd th o ho hk
  obtain ⟨e1, e2, e3⟩ := upvalbarrier_comm n v s
  have e := e1 (s.setObj th (some { o with ups := o.ups.erase u })).obj ((s.setObj th (some { o with ups := o.ups.erase u })).setUp u (.closed v)).up
    (setObj_view ho rfl)
  dsimp only at e
  rw [show (s.setObj th (some { o with ups := o.ups.erase u })).setUp u (.closed v) =
    { s with obj := (s.setObj th (some { o with ups := o.ups.erase u })).obj,
             up := ((s.setObj th (some { o with ups := o.ups.erase u })).setUp u (.closed v)).up } from rfl]
  rw [e]
  refine ⟨e3, fun hoof => ?_, setObj_self s th _⟩
  have ub := upvalbarrier_inv n h hvr hoof
  clear e e1 e2 e3 hoof
  generalize upvalbarrier n s v = t at ub ⊢
  have hot : t.obj th = some o := by rw [ub.obj]; exact ho
  have hlt : Live t th := (ub.ok th ⟨by rw [ho]; rfl, hl⟩).2
  generalize e : ({ t with obj := (s.setObj th (some { o with ups := o.ups.erase u })).obj, up := ((s.setObj th (some { o with ups := o.ups.erase u })).setUp u (.closed v)).up } : G) = s'
  have hobj : s'.obj = (t.setObj th (some { o with ups := o.ups.erase u })).obj := by
    subst e
    funext k
    rw [setObj_obj, setObj_obj, ub.obj]
  have hupw : ∀ w, s'.up w = if w = u then .closed v else s.up w := by subst e; exact fun _ => rfl
  have hupn : ∀ w, w ≠ u → s'.up w = t.up w := fun w hw => by rw [hupw, if_neg hw, ub.up]
  have sm : Same t s' := by subst e; constructor <;> rfl
  have hcol : s'.col = t.col := by subst e; rfl
  have htw : s'.twups = t.twups := by subst e; rfl
  have hg : ∀ w, s'.upGet w = t.upGet w := by
    intro w
    refine upGet_eq ?_ ?_
    · intro j
      rw [hobj]
      exact setObj_ups (o.ups.erase u) hot j
    · by_cases hw : w = u
      · subst hw
        refine .inr (.inl ?_)
        rw [hupw, if_pos rfl, ← hv]
        congr 1
        exact (upGet_eq (fun j => by rw [ub.obj]) (.inl (by rw [ub.up]))).symm
      · exact .inl (hupn w hw)
  have inv' : Inv s' := by
    refine op_up (o' := { o with ups := o.ups.erase u }) ub.inv sm hcol (by subst e; rfl) (by subst e; rfl)
      (by subst e; exact ⟨rfl, rfl, rfl, rfl, rfl⟩) hot hobj rfl ?_ ?_ (fun _ _ hd _ => (done_thread hd hk).elim)
    · refine ub.inv.core.upd (o' := { o with ups := o.ups.erase u }) sm hcol hot hobj rfl
        ⟨sh.mt, sh.vals, sh.nodes, fun _ => .inr hk, sh.cache, fun _ w hw => ?_⟩ ?_ ?_ ?_ ?_ ?_ ?_ ?_
      · obtain ⟨h1, h2⟩ := (List.Nodup.mem_erase_iff nd).mp hw
        rw [hupw, if_neg h1]
        exact sh.own hk w h2
      · intro j oj hj hoj hkj w hw
        rw [ub.obj] at hoj
        obtain ⟨sl', t', h1⟩ := (h.core.shapes j oj hoj).own hkj w hw
        rw [hupw, if_neg]
        · exact ⟨sl', t', h1⟩
        · rintro rfl
          rw [hup] at h1
          cases h1
          exact hj rfl
      · intro w th' sl' t' hw
        rw [hupw] at hw
        by_cases hwu : w = u
        · rw [if_pos hwu] at hw; cases hw
        · rw [if_neg hwu] at hw
          by_cases hth : th' = th
          · subst hth
            obtain ⟨o2, ho2, hk2, hm⟩ := h.core.upt w th' sl' t' hw
            rw [ho] at ho2
            cases ho2
            exact .inr ⟨rfl, hk, (List.Nodup.mem_erase_iff nd).mpr ⟨hwu, hm⟩⟩
          · exact .inl ⟨hth, t', by rw [ub.up]; exact hw⟩
      · exact fun _ => nd.erase u
      · intro w th' sl' t' hw hl'
        rw [hupw] at hw
        by_cases hwu : w = u
        · rw [if_pos hwu] at hw; cases hw
        · rw [if_neg hwu] at hw
          rw [htw]
          exact ub.inv.core.tw w th' sl' t' (by rw [ub.up]; exact hw) hl'
      · intro x hx
        rw [htw] at hx
        exact .inl hx
      · intro hl' r hr
        cases hr with
        | mt h1 => exact ub.inv.core.closed th o hot hl' r (.mt h1)
        | val h1 => exact ub.inv.core.closed th o hot hl' r (.val h1)
        | key h1 h2 => exact ub.inv.core.closed th o hot hl' r (.key h1 h2)
        | nval h1 h2 => exact ub.inv.core.closed th o hot hl' r (.nval h1 h2)
        | cache h1 => exact ub.inv.core.closed th o hot hl' r (.cache h1)
        | up h1 h2 =>
          rw [hg] at h2
          exact ub.inv.core.closed th o hot hl' r (.up (List.mem_of_mem_erase h1) h2)
      · intro j oj _ _ _ w _ r hr
        rw [hg] at hr
        exact .inl hr
    · intro hkp j oj _ _ _ w _ hok
      by_cases hwu : w = u
      · unfold UpOk
        rw [hupw, if_pos hwu]
        intro r hr
        exact (NW_col (by rw [hcol])).mpr (ub.nw (by rw [← keep_congr ub.phase]; exact hkp) r hr)
      · exact hok.same hcol (hupn w hwu)
  refine ⟨inv', ?_, fun w hw => by rw [hupw, if_neg hw]⟩
  unfold Live
  rw [hcol, sm.white]
  exact hlt

theorem closeUps_oof (n : Nat) (th : Id) (level : Nat) : ∀ (us : List Nat) (s : G), (∃ o, s.obj th = some o) →
    (closeUps n th level us s).oof = false → s.oof = false := by
  intro us
  induction us with
  | nil => exact fun _ _ h => h
  | cons u us ih =>
    rintro s ⟨o, ho⟩ h
    simp only [closeUps] at h
    split at h
    · split at h
      · obtain ⟨e1, e2, e3⟩ := upvalbarrier_comm n (s.upGet u) s
        have e := e1 (s.setObj th (some { o with ups := o.ups.erase u })).obj
          ((s.setObj th (some { o with ups := o.ups.erase u })).setUp u (.closed (s.upGet u))).up (setObj_view ho rfl)
        dsimp only at e
        have e' : closeUp n th u s = { upvalbarrier n s (s.upGet u) with
            obj := (s.setObj th (some { o with ups := o.ups.erase u })).obj,
            up := ((s.setObj th (some { o with ups := o.ups.erase u })).setUp u (.closed (s.upGet u))).up } := by
          rw [← e]
          unfold closeUp
          dsimp only
          rw [modify_eq ho]
          rfl
        refine e3 ?_
        have := ih (closeUp n th u s) ⟨{ o with ups := o.ups.erase u }, by rw [e']; exact setObj_self s th _⟩ h
        rw [e'] at this
        exact this
      · exact ih s ⟨o, ho⟩ h
    · exact ih s ⟨o, ho⟩ h

theorem closeUps_inv (n : Nat) (th : Id) (level : Nat) : ∀ (us : List Nat) (s : G) (o : Obj), Inv s → Live s th → s.obj th = some o →
    o.kind = .thread → us.Nodup → (∀ u ∈ us, u ∈ o.ups) → (closeUps n th level us s).oof = false → Inv (closeUps n th level us s) := by
  intro us
  induction us with
  | nil => exact fun _ _ h _ _ _ _ _ _ => h
  | cons u us ih =>
    intro s o h hl ho hk nd hm hoof
    obtain ⟨sl, tt, hup⟩ := (h.core.shapes th o ho).own hk u (hm u (by simp))
    rw [List.nodup_cons] at nd
    simp only [closeUps, hup] at hoof ⊢
    by_cases hlv : level ≤ sl
    · rw [if_pos hlv] at hoof ⊢
      obtain ⟨_, h2, h3⟩ := closeUp_inv n h hl ho hk (hm u (by simp)) hup
      have hof := closeUps_oof n th level us _ ⟨_, h3⟩ hoof
      obtain ⟨h4, h5, _⟩ := h2 hof
      refine ih _ _ h4 h5 h3 hk nd.2 (fun w hw => ?_) hoof
      exact (List.Nodup.mem_erase_iff (h.core.upnd th o ho hk)).mpr ⟨by rintro rfl; exact nd.1 hw, hm w (by simp [hw])⟩
    · rw [if_neg hlv] at hoof ⊢
      exact ih s o h hl ho hk nd.2 (fun w hw => hm w (by simp [hw])) hoof

/-! ## New objects -/

theorem swept_cons {p : Ptr} {i x : Id} {l : List Id} (hp : p ≠ .after i) (h : x ∈ (split p (i :: l)).1) : x = i ∨ x ∈ (split p l).1 := by
  cases p with
  | null => simpa [split] using h
  | head => simp [split] at h
  | after k =>
    simp only [split] at h
    rw [if_neg (by rintro rfl; exact hp rfl)] at h
    simpa using h

theorem Done.refs {s s' : G} {i : Id} {o : Obj} (h : Done .prop s i o) (hr : ∀ r, Ref s o r → NW s r → NW s' r) (hup : s'.up = s.up)
    (hl : s'.weak = s.weak ∧ s'.allweak = s.allweak ∧ s'.ephemeron = s.ephemeron) : Done .prop s' i o := by
  have e1 : ValsNW s o → ValsNW s' o := fun h v hv r e => hr r (.val (e ▸ hv)) (h v hv r e)
  have e2 : MtNW s o → MtNW s' o := fun h m hm => hr m (.mt hm) (h m hm)
  obtain ⟨l1, l2, l3⟩ := hl
  unfold Done at h ⊢
  revert h
  cases hk : o.kind with
  | str => exact id
  | udata => exact fun hd => ⟨e2 hd.1, e1 hd.2⟩
  | arr => exact fun hd => ⟨e2 hd.1, e1 hd.2⟩
  | ccl => exact e1
  | proto => exact fun hd => ⟨e1 hd.1, fun c hc => hr c (.cache hc) (hd.2 c hc)⟩
  | lcl =>
    refine fun hd => ⟨e1 hd.1, fun u hu => ?_⟩
    have := hd.2 u hu
    unfold UpOk at this ⊢
    rw [hup]
    revert this
    cases hu' : s.up u with
    | closed v => exact fun h r e => hr r (.up hu (by rw [upGet_closed hu']; exact e)) (h r e)
    | opn th sl t => exact id
  | thread => exact fun hd => absurd rfl hd.1
  | table =>
    rw [l1, l2, l3]
    exact fun hd => ⟨e2 hd.1, hd.2.imp (fun h => ⟨e1 h.1, fun x hx => ⟨fun r e => hr r (.nval hx e) ((h.2 x hx).1 r e),
        fun r e => hr r (.key hx e) ((h.2 x hx).2 r e)⟩⟩)
      (.imp (fun h => ⟨h.1, fun x hx r e => hr r (.key hx e) (h.2 x hx r e)⟩) (.imp (fun h => ⟨h.1, e1 h.2.1, h.2.2⟩) id))⟩

theorem newObj_inv {s : G} {k : Kind} {i : Id} (h : Inv s) (hi : s.obj i = none) :
    Inv (newObj s k i) ∧ Ok (newObj s k i) i ∧ (newObj s k i).oof = s.oof := by
  generalize e : newObj s k i = s'
  have hob : ∀ j, s'.obj j = if j = i then some { kind := k } else s.obj j := by subst e; exact fun _ => rfl
  have hcol : ∀ j, s'.col j = if j = i then .white s.white else s.col j := by subst e; exact fun _ => rfl
  have hfin : ∀ j, s'.fin j = if j = i then false else s.fin j := by subst e; exact fun _ => rfl
  have hwh : s'.white = s.white := by subst e; rfl
  have hall : s'.allgc = i :: s.allgc := by subst e; rfl
  have hfo : s'.finobj = s.finobj := by subst e; rfl
  have htb : s'.tobefnz = s.tobefnz := by subst e; rfl
  have hfx : s'.fixedgc = s.fixedgc := by subst e; rfl
  have hup : s'.up = s.up := by subst e; rfl
  have htw : s'.twups = s.twups := by subst e; rfl
  have hmain : s'.main = s.main := by subst e; rfl
  have hrun : s'.running = s.running := by subst e; rfl
  have hreg : s'.registry = s.registry := by subst e; rfl
  have hmts : s'.mts = s.mts := by subst e; rfl
  have hstr : s'.strcache = s.strcache := by subst e; rfl
  have hbad : s'.bad = s.bad := by subst e; rfl
  have hph : s'.phase = s.phase := by subst e; rfl
  have hsg : s'.sweepgc = s.sweepgc := by subst e; rfl
  have hls : s'.gray = s.gray ∧ s'.grayagain = s.grayagain ∧ s'.weak = s.weak ∧ s'.allweak = s.allweak ∧ s'.ephemeron = s.ephemeron := by
    subst e; exact ⟨rfl, rfl, rfl, rfl, rfl⟩
  have hoof : s'.oof = s.oof := by subst e; rfl
  clear e
  have nex : ∀ j, (s.obj j).isSome → j ≠ i := by rintro j hj rfl; rw [hi] at hj; cases hj
  have nin : i ∉ s.allgc ∧ i ∉ s.finobj ∧ i ∉ s.tobefnz ∧ i ∉ s.fixedgc := by
    have := mt (h.core.dom i).mpr (by rw [hi]; simp)
    tauto
  have live : ∀ j, j ≠ i → (Live s' j ↔ Live s j) := fun j hj => by unfold Live; rw [hcol, if_neg hj, hwh]
  have livei : Live s' i := by
    unfold Live
    rw [hcol, if_pos rfl, hwh]
    cases s.white <;> simp
  have ok : ∀ j, Ok s j → Ok s' j := fun j hj => ⟨by rw [hob, if_neg (nex j hj.1)]; exact hj.1, (live j (nex j hj.1)).mpr hj.2⟩
  have hget : ∀ u, s'.upGet u = s.upGet u := by
    intro u
    refine upGet_congr (by rw [hup]) fun th sl t hu => ?_
    obtain ⟨o, ho, _⟩ := h.core.upt u th sl t hu
    rw [hob, if_neg (nex th (by rw [ho]; rfl))]
  have noref : ∀ r, ¬ Ref s' { kind := k } r := by
    intro r hr
    cases hr with
    | mt h => cases h
    | val h => cases h
    | key h _ => cases h
    | nval h _ => cases h
    | up h _ => cases h
    | cache h => cases h
  have core : Core s' := {
    dom := fun j => by
      rw [hob, hall, hfo, htb, hfx]
      by_cases hj : j = i
      · simp [hj]
      · rw [if_neg hj, h.core.dom j]
        simp [hj]
    nodup := by
      rw [hall, hfo, htb, hfx, List.cons_append, List.nodup_cons]
      refine ⟨?_, h.core.nodup⟩
      simp only [List.mem_append]
      tauto
    fin := fun j hj => by
      rw [hfo, htb] at hj
      rw [hfin, if_neg]
      · exact h.core.fin j hj
      · rintro rfl; tauto
    shapes := fun j o hj => by
      rw [hob] at hj
      by_cases hji : j = i
      · rw [if_pos hji] at hj
        cases hj
        exact ⟨fun h => absurd rfl h, fun h => absurd rfl h, fun h => absurd rfl h, fun h => absurd rfl h, fun h => absurd rfl h, fun _ u hu => nomatch hu⟩
      · rw [if_neg hji] at hj
        have sh := h.core.shapes j o hj
        exact ⟨sh.mt, sh.vals, sh.nodes, sh.ups, sh.cache, by rw [hup]; exact sh.own⟩
    fixed := fun j hj => by
      rw [hfx] at hj
      have hji : j ≠ i := by rintro rfl; exact nin.2.2.2 hj
      rw [hcol, if_neg hji, hob, if_neg hji]
      exact h.core.fixed j hj
    main := by
      obtain ⟨o, ho, hk⟩ := h.core.main
      exact ⟨o, by rw [hmain, hob, if_neg (nex _ (by rw [ho]; rfl))]; exact ho, hk⟩
    run := by
      obtain ⟨o, ho, hk⟩ := h.core.run
      exact ⟨o, by rw [hrun, hob, if_neg (nex _ (by rw [ho]; rfl))]; exact ho, hk⟩
    upt := fun u th sl t hu => by
      rw [hup] at hu
      obtain ⟨o, ho, hk⟩ := h.core.upt u th sl t hu
      exact ⟨o, by rw [hob, if_neg (nex _ (by rw [ho]; rfl))]; exact ho, hk⟩
    upnd := fun j o hj hk => by
      rw [hob] at hj
      by_cases hji : j = i
      · rw [if_pos hji] at hj
        cases hj
        exact List.nodup_nil
      · rw [if_neg hji] at hj
        exact h.core.upnd j o hj hk
    tw := fun u th sl t hu hl => by
      rw [hup] at hu
      obtain ⟨o, ho, hk⟩ := h.core.upt u th sl t hu
      rw [htw]
      exact h.core.tw u th sl t hu ((live th (nex _ (by rw [ho]; rfl))).mp hl)
    twe := fun th ht => by
      rw [htw] at ht
      exact ok th (h.core.twe th ht)
    closed := fun j o hj hl r hr => by
      rw [hob] at hj
      by_cases hji : j = i
      · rw [if_pos hji] at hj
        cases hj
        exact absurd hr (noref r)
      · rw [if_neg hji] at hj
        rw [live j hji] at hl
        refine ok r (h.core.closed j o hj hl r ?_)
        cases hr with
        | mt h => exact .mt h
        | val h => exact .val h
        | key h h' => exact .key h h'
        | nval h h' => exact .nval h h'
        | cache h => exact .cache h
        | up h h' => exact .up h (by rw [← hget]; exact h')
    roots := fun r hr => by
      refine ok r (h.core.roots r ?_)
      cases hr with
      | main => rw [hmain]; exact .main
      | running => rw [hrun]; exact .running
      | registry h => exact .registry (hreg ▸ h)
      | mts h => exact .mts (hmts ▸ h)
      | strcache h => exact .strcache (hstr ▸ h)
      | fixed h => exact .fixed (hfx ▸ h)
    fins := fun j hj => by
      rw [hfo, htb] at hj
      exact (live j (by rintro rfl; tauto)).mpr (h.core.fins j hj)
    bad := hbad.trans h.core.bad }
  refine ⟨⟨core, by rw [hph]; exact h.phase, fun hkp => ?_, fun hkp => ?_⟩, ⟨by rw [hob, if_pos rfl]; rfl, livei⟩, hoof⟩
  · rw [keep_congr hph] at hkp
    have hm := h.mark hkp
    obtain ⟨g1, g2, g3, g4, g5⟩ := hls
    have nwj : ∀ j, j ≠ i → (NW s' j ↔ NW s j) := fun j hj => NW_col (by rw [hcol, if_neg hj])
    have ip : ∀ j, InPend .prop [] s' j ↔ InPend .prop [] s j := fun j => by simp [InPend, g2]
    have hdone : ∀ j o, s.obj j = some o → Done .prop s j o → Done .prop s' j o := fun j o hj hd =>
      hd.refs (fun r hr hn => (nwj r (nex r (h.core.closed j o hj (hm.live j (by rw [hj]; rfl)) r hr).1)).mpr hn) hup ⟨g3, g4, g5⟩
    have ci : s'.col i = .white s.white := by rw [hcol, if_pos rfl]
    refine ⟨fun j hj => ?_, ⟨fun j o hj hc => ?_, fun j o hj hc => ?_⟩, ⟨fun j hj => ?_, fun j hj => ?_, ?_, fun j hj => ?_⟩, ?_⟩
    · by_cases hji : j = i
      · rw [hji]; exact livei
      · rw [hob, if_neg hji] at hj
        exact (live j hji).mpr (hm.live j hj)
    · have hji : j ≠ i := by rintro rfl; rw [ci] at hc; cases hc
      rw [hob, if_neg hji] at hj
      rw [hcol, if_neg hji] at hc
      rw [g1, ip]
      exact (hm.j.blk j o hj hc).imp id (.imp id (.imp id (hdone j o hj)))
    · have hji : j ≠ i := by rintro rfl; rw [ci] at hc; cases hc
      rw [hob, if_neg hji] at hj
      rw [hcol, if_neg hji] at hc
      rw [g1, ip, hfx, g4]
      exact (hm.j.gry j o hj hc).imp id (.imp id (.imp id (.imp id fun h1 => ⟨hdone j o hj h1.1, h1.2⟩)))
    · rw [g1, ip] at hj
      obtain ⟨h1, o, h2, h3⟩ := hm.l.lst j hj
      have hji := nex j (by rw [h2]; rfl)
      exact ⟨(nwj j hji).mpr h1, o, by rw [hob, if_neg hji]; exact h2, h3⟩
    · rw [g3, g4, g5] at hj
      obtain ⟨h1, o, h2, h3⟩ := hm.l.lstw j hj
      have hji := nex j (by rw [h2]; rfl)
      exact ⟨(nwj j hji).mpr h1, o, by rw [hob, if_neg hji]; exact h2, h3⟩
    · rw [g3, g5]; exact hm.l.prop
    · rw [hfx] at hj
      obtain ⟨o, h2, h3⟩ := hm.l.fix j hj
      exact ⟨o, by rw [hob, if_neg (nex j (by rw [h2]; rfl))]; exact h2, h3⟩
    · obtain ⟨o, ho, _⟩ := h.core.main
      rw [hmain]
      exact (nwj _ (nex _ (by rw [ho]; rfl))).mpr hm.main
  · rw [keep_congr hph] at hkp
    have hs := h.sweep hkp
    have hspp : s'.issweepphase = s.issweepphase := by unfold G.issweepphase; rw [hph]
    have hne : s.issweepphase = true → s.sweepgc ≠ .after i := by
      intro h1 h2
      have := hs.ptr h1 i h2
      unfold curList at this
      split at this <;> tauto
    constructor
    · intro j hj
      rw [hwh, hcol]
      split
      · rfl
      · rename_i hji
        refine hs.swept j ?_
        unfold swept at hj ⊢
        rw [hph, hsg, hall, hfo, htb] at hj
        cases hp : s.phase <;> rw [hp] at hj <;> dsimp only at hj ⊢ <;>
          first
          | exact (swept_cons (hne (by simp [G.issweepphase, hp])) hj).resolve_left hji
          | (simp only [List.cons_append, List.mem_cons] at hj; exact hj.resolve_left hji)
    · intro h1 j hj
      rw [hspp] at h1
      rw [hsg] at hj
      have := hs.ptr h1 j hj
      unfold curList at this ⊢
      rw [hph, hall, hfo, htb]
      split at this <;> simp_all

/-- a string that is found in the string table -/
theorem intern_inv {s : G} {i : Id} {o : Obj} (h : Inv s) (ho : s.obj i = some o) (hk : o.kind = .str) :
    Inv (push (if s.isDead i then s.setCol i (.white s.white) else s) (.ref i)) ∧
    (push (if s.isDead i then s.setCol i (.white s.white) else s) (.ref i)).oof = s.oof := by
  by_cases hd : s.isDead i = true
  · rw [if_pos hd]
    have hdead := (isDead_iff).mp hd
    have hcol : ∀ j, (s.setCol i (.white s.white)).col j = if j = i then .white s.white else s.col j := fun _ => rfl
    have hli : Live (s.setCol i (.white s.white)) i := by
      unfold Live
      rw [hcol, if_pos rfl, show (s.setCol i (.white s.white)).white = s.white from rfl]
      cases s.white <;> simp
    have hne : s.keepinvariant = false := by
      rw [← Bool.not_eq_true]
      exact fun hkp => hdead ((h.mark hkp).live i (by rw [ho]; rfl))
    have inv : Inv (s.setCol i (.white s.white)) := by
      refine ⟨h.core.color (by constructor <;> rfl) rfl rfl rfl ?_ ?_ ?_, h.phase, fun hkp => ?_, fun _ => ?_⟩
      · intro j _ hj
        by_cases hji : j = i
        · rw [hji]; exact hli
        · unfold Live at hj ⊢; rw [hcol, if_neg hji]; exact hj
      · intro j oj hj hlj
        by_cases hji : j = i
        · subst hji
          rw [ho] at hj
          cases hj
          exact .inr hk
        · unfold Live at hlj ⊢; rw [hcol, if_neg hji] at hlj; exact .inl hlj
      · intro j hj
        rw [hcol, if_neg]
        rintro rfl
        exact hdead (h.core.roots j (.fixed hj)).2
      · exact absurd (show s.keepinvariant = true from hkp) (by rw [hne]; simp)
      · refine (h.sweep hne).congr (by constructor <;> rfl) rfl rfl fun j hj => ?_
        rw [hcol]
        split
        · rfl
        · exact hj
    have := push_inv (v := .ref i) inv (fun r hr => by cases hr; exact ⟨by rw [show (s.setCol i (.white s.white)).obj = s.obj from rfl, ho]; rfl, hli⟩)
    exact this
  · rw [if_neg hd]
    refine push_inv h fun r hr => ?_
    cases hr
    refine ⟨by rw [ho]; rfl, ?_⟩
    rw [isDead_iff] at hd
    exact not_not.mp hd

/-! ## Finalizers -/

theorem split_erase {p : Ptr} {i x : Id} {l : List Id} (hp : p ≠ .after i) (nd : l.Nodup) (h : x ∈ (split p (l.erase i)).1) :
    x ∈ (split p l).1 := by
  cases p with
  | null =>
    simp only [split] at h ⊢
    exact List.mem_of_mem_erase h
  | head => simp [split] at h
  | after k =>
    have hki : k ≠ i := by rintro rfl; exact hp rfl
    induction l with
    | nil => exact h
    | cons c l ih =>
      rw [List.nodup_cons] at nd
      by_cases hc : c = i
      · subst hc
        rw [List.erase_cons_head] at h
        simp only [split]
        rw [if_neg (Ne.symm hki)]
        exact List.mem_cons_of_mem _ h
      · rw [List.erase_cons_tail (by simpa using hc)] at h
        simp only [split] at h ⊢
        by_cases hck : c = k
        · rw [if_pos hck] at h ⊢; exact h
        · rw [if_neg hck] at h ⊢
          rw [List.mem_cons] at h ⊢
          exact h.imp id (ih nd.2)

/-- an object that gets a finalizer moves to another list -/
theorem tofin_inv {s : G} {i : Id} (h : Inv s) (hi : i ∈ s.allgc) (hl : Live s i) (hp : s.issweepphase = true → s.sweepgc ≠ .after i ∧ s.col i = .white s.white) :
    Inv ({ s with allgc := s.allgc.erase i, finobj := i :: s.finobj }.setFin i true) := by
  generalize e : ({ s with allgc := s.allgc.erase i, finobj := i :: s.finobj } : G).setFin i true = s'
  have hob : s'.obj = s.obj := by subst e; rfl
  have hcol : s'.col = s.col := by subst e; rfl
  have hfin : ∀ j, s'.fin j = if j = i then true else s.fin j := by subst e; exact fun _ => rfl
  have hwh : s'.white = s.white := by subst e; rfl
  have hall : s'.allgc = s.allgc.erase i := by subst e; rfl
  have hfo : s'.finobj = i :: s.finobj := by subst e; rfl
  have htb : s'.tobefnz = s.tobefnz := by subst e; rfl
  have hfx : s'.fixedgc = s.fixedgc := by subst e; rfl
  have hup : s'.up = s.up := by subst e; rfl
  have hph : s'.phase = s.phase := by subst e; rfl
  have hsg : s'.sweepgc = s.sweepgc := by subst e; rfl
  have hmark : ∀ ex, MarkInv ex s → MarkInv ex s' := by
    subst e
    exact fun ex hm => ⟨hm.live, ⟨hm.j.blk, hm.j.gry⟩, ⟨hm.l.lst, hm.l.lstw, hm.l.prop, hm.l.fix⟩, hm.main⟩
  have nd := h.core.nodup
  have nda : s.allgc.Nodup := (List.nodup_append.mp nd).1
  have core : Core s' := {
    dom := fun j => by
      rw [hob, hall, hfo, htb, hfx, h.core.dom j, List.Nodup.mem_erase_iff nda, List.mem_cons]
      by_cases hj : j = i
      · subst hj; simp [hi]
      · simp [hj]
    nodup := by
      rw [hall, hfo, htb, hfx]
      have : (s.allgc.erase i ++ (i :: s.finobj ++ (s.tobefnz ++ s.fixedgc))).Perm (s.allgc ++ (s.finobj ++ (s.tobefnz ++ s.fixedgc))) := by
        rw [List.cons_append]
        refine List.perm_middle.trans ?_
        rw [← List.cons_append]
        exact List.Perm.append_right _ (List.perm_cons_erase hi).symm
      exact this.nodup_iff.mpr nd
    fin := fun j hj => by
      rw [hfo, htb] at hj
      rw [hfin]
      split
      · rfl
      · rename_i hji
        refine h.core.fin j (hj.imp (fun h => ?_) id)
        exact (List.mem_cons.mp h).resolve_left hji
    shapes := h.core.shapes.congr hob hup
    fixed := by rw [hfx, hcol, hob]; exact h.core.fixed
    main := by subst e; exact h.core.main
    run := by subst e; exact h.core.run
    upt := h.core.upt.congr hob hup
    upnd := by rw [hob]; exact h.core.upnd
    tw := by subst e; exact h.core.tw
    twe := by subst e; exact h.core.twe
    closed := by
      subst e
      intro j o hj hlj r hr
      refine h.core.closed j o hj hlj r ?_
      cases hr with
      | mt h => exact .mt h
      | val h => exact .val h
      | key h h' => exact .key h h'
      | nval h h' => exact .nval h h'
      | cache h => exact .cache h
      | up h h' => exact .up h h'
    roots := by
      subst e
      intro r hr
      refine h.core.roots r ?_
      cases hr with
      | main => exact .main
      | running => exact .running
      | registry h => exact .registry h
      | mts h => exact .mts h
      | strcache h => exact .strcache h
      | fixed h => exact .fixed h
    fins := fun j hj => by
      rw [hfo, htb, List.mem_cons] at hj
      unfold Live
      rw [hcol, hwh]
      rcases hj with (hj | hj) | hj
      · rw [hj]; exact hl
      · exact h.core.fins j (.inl hj)
      · exact h.core.fins j (.inr hj)
    bad := by subst e; exact h.core.bad }
  refine ⟨core, by rw [hph]; exact h.phase, fun hkp => ?_, fun hkp => ?_⟩
  · rw [keep_congr hph] at hkp
    exact hmark _ (h.mark hkp)
  · rw [keep_congr hph] at hkp
    have hs := h.sweep hkp
    have hspp : s'.issweepphase = s.issweepphase := by unfold G.issweepphase; rw [hph]
    constructor
    · intro j hj
      rw [hcol, hwh]
      by_cases hji : j = i
      · subst hji
        by_cases hsp : s.issweepphase = true
        · exact (hp hsp).2
        · refine hs.swept j ?_
          unfold swept
          cases hph' : s.phase <;> simp [G.issweepphase, hph'] at hsp ⊢ <;> simp [hi]
      · refine hs.swept j ?_
        unfold swept at hj ⊢
        rw [hph, hsg, hall, hfo, htb] at hj
        have e1 : j ∈ s.allgc.erase i → j ∈ s.allgc := List.mem_of_mem_erase
        cases hph' : s.phase <;> rw [hph'] at hj <;> dsimp only at hj ⊢
        case swpallgc => exact split_erase (hp (by simp [G.issweepphase, hph'])).1 nda hj
        case swpfinobj =>
          rw [List.mem_append] at hj ⊢
          exact hj.imp e1 fun h1 => (swept_cons (hp (by simp [G.issweepphase, hph'])).1 h1).resolve_left hji
        all_goals
          simp only [List.mem_append, List.mem_cons] at hj ⊢
          tauto
    · intro h1 j hj
      rw [hspp] at h1
      rw [hsg] at hj
      have hji : j ≠ i := by rintro rfl; exact (hp h1).1 hj
      have := hs.ptr h1 j hj
      unfold curList at this ⊢
      rw [hph, hall, hfo, htb]
      split at this
      · exact (List.Nodup.mem_erase_iff nda).mpr ⟨hji, this⟩
      · exact List.mem_cons_of_mem _ this
      · exact this

theorem checkfinalizer_inv {s : G} {i : Id} {o : Obj} (h : Inv s) (ho : s.obj i = some o) (hk : o.kind ≠ .str) (hl : Live s i) :
    Inv (checkfinalizer s i) ∧ (checkfinalizer s i).oof = s.oof := by
  unfold checkfinalizer
  by_cases hf : s.fin i = true
  · rw [if_pos hf]; exact ⟨h, rfl⟩
  rw [if_neg hf]
  have hnf : i ∉ s.fixedgc := by
    intro h1
    obtain ⟨_, o', h2, h3⟩ := h.core.fixed i h1
    rw [ho] at h2
    cases h2
    exact hk h3
  have hall : i ∈ s.allgc := by
    rcases (h.core.dom i).mp (by rw [ho]; rfl) with h1 | h1 | h1 | h1
    · exact h1
    · exact absurd (h.core.fin i (.inl h1)) hf
    · exact absurd (h.core.fin i (.inr h1)) hf
    · exact absurd h1 hnf
  dsimp only
  by_cases hsp : s.issweepphase = true
  · rw [if_pos hsp]
    have hkp : s.keepinvariant = false := by
      unfold G.issweepphase at hsp
      unfold G.keepinvariant
      cases hph : s.phase <;> simp [hph] at hsp ⊢
    have hs := h.sweep hkp
    -- the new colour
    have h1 : Inv (s.setCol i (.white s.white)) := by
      refine ⟨?_, h.phase, fun hf => absurd (show s.keepinvariant = true from hf) (by rw [hkp]; simp), fun _ => hs.congr (by constructor <;> rfl) rfl rfl fun j hj => ?_⟩
      · exact (whiten_core h.core (by rw [ho]; rfl) hl hnf (s.age i)).color (by constructor <;> rfl) rfl rfl rfl (fun _ _ h => h)
          (fun _ _ _ h => .inl h) (fun _ _ => rfl)
      · show (if j = i then _ else s.col j) = _
        split
        · rfl
        · exact hj
    have hw1 : (s.setCol i (.white s.white)).col i = .white s.white := if_pos rfl
    have hoo : (s.setCol i (.white s.white)).oof = s.oof := rfl
    have hf1 : (s.setCol i (.white s.white)).fin i = s.fin i := rfl
    have hall1 : i ∈ (s.setCol i (.white s.white)).allgc := hall
    have hsp1 : (s.setCol i (.white s.white)).issweepphase = true := hsp
    have hwh1 : (s.setCol i (.white s.white)).white = s.white := rfl
    generalize s.setCol i (.white s.white) = s1 at h1 hw1 hoo hf1 hall1 hsp1 hwh1 ⊢
    rw [← hwh1] at hw1
    have hl1 : ∀ t : G, t.col i = .white t.white → Live t i := fun t ht => by
      unfold Live; rw [ht]; cases t.white <;> simp
    have hkp1 : s1.keepinvariant = false := by
      unfold G.issweepphase at hsp1
      unfold G.keepinvariant
      cases hph : s1.phase <;> simp [hph] at hsp1 ⊢
    by_cases hpt : s1.sweepgc = .after i
    · rw [if_pos hpt]
      have hcur := (h1.sweep hkp1).ptr hsp1 i hpt
      have hph : s1.phase = .swpallgc := by
        unfold curList at hcur
        split at hcur
        · assumption
        · exact absurd (h1.core.fin i (.inl hcur)) (by rw [hf1]; exact hf)
        · exact absurd (h1.core.fin i (.inr hcur)) (by rw [hf1]; exact hf)
      have hsw : ∀ j ∈ (split s1.sweepgc s1.allgc).1, s1.col j = .white s1.white := fun j hj =>
        (h1.sweep hkp1).swept j (by unfold swept; rw [hph]; exact hj)
      have hap := split_append s1.sweepgc s1.allgc
      have hlast : (split s1.sweepgc s1.allgc).1.getLast? = some i := by
        rw [hpt]
        clear hsw hap hcur
        generalize s1.allgc = l at hall1
        induction l with
        | nil => cases hall1
        | cons c l ih =>
          simp only [split]
          by_cases hc : c = i
          · rw [if_pos hc]; simp [hc]
          · rw [if_neg hc]
            have := ih ((List.mem_cons.mp hall1).resolve_left (Ne.symm hc))
            rw [List.getLast?_cons, this]
            rfl
      generalize split s1.sweepgc s1.allgc = q at hsw hap hlast ⊢
      obtain ⟨pre, post⟩ := q
      dsimp only at hsw hap hlast ⊢
      obtain ⟨sw, swn⟩ := sweeptolive_all post pre s1 (by rw [hap]; exact h1.core)
      have nd0 : (pre ++ post).Nodup := by rw [hap]; exact (List.nodup_append.mp h1.core.nodup).1
      generalize sweeptolive pre post s1 = q at sw swn ⊢
      obtain ⟨pre', post', s2⟩ := q
      dsimp only at sw swn ⊢
      have nd := nodup_post sw.core
      obtain ⟨l, hl', hlm⟩ := sw.pre
      have hipre : i ∈ pre := List.mem_of_getLast? hlast
      have hipost : i ∉ post := fun h => (List.nodup_append.mp nd0).2.2 i hipre i h rfl
      have hw2 : s2.col i = .white s2.white := by rw [sw.fr.col i hipost, sw.fr.white]; exact hw1
      have hph2 : s2.phase = .swpallgc := sw.fr.phase.trans hph
      have inv2 : Inv { s2 with allgc := pre' ++ post', sweepgc := mkPtr pre' post' } := by
        refine ⟨?_, by rw [hph2]; simp, fun hk => by simp [G.keepinvariant, hph2] at hk, fun _ => ⟨fun j hj => ?_, fun _ j hj => ?_⟩⟩
        · exact sw.core.color (by constructor <;> rfl) rfl rfl rfl (fun _ _ h => h) (fun _ _ _ h => .inl h) (fun _ _ => rfl)
        · unfold swept at hj
          dsimp only at hj
          rw [hph2] at hj
          dsimp only at hj
          rw [split_mkPtr nd] at hj
          have hj : j ∈ pre' := hj
          show s2.col j = .white s2.white
          rw [hl', List.mem_append] at hj
          rw [sw.fr.white]
          rcases hj with hj | hj
          · rw [sw.fr.col j (fun h => (List.nodup_append.mp nd0).2.2 j hj j h rfl)]
            exact hsw j hj
          · exact (hlm j hj).2
        · unfold curList
          dsimp only
          rw [hph2]
          exact List.mem_append_left _ (mkPtr_after hj)
      have hin : i ∈ pre' ++ post' := by rw [hl']; simp [hipre]
      rw [if_pos hin]
      refine ⟨tofin_inv inv2 hin (hl1 _ hw2) fun _ => ⟨?_, hw2⟩, ?_⟩
      · show mkPtr pre' post' ≠ .after i
        intro hm
        unfold mkPtr at hm
        split at hm
        · cases hm
        · rename_i hpost
          have hne : l ≠ [] := by
            rintro rfl
            exact hpost (swn (by simpa using hl'))
          have hll : pre'.getLast? = l.getLast? := by
            rw [hl']
            rw [List.getLast?_append, List.getLast?_eq_some_getLast hne]
            rfl
          rw [hll] at hm
          cases hg : l.getLast? with
          | none => rw [hg] at hm; cases hm
          | some x =>
            rw [hg] at hm
            cases hm
            exact hipost (hlm i (List.mem_of_getLast? hg)).1
      · exact sw.fr.oof.trans hoo
    · rw [if_neg hpt, if_pos hall1]
      exact ⟨tofin_inv h1 hall1 (hl1 _ hw1) fun _ => ⟨hpt, hw1⟩, hoo⟩
  · rw [if_neg hsp, if_pos hall]
    exact ⟨tofin_inv h hall hl fun h1 => absurd h1 hsp, rfl⟩

theorem finalize_inv {s : G} (h : Inv s) (hph : s.phase = .callfin ∨ s.phase = .pause) : Inv (finalize s) ∧ (finalize s).oof = s.oof := by
  unfold finalize
  cases hl : s.tobefnz with
  | nil => exact ⟨h, rfl⟩
  | cons i rest =>
    dsimp only
    have hf : s.fin i = true := h.core.fin i (.inr (by rw [hl]; simp))
    rw [hf, if_neg (by simp)]
    have hli : Live s i := h.core.fins i (.inr (by rw [hl]; simp))
    have hex : (s.obj i).isSome := (h.core.dom i).mpr (.inr (.inr (.inl (by rw [hl]; simp))))
    have nd := h.core.nodup
    rw [hl] at nd
    have hperm : (i :: s.allgc ++ (s.finobj ++ (rest ++ s.fixedgc))).Perm (s.allgc ++ (s.finobj ++ (i :: rest ++ s.fixedgc))) := by
      rw [List.cons_append, List.cons_append, ← List.append_assoc, ← List.append_assoc s.allgc s.finobj (i :: _)]
      exact List.perm_middle.symm
    have nd' := hperm.nodup_iff.mpr nd
    have hni : i ∉ s.finobj ∧ i ∉ rest := by
      rw [List.cons_append, List.nodup_cons] at nd'
      simp only [List.mem_append] at nd'
      tauto
    have inv : Inv ({ s with tobefnz := rest, allgc := i :: s.allgc }.setFin i false) := by
      refine ⟨?_, h.phase, fun hk => ?_, fun hk => ⟨fun j hj => ?_, fun h1 => ?_⟩⟩
      · exact {
          dom := fun j => by
            show (s.obj j).isSome ↔ j ∈ i :: s.allgc ∨ j ∈ s.finobj ∨ j ∈ rest ∨ j ∈ s.fixedgc
            rw [h.core.dom j, hl]
            simp only [List.mem_cons]
            tauto
          nodup := nd'
          fin := fun j hj => by
            show (if j = i then false else s.fin j) = true
            have hj : j ∈ s.finobj ∨ j ∈ rest := hj
            rw [if_neg (by rintro rfl; tauto)]
            exact h.core.fin j (hj.imp id fun h => by rw [hl]; simp [h])
          shapes := h.core.shapes.congr rfl rfl
          fixed := h.core.fixed
          main := h.core.main
          run := h.core.run
          upt := h.core.upt.congr rfl rfl
          upnd := h.core.upnd
          tw := h.core.tw
          twe := h.core.twe
          closed := fun j o hj hlj r hr => h.core.closed j o hj hlj r (by
            cases hr with
            | mt h => exact .mt h
            | val h => exact .val h
            | key h h' => exact .key h h'
            | nval h h' => exact .nval h h'
            | cache h => exact .cache h
            | up h h' => exact .up h h')
          roots := fun r hr => h.core.roots r (by
            cases hr with
            | main => exact .main
            | running => exact .running
            | registry h => exact .registry h
            | mts h => exact .mts h
            | strcache h => exact .strcache h
            | fixed h => exact .fixed h)
          fins := fun j hj => h.core.fins j (hj.imp id fun h => by rw [hl]; exact List.mem_cons_of_mem _ h)
          bad := h.core.bad }
      · have hk : s.keepinvariant = true := hk
        rcases hph with hph | hph <;> simp [G.keepinvariant, hph] at hk
      · have hk : s.keepinvariant = false := hk
        refine (h.sweep hk).swept j ?_
        unfold swept at hj ⊢
        have hj : j ∈ i :: s.allgc ++ s.finobj ++ rest := by
          revert hj
          rw [show (({ s with tobefnz := rest, allgc := i :: s.allgc } : G).setFin i false).phase = s.phase from rfl]
          rcases hph with hph | hph <;> rw [hph] <;> exact id
        rcases hph with hph | hph <;> rw [hph] <;> dsimp only <;> rw [hl] <;> simp only [List.mem_append, List.mem_cons] at hj ⊢ <;> tauto
      · have h1 : s.issweepphase = true := h1
        rcases hph with hph | hph <;> simp [G.issweepphase, hph] at h1
    exact push_inv inv fun r hr => by cases hr; exact ⟨hex, hli⟩

/-! ## Roots -/

theorem roots_inv {s s' : G} (h : Inv s) (e : ∃ a b c d, s' = { s with running := a, registry := b, mts := c, strcache := d })
    (hr : ∀ r, Root s' r → Ok s r) (hrun : ∃ o, s.obj s'.running = some o ∧ o.kind = .thread) : Inv s' := by
  obtain ⟨a, b, c, d, rfl⟩ := e
  refine ⟨?_, h.phase, fun hk => ?_, fun hk => ?_⟩
  · exact {
      dom := h.core.dom
      nodup := h.core.nodup
      fin := h.core.fin
      shapes := h.core.shapes.congr rfl rfl
      fixed := h.core.fixed
      main := h.core.main
      run := hrun
      upt := h.core.upt.congr rfl rfl
      upnd := h.core.upnd
      tw := h.core.tw
      twe := h.core.twe
      closed := fun j o hj hlj r hr => h.core.closed j o hj hlj r (by
        cases hr with
        | mt h => exact .mt h
        | val h => exact .val h
        | key h h' => exact .key h h'
        | nval h h' => exact .nval h h'
        | cache h => exact .cache h
        | up h h' => exact .up h h')
      roots := hr
      fins := h.core.fins
      bad := h.core.bad }
  · have hm := h.mark hk
    exact ⟨hm.live, ⟨hm.j.blk, hm.j.gry⟩, ⟨hm.l.lst, hm.l.lstw, hm.l.prop, hm.l.fix⟩, hm.main⟩
  · have hs := h.sweep hk
    exact ⟨hs.swept, hs.ptr⟩

/-! ## All steps -/

theorem closeAll_oof (us : List Nat) : ∀ s : G, (closeAll us s).oof = s.oof := by
  induction us with
  | nil => exact fun _ => rfl
  | cons u us ih => intro s; simp only [closeAll]; rw [ih]; rfl

theorem sweepOne_oof (s : G) (i : Id) : (sweepOne s i).2.oof = s.oof := by
  unfold sweepOne
  split
  · rfl
  · split
    · unfold freeobj
      dsimp only
      split
      · exact closeAll_oof _ s
      · rfl
    · rfl

theorem sweeptolive_oof (post : List Id) : ∀ (pre : List Id) (s : G), (sweeptolive pre post s).2.2.oof = s.oof := by
  induction post with
  | nil => exact fun _ _ => rfl
  | cons c post ih =>
    intro pre s
    have h := sweepOne_oof s c
    simp only [sweeptolive]
    generalize sweepOne s c = p at h ⊢
    obtain ⟨k, s1⟩ := p
    dsimp only at h ⊢
    split
    · exact h
    · rw [ih]; exact h

theorem checkfinalizer_oof (s : G) (i : Id) : (checkfinalizer s i).oof = s.oof := by
  unfold checkfinalizer
  split
  · rfl
  · dsimp only
    have key : ∀ t : G, (if i ∈ t.allgc then { t with allgc := t.allgc.erase i, finobj := i :: t.finobj }.setFin i true else t.fail).oof = t.oof := by
      intro t
      split <;> rfl
    rw [key]
    split
    · split
      · generalize split (s.setCol i (.white s.white)).sweepgc (s.setCol i (.white s.white)).allgc = p
        obtain ⟨pre, post⟩ := p
        have h := sweeptolive_oof post pre (s.setCol i (.white s.white))
        dsimp only
        generalize sweeptolive pre post (s.setCol i (.white s.white)) = q at h ⊢
        obtain ⟨pre', post', s2⟩ := q
        exact h
      · rfl
    · rfl

theorem reallymark_phase (n : Nat) : (∀ s i, (reallymark n s i).phase = s.phase) ∧ (∀ s i, (markobject n s i).phase = s.phase) := by
  have fold : ∀ {m : G → Id → G}, (∀ s i, (m s i).phase = s.phase) → ∀ (vs : List Val) s, (foldMark m vs s).phase = s.phase := by
    intro m hm vs
    induction vs with
    | nil => exact fun _ => rfl
    | cons v vs ih =>
      intro s
      cases v with
      | nil => exact ih s
      | prim => exact ih s
      | ref i => simp only [foldMark]; rw [ih, hm]
  induction n with
  | zero => exact ⟨fun s i => by rw [reallymark], fun s i => by rw [markobject]⟩
  | succ n ih =>
    have ud : ∀ (s : G) (i : Id) (o : Obj), (foldMark (markobject n) o.vals
        ((match o.mt with | none => s | some m => markobject n s m : G).setCol i .black)).phase = s.phase := by
      intro s i o
      rw [fold ih.2]
      cases o.mt with
      | none => rfl
      | some m => exact ih.2 s m
    have lk : ∀ (s : G) (i : Id), (link s .gray i).phase = s.phase := fun s i => by unfold link; split <;> rfl
    constructor
    · intro s i
      rw [reallymark]
      cases s.obj i with
      | none => rfl
      | some o =>
        dsimp only
        cases o.kind with
        | str => rfl
        | udata => exact ud s i o
        | arr => exact ud s i o
        | _ => exact lk s i
    · intro s i
      rw [markobject]
      split
      · rfl
      · split
        · exact ih.1 s i
        · rfl

theorem barrier_frame (n : Nat) (s : G) (i : Id) (v : Val) : (barrier n s i v).obj = s.obj ∧
    ((barrier n s i v).keepinvariant = false → Live s i → Live (barrier n s i v) i) := by
  unfold barrier
  split
  · split
    · exact ⟨rfl, fun _ h => h⟩
    · split
      · unfold barrierF
        split
        · exact ⟨rfl, fun _ h => h⟩
        · split
          · rename_i v _ _ _ _ _ hkp
            have h1 := ((mark_comm n).1 s v).2.1
            have h2 := (reallymark_phase n).1 s v
            dsimp only at h1 ⊢
            generalize reallymark n s v = t at h1 h2 ⊢
            have : t.keepinvariant = true := (keep_congr h2).trans hkp
            split
            · exact ⟨h1, fun hf => by rw [show (t.setAge v .old0).keepinvariant = t.keepinvariant from rfl, this] at hf; cases hf⟩
            · exact ⟨h1, fun hf => by rw [this] at hf; cases hf⟩
          · split
            · refine ⟨rfl, fun _ _ => ?_⟩
              unfold Live
              rw [show (s.setCol i (.white s.white)).col i = .white s.white from if_pos rfl, show (s.setCol i (.white s.white)).white = s.white from rfl]
              cases s.white <;> simp
            · exact ⟨rfl, fun _ h => h⟩
      · exact ⟨rfl, fun _ h => h⟩
  · exact ⟨rfl, fun _ h => h⟩

theorem exec_inv (n : Nat) {s : G} (a : Op) (h : Inv s) (hof : s.oof = false) (hv : Valid s a) (hm : ¬ Missed s a)
    (hoof : (exec n s a).oof = false) : Inv (exec n s a) := by
  have accOk : ∀ {i}, Acc s i → Ok s i := fun ha => h.core.acc ha
  cases a with
  | new k i =>
    obtain ⟨h1, h2, _⟩ := newObj_inv (k := k) h hv
    exact (push_inv h1 fun r hr => by cases hr; exact h2).1
  | setstack th slot v =>
    obtain ⟨⟨ha, o, ho, hk⟩, hav⟩ := hv
    simp only [exec]
    rw [modify_eq ho]
    exact stack_inv (v := v) h (accOk ha).2 ho hk (fun r hr => accOk (hav r hr)) ⟨_, _, rfl⟩ fun r hr => mem_set_ref hr
  | settop th top =>
    obtain ⟨ha, o, ho, hk, _⟩ := hv
    simp only [exec]
    rw [modify_eq ho]
    exact stack_inv (v := .nil) h (accOk ha).2 ho hk (fun r hr => nomatch hr) ⟨_, _, rfl⟩ fun r hr => .inl hr
  | growstack th k =>
    obtain ⟨ha, o, ho, hk⟩ := hv
    simp only [exec]
    rw [modify_eq ho]
    refine stack_inv (v := .nil) h (accOk ha).2 ho hk (fun r hr => nomatch hr) ⟨_, _, rfl⟩ fun r hr => ?_
    simp only [List.mem_append, List.mem_replicate] at hr
    exact .inl (hr.resolve_right fun h => nomatch h.2)
  | setarr t j v =>
    obtain ⟨⟨ha, o, ho, hk⟩, hav⟩ := hv
    simp only [exec]
    rw [modify_eq ho]
    exact (table_inv h hof ha hav ho hk ⟨_, _, rfl⟩ (fun x hx => mem_set_ref hx) fun x hx => .inl ⟨x, hx, rfl, .inl rfl⟩).1
  | setnode t j v =>
    obtain ⟨ha, hav, o, ho, hk, _⟩ := hv
    simp only [exec]
    rw [modify_eq ho]
    refine (table_inv (o' := { o with nodes := o.nodes.modify j fun x => { x with val := v } }) h hof ha hav ho hk ⟨_, _, rfl⟩
      (fun x hx => .inl hx) fun x hx => .inl ?_).1
    rcases mem_modify hx with h1 | ⟨y, h1, rfl⟩
    · exact ⟨x, h1, rfl, .inl rfl⟩
    · exact ⟨y, h1, rfl, .inr rfl⟩
  | newkey t j k =>
    obtain ⟨ha, hav, hnd, o, ho, hk, _⟩ := hv
    simp only [exec]
    rw [modify_eq ho]
    refine (table_inv (o' := { o with nodes := o.nodes.modify j fun x => { x with key := k } }) h hof ha hav ho hk ⟨_, _, rfl⟩
      (fun x hx => .inl hx) fun x hx => .inr ?_).1
    rcases mem_modify hx with h1 | ⟨y, h1, rfl⟩
    · exact ⟨x, h1, .inl rfl, rfl⟩
    · refine ⟨y, h1, .inr fun r hr => ?_, rfl⟩
      have hr : k = .ref r := hr
      rw [hr]; rfl
  | rehash t vals nodes =>
    obtain ⟨ha, o, ho, hk, h1, h2⟩ := hv
    simp only [exec]
    rw [modify_eq ho]
    have sh := h.core.shapes t o ho
    refine op_plain .nil h (accOk ha).2 (fun r hr => nomatch hr) ho rfl rfl
      ⟨sh.mt, fun _ => by dsimp only; rw [hk]; simp, fun _ => hk, sh.ups, sh.cache, sh.own⟩ ?_ ?_
    · intro r hr
      left
      have val : ∀ r, Val.ref r ∈ vals ∨ (∃ x ∈ nodes, x.val = .ref r) → Ref s o r := fun r hr => by
        rcases h1 r hr with h3 | ⟨x, h3, h4⟩
        · exact .val h3
        · exact .nval h3 h4
      cases hr with
      | mt h => exact .mt h
      | val h => exact val r (.inl h)
      | key h h' =>
        obtain ⟨y, h3, h4⟩ := h2 _ h r h'
        exact .key h3 h4
      | nval h h' => exact val r (.inr ⟨_, h, h'⟩)
      | up h h' => exact .up h h'
      | cache h => exact .cache h
    · intro _ hw he _ hd _
      obtain ⟨d1, d2⟩ := done_table hd hk hw he
      refine table_done hk d1 (d2.imp (fun d => ?_) id)
      have val : ∀ r, Val.ref r ∈ vals ∨ (∃ x ∈ nodes, x.val = .ref r) → NW s r := fun r hr => by
        rcases h1 r hr with h3 | ⟨x, h3, h4⟩
        · exact d.1 _ h3 r rfl
        · exact (d.2 x h3).1 r h4
      refine ⟨fun x hx r hr => val r (.inl (hr ▸ hx)), fun x hx => ⟨fun r hr => val r (.inr ⟨x, hx, hr⟩), fun r hr => ?_⟩⟩
      obtain ⟨y, h3, h4⟩ := h2 x hx r hr
      exact (d.2 y h3).2 r h4
  | setmode t wk wv =>
    obtain ⟨ha, o, ho, hk⟩ := hv
    simp only [exec]
    rw [modify_eq ho]
    have sh := h.core.shapes t o ho
    refine op_plain .nil h (accOk ha).2 (fun r hr => nomatch hr) ho rfl rfl ⟨sh.mt, sh.vals, sh.nodes, sh.ups, sh.cache, sh.own⟩
      (ref_vals rfl rfl rfl rfl fun r hr => .inl hr) ?_
    intro _ hw he _ hd _
    obtain ⟨d1, d2⟩ := done_table hd hk hw he
    exact table_done hk d1 d2
  | setmt i m gc =>
    obtain ⟨ha, ⟨o, ho, hk⟩, hmm⟩ := hv
    simp only [exec] at hoof ⊢
    rw [modify_eq ho] at hoof ⊢
    have sh := h.core.shapes i o ho
    cases m with
    | none =>
      refine op_plain .nil h (accOk ha).2 (fun r hr => nomatch hr) ho rfl rfl ⟨fun h => absurd rfl h, sh.vals, sh.nodes, sh.ups, sh.cache, sh.own⟩
        (ref_mt fun _ h => nomatch h) ?_
      intro _ hw he _ hd _
      exact hd.mt (fun _ h => h) rfl hw he hk (fun _ h => nomatch h)
    | some m =>
      dsimp only at hoof ⊢
      have hmo := (hmm m rfl).1
      have hoof' : (barrier n (s.setObj i (some { o with mt := some m })) i (.ref m)).oof = false := by
        revert hoof
        generalize barrier n (s.setObj i (some { o with mt := some m })) i (.ref m) = t
        intro hoof
        cases gc with
        | false => exact hoof
        | true =>
          exact (checkfinalizer_oof t i).symm.trans hoof
      have h1 : Inv (barrier n (s.setObj i (some { o with mt := some m })) i (.ref m)) := by
        refine op_fwd n h (accOk ha).2 (fun r hr => by cases hr; exact accOk hmo) ho rfl rfl ⟨fun _ => hk, sh.vals, sh.nodes, sh.ups, sh.cache, sh.own⟩
          (ref_mt fun _ h => by cases h; rfl) ?_ hoof'
        intro hkp t nw _ haw hw he hn hd hb hg
        refine hd.mt nw haw hw he hk fun m' hm' => ?_
        cases hm'
        rcases NW_cases hn with hc | hc
        · exact hb hc m rfl
        · exact absurd ⟨hkp, hg hc⟩ hm
      cases gc with
      | false => exact h1
      | true =>
        obtain ⟨b1, b2⟩ := barrier_frame n (s.setObj i (some { o with mt := some m })) i (.ref m)
        refine (checkfinalizer_inv h1 (o := { o with mt := some m }) (by rw [b1]; exact setObj_self s i _) ?_ ?_).1
        · dsimp only; rcases hk with hk | hk | hk <;> rw [hk] <;> simp
        · by_cases hkp : (barrier n (s.setObj i (some { o with mt := some m })) i (.ref m)).keepinvariant = true
          · exact (h1.mark hkp).live i (by rw [b1, setObj_self]; rfl)
          · exact b2 (Bool.eq_false_iff.mpr hkp) (accOk ha).2
  | setfield i j v =>
    obtain ⟨ha, hav, o, ho, hk⟩ := hv
    simp only [exec] at hoof ⊢
    rw [modify_eq ho] at hoof ⊢
    exact field_inv n h ha hav ho hk (fun x hx => mem_set_ref hx) hoof
  | addfield i v =>
    obtain ⟨ha, hav, o, ho, hk⟩ := hv
    simp only [exec] at hoof ⊢
    rw [modify_eq ho] at hoof ⊢
    refine field_inv n h ha hav ho hk (fun x hx => ?_) hoof
    rw [List.mem_append, List.mem_singleton] at hx
    exact hx.imp id Eq.symm
  | capture th slot u => exact (capture_inv n h hv).1
  | addup i u => exact addup_inv h hv
  | initup i u => exact initup_inv h hv
  | setup i u v =>
    simp only [exec] at hoof ⊢
    cases hup : s.up u with
    | opn th slot t => exact setup_open_inv h hv.2.1 hup
    | closed v0 =>
      rw [hup] at hoof
      exact setup_closed_inv n h hv hup hoof
  | close th level =>
    obtain ⟨ha, o, ho, hk⟩ := hv
    simp only [exec, ho] at hoof ⊢
    exact closeUps_inv n th level o.ups s o h (accOk ha).2 ho hk (h.core.upnd th o ho hk) (fun _ h => h) hoof
  | join i j u => exact join_inv n h hv hoof
  | setcache p c =>
    obtain ⟨⟨ha, o, ho, hk⟩, hc⟩ := hv
    simp only [exec]
    by_cases hb : s.col p = .black
    · rw [if_pos hb]; exact h
    · rw [if_neg hb, modify_eq ho]
      have sh := h.core.shapes p o ho
      refine op_plain (.ref c) h (accOk ha).2 (fun r hr => by cases hr; exact accOk hc) ho rfl rfl
        ⟨sh.mt, sh.vals, sh.nodes, sh.ups, fun _ => hk, sh.own⟩ ?_ ?_
      · intro r hr
        cases hr with
        | mt h => exact .inl (.mt h)
        | val h => exact .inl (.val h)
        | key h h' => exact .inl (.key h h')
        | nval h h' => exact .inl (.nval h h')
        | up h h' => exact .inl (.up h h')
        | cache h => cases h; exact .inr rfl
      · intro hkp _ _ hn _ hg
        rcases NW_cases hn with hc | hc
        · exact absurd hc hb
        · exact absurd (hg hc) ((h.mark hkp).gray_table ho (by rw [hk]; simp))
  | intern i =>
    obtain ⟨o, ho, hk⟩ := hv
    exact (intern_inv h ho hk).1
  | addstr i =>
    refine roots_inv h ⟨_, _, _, _, rfl⟩ (fun r hr => ?_) h.core.run
    cases hr with
    | main => exact h.core.roots _ .main
    | running => exact h.core.roots _ .running
    | registry h1 => exact h.core.roots _ (.registry h1)
    | mts h1 => exact h.core.roots _ (.mts h1)
    | strcache h1 =>
      rcases List.mem_cons.mp h1 with h1 | h1
      · rw [h1]; exact accOk hv.1
      · exact h.core.roots _ (.strcache h1)
    | fixed h1 => exact h.core.roots _ (.fixed h1)
  | setreg v =>
    refine roots_inv h ⟨_, _, _, _, rfl⟩ (fun r hr => ?_) h.core.run
    cases hr with
    | main => exact h.core.roots _ .main
    | running => exact h.core.roots _ .running
    | registry h1 => exact accOk (hv r h1)
    | mts h1 => exact h.core.roots _ (.mts h1)
    | strcache h1 => exact h.core.roots _ (.strcache h1)
    | fixed h1 => exact h.core.roots _ (.fixed h1)
  | setmts vs =>
    refine roots_inv h ⟨_, _, _, _, rfl⟩ (fun r hr => ?_) h.core.run
    cases hr with
    | main => exact h.core.roots _ .main
    | running => exact h.core.roots _ .running
    | registry h1 => exact h.core.roots _ (.registry h1)
    | mts h1 => exact accOk (hv _ h1 r rfl)
    | strcache h1 => exact h.core.roots _ (.strcache h1)
    | fixed h1 => exact h.core.roots _ (.fixed h1)
  | resume th =>
    refine roots_inv h ⟨_, _, _, _, rfl⟩ (fun r hr => ?_) hv.2
    cases hr with
    | main => exact h.core.roots _ .main
    | running => exact accOk hv.1
    | registry h1 => exact h.core.roots _ (.registry h1)
    | mts h1 => exact h.core.roots _ (.mts h1)
    | strcache h1 => exact h.core.roots _ (.strcache h1)
    | fixed h1 => exact h.core.roots _ (.fixed h1)

theorem Init.inv {s : G} (h : Init s) : Inv s := by
  obtain ⟨k, hmain⟩ := h.mainObj
  have hnil : ∀ r, ¬ Ref s { kind := .thread, vals := List.replicate k .nil } r := by
    intro r hr
    cases hr with
    | mt h => cases h
    | val h => exact nomatch (List.mem_replicate.mp h).2
    | key h _ => cases h
    | nval h _ => cases h
    | up h _ => cases h
    | cache h => cases h
  have hstr : ∀ r, ¬ Ref s { kind := .str } r := by
    intro r hr
    cases hr with
    | mt h => cases h
    | val h => cases h
    | key h _ => cases h
    | nval h _ => cases h
    | up h _ => cases h
    | cache h => cases h
  have objs : ∀ i o, s.obj i = some o → (i = s.main ∧ o = { kind := .thread, vals := List.replicate k .nil }) ∨ (i ∈ s.fixedgc ∧ o = { kind := .str }) := by
    intro i o ho
    by_cases h1 : i = s.main
    · subst h1
      rw [hmain] at ho
      cases ho
      exact .inl ⟨rfl, rfl⟩
    · by_cases h2 : i ∈ s.fixedgc
      · rw [(h.fixedObj i h2).1] at ho
        cases ho
        exact .inr ⟨h2, rfl⟩
      · rw [h.others i h1 h2] at ho
        cases ho
  have okm : Ok s s.main := ⟨by rw [hmain]; rfl, by unfold Live; rw [h.mainCol]; cases s.white <;> simp⟩
  have okf : ∀ i ∈ s.fixedgc, Ok s i := fun i hi => ⟨by rw [(h.fixedObj i hi).1]; rfl, by unfold Live; rw [(h.fixedObj i hi).2]; simp⟩
  refine ⟨?_, by rw [h.phase]; simp, fun hk => by simp [G.keepinvariant, h.phase] at hk, fun _ => ⟨fun i hi => ?_, fun hk => by simp [G.issweepphase, h.phase] at hk⟩⟩
  · exact {
      dom := fun i => by
        rw [h.allgc, h.finobj, h.tobefnz]
        by_cases h1 : i = s.main
        · subst h1; simp [hmain]
        · by_cases h2 : i ∈ s.fixedgc
          · simp [(h.fixedObj i h2).1, h2]
          · simp [h.others i h1 h2, h1, h2]
      nodup := by rw [h.allgc, h.finobj, h.tobefnz]; simpa using h.nodup
      fin := fun i hi => by rw [h.finobj, h.tobefnz] at hi; simp at hi
      shapes := fun i o ho => by
        rcases objs i o ho with ⟨_, rfl⟩ | ⟨_, rfl⟩
        · exact ⟨fun h => absurd rfl h, fun _ => by simp, fun h => absurd rfl h, fun h => absurd rfl h, fun h => absurd rfl h, fun _ u hu => nomatch hu⟩
        · exact ⟨fun h => absurd rfl h, fun h => absurd rfl h, fun h => absurd rfl h, fun h => absurd rfl h, fun h => absurd rfl h, fun _ u hu => nomatch hu⟩
      fixed := fun i hi => ⟨(h.fixedObj i hi).2, _, (h.fixedObj i hi).1, rfl⟩
      main := ⟨_, hmain, rfl⟩
      run := by rw [h.running]; exact ⟨_, hmain, rfl⟩
      upt := fun u th sl t hu => absurd hu (h.up u th sl t)
      upnd := fun i o ho _ => by
        rcases objs i o ho with ⟨_, rfl⟩ | ⟨_, rfl⟩ <;> exact List.nodup_nil
      tw := fun u th sl t hu => absurd hu (h.up u th sl t)
      twe := fun th ht => by rw [h.twups] at ht; cases ht
      closed := fun i o ho _ r hr => by
        rcases objs i o ho with ⟨_, rfl⟩ | ⟨_, rfl⟩
        · exact absurd hr (hnil r)
        · exact absurd hr (hstr r)
      roots := fun r hr => by
        cases hr with
        | main => exact okm
        | running => rw [h.running]; exact okm
        | registry h1 => rw [h.registry] at h1; cases h1
        | mts h1 => rw [h.mts] at h1; cases h1
        | strcache h1 => rw [h.strcache] at h1; cases h1
        | fixed h1 => exact okf _ h1
      fins := fun i hi => by rw [h.finobj, h.tobefnz] at hi; simp at hi
      bad := h.bad }
  · unfold swept at hi
    rw [h.phase, h.allgc, h.finobj, h.tobefnz] at hi
    simp only [List.append_nil, List.mem_singleton] at hi
    rw [hi]
    exact h.mainCol

theorem step_inv {s s' : G} (h : Inv s) (hof : s.oof = false) (hs : Step s s') : Inv s' ∧ s'.oof = false := by
  cases hs with
  | op n a hv hm hoof => exact ⟨exec_inv n a h hof hv hm hoof, hoof⟩
  | gc n hoof => exact ⟨singlestep_inv n h hoof, hoof⟩
  | sweep _ =>
    obtain ⟨h1, h2⟩ := entersweep_inv h.core
    exact ⟨h1, h2.trans hof⟩
  | hurry hp =>
    have hkp : s.keepinvariant = true := by simp [G.keepinvariant, hp]
    exact ⟨⟨h.core.phase _, by simp, fun _ => (h.mark hkp).phase _, fun hf => by simp [G.keepinvariant] at hf⟩, hof⟩
  | finalizer hp =>
    obtain ⟨h1, h2⟩ := finalize_inv h hp
    exact ⟨h1, h2.trans hof⟩

theorem reachable_inv {s : G} (h : Reachable s) : Inv s ∧ s.oof = false := by
  induction h with
  | init h => exact ⟨h.inv, h.oof⟩
  | step _ hs ih => exact step_inv ih.1 ih.2 hs

end Verif.GC
