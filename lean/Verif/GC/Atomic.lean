import Verif.GC.Trav

/-!
# The atomic phase
-/
namespace Verif.GC

/-- open upvalues belong to threads that are in the list `twups` -/
structure UpC (s : G) : Prop where
  opn : ∀ u th sl t, s.up u = .opn th sl t → ∃ o, s.obj th = some o ∧ u ∈ o.ups ∧ th ∈ s.twups
  tws : ∀ th ∈ s.twups, (s.obj th).isSome

theorem UpC.le {s s' : G} (h : Le s s') (hu : UpC s) (ht : ∀ th ∈ s'.twups, (s'.obj th).isSome) : UpC s' where
  opn u th sl t hup := by
    cases h1 : s.up u with
    | closed v => rw [h.upc u v h1] at hup; cases hup
    | opn th' sl' t' =>
      obtain ⟨t'', h2⟩ := h.upo u th' sl' t' h1
      rw [hup] at h2
      cases h2
      obtain ⟨o, ho, hm, htw⟩ := hu.opn u th sl t' h1
      obtain ⟨o', ho', hs⟩ := h.objs th o ho
      exact ⟨o', ho', by rw [hs.ups]; exact hm, h.tw th htw⟩
  tws := ht

theorem MExt.twups {s s' : G} (h : MExt s s') : s'.twups = s.twups := by
  obtain ⟨c, g, f, rfl⟩ := h.eq; rfl

/-! ## `remarkupvals` -/

/-- the value of an upvalue is marked -/
def ValNW (s : G) (u : Nat) : Prop := NWv s (s.upGet u)

theorem ValNW.le {s s' : G} (h : Le0 s s') {u : Nat} (hv : ValNW s u) : ValNW s' u := by
  unfold ValNW
  rcases h.upGet u with h1 | h1
  · rw [h1]; exact h.monoV hv
  · rw [h1]; exact fun r h => nomatch h

/-- effect of `remarkupvals` before the list of threads is changed -/
structure RM (pend : List Id) (s s' : G) : Prop where
  le : Le0 s s'
  obj : s'.obj = s.obj
  tw : s'.twups = s.twups
  tch : ∀ u th sl, s'.up u = .opn th sl true → s.up u = .opn th sl true
  keep : ∀ i, NW s i → s'.col i = s.col i
  gray : ∀ i ∈ s.gray, i ∈ s'.gray
  new : s'.oof = false → ∀ i o, s.obj i = some o → Trav o.kind = true → ¬ NW s i → NW s' i → s'.col i = .gray ∧ i ∈ s'.gray
  clr : s'.oof = false → ∀ u th sl, s.up u = .opn th sl true → s'.up u = .opn th sl true ∨ ValNW s' u
  l : L .at1 pend s → L .at1 pend s'
  j : s'.oof = false → J .at1 pend [] s → J .at1 pend [] s'

theorem RM.trans {pend : List Id} {a b c : G} (h : RM pend a b) (h' : RM pend b c) : RM pend a c where
  le := h.le.trans h'.le
  obj := h'.obj.trans h.obj
  tw := h'.tw.trans h.tw
  tch u th sl hu := h.tch u th sl (h'.tch u th sl hu)
  keep i hi := (h'.keep i (h.le.nw i hi)).trans (h.keep i hi)
  gray i hi := h'.gray i (h.gray i hi)
  new ho i o hoi hk hn hn' := by
    by_cases hm : NW b i
    · have := h.new (h'.le.oof ho) i o hoi hk hn hm
      exact ⟨(h'.keep i hm).trans this.1, h'.gray i this.2⟩
    · exact h'.new ho i o (by rw [h.obj]; exact hoi) hk hm hn'
  clr ho u th sl hu := by
    rcases h.clr (h'.le.oof ho) u th sl hu with h1 | h1
    · exact h'.clr ho u th sl h1
    · exact .inr (h1.le h'.le)
  l hl := h'.l (h.l hl)
  j ho hj := h'.j ho (h.j (h'.le.oof ho) hj)

theorem MExt.rm {pend : List Id} {s s' : G} (h : MExt s s') : RM pend s s' where
  le := h.le.toLe0
  obj := h.obj
  tw := h.twups
  tch u th sl hu := by rw [h.up] at hu; exact hu
  keep := h.keep
  gray := h.gray
  new ho i o hoi hk hn hn' := by
    obtain ⟨o', ho', hd⟩ := h.new ho i hn hn'
    rw [hoi] at ho'
    cases ho'
    rcases hd with hd | hd
    · exact ⟨hd.1, hd.2.1⟩
    · rw [hk] at hd; exact absurd hd.2.1 (by simp)
  clr _ u th sl hu := .inl (by rw [h.up]; exact hu)
  l := (h.cstep (ex := [])).l
  j := h.cstep.j

theorem RM.refl (pend : List Id) (s : G) : RM pend s s := (MExt.refl s).rm

theorem untouch_rm {pend : List Id} {s : G} {u : Nat} {th : Id} {sl : Nat} {t : Bool} (hu : s.up u = .opn th sl t)
    (hv : s.oof = false → ValNW s u) : RM pend s (s.setUp u (.opn th sl false)) := by
  have hup : ∀ w, (s.setUp u (.opn th sl false)).up w = if w = u then .opn th sl false else s.up w := fun _ => rfl
  have hget : ∀ w, (s.setUp u (.opn th sl false)).upGet w = s.upGet w := by
    intro w
    by_cases hw : w = u
    · subst hw; simp [G.upGet, G.setUp, hu]
    · simp [G.upGet, G.setUp, hw]
  have hle : Le0 s (s.setUp u (.opn th sl false)) := {
    objs := fun _ o ho => ⟨o, ho, .refl o⟩
    none := fun _ h => h
    upc := fun w v hw => by
      rw [hup, if_neg, hw]
      rintro rfl
      rw [hu] at hw; cases hw
    upo := fun w th' sl' t' hw => by
      rw [hup]
      by_cases h : w = u
      · subst h
        rw [hu] at hw
        cases hw
        exact ⟨false, if_pos rfl⟩
      · exact ⟨t', by rw [if_neg h, hw]⟩
    nw := fun _ h => h
    wh := fun _ _ => rfl
    fixd := fun _ _ h => h
    oof := fun h => h
    rest := ⟨_, _, _, _, _, _, _, _, _, _, _, rfl⟩
    weak := List.suffix_refl _
    allweak := List.suffix_refl _
    tws := fun _ h => .inl h }
  refine ⟨hle, rfl, rfl, ?_, fun _ _ => rfl, fun _ h => h, fun _ _ _ _ _ h h' => absurd h' h, ?_, fun hl => hl.step hle (fun _ h => .inl h) (fun _ h => .inl h) (fun _ h => h), ?_⟩
  · intro w th' sl' hw
    rw [hup] at hw
    split at hw
    · cases hw
    · exact hw
  · intro ho w th' sl' hw
    by_cases h : w = u
    · subst h
      right
      unfold ValNW
      rw [hget]
      exact hv ho
    · exact .inl (by rw [hup, if_neg h]; exact hw)
  · intro ho hj
    have hd : ∀ i o, Done .at1 s i o → Done .at1 (s.setUp u (.opn th sl false)) i o := by
      intro i o hd
      unfold Done at hd ⊢
      revert hd
      cases o.kind with
      | str => exact id
      | udata => exact id
      | arr => exact id
      | ccl => exact id
      | proto => exact id
      | thread => exact id
      | table => exact id
      | lcl =>
        refine fun hd => ⟨hd.1, fun w hw => ?_⟩
        have := hd.2 w hw
        unfold UpOk at this ⊢
        rw [hup, hget]
        by_cases h : w = u
        · subst h
          rw [if_pos rfl]
          exact .inr (hv ho)
        · rw [if_neg h]
          revert this
          cases s.up w with
          | closed v => exact id
          | opn a b c => exact id
    exact ⟨fun i o ho hc => (hj.blk i o ho hc).imp id (.imp id (.imp id (hd i o))),
      fun i o ho hc => (hj.gry i o ho hc).imp id (.imp id (.imp id (.imp id fun h => ⟨hd i o h.1, h.2⟩)))⟩

theorem remarkUps_ok (n : Nat) {pend : List Id} (us : List Nat) : ∀ s, Full s →
    (∀ u ∈ us, ∀ r, s.upGet u = .ref r → (s.obj r).isSome) →
    RM pend s (remarkUps n us s) ∧
    ((remarkUps n us s).oof = false → ∀ u ∈ us, ∀ th sl, s.up u = .opn th sl true → ValNW (remarkUps n us s) u) := by
  induction us with
  | nil => exact fun s _ _ => ⟨.refl pend s, fun _ => by simp⟩
  | cons u us ih =>
    intro s hf hi
    have skip : (∀ th sl, s.up u ≠ .opn th sl true) →
        RM pend s (remarkUps n us s) ∧ ((remarkUps n us s).oof = false → ∀ w ∈ u :: us, ∀ th sl, s.up w = .opn th sl true → ValNW (remarkUps n us s) w) := by
      intro hu
      obtain ⟨h1, h2⟩ := ih s hf (fun w hw => hi w (by simp [hw]))
      refine ⟨h1, fun ho w hw th sl h => ?_⟩
      rcases List.mem_cons.mp hw with rfl | hw
      · exact absurd h (hu th sl)
      · exact h2 ho w hw th sl h
    rw [remarkUps]
    cases hu : s.up u with
    | closed v => exact skip (by rw [hu]; simp)
    | opn th sl t =>
      cases t with
      | false => exact skip (by rw [hu]; simp)
      | true =>
        dsimp only
        obtain ⟨h1, h2⟩ := markvalue_ok n (v := s.upGet u) hf (hi u (by simp))
        generalize markvalue n s (s.upGet u) = s1 at h1 h2 ⊢
        have hu1 : s1.up u = .opn th sl true := by rw [h1.up]; exact hu
        have r2 : RM pend s1 (s1.setUp u (.opn th sl false)) := untouch_rm hu1 (fun ho => by
          unfold ValNW; rw [h1.upGet]; exact h2 ho)
        have r12 : RM pend s (s1.setUp u (.opn th sl false)) := h1.rm.trans r2
        have hoof : (s1.setUp u (.opn th sl false)).oof = s1.oof := rfl
        have hup : ∀ w, w ≠ u → (s1.setUp u (.opn th sl false)).up w = s.up w := by
          intro w hw
          rw [← h1.up]
          exact if_neg hw
        generalize s1.setUp u (.opn th sl false) = s2 at r2 r12 hoof hup ⊢
        obtain ⟨h3, h4⟩ := ih s2 (r12.le.full hf) (by
          intro w hw r hr
          rcases r12.le.upGet w with h | h
          · rw [h] at hr
            rw [r12.obj]
            exact hi w (by simp [hw]) r hr
          · rw [h] at hr; cases hr)
        have hval : (remarkUps n us s2).oof = false → ValNW (remarkUps n us s2) u := by
          intro ho
          have : ValNW s1 u := by
            unfold ValNW; rw [h1.upGet]; exact h2 (hoof ▸ h3.le.oof ho)
          exact (this.le r2.le).le h3.le
        refine ⟨r12.trans h3, fun ho w hw th' sl' h => ?_⟩
        by_cases hwu : w = u
        · subst hwu; exact hval ho
        · rcases List.mem_cons.mp hw with rfl | hw
          · exact absurd rfl hwu
          · exact h4 ho w hw th' sl' (by rw [hup w hwu]; exact h)

theorem remarkThreads_ok (n : Nat) {pend : List Id} (ths : List Id) : ∀ s, Full s → (∀ th ∈ ths, (s.obj th).isSome) →
    RM pend s (remarkThreads n ths s).2 ∧ (∀ th ∈ (remarkThreads n ths s).1, th ∈ ths ∧ NW (remarkThreads n ths s).2 th) ∧
    (∀ th ∈ ths, ∀ o, s.obj th = some o → NW s th → o.ups ≠ [] → th ∈ (remarkThreads n ths s).1) ∧
    ((remarkThreads n ths s).2.oof = false → ∀ th ∈ ths, ∀ o, s.obj th = some o →
      NW (remarkThreads n ths s).2 th ∨ ∀ u ∈ o.ups, ∀ th' sl, s.up u = .opn th' sl true → ValNW (remarkThreads n ths s).2 u) := by
  induction ths with
  | nil => exact fun s _ _ => ⟨.refl pend s, by simp [remarkThreads], by simp, fun _ => by simp⟩
  | cons th ths ih =>
    intro s hf hi
    obtain ⟨o, ho⟩ := Option.isSome_iff_exists.mp (hi th (by simp))
    simp only [remarkThreads, ho]
    split
    · next hc =>
      rw [Bool.and_eq_true] at hc
      have hnw : NW s th := by simpa [NW] using hc.1
      obtain ⟨h1, h2, h3, h4⟩ := ih s hf (fun t ht => hi t (by simp [ht]))
      refine ⟨h1, ?_, ?_, ?_⟩
      · intro t ht
        rcases List.mem_cons.mp ht with rfl | ht
        · exact ⟨by simp, h1.le.nw t hnw⟩
        · exact ⟨List.mem_cons_of_mem _ (h2 t ht).1, (h2 t ht).2⟩
      · intro t ht o' ho' hn hu
        rcases List.mem_cons.mp ht with rfl | ht
        · simp
        · exact List.mem_cons_of_mem _ (h3 t ht o' ho' hn hu)
      · intro hoof t ht o' ho'
        rcases List.mem_cons.mp ht with rfl | ht
        · exact .inl (h1.le.nw t hnw)
        · exact h4 hoof t ht o' ho'
    · next hc =>
      obtain ⟨r1, v1⟩ := remarkUps_ok n (pend := pend) o.ups s hf (fun u hu r hr => hf th o ho r (.up hu hr))
      generalize remarkUps n o.ups s = s1 at r1 v1 ⊢
      obtain ⟨h1, h2, h3, h4⟩ := ih s1 (r1.le.full hf) (fun t ht => r1.le.isSome (hi t (by simp [ht])))
      refine ⟨r1.trans h1, fun t ht => ⟨List.mem_cons_of_mem _ (h2 t ht).1, (h2 t ht).2⟩, ?_, ?_⟩
      · intro t ht o' ho' hn hu
        rcases List.mem_cons.mp ht with rfl | ht
        · rw [ho] at ho'
          cases ho'
          exact absurd (by
            rw [Bool.and_eq_true]
            exact ⟨by simpa [NW] using hn, by simpa using hu⟩) hc
        · exact h3 t ht o' (by rw [r1.obj]; exact ho') (r1.le.nw t hn) hu
      · intro hoof t ht o' ho'
        rcases List.mem_cons.mp ht with rfl | ht
        · rw [ho] at ho'
          cases ho'
          exact .inr fun u hu th' sl h => (v1 (h1.le.oof hoof) u hu th' sl h).le h1.le
        · rcases h4 hoof t ht o' (by rw [r1.obj]; exact ho') with h | h
          · exact .inl h
          · refine .inr fun u hu th' sl hup => ?_
            rcases r1.clr (h1.le.oof hoof) u th' sl hup with h5 | h5
            · exact h u hu th' sl h5
            · exact h5.le h1.le

theorem L.stage {st st' : Stage} {pend : List Id} {s : G} (h : L st pend s) (h1 : st ≠ .prop) (h2 : st' ≠ .prop) : L st' pend s where
  lst i hi := h.lst i (hi.imp id fun h => .inr (h.elim (fun h => absurd h.1 h2) id))
  lstw := h.lstw
  prop h := absurd h h2
  fix := h.fix

theorem remark_ok (n : Nat) {pend : List Id} {s : G} (hf : Full s) (hu : UpC s) :
    Le0 s (remarkupvals n s) ∧ (remarkupvals n s).obj = s.obj ∧ (∀ th ∈ (remarkupvals n s).twups, th ∈ s.twups ∧ NW (remarkupvals n s) th) ∧
    (L .at1 pend s → L .at2 pend (remarkupvals n s)) ∧
    ((remarkupvals n s).oof = false → J .at1 pend [] s → J .at2 pend [] (remarkupvals n s)) := by
  obtain ⟨r, h1, h2, h3⟩ := remarkThreads_ok n (pend := pend) s.twups s hf hu.tws
  unfold remarkupvals
  generalize remarkThreads n s.twups s = p at r h1 h2 h3 ⊢
  obtain ⟨l, s1⟩ := p
  dsimp only at r h1 h2 h3 ⊢
  have hle : Le0 s1 { s1 with twups := l } := {
    objs := fun _ o ho => ⟨o, ho, .refl o⟩
    none := fun _ h => h
    upc := fun _ _ h => h
    upo := fun _ _ _ t h => ⟨t, h⟩
    nw := fun _ h => h
    wh := fun _ _ => rfl
    fixd := fun _ _ h => h
    oof := fun h => h
    rest := ⟨_, _, _, _, _, _, _, _, _, _, _, rfl⟩
    weak := List.suffix_refl _
    allweak := List.suffix_refl _
    tws := fun th h => .inl (by rw [r.tw]; exact (h1 th h).1) }
  refine ⟨r.le.trans hle, r.obj, h1, fun hl => ?_, fun ho hj => ?_⟩
  · exact L.step ((r.l hl).stage (by simp) (by simp)) hle (fun _ h => .inl h) (fun _ h => .inl h) (fun _ h => h)
  · have hj1 := r.j ho hj
    have key : ∀ i o, s1.obj i = some o → (o.kind = .thread → NW s i) → Done .at1 s1 i o → Done .at2 { s1 with twups := l } i o := by
      intro i o hoi hn hd
      unfold Done at hd ⊢
      revert hd
      cases hk : o.kind with
      | str => exact id
      | udata => exact id
      | arr => exact id
      | ccl => exact id
      | proto => exact id
      | thread =>
        refine fun hd => ⟨by simp, hd.2.1, fun hne => ?_⟩
        have h4 := hd.2.2 hne
        rw [r.tw] at h4
        exact h2 i h4 o (by rw [← r.obj]; exact hoi) (hn hk) hne
      | table => exact id
      | lcl =>
        refine fun hd => ⟨hd.1, fun w hw => ?_⟩
        have h4 := hd.2 w hw
        unfold UpOk at h4 ⊢
        show (match s1.up w with | .closed v => _ | .opn th _ t => _)
        cases hup : s1.up w with
        | closed v => rw [hup] at h4; exact h4
        | opn th sl t =>
          rw [hup] at h4
          rcases h4 with h4 | h4
          · subst h4
            have h5 := r.tch w th sl hup
            obtain ⟨o', ho', hm, htw⟩ := hu.opn w th sl true h5
            rcases h3 ho th htw o' ho' with h6 | h6
            · exact .inr h6
            · exact .inl (h6 w hm th sl h5)
          · exact .inl h4
    have new : ∀ i o, s1.obj i = some o → NW s1 i → (o.kind = .thread → NW s i) ∨ (s1.col i = .gray ∧ i ∈ s1.gray) := by
      intro i o hoi hn
      by_cases h : NW s i
      · exact .inl fun _ => h
      · by_cases hk : o.kind = .thread
        · exact .inr (r.new ho i o (by rw [← r.obj]; exact hoi) (by rw [hk]; rfl) h hn)
        · exact .inl fun h => absurd h hk
    have ip : ∀ i, InPend .at1 pend s1 i → InPend .at2 pend { s1 with twups := l } i := by
      intro i hi
      exact .inr (hi.elim (fun h => nomatch h.1) id)
    constructor
    · intro i o hoi hc
      rcases new i o hoi (NW_of_ne_white (.inl hc)) with h | h
      · exact (hj1.blk i o hoi hc).imp id (.imp (ip i) (.imp id (key i o hoi h)))
      · rw [hc] at h; exact nomatch h.1
    · intro i o hoi hc
      rcases new i o hoi (NW_of_ne_white (.inr hc)) with h | h
      · exact (hj1.gry i o hoi hc).imp id (.imp id (.imp (ip i) (.imp id fun h' => ⟨key i o hoi h h'.1, fun h => nomatch h⟩)))
      · exact .inr (.inl h.2)

end Verif.GC
