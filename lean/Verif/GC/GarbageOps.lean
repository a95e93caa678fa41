import Verif.GC.Garbage

/-!
# Operations of the program do not reach what nothing refers to
-/
namespace Verif.GC

section
variable {D : Id → Prop} {x : Id} {w : Bool}

theorem Z.acc {s : G} (h : Z D x w s) {i : Id} (hi : Acc s i) : ¬ D i := by
  induction hi with
  | root hr => exact h.roots _ hr
  | step _ ho hr ih => exact h.refs _ _ _ ih ho hr

theorem Z.accV {s : G} (h : Z D x w s) {v : Val} (hv : AccV s v) : ∀ r, v = .ref r → ¬ D r := fun r hr => h.acc (hv r hr)

/-- the references of an object other than the values of its upvalues are not in `D` -/
structure OutO (D : Id → Prop) (o : Obj) : Prop where
  mt : ∀ r, o.mt = some r → ¬ D r
  vals : Out D o.vals
  nodes : OutN D o.nodes
  cache : ∀ r, o.cache = some r → ¬ D r

theorem Z.outO {s : G} (h : Z D x w s) {i : Id} {o : Obj} (hi : ¬ D i) (ho : s.obj i = some o) : OutO D o :=
  ⟨fun r hr => h.refs i o r hi ho (.mt hr), h.out hi ho, h.outN hi ho, fun r hr => h.refs i o r hi ho (.cache hr)⟩

/-- objects and upvalues change -/
theorem Z.upd {s s' : G} (h : Z D x w s) (hd : ∀ j o, D j → s.obj j = some o → ∃ o', s'.obj j = some o' ∧ o'.kind = o.kind)
    (hu : ∀ u r, s'.upGet u = .ref r → s.upGet u = .ref r ∨ ¬ D r)
    (ho : ∀ j o', s'.obj j = some o' → (¬ D j → OutO D o') ∧
      ∀ u ∈ o'.ups, (∃ o, s.obj j = some o ∧ u ∈ o.ups) ∨ ∀ r, s'.upGet u = .ref r → ¬ D r)
    (htw : ∀ i ∈ s'.twups, i ∈ s.twups ∨ ¬ D i)
    (hr : ∀ r, Root s' r → ¬ D r) (hf : ∀ i, i ∈ s'.finobj ∨ i ∈ s'.tobefnz → ¬ D i)
    (hl : ∀ i, i ∈ s'.gray ∨ i ∈ s'.grayagain ∨ i ∈ s'.weak ∨ i ∈ s'.allweak ∨ i ∈ s'.ephemeron → ¬ D i)
    (hc : ∀ i, D i → s'.col i = s.col i) (hw : s'.white = s.white) : Z D x w s' where
  dom i hi := by
    obtain ⟨o, h1, h2⟩ := h.dom i hi
    obtain ⟨o', h3, h4⟩ := hd i o hi h1
    exact ⟨o', h3, by rw [h4]; exact h2⟩
  refs i o' r hi h1 h2 := by
    obtain ⟨h3, h4⟩ := ho i o' h1
    have h3 := h3 hi
    cases h2 with
    | mt h5 => exact h3.mt r h5
    | val h5 => exact h3.vals r h5
    | key h5 h6 => exact (h3.nodes _ h5).1 r h6
    | nval h5 h6 => exact (h3.nodes _ h5).2 r h6
    | cache h5 => exact h3.cache r h5
    | up h5 h6 =>
      rcases h4 _ h5 with ⟨o, h7, h8⟩ | h7
      · rcases hu _ r h6 with h9 | h9
        · exact h.refs i o r hi h7 (.up h8 h9)
        · exact h9
      · exact h7 r h6
  tws th ht o' h1 u hm r hv := by
    obtain ⟨h3, h4⟩ := ho th o' h1
    rcases h4 u hm with ⟨o, h7, h8⟩ | h7
    · rcases hu u r hv with h9 | h9
      · rcases htw th ht with h10 | h10
        · exact h.tws th h10 o h7 u h8 r h9
        · exact h.refs th o r h10 h7 (.up h8 h9)
      · exact h9
    · exact h7 r hv
  roots := hr
  fins := hf
  lists := hl
  col i hi := (hc i hi).trans (h.col i hi)
  white := hw.trans h.white

theorem Root.same {s s' : G} (h : Same s s') {r : Id} (hr : Root s' r) : Root s r :=
  hr.less ⟨⟨h.main, h.running, h.registry, h.mts, h.fixedgc⟩, fun i hi => h.strcache ▸ hi, fun i hi => by rw [← h.finobj, ← h.tobefnz]; exact hi, h.white⟩

/-- one object changes, which is not in `D` -/
theorem Z.setO {s : G} (h : Z D x w s) {i : Id} {o o' : Obj} (hi : ¬ D i) (ho : s.obj i = some o) (hk : OutO D o')
    (hu : ∀ u ∈ o'.ups, u ∈ o.ups ∨ ∀ r, s.upGet u = .ref r → ¬ D r) : Z D x w (s.setObj i (some o')) := by
  have hget : ∀ u r, (s.setObj i (some o')).upGet u = .ref r → s.upGet u = .ref r ∨ ¬ D r := by
    intro u r hr
    unfold G.upGet at hr ⊢
    rw [show (s.setObj i (some o')).up = s.up from rfl] at hr
    cases hup : s.up u with
    | closed v => rw [hup] at hr; exact .inl hr
    | opn th sl t =>
      rw [hup] at hr
      dsimp only at hr ⊢
      rw [setObj_obj] at hr
      by_cases e : th = i
      · subst e
        rw [if_pos rfl] at hr
        exact .inr (hk.vals r (Shape.getD_mem hr))
      · rw [if_neg e] at hr
        exact .inl hr
  refine h.upd (fun j oj hj h1 => ⟨oj, by rw [setObj_obj, if_neg (by rintro rfl; exact hi hj)]; exact h1, rfl⟩) hget (fun j oj hj => ?_)
    (fun _ h => .inl h) (fun r hr => h.roots r (hr.same (setObj_same s i _))) h.fins h.lists (fun _ _ => rfl) rfl
  rw [setObj_obj] at hj
  by_cases e : j = i
  · subst e
    rw [if_pos rfl] at hj
    cases hj
    refine ⟨fun _ => hk, fun u hm => ?_⟩
    rcases hu u hm with h1 | h1
    · exact .inl ⟨o, ho, h1⟩
    · exact .inr fun r hr => (hget u r hr).elim (h1 r) id
  · rw [if_neg e] at hj
    exact ⟨fun hn => h.outO hn hj, fun u hm => .inl ⟨oj, hj, hm⟩⟩

theorem Z.modify {s : G} (h : Z D x w s) {i : Id} (hi : ¬ D i) {f : Obj → Obj}
    (hf : ∀ o, s.obj i = some o → OutO D o → OutO D (f o) ∧ ∀ u ∈ (f o).ups, u ∈ o.ups ∨ ∀ r, s.upGet u = .ref r → ¬ D r) :
    Z D x w (modify s i f) := by
  unfold GC.modify
  split
  · exact h.fail
  · next o ho =>
    obtain ⟨h1, h2⟩ := hf o ho (h.outO hi ho)
    exact h.setO hi ho h1 h2

theorem Out.set {vs : List Val} (h : Out D vs) {v : Val} (hv : ∀ r, v = .ref r → ¬ D r) (j : Nat) : Out D (vs.set j v) := by
  intro r hr
  rcases List.mem_or_eq_of_mem_set hr with h1 | h1
  · exact h r h1
  · exact hv r h1.symm

theorem push_z {s : G} (h : Z D x w s) {v : Val} (hv : ∀ r, v = .ref r → ¬ D r) : Z D x w (push s v) := by
  unfold push
  split
  · exact h.fail
  · next o ho =>
    have hi := h.roots _ .running
    have h1 := h.outO hi ho
    refine h.setO hi ho ⟨h1.mt, fun r hr => ?_, h1.nodes, h1.cache⟩ fun u hu => .inl hu
    rcases List.mem_append.mp hr with h2 | h2
    · exact h1.vals r (List.mem_of_mem_take h2)
    · rcases List.mem_cons.mp h2 with h2 | h2
      · exact hv r h2.symm
      · exact h1.vals r (List.mem_of_mem_drop h2)

theorem barrier_z (n : Nat) {s : G} {i : Id} {v : Val} (h : Z D x w s) (hi : ¬ D i) (hv : ∀ r, v = .ref r → ¬ D r) : Z D x w (barrier n s i v) := by
  cases v with
  | ref v =>
    simp only [barrier]
    split
    · exact h.fail
    · split
      · unfold barrierF
        split
        · exact h.fail
        · split
          · have h1 := (mark_z n).1 s v h (hv v rfl)
            dsimp only
            split
            · exact h1.setAge _ _
            · exact h1
          · split
            · exact h.setCol hi _
            · exact h.fail
      · exact h
  | _ => exact h

theorem barrierback_z {s : G} {i : Id} {v : Val} (h : Z D x w s) (hi : ¬ D i) : Z D x w (barrierback s i v) := by
  cases v with
  | ref v =>
    simp only [barrierback]
    split
    · exact h.fail
    · split
      · have h1 := h.link hi .grayagain
        split
        · exact h1.setAge _ _
        · exact h1
      · exact h
  | _ => exact h

theorem upvalbarrier_z (n : Nat) {s : G} {v : Val} (h : Z D x w s) (hv : ∀ r, v = .ref r → ¬ D r) : Z D x w (upvalbarrier n s v) := by
  cases v with
  | ref v =>
    simp only [upvalbarrier]
    split
    · have h1 := markobject_z n h (hv v rfl)
      split
      · exact h1
      · exact h1.setAge _ _
    · exact h
  | _ => exact h

theorem upvalbarrier_mk (n : Nat) (s : G) (v : Val) : (upvalbarrier n s v).obj = s.obj ∧ ∀ u, (upvalbarrier n s v).upGet u = s.upGet u := by
  cases v with
  | ref v =>
    simp only [upvalbarrier]
    split
    · have m := markobject_mk n s v
      split
      · exact ⟨m.obj, m.upGet⟩
      · exact ⟨m.obj, fun u => m.upGet u⟩
    · exact ⟨rfl, fun _ => rfl⟩
  | _ => exact ⟨rfl, fun _ => rfl⟩

theorem barrier_phase (n : Nat) (s : G) (i : Id) (v : Val) : (barrier n s i v).phase = s.phase := by
  unfold barrier
  split
  · split
    · rfl
    · split
      · unfold barrierF
        split
        · rfl
        · split
          · next v _ _ _ _ _ _ =>
            dsimp only
            split
            · exact (reallymark_phase n).1 s v
            · exact (reallymark_phase n).1 s v
          · split <;> rfl
      · rfl
  · rfl

theorem checkfinalizer_z {s : G} {i : Id} (h : Z D x w s) (hi : ¬ D i) (hp : s.issweepphase = false) : Z D x w (checkfinalizer s i) := by
  unfold checkfinalizer
  rw [hp]
  simp only [Bool.false_eq_true, if_false]
  split
  · exact h
  · split
    · refine h.upd (fun j o _ h1 => ⟨o, h1, rfl⟩) (fun u r hr => .inl hr) (fun j o h1 => ⟨fun hn => h.outO hn h1, fun u hu => .inl ⟨o, h1, hu⟩⟩)
        (fun _ h => .inl h) (fun r hr => h.roots r (Root.less' (s := s) (s' := ({ s with allgc := s.allgc.erase i, finobj := i :: s.finobj }).setFin i true) ⟨rfl, rfl, rfl, rfl, rfl⟩ (fun _ h => h) hr)) (fun j hj => ?_) h.lists (fun _ _ => rfl) rfl
      rcases hj with hj | hj
      · rcases List.mem_cons.mp hj with rfl | hj
        · exact hi
        · exact h.fins j (.inl hj)
      · exact h.fins j (.inr hj)
    · exact h.fail

/-- nothing but objects, upvalues and `twups` changes -/
theorem Z.upd' {s s' : G} (h : Z D x w s) (e : ∃ a b c, s' = { s with obj := a, up := b, twups := c })
    (hd : ∀ j o, D j → s.obj j = some o → ∃ o', s'.obj j = some o' ∧ o'.kind = o.kind)
    (hu : ∀ u r, s'.upGet u = .ref r → s.upGet u = .ref r ∨ ¬ D r)
    (ho : ∀ j o', s'.obj j = some o' → (¬ D j → OutO D o') ∧
      ∀ u ∈ o'.ups, (∃ o, s.obj j = some o ∧ u ∈ o.ups) ∨ ∀ r, s'.upGet u = .ref r → ¬ D r)
    (htw : ∀ i ∈ s'.twups, i ∈ s.twups ∨ ¬ D i) : Z D x w s' := by
  obtain ⟨a, b, c, rfl⟩ := e
  exact h.upd hd hu ho htw (fun r hr => h.roots r (Root.less' (s := s) (s' := { s with obj := a, up := b, twups := c }) ⟨rfl, rfl, rfl, rfl, rfl⟩ (fun _ h => h) hr)) h.fins h.lists (fun _ _ => rfl) rfl

theorem roots_z {s : G} (h : Z D x w s) {a : Id} {b : Val} {c : List Val} {d : List Id} (ha : ¬ D a) (hb : ∀ r, b = .ref r → ¬ D r) (hc : Out D c)
    (hd : ∀ r ∈ d, ¬ D r) : Z D x w { s with running := a, registry := b, mts := c, strcache := d } := by
  refine h.upd (fun j o _ h1 => ⟨o, h1, rfl⟩) (fun u r hr => .inl hr) (fun j o h1 => ⟨fun hn => h.outO hn h1, fun u hu => .inl ⟨o, h1, hu⟩⟩)
        (fun _ h => .inl h) (fun r hr => ?_) h.fins h.lists (fun _ _ => rfl) rfl
  cases hr with
  | main => exact h.roots _ .main
  | running => exact ha
  | registry h1 => exact hb r h1
  | mts h1 => exact hc r h1
  | strcache h1 => exact hd r h1
  | fixed h1 => exact h.roots r (.fixed h1)

theorem newObj_z {s : G} (h : Z D x w s) {k : Kind} {i : Id} (hn : s.obj i = none) : Z D x w (newObj s k i) := by
  have hi : ¬ D i := fun hi => by
    obtain ⟨o, h1, _⟩ := h.dom i hi
    rw [hn] at h1; cases h1
  have ne : ∀ j, D j → j ≠ i := by rintro j hj rfl; exact hi hj
  unfold newObj
  refine h.upd (fun j o hj h1 => ⟨o, ?_, rfl⟩) (fun u r hr => .inl ?_) (fun j o h1 => ?_)
    (fun _ h => .inl h) (fun r hr => h.roots r (Root.less' (s := s) (s' := newObj s k i) ⟨rfl, rfl, rfl, rfl, rfl⟩ (fun _ h => h) hr)) h.fins h.lists
    (fun j hj => if_neg (ne j hj)) rfl
  · show (if j = i then _ else s.obj j) = _
    rw [if_neg (ne j hj)]; exact h1
  · unfold G.upGet at hr ⊢
    dsimp only [G.setFin, G.setAge, G.setCol, G.setObj] at hr
    cases hup : s.up u with
    | closed v => rw [hup] at hr; exact hr
    | opn th sl t =>
      rw [hup] at hr
      dsimp only at hr ⊢
      by_cases e : th = i
      · subst e
        rw [if_pos rfl] at hr
        simp at hr
      · rw [if_neg e] at hr
        exact hr
  · have h1 : (if j = i then some { kind := k } else s.obj j) = some o := h1
    by_cases e : j = i
    · rw [if_pos e] at h1
      cases h1
      exact ⟨fun _ => ⟨fun _ h => (by cases h), fun _ h => (by cases h), fun _ h => (by cases h), fun _ h => (by cases h)⟩, fun u hu => (by cases hu)⟩
    · rw [if_neg e] at h1
      exact ⟨fun hn => h.outO hn h1, fun u hu => .inl ⟨o, h1, hu⟩⟩

theorem closeUp_z (n : Nat) {s : G} {th : Id} {u : Nat} (h : Z D x w s) (hth : ¬ D th) (hv : ∀ r, s.upGet u = .ref r → ¬ D r) :
    Z D x w (closeUp n th u s) ∧ ∀ v, (closeUp n th u s).upGet v = s.upGet v := by
  have h1 : ∀ v, (((modify s th fun o => { o with ups := o.ups.erase u }).setUp u (.closed (s.upGet u))).upGet v) = s.upGet v := by
    intro v
    refine upGet_eq (fun j => ?_) ?_
    · show (((modify s th fun o => { o with ups := o.ups.erase u }).obj j).map Obj.vals) = _
      unfold modify
      split
      · rfl
      · next o ho => exact setObj_ups (o.ups.erase u) ho j
    · show (if v = u then _ else (modify s th fun o => { o with ups := o.ups.erase u }).up v) = _ ∨ (if v = u then _ else _) = _ ∨ _
      by_cases e : v = u
      · subst e
        exact .inr (.inl (if_pos rfl))
      · rw [if_neg e]
        left
        unfold modify
        split <;> rfl
  have hz : Z D x w ((modify s th fun o => { o with ups := o.ups.erase u }).setUp u (.closed (s.upGet u))) := by
    have h2 : Z D x w (modify s th fun o => { o with ups := o.ups.erase u }) :=
      h.modify hth fun o _ h1 => ⟨⟨h1.mt, h1.vals, h1.nodes, h1.cache⟩, fun w hw => .inl (List.mem_of_mem_erase hw)⟩
    have h3 : ∀ v, (modify s th fun o => { o with ups := o.ups.erase u }).upGet v = s.upGet v := by
      intro v
      refine upGet_eq (fun j => ?_) (.inl ?_)
      · unfold modify
        split
        · rfl
        · next o ho => exact setObj_ups (o.ups.erase u) ho j
      · unfold modify
        split <;> rfl
    generalize (modify s th fun o => { o with ups := o.ups.erase u }) = t at h1 h2 h3 ⊢
    exact h2.gen (fun i o h1 => ⟨o, h1, .refl o⟩) (fun _ h => h) (fun v => .inl ((h1 v).trans (h3 v).symm))
      ⟨⟨rfl, rfl, rfl, rfl, rfl⟩, fun _ h => h, fun _ h => h, rfl⟩ (fun _ h => .inl h) h2.lists fun _ _ => rfl
  unfold closeUp
  exact ⟨upvalbarrier_z n hz hv, fun v => ((upvalbarrier_mk n _ _).2 v).trans (h1 v)⟩

theorem closeUps_z (n : Nat) {th : Id} (level : Nat) (hth : ¬ D th) (us : List Nat) : ∀ s : G, Z D x w s → OutU D us s →
    Z D x w (closeUps n th level us s) := by
  induction us with
  | nil => exact fun s h _ => h
  | cons u us ih =>
    intro s h ho
    rw [closeUps]
    split
    · split
      · obtain ⟨h1, h2⟩ := closeUp_z n h hth (ho u (by simp))
        exact ih _ h1 (ho.next h2)
      · exact ih _ h (ho.next fun _ => rfl)
    · exact ih _ h (ho.next fun _ => rfl)

theorem OutO.nodesModify {o : Obj} (h : OutO D o) {j : Nat} {f : Node → Node} (hf : ∀ y, (∀ r, y.key = .ref r → ¬ D r) → (∀ r, y.val = .ref r → ¬ D r) →
    (∀ r, (f y).key = .ref r → ¬ D r) ∧ ∀ r, (f y).val = .ref r → ¬ D r) : OutO D { o with nodes := o.nodes.modify j f } := by
  refine ⟨h.mt, h.vals, fun y hy => ?_, h.cache⟩
  rcases mem_modify hy with h1 | ⟨z, hz, rfl⟩
  · exact h.nodes y h1
  · exact hf z (h.nodes z hz).1 (h.nodes z hz).2

/-- an operation while the collector marks -/
theorem exec_z (n : Nat) {s : G} (a : Op) (h : Z D x w s) (hv : Valid s a) (hp : s.issweepphase = false) (hx : a ≠ .intern x) : Z D x w (exec n s a) := by
  cases a with
  | new k i =>
    refine push_z (newObj_z h hv) fun r hr hd => ?_
    injection hr with hr
    subst hr
    obtain ⟨o, h1, _⟩ := h.dom i hd
    rw [show s.obj i = none from hv] at h1; cases h1
  | setstack th slot v => exact h.modify (h.acc hv.1.1) fun o _ h1 => ⟨⟨h1.mt, h1.vals.set (h.accV hv.2) _, h1.nodes, h1.cache⟩, fun u hu => .inl hu⟩
  | settop th top => exact h.modify (h.acc hv.1) fun o _ h1 => ⟨⟨h1.mt, h1.vals, h1.nodes, h1.cache⟩, fun u hu => .inl hu⟩
  | growstack th k =>
    refine h.modify (h.acc hv.1) fun o _ h1 => ⟨⟨h1.mt, fun r hr => ?_, h1.nodes, h1.cache⟩, fun u hu => .inl hu⟩
    rcases List.mem_append.mp hr with h2 | h2
    · exact h1.vals r h2
    · cases (List.mem_replicate.mp h2).2
  | setarr t j v =>
    exact barrierback_z (h.modify (h.acc hv.1.1) fun o _ h1 => ⟨⟨h1.mt, h1.vals.set (h.accV hv.2) _, h1.nodes, h1.cache⟩, fun u hu => .inl hu⟩) (h.acc hv.1.1)
  | setnode t j v =>
    exact barrierback_z (h.modify (h.acc hv.1) fun o _ h1 => ⟨h1.nodesModify fun y hk _ => ⟨hk, h.accV hv.2.1⟩, fun u hu => .inl hu⟩) (h.acc hv.1)
  | newkey t j k =>
    refine barrierback_z (h.modify (h.acc hv.1) fun o _ h1 => ⟨h1.nodesModify fun y _ hv' => ⟨fun r hr => h.accV hv.2.1 r ?_, hv'⟩, fun u hu => .inl hu⟩) (h.acc hv.1)
    have hr : k = .ref r := hr
    rw [hr]; rfl
  | rehash t vals nodes =>
    obtain ⟨ha, o0, ho0, _, h2, h3⟩ := hv
    refine h.modify (h.acc ha) fun o ho h1 => ?_
    rw [ho0] at ho
    cases ho
    have key : ∀ r, (.ref r ∈ o0.vals ∨ ∃ y ∈ o0.nodes, y.val = .ref r) → ¬ D r := by
      rintro r (h4 | ⟨y, hy, h4⟩)
      · exact h1.vals r h4
      · exact (h1.nodes y hy).2 r h4
    refine ⟨⟨h1.mt, fun r hr => key r (h2 r (.inl hr)), fun y hy => ⟨fun r hr => ?_, fun r hr => key r (h2 r (.inr ⟨y, hy, hr⟩))⟩, h1.cache⟩, fun u hu => .inl hu⟩
    obtain ⟨z, hz, h4⟩ := h3 y hy r hr
    exact (h1.nodes z hz).1 r h4
  | setmode t wk wv => exact h.modify (h.acc hv.1) fun o _ h1 => ⟨⟨h1.mt, h1.vals, h1.nodes, h1.cache⟩, fun u hu => .inl hu⟩
  | setmt i m gc =>
    obtain ⟨ha, _, hm⟩ := hv
    have hi := h.acc ha
    have hm' : ∀ r, m = some r → ¬ D r := fun r hr => h.acc (hm r hr).1
    have h1 : Z D x w (modify s i fun o => { o with mt := m }) :=
      h.modify hi fun o _ h1 => ⟨⟨hm', h1.vals, h1.nodes, h1.cache⟩, fun u hu => .inl hu⟩
    have hp1 : (modify s i fun o => { o with mt := m }).phase = s.phase := by unfold modify; split <;> rfl
    simp only [exec]
    generalize (modify s i fun o => { o with mt := m }) = s1 at h1 hp1 ⊢
    cases m with
    | none => exact h1
    | some m =>
      have h2 := barrier_z n (v := .ref m) h1 hi fun r hr => by cases hr; exact hm' _ rfl
      have hp2 := barrier_phase n s1 i (.ref m)
      dsimp only
      split
      · refine checkfinalizer_z h2 hi ?_
        unfold G.issweepphase at hp ⊢
        rw [hp2, hp1]; exact hp
      · exact h2
  | setfield i j v =>
    exact barrier_z n (h.modify (h.acc hv.1) fun o _ h1 => ⟨⟨h1.mt, h1.vals.set (h.accV hv.2.1) _, h1.nodes, h1.cache⟩, fun u hu => .inl hu⟩) (h.acc hv.1) (h.accV hv.2.1)
  | addfield i v =>
    refine barrier_z n (h.modify (h.acc hv.1) fun o _ h1 => ⟨⟨h1.mt, fun r hr => ?_, h1.nodes, h1.cache⟩, fun u hu => .inl hu⟩) (h.acc hv.1) (h.accV hv.2.1)
    rcases List.mem_append.mp hr with h2 | h2
    · exact h1.vals r h2
    · exact h.accV hv.2.1 r (List.mem_singleton.mp h2).symm
  | capture th slot u =>
    obtain ⟨_, ha, o, ho, _, _⟩ := hv
    have hth := h.acc ha
    have hout := h.outO hth ho
    simp only [exec]
    rw [modify_eq ho]
    obtain ⟨tw, etw, htw⟩ : ∃ tw, (if th ∈ ((s.setObj th (some { o with ups := u :: o.ups })).setUp u (.opn th slot true)).twups then
        (s.setObj th (some { o with ups := u :: o.ups })).setUp u (.opn th slot true)
        else { (s.setObj th (some { o with ups := u :: o.ups })).setUp u (.opn th slot true) with
          twups := th :: ((s.setObj th (some { o with ups := u :: o.ups })).setUp u (.opn th slot true)).twups }) =
        { (s.setObj th (some { o with ups := u :: o.ups })).setUp u (.opn th slot true) with twups := tw } ∧
        (∀ y ∈ tw, y ∈ s.twups ∨ y = th) := by
      by_cases hm : th ∈ s.twups
      · exact ⟨s.twups, (if_pos hm).trans rfl, fun _ h => .inl h⟩
      · refine ⟨th :: s.twups, (if_neg hm).trans rfl, fun y hy => ?_⟩
        rw [List.mem_cons] at hy
        exact hy.symm
    rw [etw]
    have hupw : ∀ w, ({ (s.setObj th (some { o with ups := u :: o.ups })).setUp u (.opn th slot true) with twups := tw } : G).up w =
        if w = u then .opn th slot true else s.up w := fun _ => rfl
    have hg : ∀ w, w ≠ u → G.upGet { (s.setObj th (some { o with ups := u :: o.ups })).setUp u (.opn th slot true) with twups := tw } w = s.upGet w := by
      intro w hw
      refine upGet_eq ?_ (.inl ?_)
      · exact fun j => setObj_ups (u :: o.ups) ho j
      · rw [hupw, if_neg hw]
    have hgu : ∀ r, G.upGet { (s.setObj th (some { o with ups := u :: o.ups })).setUp u (.opn th slot true) with twups := tw } u = .ref r → ¬ D r := by
      intro r hr
      unfold G.upGet at hr
      rw [hupw, if_pos rfl] at hr
      dsimp only at hr
      rw [show ((s.setObj th (some { o with ups := u :: o.ups })).setUp u (.opn th slot true)).obj th = some { o with ups := u :: o.ups } from if_pos rfl] at hr
      exact hout.vals r (Shape.getD_mem hr)
    have hob : ∀ j, ({ (s.setObj th (some { o with ups := u :: o.ups })).setUp u (.opn th slot true) with twups := tw } : G).obj j =
        if j = th then some { o with ups := u :: o.ups } else s.obj j := fun _ => rfl
    refine h.upd' ⟨_, _, _, rfl⟩ (fun j oj hj h1 => ⟨oj, ?_, rfl⟩) (fun v r hr => ?_) (fun j oj h1 => ?_) fun y hy => ?_
    · rw [hob, if_neg (by rintro rfl; exact hth hj)]; exact h1
    · by_cases e : v = u
      · subst e; exact .inr (hgu r hr)
      · rw [hg v e] at hr; exact .inl hr
    · rw [hob] at h1
      by_cases e : j = th
      · subst e
        rw [if_pos rfl] at h1
        cases h1
        refine ⟨fun _ => ⟨hout.mt, hout.vals, hout.nodes, hout.cache⟩, fun v hv => ?_⟩
        rcases List.mem_cons.mp hv with rfl | hv
        · exact .inr hgu
        · exact .inl ⟨o, ho, hv⟩
      · rw [if_neg e] at h1
        exact ⟨fun hn => h.outO hn h1, fun u hu => .inl ⟨oj, h1, hu⟩⟩
    · rcases htw y hy with h1 | rfl
      · exact .inl h1
      · exact .inr hth
  | addup i u =>
    obtain ⟨ha, _, c, oc, hc, hoc, hu⟩ := hv
    refine h.modify (h.acc ha.1) fun o _ h1 => ⟨⟨h1.mt, h1.vals, h1.nodes, h1.cache⟩, fun v hv => ?_⟩
    rcases List.mem_append.mp hv with h2 | h2
    · exact .inl h2
    · rw [List.mem_singleton.mp h2]
      exact .inr (h.outU (h.acc hc) hoc u hu)
  | initup i u =>
    obtain ⟨⟨ha, o, ho, _⟩, _⟩ := hv
    have hi := h.acc ha
    have hout := h.outO hi ho
    simp only [exec]
    rw [modify_eq ho]
    have hob : ∀ j, ((s.setObj i (some { o with ups := o.ups ++ [u] })).setUp u (.closed .nil)).obj j =
        if j = i then some { o with ups := o.ups ++ [u] } else s.obj j := fun _ => rfl
    have hgu : ((s.setObj i (some { o with ups := o.ups ++ [u] })).setUp u (.closed .nil)).upGet u = .nil := upGet_closed (if_pos rfl)
    have hg : ∀ v, v ≠ u → ((s.setObj i (some { o with ups := o.ups ++ [u] })).setUp u (.closed .nil)).upGet v = s.upGet v := fun v hv =>
      upGet_eq (s' := (s.setObj i (some { o with ups := o.ups ++ [u] })).setUp u (.closed .nil)) (fun j => setObj_ups _ ho j) (.inl (if_neg hv))
    refine h.upd' ⟨_, _, s.twups, rfl⟩ (fun j oj hj h1 => ⟨oj, ?_, rfl⟩) (fun v r hr => ?_) (fun j oj h1 => ?_) fun y hy => .inl hy
    · rw [hob, if_neg (by rintro rfl; exact hi hj)]; exact h1
    · by_cases e : v = u
      · subst e; rw [hgu] at hr; cases hr
      · rw [hg v e] at hr; exact .inl hr
    · rw [hob] at h1
      by_cases e : j = i
      · subst e
        rw [if_pos rfl] at h1
        cases h1
        refine ⟨fun _ => ⟨hout.mt, hout.vals, hout.nodes, hout.cache⟩, fun v hv => ?_⟩
        rcases List.mem_append.mp hv with hv | hv
        · exact .inl ⟨o, ho, hv⟩
        · rw [List.mem_singleton.mp hv, hgu]
          exact .inr fun r hr => by cases hr
      · rw [if_neg e] at h1
        exact ⟨fun hn => h.outO hn h1, fun u hu => .inl ⟨oj, h1, hu⟩⟩
  | setup i u v =>
    obtain ⟨ha, hav, _⟩ := hv
    have hv' := h.accV hav
    simp only [exec]
    split
    · next th slot t hup =>
      unfold modify
      split
      · exact h.fail
      · next o ho =>
        refine h.upd' ⟨_, s.up, s.twups, rfl⟩ (fun j oj hj h1 => ?_) (fun z r hr => ?_) (fun j oj h1 => ?_) fun y hy => .inl hy
        · rw [setObj_obj]
          by_cases e : j = th
          · subst e
            rw [ho] at h1
            cases h1
            exact ⟨_, if_pos rfl, rfl⟩
          · exact ⟨oj, by rw [if_neg e]; exact h1, rfl⟩
        · unfold G.upGet at hr ⊢
          rw [show (s.setObj th (some { o with vals := o.vals.set slot v })).up = s.up from rfl] at hr
          cases hz : s.up z with
          | closed y => rw [hz] at hr; exact .inl hr
          | opn th' sl t' =>
            rw [hz] at hr
            dsimp only at hr ⊢
            rw [setObj_obj] at hr
            by_cases e : th' = th
            · subst e
              rw [if_pos rfl] at hr
              rw [ho]
              dsimp only at hr ⊢
              by_cases e2 : slot = sl
              · subst e2
                rw [List.getD_eq_getElem?_getD] at hr
                by_cases hlt : slot < o.vals.length
                · rw [List.getElem?_eq_getElem (by simpa using hlt), List.getElem_set_self] at hr
                  exact .inr (hv' r hr)
                · rw [List.getElem?_eq_none (by simpa using hlt)] at hr
                  cases hr
              · rw [List.getD_eq_getElem?_getD, List.getElem?_set_ne e2, ← List.getD_eq_getElem?_getD] at hr
                exact .inl hr
            · rw [if_neg e] at hr; exact .inl hr
        · rw [setObj_obj] at h1
          by_cases e : j = th
          · subst e
            rw [if_pos rfl] at h1
            cases h1
            exact ⟨fun hn => ⟨(h.outO hn ho).mt, (h.outO hn ho).vals.set hv' _, (h.outO hn ho).nodes, (h.outO hn ho).cache⟩, fun u hu => .inl ⟨o, ho, hu⟩⟩
          · rw [if_neg e] at h1
            exact ⟨fun hn => h.outO hn h1, fun u hu => .inl ⟨oj, h1, hu⟩⟩
    · next v0 hup =>
      refine upvalbarrier_z n ?_ hv'
      refine h.upd' ⟨s.obj, _, s.twups, rfl⟩ (fun j oj _ h1 => ⟨oj, h1, rfl⟩) (fun z r hr => ?_) (fun j oj h1 => ⟨fun hn => h.outO hn h1, fun u hu => .inl ⟨oj, h1, hu⟩⟩) fun y hy => .inl hy
      by_cases e : z = u
      · subst e
        rw [upGet_closed (v := v) (if_pos rfl)] at hr
        exact .inr (hv' r hr)
      · left
        rw [← hr]
        exact (upGet_eq (s := s) (s' := s.setUp u (.closed v)) (fun _ => rfl) (.inl (if_neg e))).symm
  | close th level =>
    simp only [exec]
    split
    · exact h.fail
    · next o ho => exact closeUps_z n level (h.acc hv.1) o.ups s h (h.outU (h.acc hv.1) ho)
  | join i j u =>
    obtain ⟨ha, c, oc, hc, hoc, _, hu⟩ := hv
    have hout := h.outU (h.acc hc) hoc u hu
    have h1 : Z D x w (modify s i fun o => { o with ups := o.ups.set j u }) := by
      refine h.modify (h.acc ha.1) fun o _ h1 => ⟨⟨h1.mt, h1.vals, h1.nodes, h1.cache⟩, fun v hv => ?_⟩
      rcases List.mem_or_eq_of_mem_set hv with h2 | rfl
      · exact .inl h2
      · exact .inr hout
    have h2 : (modify s i fun o => { o with ups := o.ups.set j u }).up = s.up := by unfold modify; split <;> rfl
    simp only [exec]
    generalize (modify s i fun o => { o with ups := o.ups.set j u }) = s1 at h1 h2 ⊢
    split
    · next hup => exact h1.flip hup
    · next hup =>
      rw [h2] at hup
      exact upvalbarrier_z n h1 fun r hr => hout r (by rw [upGet_closed hup]; exact hr)
  | setcache p c =>
    simp only [exec]
    split
    · exact h
    · exact h.modify (h.acc hv.1.1) fun o _ h1 => ⟨⟨h1.mt, h1.vals, h1.nodes, fun r hr => by cases hr; exact h.acc hv.2⟩, fun u hu => .inl hu⟩
  | intern i =>
    obtain ⟨o, ho, hk⟩ := hv
    have hi : ¬ D i := fun hd => by
      obtain ⟨o', h1, h2⟩ := h.dom i hd
      rw [ho] at h1
      cases h1
      exact hx (by rw [h2 hk])
    simp only [exec]
    refine push_z ?_ fun r hr => by cases hr; exact hi
    split
    · exact h.setCol hi _
    · exact h
  | addstr i =>
    refine roots_z h (h.roots _ .running) (fun r hr => h.roots r (.registry hr)) (fun r hr => h.roots r (.mts hr)) fun r hr => ?_
    rcases List.mem_cons.mp hr with rfl | hr
    · exact h.acc hv.1
    · exact h.roots r (.strcache hr)
  | setreg v =>
    exact roots_z h (h.roots _ .running) (h.accV hv) (fun r hr => h.roots r (.mts hr)) fun r hr => h.roots r (.strcache hr)
  | setmts vs =>
    exact roots_z h (h.roots _ .running) (fun r hr => h.roots r (.registry hr)) (fun r hr => h.accV (hv _ hr) r rfl) fun r hr => h.roots r (.strcache hr)
  | resume th =>
    exact roots_z h (h.acc hv.1) (fun r hr => h.roots r (.registry hr)) (fun r hr => h.roots r (.mts hr)) fun r hr => h.roots r (.strcache hr)

end
end Verif.GC
