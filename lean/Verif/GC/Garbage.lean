import Verif.GC.Strong

/-!
# Marking does not reach what nothing refers to
-/
namespace Verif.GC

/-- `D` is a set of white objects that nothing outside of it refers to. At most `x` of them is a string (a program can get at strings
that nothing refers to). -/
structure Z (D : Id → Prop) (x : Id) (w : Bool) (s : G) : Prop where
  dom : ∀ i, D i → ∃ o, s.obj i = some o ∧ (o.kind = .str → i = x)
  refs : ∀ i o r, ¬ D i → s.obj i = some o → Ref s o r → ¬ D r
  tws : ∀ th ∈ s.twups, ∀ o, s.obj th = some o → ∀ u ∈ o.ups, ∀ r, s.upGet u = .ref r → ¬ D r
  roots : ∀ r, Root s r → ¬ D r
  fins : ∀ i, i ∈ s.finobj ∨ i ∈ s.tobefnz → ¬ D i
  lists : ∀ i, i ∈ s.gray ∨ i ∈ s.grayagain ∨ i ∈ s.weak ∨ i ∈ s.allweak ∨ i ∈ s.ephemeron → ¬ D i
  col : ∀ i, D i → s.col i = .white w
  white : s.white = w

/-- the roots stay the same, or become less -/
structure Rt' (s s' : G) : Prop extends Rt s s' where
  strcache : ∀ i ∈ s'.strcache, i ∈ s.strcache
  fins : ∀ i, i ∈ s'.finobj ∨ i ∈ s'.tobefnz → i ∈ s.finobj ∨ i ∈ s.tobefnz
  white : s'.white = s.white

theorem Root.less' {s s' : G} (h : Rt s s') (hs : ∀ i ∈ s'.strcache, i ∈ s.strcache) {r : Id} (hr : Root s' r) : Root s r := by
  cases hr with
  | main => rw [h.main]; exact .main
  | running => rw [h.running]; exact .running
  | registry h1 => exact .registry (h.registry ▸ h1)
  | mts h1 => exact .mts (h.mts ▸ h1)
  | strcache h1 => exact .strcache (hs _ h1)
  | fixed h1 => exact .fixed (h.fixedgc ▸ h1)

theorem Root.less {s s' : G} (h : Rt' s s') {r : Id} (hr : Root s' r) : Root s r := hr.less' h.toRt h.strcache

theorem Rt'.refl (s : G) : Rt' s s := ⟨.refl s, fun _ h => h, fun _ h => h, rfl⟩

section
variable {D : Id → Prop} {x : Id} {w : Bool}

theorem ref_less {s s' : G} (hu : ∀ u, s'.upGet u = s.upGet u ∨ s'.upGet u = .nil) {o o' : Obj} (hs : Shr o o') {r : Id} (hr : Ref s' o' r) :
    Ref s o r := by
  cases hr with
  | mt h1 => exact .mt (hs.mt ▸ h1)
  | val h1 => exact .val (hs.val_mem h1)
  | key h1 h2 =>
    rcases hs.node_mem h1 with h3 | ⟨_, h3⟩
    · exact .key h3 h2
    · exact absurd h2 (h3 r)
  | nval h1 h2 =>
    rcases hs.node_mem h1 with h3 | ⟨h3, _⟩
    · exact .nval h3 h2
    · rw [h3] at h2; cases h2
  | @up u _ h1 h2 =>
    rcases hu u with h3 | h3
    · exact .up (hs.ups ▸ h1) (h3 ▸ h2)
    · rw [h3] at h2; cases h2
  | cache h1 =>
    rcases hs.cache with h2 | h2
    · exact .cache (h2 ▸ h1)
    · rw [h2] at h1; cases h1

theorem Z.gen {s s' : G} (h : Z D x w s) (ho : ∀ i o, s.obj i = some o → ∃ o', s'.obj i = some o' ∧ Shr o o')
    (hn : ∀ i, s.obj i = none → s'.obj i = none)
    (hu : ∀ u, s'.upGet u = s.upGet u ∨ s'.upGet u = .nil) (hr : Rt' s s') (htw : ∀ i ∈ s'.twups, i ∈ s.twups ∨ ¬ D i)
    (hl : ∀ i, i ∈ s'.gray ∨ i ∈ s'.grayagain ∨ i ∈ s'.weak ∨ i ∈ s'.allweak ∨ i ∈ s'.ephemeron → ¬ D i)
    (hc : ∀ i, D i → s'.col i = s.col i) : Z D x w s' := by
  have ho' : ∀ i o', s'.obj i = some o' → ∃ o, s.obj i = some o ∧ Shr o o' := by
    intro i o' h1
    cases hi : s.obj i with
    | none => rw [hn i hi] at h1; cases h1
    | some o =>
      obtain ⟨o1, h2, h3⟩ := ho i o hi
      rw [h1] at h2
      cases h2
      exact ⟨o, rfl, h3⟩
  exact {
    dom := fun i hi => by
      obtain ⟨o, h1, h2⟩ := h.dom i hi
      obtain ⟨o', h3, h4⟩ := ho i o h1
      exact ⟨o', h3, by rw [h4.kind]; exact h2⟩
    refs := fun i o' r hi h1 h2 => by
      obtain ⟨o, h3, h4⟩ := ho' i o' h1
      exact h.refs i o r hi h3 (ref_less hu h4 h2)
    tws := fun th ht o' h1 u hm r hv => by
      obtain ⟨o, h3, h4⟩ := ho' th o' h1
      have hv' : s.upGet u = .ref r := by
        rcases hu u with h5 | h5
        · rw [← h5]; exact hv
        · rw [h5] at hv; cases hv
      rcases htw th ht with h5 | h5
      · exact h.tws th h5 o h3 u (h4.ups ▸ hm) r hv'
      · exact h.refs th o r h5 h3 (.up (h4.ups ▸ hm) hv')
    roots := fun r h1 => h.roots r (h1.less hr)
    fins := fun i hi => h.fins i (hr.fins i hi)
    lists := hl
    col := fun i hi => (hc i hi).trans (h.col i hi)
    white := hr.white.trans h.white }

/-- objects and upvalues stay the same -/
theorem Z.congr {s s' : G} (h : Z D x w s) (ho : s'.obj = s.obj) (hu : s'.up = s.up) (hr : Rt' s s') (htw : s'.twups = s.twups)
    (hl : ∀ i, i ∈ s'.gray ∨ i ∈ s'.grayagain ∨ i ∈ s'.weak ∨ i ∈ s'.allweak ∨ i ∈ s'.ephemeron → ¬ D i)
    (hc : ∀ i, D i → s'.col i = s.col i) : Z D x w s' :=
  h.gen (fun i o h1 => ⟨o, by rw [ho]; exact h1, .refl o⟩) (fun i h1 => by rw [ho]; exact h1)
    (fun u => .inl (by unfold G.upGet; rw [ho, hu])) hr (fun i hi => .inl (htw ▸ hi)) hl hc

theorem Z.fail {s : G} (h : Z D x w s) : Z D x w s.fail :=
  h.congr rfl rfl ⟨⟨rfl, rfl, rfl, rfl, rfl⟩, fun _ h => h, fun _ h => h, rfl⟩ rfl h.lists fun _ _ => rfl

theorem Z.oof {s : G} (h : Z D x w s) : Z D x w { s with oof := true } :=
  h.congr rfl rfl ⟨⟨rfl, rfl, rfl, rfl, rfl⟩, fun _ h => h, fun _ h => h, rfl⟩ rfl h.lists fun _ _ => rfl

theorem Z.setCol {s : G} (h : Z D x w s) {i : Id} (hi : ¬ D i) (c : Color) : Z D x w (s.setCol i c) :=
  h.congr rfl rfl ⟨⟨rfl, rfl, rfl, rfl, rfl⟩, fun _ h => h, fun _ h => h, rfl⟩ rfl h.lists fun j hj => if_neg (by rintro rfl; exact hi hj)

theorem Z.setAge {s : G} (h : Z D x w s) (i : Id) (c : Age) : Z D x w (s.setAge i c) :=
  h.congr rfl rfl ⟨⟨rfl, rfl, rfl, rfl, rfl⟩, fun _ h => h, fun _ h => h, rfl⟩ rfl h.lists fun _ _ => rfl

theorem Z.phase {s : G} (h : Z D x w s) (p : Phase) : Z D x w { s with phase := p } :=
  h.congr rfl rfl ⟨⟨rfl, rfl, rfl, rfl, rfl⟩, fun _ h => h, fun _ h => h, rfl⟩ rfl h.lists fun _ _ => rfl

theorem Z.link {s : G} (h : Z D x w s) {i : Id} (hi : ¬ D i) (l : GList) : Z D x w (link s l i) := by
  unfold GC.link
  split
  · exact h.fail
  · have hc : ∀ j, D j → (s.setCol i .gray).col j = s.col j := fun j hj => if_neg (by rintro rfl; exact hi hj)
    have hm : ∀ (l : List Id) (j : Id), j ∈ i :: l → (j ∈ l → ¬ D j) → ¬ D j := by
      intro l j hj h1
      rcases List.mem_cons.mp hj with rfl | h2
      · exact hi
      · exact h1 h2
    have hr : ∀ s', Rt' s s' → Rt' s s' := fun _ h => h
    cases l <;> refine h.congr rfl rfl ⟨⟨rfl, rfl, rfl, rfl, rfl⟩, fun _ h => h, fun _ h => h, rfl⟩ rfl (fun j hj => ?_) hc
    · rcases hj with hj | hj
      · exact hm _ j hj fun h1 => h.lists j (.inl h1)
      · exact h.lists j (.inr hj)
    · rcases hj with hj | hj | hj
      · exact h.lists j (.inl hj)
      · exact hm _ j hj fun h1 => h.lists j (.inr (.inl h1))
      · exact h.lists j (.inr (.inr hj))
    · rcases hj with hj | hj | hj | hj
      · exact h.lists j (.inl hj)
      · exact h.lists j (.inr (.inl hj))
      · exact hm _ j hj fun h1 => h.lists j (.inr (.inr (.inl h1)))
      · exact h.lists j (.inr (.inr (.inr hj)))
    · rcases hj with hj | hj | hj | hj | hj
      · exact h.lists j (.inl hj)
      · exact h.lists j (.inr (.inl hj))
      · exact h.lists j (.inr (.inr (.inl hj)))
      · exact hm _ j hj fun h1 => h.lists j (.inr (.inr (.inr (.inl h1))))
      · exact h.lists j (.inr (.inr (.inr (.inr hj))))
    · rcases hj with hj | hj | hj | hj | hj
      · exact h.lists j (.inl hj)
      · exact h.lists j (.inr (.inl hj))
      · exact h.lists j (.inr (.inr (.inl hj)))
      · exact h.lists j (.inr (.inr (.inr (.inl hj))))
      · exact hm _ j hj fun h1 => h.lists j (.inr (.inr (.inr (.inr h1))))

theorem Z.setObj {s : G} (h : Z D x w s) {i : Id} {o o' : Obj} (ho : s.obj i = some o) (hs : Shr o o') : Z D x w (s.setObj i (some o')) := by
  have le := (setObj_le ho hs).toLe0
  exact h.gen le.objs le.none le.upGet ⟨⟨rfl, rfl, rfl, rfl, rfl⟩, fun _ h => h, fun _ h => h, rfl⟩ (fun _ h => .inl h) h.lists fun _ _ => rfl

theorem upGet_flip {s : G} {u : Nat} {th : Id} {sl : Nat} {t t' : Bool} (hu : s.up u = .opn th sl t) (v : Nat) :
    (s.setUp u (.opn th sl t')).upGet v = s.upGet v := by
  unfold G.upGet G.setUp
  dsimp only
  by_cases e : v = u
  · subst e
    rw [if_pos rfl, hu]
  · rw [if_neg e]

theorem Z.flip {s : G} (h : Z D x w s) {u : Nat} {th : Id} {sl : Nat} {t t' : Bool} (hu : s.up u = .opn th sl t) :
    Z D x w (s.setUp u (.opn th sl t')) :=
  h.gen (fun i o h1 => ⟨o, h1, .refl o⟩) (fun _ h => h) (fun v => .inl (upGet_flip hu v))
    ⟨⟨rfl, rfl, rfl, rfl, rfl⟩, fun _ h => h, fun _ h => h, rfl⟩ (fun _ h => .inl h) h.lists fun _ _ => rfl

theorem Z.twups {s : G} (h : Z D x w s) {l : List Id} (hl : ∀ th ∈ l, ∀ o, s.obj th = some o → ∀ u ∈ o.ups, ∀ r, s.upGet u = .ref r → ¬ D r) :
    Z D x w { s with twups := l } where
  dom := h.dom
  refs i o r hi ho hr := h.refs i o r hi ho (ref_less (s := s) (s' := { s with twups := l }) (fun _ => .inl rfl) (.refl o) hr)
  tws := hl
  roots r hr := h.roots r (Root.less (s := s) (s' := { s with twups := l }) ⟨⟨rfl, rfl, rfl, rfl, rfl⟩, fun _ h => h, fun _ h => h, rfl⟩ hr)
  fins := h.fins
  lists := h.lists
  col := h.col
  white := h.white

/-! ## Marking -/

/-- values that are not in `D` -/
def Out (D : Id → Prop) (vs : List Val) : Prop := ∀ r, Val.ref r ∈ vs → ¬ D r

theorem Out.tail {v : Val} {vs : List Val} (h : Out D (v :: vs)) : Out D vs := fun r hr => h r (by simp [hr])

theorem foldMark_z {mark : G → Id → G} (h : ∀ s i, Z D x w s → ¬ D i → Z D x w (mark s i)) : ∀ (vs : List Val) (s : G), Z D x w s → Out D vs →
    Z D x w (foldMark mark vs s) := by
  intro vs
  induction vs with
  | nil => exact fun s h _ => h
  | cons v vs ih =>
    intro s hz hv
    cases v with
    | nil => exact ih s hz hv.tail
    | prim => exact ih s hz hv.tail
    | ref i => exact ih _ (h s i hz (hv i (by simp))) hv.tail

theorem mark_z (n : Nat) : (∀ s i, Z D x w s → ¬ D i → Z D x w (reallymark n s i)) ∧ (∀ s i, Z D x w s → ¬ D i → Z D x w (markobject n s i)) := by
  induction n with
  | zero => exact ⟨fun s i h _ => by rw [reallymark]; exact h.oof, fun s i h _ => by rw [markobject]; exact h.oof⟩
  | succ n ih =>
    constructor
    · intro s i hz hi
      rw [reallymark]
      split
      · exact hz.fail
      · next o ho =>
        have hv : Out D o.vals := fun r hr => hz.refs i o r hi ho (.val hr)
        have ud : Z D x w (foldMark (markobject n) o.vals (G.setCol (match o.mt with
            | .none => s
            | some m => markobject n s m) i .black)) := by
          refine foldMark_z ih.2 _ _ (Z.setCol ?_ hi _) hv
          cases hm : o.mt with
          | none => exact hz
          | some m => exact ih.2 s m hz (hz.refs i o m hi ho (.mt hm))
        cases o.kind with
        | str => exact hz.setCol hi _
        | udata => exact ud
        | arr => exact ud
        | _ => exact hz.link hi _
    · intro s i hz hi
      rw [markobject]
      split
      · exact hz.fail
      · split
        · exact ih.1 s i hz hi
        · exact hz

theorem markobject_z (n : Nat) {s : G} {i : Id} (h : Z D x w s) (hi : ¬ D i) : Z D x w (markobject n s i) := (mark_z n).2 s i h hi
theorem fold_z (n : Nat) {vs : List Val} {s : G} (h : Z D x w s) (hv : Out D vs) : Z D x w (foldMark (markobject n) vs s) :=
  foldMark_z (mark_z n).2 vs s h hv
theorem markvalue_z (n : Nat) {s : G} {v : Val} (h : Z D x w s) (hv : ∀ r, v = .ref r → ¬ D r) : Z D x w (markvalue n s v) :=
  fold_z n h fun r hr => hv r (List.mem_singleton.mp hr).symm

theorem markkey_z (n : Nat) {s : G} {k : Key} (h : Z D x w s) (hk : ∀ r, k = .ref r → ¬ D r) : Z D x w (markkey n s k) := by
  cases k with
  | ref i => exact markobject_z n h (hk i rfl)
  | _ => exact h

theorem iscleared_z (n : Nat) {s : G} {i : Id} (h : Z D x w s) (hi : ¬ D i) : Z D x w (iscleared n s i).2 := by
  unfold iscleared
  split
  · exact h.fail
  · split
    · exact markobject_z n h hi
    · exact h

theorem isclearedV_z (n : Nat) {s : G} {v : Val} (h : Z D x w s) (hv : ∀ r, v = .ref r → ¬ D r) : Z D x w (isclearedV n s v).2 := by
  cases v with
  | ref i => exact iscleared_z n h (hv i rfl)
  | _ => exact h

theorem isclearedK_z (n : Nat) {s : G} {v : Key} (h : Z D x w s) (hv : ∀ r, v = .ref r → ¬ D r) : Z D x w (isclearedK n s v).2 := by
  cases v with
  | ref i => exact iscleared_z n h (hv i rfl)
  | _ => exact h

/-- nodes whose keys and values are not in `D` -/
def OutN (D : Id → Prop) (xs : List Node) : Prop := ∀ x ∈ xs, (∀ r, x.key = .ref r → ¬ D r) ∧ ∀ r, x.val = .ref r → ¬ D r

theorem OutN.tail {v : Node} {vs : List Node} (h : OutN D (v :: vs)) : OutN D vs := fun r hr => h r (by simp [hr])

theorem weakLoop_z (n : Nat) (xs : List Node) : ∀ (hc : Bool) (s : G), Z D x w s → OutN D xs → Z D x w (weakLoop n xs hc s).2 := by
  induction xs with
  | nil => exact fun _ s h _ => h
  | cons y xs ih =>
    intro hc s h hx
    have hy := hx y (by simp)
    rw [weakLoop]
    split
    · exact ih hc s h hx.tail
    · dsimp only
      split
      · exact ih _ _ (markkey_z n h hy.1) hx.tail
      · exact ih _ _ (isclearedV_z n (markkey_z n h hy.1) hy.2) hx.tail

theorem markW_z (n : Nat) {s : G} {v : Val} (h : Z D x w s) (hv : ∀ r, v = .ref r → ¬ D r) : Z D x w (markW n s v).2 := by
  cases v with
  | ref i =>
    unfold markW
    dsimp only
    split
    · exact h.fail
    · split
      · exact (mark_z n).1 s i h (hv i rfl)
      · exact h
  | _ => exact h

theorem ephArray_z (n : Nat) (vs : List Val) : ∀ (m : Bool) (s : G), Z D x w s → Out D vs → Z D x w (ephArray n vs m s).2 := by
  induction vs with
  | nil => exact fun _ s h _ => h
  | cons v vs ih => exact fun m s h hv => ih _ _ (markW_z n h fun r hr => hv r (by simp [hr])) hv.tail

theorem valiswhite_z {s : G} (v : Val) (h : Z D x w s) : Z D x w (valiswhite s v).2 := by
  cases v with
  | ref i =>
    unfold valiswhite
    dsimp only
    split
    · exact h.fail
    · exact h
  | _ => exact h

theorem ephNodes_z (n : Nat) (xs : List Node) : ∀ (e : Eph) (s : G), Z D x w s → OutN D xs → Z D x w (ephNodes n xs e s).2 := by
  induction xs with
  | nil => exact fun _ s h _ => h
  | cons y xs ih =>
    intro e s h hx
    have hy := hx y (by simp)
    rw [ephNodes]
    split
    · exact ih e s h hx.tail
    · dsimp only
      split
      · exact ih _ _ (valiswhite_z _ (isclearedK_z n h hy.1)) hx.tail
      · exact ih _ _ (markW_z n (isclearedK_z n h hy.1) hy.2) hx.tail

theorem strongNodes_z (n : Nat) (xs : List Node) : ∀ s : G, Z D x w s → OutN D xs → Z D x w (strongNodes n xs s) := by
  induction xs with
  | nil => exact fun s h _ => h
  | cons y xs ih =>
    intro s h hx
    have hy := hx y (by simp)
    rw [strongNodes]
    split
    · exact ih s h hx.tail
    · exact ih _ (markvalue_z n (markkey_z n h hy.1) hy.2) hx.tail

theorem genlink_z {s : G} {i : Id} (h : Z D x w s) (hi : ¬ D i) : Z D x w (genlink s i) := by
  unfold genlink
  split
  · exact h.link hi _
  · exact h

theorem Z.clean {s : G} (h : Z D x w s) {i : Id} {o : Obj} (ho : s.obj i = some o) : Z D x w (cleanNodes s i o) := h.setObj ho (clean_shr o)

theorem Z.out {s : G} (h : Z D x w s) {i : Id} {o : Obj} (hi : ¬ D i) (ho : s.obj i = some o) : Out D o.vals :=
  fun r hr => h.refs i o r hi ho (.val hr)
theorem Z.outN {s : G} (h : Z D x w s) {i : Id} {o : Obj} (hi : ¬ D i) (ho : s.obj i = some o) : OutN D o.nodes :=
  fun _ hy => ⟨fun r hr => h.refs i o r hi ho (.key hy hr), fun r hr => h.refs i o r hi ho (.nval hy hr)⟩

theorem traverseweakvalue_z (n : Nat) {s : G} {i : Id} {o : Obj} (h : Z D x w s) (ho : s.obj i = some o) (hi : ¬ D i) :
    Z D x w (traverseweakvalue n s i o) := by
  unfold traverseweakvalue
  dsimp only
  have := weakLoop_z n o.nodes (!o.vals.isEmpty) _ (h.clean ho) (h.outN hi ho)
  generalize weakLoop n o.nodes (!o.vals.isEmpty) (cleanNodes s i o) = p at this ⊢
  split <;> exact this.link hi _

theorem traverseephemeron_z (n : Nat) {s : G} {i : Id} {o : Obj} (h : Z D x w s) (ho : s.obj i = some o) (hi : ¬ D i) :
    Z D x w (traverseephemeron n s i o).2 := by
  unfold traverseephemeron
  dsimp only
  have h1 := ephArray_z n o.vals false _ (h.clean ho) (h.out hi ho)
  generalize ephArray n o.vals false (cleanNodes s i o) = p at h1 ⊢
  have h2 := ephNodes_z n o.nodes ⟨p.1, false, false⟩ p.2 h1 (h.outN hi ho)
  generalize ephNodes n o.nodes ⟨p.1, false, false⟩ p.2 = q at h2 ⊢
  split
  · exact h2.link hi _
  · split
    · exact h2.link hi _
    · split
      · exact h2.link hi _
      · exact genlink_z h2 hi

theorem traversetable_z (n : Nat) {s : G} {i : Id} {o : Obj} (h : Z D x w s) (ho : s.obj i = some o) (hi : ¬ D i) :
    Z D x w (traversetable n s i o) := by
  unfold traversetable
  dsimp only
  have m : Mk s (markobjectN n s o.mt) ∧ Z D x w (markobjectN n s o.mt) := by
    cases hm : o.mt with
    | none => exact ⟨.refl s, h⟩
    | some m => exact ⟨markobject_mk n s m, markobject_z n h (h.refs i o m hi ho (.mt hm))⟩
  obtain ⟨m, h1⟩ := m
  have ho1 : (markobjectN n s o.mt).obj i = some o := by rw [m.obj]; exact ho
  generalize markobjectN n s o.mt = s1 at h1 ho1 ⊢
  split
  · exact traverseweakvalue_z n h1 ho1 hi
  · exact traverseephemeron_z n h1 ho1 hi
  · exact h1.link hi _
  · exact genlink_z (strongNodes_z n _ _ (fold_z n (h1.clean ho1) (h1.out hi ho1)) (h1.outN hi ho1)) hi

theorem Mk.upGet {s s' : G} (m : Mk s s') (u : Nat) : s'.upGet u = s.upGet u := by
  unfold G.upGet; rw [m.obj, m.up]

/-- the values of upvalues are not in `D` -/
def OutU (D : Id → Prop) (us : List Nat) (s : G) : Prop := ∀ u ∈ us, ∀ r, s.upGet u = .ref r → ¬ D r

theorem OutU.next {s s' : G} {u : Nat} {us : List Nat} (h : OutU D (u :: us) s) (e : ∀ u, s'.upGet u = s.upGet u) : OutU D us s' :=
  fun v hv r hr => h v (by simp [hv]) r (by rw [← e]; exact hr)

theorem lclUps_z (n : Nat) (us : List Nat) : ∀ s : G, Z D x w s → OutU D us s → Z D x w (lclUps n us s) := by
  induction us with
  | nil => exact fun s h _ => h
  | cons u us ih =>
    intro s h hu
    rw [lclUps]
    split
    · next hx =>
      split
      · exact ih _ (h.flip hx) (hu.next (upGet_flip hx))
      · exact ih _ (markvalue_z n h (hu u (by simp))) (hu.next (markvalue_mk n s _).upGet)
    · next hx =>
      exact ih _ (markvalue_z n h fun r hr => hu u (by simp) r (by rw [upGet_closed hx]; exact hr)) (hu.next (markvalue_mk n s _).upGet)

theorem markUps_z (n : Nat) (us : List Nat) : ∀ s : G, Z D x w s → OutU D us s → Z D x w (markUps n us s) := by
  induction us with
  | nil => exact fun s h _ => h
  | cons u us ih => exact fun s h hu => ih _ (markvalue_z n h (hu u (by simp))) (hu.next (markvalue_mk n s _).upGet)

theorem Z.outU {s : G} (h : Z D x w s) {i : Id} {o : Obj} (hi : ¬ D i) (ho : s.obj i = some o) : OutU D o.ups s :=
  fun _ hy r hr => h.refs i o r hi ho (.up hy hr)

theorem traversethread_z (n : Nat) {s : G} {i : Id} {o : Obj} (h : Z D x w s) (ho : s.obj i = some o) (hi : ¬ D i) :
    Z D x w (traversethread n s i o) := by
  unfold traversethread
  dsimp only
  have m1 : Mk s (if (s.isOld i || decide (s.phase = .propagate)) = true then link s .grayagain i else s) ∧
      Z D x w (if (s.isOld i || decide (s.phase = .propagate)) = true then link s .grayagain i else s) := by
    split
    · exact ⟨linkAgain_mk s i, h.link hi _⟩
    · exact ⟨.refl s, h⟩
  obtain ⟨m1, h1⟩ := m1
  generalize (if (s.isOld i || decide (s.phase = .propagate)) = true then link s .grayagain i else s) = s1 at m1 h1 ⊢
  have ho1 : s1.obj i = some o := by rw [m1.obj]; exact ho
  have m2 := m1.trans (fold_mk n (o.vals.take o.top) s1)
  have h2 := fold_z n (vs := o.vals.take o.top) h1 fun r hr => h1.out hi ho1 r (List.mem_of_mem_take hr)
  generalize foldMark (markobject n) (o.vals.take o.top) s1 = s2 at m2 h2 ⊢
  have ho2 : s2.obj i = some o := by rw [m2.obj]; exact ho
  have m3 := m2.trans (markUps_mk n o.ups s2)
  have h3 := markUps_z n o.ups s2 h2 (h2.outU hi ho2)
  generalize markUps n o.ups s2 = s3 at m3 h3 ⊢
  have ho3 : s3.obj i = some o := by rw [m3.obj]; exact ho
  split
  · unfold clearStack
    dsimp only
    have h4 := h3.setObj (o' := { o with vals := o.vals.take o.top ++ List.replicate (o.vals.length - o.top) .nil }) ho3
      { Shr.refl o with vals := forall₂_take _ _ }
    split
    · refine h4.gen (fun j oj hj => ⟨oj, hj, .refl oj⟩) (fun _ h => h) (fun _ => .inl rfl)
        ⟨⟨rfl, rfl, rfl, rfl, rfl⟩, fun _ h => h, fun _ h => h, rfl⟩ (fun j hj => ?_) h4.lists fun _ _ => rfl
      rcases List.mem_cons.mp hj with rfl | hj
      · exact .inr hi
      · exact .inl hj
    · exact h4
  · exact h3

theorem clearCache_z {s : G} {i : Id} {o : Obj} (h : Z D x w s) (ho : s.obj i = some o) : Z D x w (clearCache s i o) := by
  unfold clearCache
  split
  · exact h
  · split
    · exact h.fail
    · split
      · exact h.setObj ho { Shr.refl o with cache := .inr rfl }
      · exact h

theorem traverse_z (n : Nat) {s : G} {i : Id} (h : Z D x w s) (hi : ¬ D i) : Z D x w (traverse n s i) := by
  unfold traverse
  split
  · exact h.fail
  · next o ho =>
    split
    · exact traversetable_z n h ho hi
    · unfold traverseLclosure
      have m := fold_mk n o.vals s
      exact lclUps_z n _ _ (fold_z n h (h.out hi ho)) fun u hu r hr => h.outU hi ho u hu r (by rw [← m.upGet]; exact hr)
    · exact fold_z n h (h.out hi ho)
    · exact fold_z n (clearCache_z h ho) (h.out hi ho)
    · exact traversethread_z n h ho hi
    · exact h.fail

theorem nw2black_z {s : G} {i : Id} (h : Z D x w s) (hi : ¬ D i) : Z D x w (nw2black s i) := by
  unfold nw2black
  split
  · exact h.fail
  · exact h.setCol hi _

theorem propagatemark_z (n : Nat) {s : G} (h : Z D x w s) : Z D x w (propagatemark n s) := by
  unfold propagatemark
  split
  · exact h.fail
  · next i rest hg =>
    have hi : ¬ D i := h.lists i (.inl (by rw [hg]; simp))
    have h1 := nw2black_z h hi
    have hg1 : (nw2black s i).gray = s.gray := by unfold nw2black; split <;> rfl
    have h2 : Z D x w { nw2black s i with gray := rest } := by
      refine h1.congr rfl rfl ⟨⟨rfl, rfl, rfl, rfl, rfl⟩, fun _ h => h, fun _ h => h, rfl⟩ rfl (fun j hj => ?_) fun _ _ => rfl
      rcases hj with hj | hj
      · have hj : j ∈ rest := hj
        exact h1.lists j (.inl (by rw [hg1, hg]; simp [hj]))
      · exact h1.lists j (.inr hj)
    exact traverse_z n h2 hi

theorem propagateall_z (n k : Nat) : ∀ s : G, Z D x w s → Z D x w (propagateall n k s) := by
  induction k with
  | zero => exact fun s h => h.oof
  | succ k ih =>
    intro s h
    rw [propagateall]
    split
    · exact h
    · exact ih _ (propagatemark_z n h)

theorem convPass_z (n : Nat) (hs : List Id) : ∀ (c : Bool) (s : G), Z D x w s → (∀ i ∈ hs, ¬ D i) → Z D x w (convPass n hs c s).2 := by
  induction hs with
  | nil => exact fun _ s h _ => h
  | cons i hs ih =>
    intro c s h hw
    have hi := hw i (by simp)
    rw [convPass]
    split
    · exact h.fail
    · next o ho =>
      dsimp only
      have h1 := traverseephemeron_z n (i := i) (o := o) (nw2black_z h hi) (by rw [(nw2black_mk s i).obj]; exact ho) hi
      generalize traverseephemeron n (nw2black s i) i o = p at h1 ⊢
      split
      · exact ih _ _ (propagateall_z n n _ h1) fun j hj => hw j (by simp [hj])
      · exact ih _ _ h1 fun j hj => hw j (by simp [hj])

theorem converge_z (n k : Nat) : ∀ s : G, Z D x w s → Z D x w (converge n k s) := by
  induction k with
  | zero => exact fun s h => h.oof
  | succ k ih =>
    intro s h
    rw [converge]
    have h1 : Z D x w { s with ephemeron := [] } := by
      refine h.congr rfl rfl ⟨⟨rfl, rfl, rfl, rfl, rfl⟩, fun _ h => h, fun _ h => h, rfl⟩ rfl (fun j hj => ?_) fun _ _ => rfl
      rcases hj with hj | hj | hj | hj | hj
      · exact h.lists j (.inl hj)
      · exact h.lists j (.inr (.inl hj))
      · exact h.lists j (.inr (.inr (.inl hj)))
      · exact h.lists j (.inr (.inr (.inr (.inl hj))))
      · cases hj
    have h2 := convPass_z n s.ephemeron false _ h1 (fun j hj => h.lists j (.inr (.inr (.inr (.inr hj)))))
    generalize convPass n s.ephemeron false { s with ephemeron := [] } = p at h2 ⊢
    obtain ⟨c, s1⟩ := p
    dsimp only at h2 ⊢
    split
    · exact ih s1 h2
    · exact h2

theorem remarkUps_z (n : Nat) (us : List Nat) : ∀ s : G, Z D x w s → OutU D us s →
    Z D x w (remarkUps n us s) ∧ (remarkUps n us s).obj = s.obj ∧ ∀ u, (remarkUps n us s).upGet u = s.upGet u := by
  induction us with
  | nil => exact fun s h _ => ⟨h, rfl, fun _ => rfl⟩
  | cons u us ih =>
    intro s h ho
    rw [remarkUps]
    split
    · next th sl hu =>
      have m := markvalue_mk n s (s.upGet u)
      have h1 := markvalue_z n h (ho u (by simp))
      have hu1 : (markvalue n s (s.upGet u)).up u = .opn th sl true := by rw [m.up]; exact hu
      have e : ∀ v, ((markvalue n s (s.upGet u)).setUp u (.opn th sl false)).upGet v = s.upGet v := fun v => (upGet_flip hu1 v).trans (m.upGet v)
      obtain ⟨h2, h3, h4⟩ := ih _ (h1.flip hu1 (t' := false)) (ho.next e)
      exact ⟨h2, h3.trans m.obj, fun v => (h4 v).trans (e v)⟩
    · exact ih s h (ho.next fun _ => rfl)

theorem remarkThreads_z (n : Nat) (ths : List Id) : ∀ s : G, Z D x w s → (∀ th ∈ ths, ∀ o, s.obj th = some o → OutU D o.ups s) →
    Z D x w (remarkThreads n ths s).2 ∧ (∀ th ∈ (remarkThreads n ths s).1, th ∈ ths) ∧ (remarkThreads n ths s).2.obj = s.obj ∧
      ∀ u, (remarkThreads n ths s).2.upGet u = s.upGet u := by
  induction ths with
  | nil => exact fun s h _ => ⟨h, fun _ h => h, rfl, fun _ => rfl⟩
  | cons th ths ih =>
    intro s h ho
    rw [remarkThreads]
    split
    · exact ⟨h.fail, fun _ h => by simp at h, rfl, fun _ => rfl⟩
    · next o hob =>
      split
      · obtain ⟨h1, h2, h3⟩ := ih s h fun t ht => ho t (by simp [ht])
        refine ⟨h1, fun t ht => ?_, h3⟩
        rcases List.mem_cons.mp ht with rfl | ht
        · simp
        · exact List.mem_cons_of_mem _ (h2 t ht)
      · obtain ⟨h1, h2, h3⟩ := remarkUps_z n o.ups s h (ho th (by simp) o hob)
        obtain ⟨h5, h6, h7, h8⟩ := ih _ h1 fun t ht o1 ho1 u hu r hr => ho t (by simp [ht]) o1 (by rw [← h2]; exact ho1) u hu r (by rw [← h3]; exact hr)
        exact ⟨h5, fun t ht => List.mem_cons_of_mem _ (h6 t ht), h7.trans h2, fun u => (h8 u).trans (h3 u)⟩

theorem remarkupvals_z (n : Nat) {s : G} (h : Z D x w s) : Z D x w (remarkupvals n s) := by
  obtain ⟨h1, h2, h3, h4⟩ := remarkThreads_z n s.twups s h h.tws
  exact h1.twups fun th ht o ho u hu r hr => h.tws th (h2 th ht) o (by rw [← h3]; exact ho) u hu r (by rw [← h4]; exact hr)

theorem atomicMark_z (n : Nat) {s : G} (h : Z D x w s) : Z D x w (atomicMark n s) := by
  unfold atomicMark
  dsimp only
  have hga : ∀ i ∈ s.grayagain, ¬ D i := fun i hi => h.lists i (.inr (.inl hi))
  have h1 : Z D x w { s with grayagain := [], phase := .atomic } := by
    refine h.congr rfl rfl ⟨⟨rfl, rfl, rfl, rfl, rfl⟩, fun _ h => h, fun _ h => h, rfl⟩ rfl (fun j hj => ?_) fun _ _ => rfl
    rcases hj with hj | hj | hj
    · exact h.lists j (.inl hj)
    · cases hj
    · exact h.lists j (.inr (.inr hj))
  generalize ({ s with grayagain := [], phase := .atomic } : G) = s1 at h1 ⊢
  have h2 : Z D x w (markobject n s1 s.running) := markobject_z n h1 (h.roots _ .running)
  generalize markobject n s1 s.running = s2 at h2 ⊢
  have h3 := markvalue_z n h2 fun r hr => h2.roots r (.registry hr)
  generalize markvalue n s2 s2.registry = s3 at h3 ⊢
  have h4 : Z D x w (markmt n s3) := fold_z n h3 fun r hr => h3.roots r (.mts hr)
  have h5 := propagateall_z n n _ (remarkupvals_z n (propagateall_z n n _ h4))
  generalize propagateall n n (remarkupvals n (propagateall n n (markmt n s3))) = s5 at h5 ⊢
  have h6 : Z D x w { s5 with gray := s.grayagain } := by
    refine h5.congr rfl rfl ⟨⟨rfl, rfl, rfl, rfl, rfl⟩, fun _ h => h, fun _ h => h, rfl⟩ rfl (fun j hj => ?_) fun _ _ => rfl
    rcases hj with hj | hj
    · exact hga j hj
    · exact h5.lists j (.inr hj)
  exact converge_z n n _ (propagateall_z n n _ h6)

theorem removeIfNil_shr (y : Node) : removeIfNil y = y ∨ ((removeIfNil y).val = .nil ∧ ∀ r, (removeIfNil y).key ≠ .ref r) := by
  unfold removeIfNil
  split
  · next hv =>
    refine .inr ?_
    unfold removeentry
    split
    · exact ⟨hv, fun r h => by cases h⟩
    · next hk => exact ⟨hv, fun r h => hk r h⟩
  · exact .inl rfl

theorem removeIfNil_if (y : Node) (c : Bool) :
    removeIfNil { y with val := if c then .nil else y.val } = y ∨ ((removeIfNil { y with val := if c then .nil else y.val }).val = .nil ∧
      ∀ r, (removeIfNil { y with val := if c then .nil else y.val }).key ≠ .ref r) := by
  rcases removeIfNil_shr { y with val := if c then .nil else y.val } with h | h
  · cases c with
    | false => exact .inl h
    | true =>
      obtain ⟨k, v⟩ := y
      refine .inr ?_
      cases k <;> refine ⟨rfl, fun r h => ?_⟩ <;> cases h
  · exact .inr h

theorem keysLoop_z (n : Nat) (xs : List Node) : ∀ s : G, Z D x w s → OutN D xs → Z D x w (keysLoop n xs s).2 ∧
    List.Forall₂ (fun x x' : Node => x' = x ∨ (x'.val = .nil ∧ ∀ r, x'.key ≠ .ref r)) xs (keysLoop n xs s).1 := by
  induction xs with
  | nil => exact fun s h _ => ⟨h, .nil⟩
  | cons y xs ih =>
    intro s h hx
    rw [keysLoop]
    dsimp only
    have h1 : Z D x w (if y.val = .nil then (false, s) else isclearedK n s y.key).2 := by
      split
      · exact h
      · exact isclearedK_z n h (hx y (by simp)).1
    obtain ⟨h2, h3⟩ := ih _ h1 hx.tail
    exact ⟨h2, .cons (removeIfNil_if y _) h3⟩

theorem valsLoop_z (n : Nat) (xs : List Val) : ∀ s : G, Z D x w s → Out D xs → Z D x w (valsLoop n xs s).2 ∧
    List.Forall₂ (fun v v' => v' = v ∨ v' = .nil) xs (valsLoop n xs s).1 := by
  induction xs with
  | nil => exact fun s h _ => ⟨h, .nil⟩
  | cons y xs ih =>
    intro s h hx
    obtain ⟨h2, h3⟩ := ih _ (isclearedV_z n (v := y) h fun r hr => hx r (by simp [hr])) hx.tail
    have hc : ∀ c : Bool, (if c then Val.nil else y) = y ∨ (if c then Val.nil else y) = .nil := by
      intro c
      cases c
      · exact .inl rfl
      · exact .inr rfl
    exact ⟨h2, .cons (hc _) h3⟩

theorem nvalsLoop_z (n : Nat) (xs : List Node) : ∀ s : G, Z D x w s → OutN D xs → Z D x w (nvalsLoop n xs s).2 ∧
    List.Forall₂ (fun x x' : Node => x' = x ∨ (x'.val = .nil ∧ ∀ r, x'.key ≠ .ref r)) xs (nvalsLoop n xs s).1 := by
  induction xs with
  | nil => exact fun s h _ => ⟨h, .nil⟩
  | cons y xs ih =>
    intro s h hx
    obtain ⟨h2, h3⟩ := ih _ (isclearedV_z n h (hx y (by simp)).2) hx.tail
    exact ⟨h2, .cons (removeIfNil_if y _) h3⟩

theorem clearbykeys_z (n : Nat) (hs : List Id) : ∀ s : G, Z D x w s → (∀ i ∈ hs, ¬ D i) → Z D x w (clearbykeys n hs s) := by
  induction hs with
  | nil => exact fun s h _ => h
  | cons i hs ih =>
    intro s h hw
    rw [clearbykeys]
    split
    · exact h.fail
    · next o ho =>
      dsimp only
      have m := keysLoop_mk n o.nodes s
      obtain ⟨h1, h2⟩ := keysLoop_z n o.nodes s h (h.outN (hw i (by simp)) ho)
      exact ih _ (h1.setObj (o := o) (by rw [m.obj]; exact ho) { Shr.refl o with nodes := h2 }) fun j hj => hw j (by simp [hj])

theorem clearbyvalues_z (n : Nat) (hs : List Id) : ∀ s : G, Z D x w s → (∀ i ∈ hs, ¬ D i) → Z D x w (clearbyvalues n hs s) := by
  induction hs with
  | nil => exact fun s h _ => h
  | cons i hs ih =>
    intro s h hw
    rw [clearbyvalues]
    split
    · exact h.fail
    · next o ho =>
      dsimp only
      have m := (valsLoop_mk n o.vals s).trans (nvalsLoop_mk n o.nodes _)
      have hi := hw i (by simp)
      obtain ⟨h1, h2⟩ := valsLoop_z n o.vals s h (h.out hi ho)
      obtain ⟨h3, h4⟩ := nvalsLoop_z n o.nodes _ h1 (h.outN hi ho)
      exact ih _ (h3.setObj (o := o) (by rw [m.obj]; exact ho) { Shr.refl o with vals := h2, nodes := h4 }) fun j hj => hw j (by simp [hj])

theorem atomicClear_z (n : Nat) {s : G} (h : Z D x w s) : Z D x w (atomicClear n s) := by
  unfold atomicClear
  dsimp only
  have wk : ∀ {s : G}, Z D x w s → ∀ i ∈ s.weak, ¬ D i := fun h i hi => h.lists i (.inr (.inr (.inl hi)))
  have aw : ∀ {s : G}, Z D x w s → ∀ i ∈ s.allweak, ¬ D i := fun h i hi => h.lists i (.inr (.inr (.inr (.inl hi))))
  have h1 := clearbyvalues_z n s.weak s h (wk h)
  generalize clearbyvalues n s.weak s = s1 at h1 ⊢
  have h2 := clearbyvalues_z n s1.allweak s1 h1 (aw h1)
  generalize clearbyvalues n s1.allweak s1 = s2 at h2 ⊢
  have h3 : Z D x w (separatetobefnz s2) := by
    refine h2.congr rfl rfl ⟨⟨rfl, rfl, rfl, rfl, rfl⟩, fun _ h => h, fun i hi => ?_, rfl⟩ rfl h2.lists fun _ _ => rfl
    rcases hi with hi | hi
    · exact .inl (List.mem_filter.mp hi).1
    · rcases List.mem_append.mp hi with hi | hi
      · exact .inr hi
      · exact .inl (List.mem_filter.mp hi).1
  have h4 : Z D x w (markbeingfnz n (separatetobefnz s2)) := fold_z n h3 fun r hr => by
    obtain ⟨a, ha, e⟩ := List.mem_map.mp hr
    cases e
    exact h3.fins r (.inr ha)
  have h5 := converge_z n n _ (propagateall_z n n _ h4)
  generalize converge n n (propagateall n n (markbeingfnz n (separatetobefnz s2))) = s5 at h5 ⊢
  have h6 := clearbykeys_z n s5.ephemeron s5 h5 fun i hi => h5.lists i (.inr (.inr (.inr (.inr hi))))
  generalize clearbykeys n s5.ephemeron s5 = s6 at h6 ⊢
  have h7 := clearbykeys_z n s6.allweak s6 h6 (aw h6)
  generalize clearbykeys n s6.allweak s6 = s7 at h7 ⊢
  have h8 := clearbyvalues_z n (s7.weak.take (s7.weak.length - s2.weak.length)) s7 h7 fun i hi => wk h7 i (List.mem_of_mem_take hi)
  generalize clearbyvalues n (s7.weak.take (s7.weak.length - s2.weak.length)) s7 = s8 at h8 ⊢
  have h9 := clearbyvalues_z n (s8.allweak.take (s8.allweak.length - s2.allweak.length)) s8 h8 fun i hi => aw h8 i (List.mem_of_mem_take hi)
  exact h9.congr rfl rfl ⟨⟨rfl, rfl, rfl, rfl, rfl⟩, fun i hi => (List.mem_filter.mp hi).1, fun _ h => h, rfl⟩ rfl h9.lists fun _ _ => rfl

/-- after the atomic phase these objects are dead -/
theorem atomic_z (n : Nat) {s : G} (h : Z D x w s) : ∀ i, D i → ¬ Live (atomic n s) i := by
  intro i hi hl
  have h1 := atomicClear_z n (atomicMark_z n h)
  apply hl
  unfold atomic
  dsimp only
  rw [h1.col i hi, h1.white]
  cases w <;> rfl

theorem restart_z (n : Nat) {s : G} (h : Z D x w (cleargraylists s)) : Z D x w (restartcollection n s) := by
  unfold restartcollection
  dsimp only
  generalize cleargraylists s = s1 at h ⊢
  have h1 := markobject_z n h (h.roots _ .main)
  generalize markobject n s1 s1.main = s2 at h1 ⊢
  have h2 := markvalue_z n h1 fun r hr => h1.roots r (.registry hr)
  generalize markvalue n s2 s2.registry = s3 at h2 ⊢
  have h3 : Z D x w (markmt n s3) := fold_z n h2 fun r hr => h2.roots r (.mts hr)
  exact fold_z n h3 fun r hr => by
    obtain ⟨a, ha, e⟩ := List.mem_map.mp hr
    cases e
    exact h3.fins r (.inr ha)

end
end Verif.GC
