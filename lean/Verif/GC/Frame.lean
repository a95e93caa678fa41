import Verif.GC.Run

/-!
# What marking leaves alone
-/
namespace Verif.GC

/-- the same object, apart from the contents of `vals`, `nodes`, `cache` -/
structure Hdr (o o' : Obj) : Prop where
  kind : o'.kind = o.kind
  mt : o'.mt = o.mt
  ups : o'.ups = o.ups
  top : o'.top = o.top
  wk : o'.wk = o.wk
  wv : o'.wv = o.wv

/-- the same object, apart from what is not in use -/
structure Frz (o o' : Obj) : Prop extends Hdr o o' where
  vals : o.kind ≠ .thread → o'.vals = o.vals
  stack : o'.vals.take o.top = o.vals.take o.top
  nodes : List.Forall₂ (fun x x' : Node => x' = x ∨ (x.val = .nil ∧ x'.val = .nil)) o.nodes o'.nodes

theorem Hdr.refl (o : Obj) : Hdr o o := ⟨rfl, rfl, rfl, rfl, rfl, rfl⟩

theorem Hdr.trans {a b c : Obj} (h : Hdr a b) (h' : Hdr b c) : Hdr a c :=
  ⟨h'.kind.trans h.kind, h'.mt.trans h.mt, h'.ups.trans h.ups, h'.top.trans h.top, h'.wk.trans h.wk, h'.wv.trans h.wv⟩

theorem Frz.refl (o : Obj) : Frz o o := ⟨.refl o, fun _ => rfl, rfl, List.forall₂_same.mpr fun _ _ => .inl rfl⟩

theorem Frz.trans {a b c : Obj} (h : Frz a b) (h' : Frz b c) : Frz a c where
  toHdr := h.toHdr.trans h'.toHdr
  vals hk := (h'.vals (by rw [h.kind]; exact hk)).trans (h.vals hk)
  stack := by
    have := h'.stack
    rw [h.top] at this
    exact this.trans h.stack
  nodes := forall₂_trans (fun a b c h h' => by
    rcases h with rfl | h
    · exact h'
    · rcases h' with rfl | h'
      · exact .inr h
      · exact .inr ⟨h.1, h'.2⟩) h.nodes h'.nodes

/-- a table with weak references -/
def WkL (s : G) (i : Id) : Prop :=
  ∃ o, s.obj i = some o ∧ ((o.kind = .table ∧ modeOf s o ≠ (false, false)) ∨ i ∈ s.weak ∨ i ∈ s.allweak ∨ i ∈ s.ephemeron)

/-- the roots stay the same -/
structure Rt (s s' : G) : Prop where
  main : s'.main = s.main
  running : s'.running = s.running
  registry : s'.registry = s.registry
  mts : s'.mts = s.mts
  fixedgc : s'.fixedgc = s.fixedgc

theorem Rt.refl (s : G) : Rt s s := ⟨rfl, rfl, rfl, rfl, rfl⟩
theorem Rt.trans {a b c : G} (h : Rt a b) (h' : Rt b c) : Rt a c :=
  ⟨h'.main.trans h.main, h'.running.trans h.running, h'.registry.trans h.registry, h'.mts.trans h.mts, h'.fixedgc.trans h.fixedgc⟩

structure Keep (s s' : G) : Prop where
  objs : ∀ i o, s.obj i = some o → ∃ o', s'.obj i = some o' ∧ Hdr o o' ∧ (¬ WkL s i → Frz o o')
  none : ∀ i, s.obj i = none → s'.obj i = none
  upc : ∀ u v, s.up u = .closed v → s'.up u = .closed v
  upo : ∀ u th sl t, s.up u = .opn th sl t → ∃ t', s'.up u = .opn th sl t'
  lists : ∀ i o, s.obj i = some o → i ∈ s'.weak ∨ i ∈ s'.allweak ∨ i ∈ s'.ephemeron → WkL s i
  rt : Rt s s'

theorem Keep.refl (s : G) : Keep s s where
  objs i o ho := ⟨o, ho, .refl o, fun _ => .refl o⟩
  none _ h := h
  upc _ _ h := h
  upo _ _ _ t h := ⟨t, h⟩
  lists i o ho hi := ⟨o, ho, .inr hi⟩
  rt := .refl s

theorem Keep.obj' {s s' : G} (h : Keep s s') {i : Id} {o' : Obj} (ho : s'.obj i = some o') :
    ∃ o, s.obj i = some o ∧ Hdr o o' ∧ (¬ WkL s i → Frz o o') := by
  cases hi : s.obj i with
  | none => rw [h.none i hi] at ho; cases ho
  | some o =>
    obtain ⟨o1, h1, h2⟩ := h.objs i o hi
    rw [ho] at h1
    cases h1
    exact ⟨o, rfl, h2⟩

theorem Keep.mode {s s' : G} (h : Keep s s') {o o' : Obj} (hm : o'.mt = o.mt) : modeOf s' o' = modeOf s o := by
  unfold modeOf
  rw [hm]
  cases o.mt with
  | none => rfl
  | some m =>
    dsimp only
    cases hi : s.obj m with
    | none => rw [h.none m hi]
    | some t =>
      obtain ⟨t', h1, h2, _⟩ := h.objs m t hi
      rw [h1]
      simp only [h2.wk, h2.wv]

theorem Keep.wkl {s s' : G} (h : Keep s s') {i : Id} (hw : WkL s' i) : WkL s i := by
  obtain ⟨o', ho', hw⟩ := hw
  obtain ⟨o, ho, hh, _⟩ := h.obj' ho'
  rcases hw with ⟨hk, hw⟩ | hw
  · rw [h.mode hh.mt] at hw
    exact ⟨o, ho, .inl ⟨hh.kind ▸ hk, hw⟩⟩
  · exact h.lists i o ho hw

theorem Keep.trans {a b c : G} (h : Keep a b) (h' : Keep b c) : Keep a c where
  objs i o ho := by
    obtain ⟨o1, h1, h2, h3⟩ := h.objs i o ho
    obtain ⟨o2, h4, h5, h6⟩ := h'.objs i o1 h1
    exact ⟨o2, h4, h2.trans h5, fun hn => (h3 hn).trans (h6 fun hw => hn (h.wkl hw))⟩
  none i hi := h'.none i (h.none i hi)
  upc u v hu := h'.upc u v (h.upc u v hu)
  upo u th sl t hu := by
    obtain ⟨t1, h1⟩ := h.upo u th sl t hu
    exact h'.upo u th sl t1 h1
  lists i o ho hi := by
    obtain ⟨o1, h1, h2, _⟩ := h.objs i o ho
    exact h.wkl (h'.lists i o1 h1 hi)
  rt := h.rt.trans h'.rt

/-- nothing but colours, ages and other lists changes -/
structure Mk (s s' : G) : Prop where
  obj : s'.obj = s.obj
  up : s'.up = s.up
  weak : s'.weak = s.weak
  allweak : s'.allweak = s.allweak
  ephemeron : s'.ephemeron = s.ephemeron
  rt : Rt s s'

theorem Mk.refl (s : G) : Mk s s := ⟨rfl, rfl, rfl, rfl, rfl, .refl s⟩
theorem Mk.trans {a b c : G} (h : Mk a b) (h' : Mk b c) : Mk a c :=
  ⟨h'.obj.trans h.obj, h'.up.trans h.up, h'.weak.trans h.weak, h'.allweak.trans h.allweak, h'.ephemeron.trans h.ephemeron, h.rt.trans h'.rt⟩

theorem Keep.mks {s0 s s' : G} (h : Keep s0 s) (m : Mk s s') : Keep s0 s' where
  objs i o ho := by rw [m.obj]; exact h.objs i o ho
  none i hi := by rw [m.obj]; exact h.none i hi
  upc u v hu := by rw [m.up]; exact h.upc u v hu
  upo u th sl t hu := by rw [m.up]; exact h.upo u th sl t hu
  lists i o ho hi := by rw [m.weak, m.allweak, m.ephemeron] at hi; exact h.lists i o ho hi
  rt := h.rt.trans m.rt

theorem foldMark_mk {mark : G → Id → G} (h : ∀ s i, Mk s (mark s i)) : ∀ (vs : List Val) (s : G), Mk s (foldMark mark vs s) := by
  intro vs
  induction vs with
  | nil => exact fun s => .refl s
  | cons v vs ih =>
    intro s
    cases v with
    | nil => exact ih s
    | prim => exact ih s
    | ref i => exact (h s i).trans (ih _)

theorem fail_mk (s : G) : Mk s s.fail := ⟨rfl, rfl, rfl, rfl, rfl, ⟨rfl, rfl, rfl, rfl, rfl⟩⟩
theorem setCol_mk (s : G) (i : Id) (c : Color) : Mk s (s.setCol i c) := ⟨rfl, rfl, rfl, rfl, rfl, ⟨rfl, rfl, rfl, rfl, rfl⟩⟩

theorem linkGray_mk (s : G) (i : Id) : Mk s (link s .gray i) := by
  unfold link
  split
  · exact fail_mk s
  · exact ⟨rfl, rfl, rfl, rfl, rfl, ⟨rfl, rfl, rfl, rfl, rfl⟩⟩

theorem linkAgain_mk (s : G) (i : Id) : Mk s (link s .grayagain i) := by
  unfold link
  split
  · exact fail_mk s
  · exact ⟨rfl, rfl, rfl, rfl, rfl, ⟨rfl, rfl, rfl, rfl, rfl⟩⟩

theorem mark_mk (n : Nat) : (∀ s i, Mk s (reallymark n s i)) ∧ (∀ s i, Mk s (markobject n s i)) := by
  induction n with
  | zero => exact ⟨fun s i => by rw [reallymark]; exact ⟨rfl, rfl, rfl, rfl, rfl, ⟨rfl, rfl, rfl, rfl, rfl⟩⟩, fun s i => by rw [markobject]; exact ⟨rfl, rfl, rfl, rfl, rfl, ⟨rfl, rfl, rfl, rfl, rfl⟩⟩⟩
  | succ n ih =>
    constructor
    · intro s i
      rw [reallymark]
      split
      · exact fail_mk s
      · next o _ =>
        have ud : Mk s (foldMark (markobject n) o.vals (G.setCol (match o.mt with
            | .none => s
            | some m => markobject n s m) i .black)) := by
          refine Mk.trans (Mk.trans ?_ (setCol_mk _ i .black)) (foldMark_mk ih.2 _ _)
          cases o.mt with
          | none => exact .refl s
          | some m => exact ih.2 s m
        cases o.kind with
        | str => exact setCol_mk s i _
        | udata => exact ud
        | arr => exact ud
        | _ => exact linkGray_mk s i
    · intro s i
      rw [markobject]
      split
      · exact fail_mk s
      · split
        · exact ih.1 s i
        · exact .refl s

theorem markobject_mk (n : Nat) (s : G) (i : Id) : Mk s (markobject n s i) := (mark_mk n).2 s i
theorem fold_mk (n : Nat) (vs : List Val) (s : G) : Mk s (foldMark (markobject n) vs s) := foldMark_mk (markobject_mk n) vs s
theorem markvalue_mk (n : Nat) (s : G) (v : Val) : Mk s (markvalue n s v) := fold_mk n _ s

theorem markkey_mk (n : Nat) (s : G) (k : Key) : Mk s (markkey n s k) := by
  cases k with
  | ref i => exact markobject_mk n s i
  | _ => exact .refl s

theorem iscleared_mk (n : Nat) (s : G) (i : Id) : Mk s (iscleared n s i).2 := by
  unfold iscleared
  split
  · exact fail_mk s
  · split
    · exact markobject_mk n s i
    · exact .refl s

theorem isclearedV_mk (n : Nat) (s : G) (v : Val) : Mk s (isclearedV n s v).2 := by
  cases v with
  | ref i => exact iscleared_mk n s i
  | _ => exact .refl s

theorem isclearedK_mk (n : Nat) (s : G) (v : Key) : Mk s (isclearedK n s v).2 := by
  cases v with
  | ref i => exact iscleared_mk n s i
  | _ => exact .refl s

theorem weakLoop_mk (n : Nat) (xs : List Node) : ∀ (hc : Bool) (s : G), Mk s (weakLoop n xs hc s).2 := by
  induction xs with
  | nil => exact fun _ s => .refl s
  | cons x xs ih =>
    intro hc s
    rw [weakLoop]
    split
    · exact ih hc s
    · dsimp only
      split
      · exact (markkey_mk n s x.key).trans (ih _ _)
      · exact ((markkey_mk n s x.key).trans (isclearedV_mk n _ x.val)).trans (ih _ _)

theorem markW_mk (n : Nat) (s : G) (v : Val) : Mk s (markW n s v).2 := by
  cases v with
  | ref i =>
    unfold markW
    dsimp only
    split
    · exact fail_mk s
    · split
      · exact (mark_mk n).1 s i
      · exact .refl s
  | _ => exact .refl s

theorem ephArray_mk (n : Nat) (vs : List Val) : ∀ (m : Bool) (s : G), Mk s (ephArray n vs m s).2 := by
  induction vs with
  | nil => exact fun _ s => .refl s
  | cons v vs ih => exact fun m s => (markW_mk n s v).trans (ih _ _)

theorem valiswhite_mk (s : G) (v : Val) : Mk s (valiswhite s v).2 := by
  cases v with
  | ref i =>
    unfold valiswhite
    dsimp only
    split
    · exact fail_mk s
    · exact .refl s
  | _ => exact .refl s

theorem ephNodes_mk (n : Nat) (xs : List Node) : ∀ (e : Eph) (s : G), Mk s (ephNodes n xs e s).2 := by
  induction xs with
  | nil => exact fun _ s => .refl s
  | cons x xs ih =>
    intro e s
    rw [ephNodes]
    split
    · exact ih e s
    · dsimp only
      split
      · exact ((isclearedK_mk n s x.key).trans (valiswhite_mk _ x.val)).trans (ih _ _)
      · exact ((isclearedK_mk n s x.key).trans (markW_mk n _ x.val)).trans (ih _ _)

theorem strongNodes_mk (n : Nat) (xs : List Node) : ∀ s : G, Mk s (strongNodes n xs s) := by
  induction xs with
  | nil => exact fun s => .refl s
  | cons x xs ih =>
    intro s
    rw [strongNodes]
    split
    · exact ih s
    · exact ((markkey_mk n s x.key).trans (markvalue_mk n _ x.val)).trans (ih _)

theorem genlink_mk (s : G) (i : Id) : Mk s (genlink s i) := by
  unfold genlink
  split
  · exact linkAgain_mk s i
  · exact .refl s

theorem Keep.setObj {s0 s : G} (h : Keep s0 s) {i : Id} {o o' : Obj} (ho : s.obj i = some o) (hh : Hdr o o') (hf : ¬ WkL s0 i → Frz o o') :
    Keep s0 (s.setObj i (some o')) where
  objs j oj hj := by
    obtain ⟨o1, h1, h2, h3⟩ := h.objs j oj hj
    rw [setObj_obj]
    by_cases e : j = i
    · subst e
      rw [ho] at h1
      cases h1
      exact ⟨o', if_pos rfl, h2.trans hh, fun hn => (h3 hn).trans (hf hn)⟩
    · exact ⟨o1, by rw [if_neg e, h1], h2, h3⟩
  none j hj := by
    rw [setObj_obj, if_neg, h.none j hj]
    rintro rfl
    rw [h.none j hj] at ho; cases ho
  upc := h.upc
  upo := h.upo
  lists := h.lists
  rt := ⟨h.rt.main, h.rt.running, h.rt.registry, h.rt.mts, h.rt.fixedgc⟩

theorem Keep.link {s0 s : G} (h : Keep s0 s) {l : GList} {i : Id} (hw : WkL s0 i) : Keep s0 (link s l i) := by
  have ok : ∀ s', s'.obj = s.obj → s'.up = s.up → Rt s s' → (∀ j, j ∈ s'.weak ∨ j ∈ s'.allweak ∨ j ∈ s'.ephemeron → (j ∈ s.weak ∨ j ∈ s.allweak ∨ j ∈ s.ephemeron) ∨ j = i) → Keep s0 s' := by
    intro s' h1 h2 hr h3
    refine ⟨by rw [h1]; exact h.objs, by rw [h1]; exact h.none, by rw [h2]; exact h.upc, by rw [h2]; exact h.upo, fun j o ho hj => ?_, h.rt.trans hr⟩
    rcases h3 j hj with h4 | rfl
    · exact h.lists j o ho h4
    · exact hw
  unfold GC.link
  split
  · exact h.mks (fail_mk s)
  · cases l <;> refine ok _ rfl rfl ⟨rfl, rfl, rfl, rfl, rfl⟩ fun j hj => ?_
    · exact .inl hj
    · exact .inl hj
    · rcases hj with hj | hj
      · exact (List.mem_cons.mp hj).symm.imp .inl id
      · exact .inl (.inr hj)
    · rcases hj with hj | hj | hj
      · exact .inl (.inl hj)
      · exact (List.mem_cons.mp hj).symm.imp (fun h => .inr (.inl h)) id
      · exact .inl (.inr (.inr hj))
    · rcases hj with hj | hj | hj
      · exact .inl (.inl hj)
      · exact .inl (.inr (.inl hj))
      · exact (List.mem_cons.mp hj).symm.imp (fun h => .inr (.inr h)) id

theorem clean_frz (o : Obj) : Frz o { o with nodes := o.nodes.map removeIfNil } where
  toHdr := ⟨rfl, rfl, rfl, rfl, rfl, rfl⟩
  vals _ := rfl
  stack := rfl
  nodes := by
    induction o.nodes with
    | nil => exact .nil
    | cons x xs ih =>
      refine .cons ?_ ih
      unfold removeIfNil
      split
      · next h =>
        refine .inr ⟨h, ?_⟩
        unfold removeentry
        split <;> exact h
      · exact .inl rfl

theorem Keep.clean {s0 s : G} (h : Keep s0 s) {i : Id} {o : Obj} (ho : s.obj i = some o) : Keep s0 (cleanNodes s i o) :=
  h.setObj ho (clean_frz o).toHdr fun _ => clean_frz o

theorem traverseweakvalue_keep (n : Nat) {s0 s : G} (h : Keep s0 s) {i : Id} {o : Obj} (ho : s.obj i = some o) (hw : WkL s0 i) :
    Keep s0 (traverseweakvalue n s i o) := by
  unfold traverseweakvalue
  dsimp only
  have := (h.clean ho).mks (weakLoop_mk n o.nodes (!o.vals.isEmpty) (cleanNodes s i o))
  generalize weakLoop n o.nodes (!o.vals.isEmpty) (cleanNodes s i o) = p at this ⊢
  split <;> exact this.link hw

theorem traverseephemeron_keep (n : Nat) {s0 s : G} (h : Keep s0 s) {i : Id} {o : Obj} (ho : s.obj i = some o) (hw : WkL s0 i) :
    Keep s0 (traverseephemeron n s i o).2 := by
  unfold traverseephemeron
  dsimp only
  have h1 := (h.clean ho).mks (ephArray_mk n o.vals false (cleanNodes s i o))
  generalize ephArray n o.vals false (cleanNodes s i o) = p at h1 ⊢
  have h2 := h1.mks (ephNodes_mk n o.nodes ⟨p.1, false, false⟩ p.2)
  generalize ephNodes n o.nodes ⟨p.1, false, false⟩ p.2 = q at h2 ⊢
  split
  · exact h2.link hw
  · split
    · exact h2.link hw
    · split
      · exact h2.link hw
      · exact h2.mks (genlink_mk _ i)

theorem traversetable_keep (n : Nat) {s0 s : G} (h : Keep s0 s) {i : Id} {o : Obj} (ho : s.obj i = some o) (hk : o.kind = .table) :
    Keep s0 (traversetable n s i o) := by
  have hw : modeOf s o ≠ (false, false) → WkL s0 i := fun hm => h.wkl ⟨o, ho, .inl ⟨hk, hm⟩⟩
  unfold traversetable
  dsimp only
  have m : Mk s (markobjectN n s o.mt) := by
    cases o.mt with
    | none => exact .refl s
    | some m => exact markobject_mk n s m
  have h1 := h.mks m
  have ho1 : (markobjectN n s o.mt).obj i = some o := by rw [m.obj]; exact ho
  generalize markobjectN n s o.mt = s1 at h1 ho1 ⊢
  split
  · next hm => exact traverseweakvalue_keep n h1 ho1 (hw (by rw [hm]; simp))
  · next hm => exact traverseephemeron_keep n h1 ho1 (hw (by rw [hm]; simp))
  · next hm => exact h1.link (hw (by rw [hm]; simp))
  · exact (((h1.clean ho1).mks (fold_mk n _ _)).mks (strongNodes_mk n _ _)).mks (genlink_mk _ i)

theorem Keep.setUp {s0 s : G} (h : Keep s0 s) {u : Nat} {th : Id} {sl : Nat} {t t' : Bool} (hu : s.up u = .opn th sl t) :
    Keep s0 (s.setUp u (.opn th sl t')) where
  objs := h.objs
  none := h.none
  upc w v hw := by
    have := h.upc w v hw
    show (if w = u then _ else s.up w) = _
    rw [if_neg, this]
    rintro rfl
    rw [hu] at this; cases this
  upo w th' sl' t'' hw := by
    obtain ⟨t1, h1⟩ := h.upo w th' sl' t'' hw
    show ∃ _, (if w = u then _ else s.up w) = _
    by_cases e : w = u
    · subst e
      rw [hu] at h1
      cases h1
      exact ⟨t', if_pos rfl⟩
    · exact ⟨t1, by rw [if_neg e, h1]⟩
  lists := h.lists
  rt := ⟨h.rt.main, h.rt.running, h.rt.registry, h.rt.mts, h.rt.fixedgc⟩

theorem lclUps_keep (n : Nat) {s0 : G} (us : List Nat) : ∀ s : G, Keep s0 s → Keep s0 (lclUps n us s) := by
  induction us with
  | nil => exact fun s h => h
  | cons u us ih =>
    intro s h
    rw [lclUps]
    split
    · next hu =>
      split
      · exact ih _ (h.setUp hu)
      · exact ih _ (h.mks (markvalue_mk n s _))
    · exact ih _ (h.mks (markvalue_mk n s _))

theorem markUps_mk (n : Nat) (us : List Nat) : ∀ s : G, Mk s (markUps n us s) := by
  induction us with
  | nil => exact fun s => .refl s
  | cons u us ih => exact fun s => (markvalue_mk n s _).trans (ih _)

theorem traversethread_keep (n : Nat) {s0 s : G} (h : Keep s0 s) {i : Id} {o : Obj} (ho : s.obj i = some o) (hk : o.kind = .thread) :
    Keep s0 (traversethread n s i o) := by
  unfold traversethread
  dsimp only
  have m1 : Mk s (if (s.isOld i || decide (s.phase = .propagate)) = true then link s .grayagain i else s) := by
    split
    · exact linkAgain_mk s i
    · exact .refl s
  generalize (if (s.isOld i || decide (s.phase = .propagate)) = true then link s .grayagain i else s) = s1 at m1 ⊢
  have m := (m1.trans (fold_mk n (o.vals.take o.top) s1)).trans (markUps_mk n o.ups _)
  generalize markUps n o.ups (foldMark (markobject n) (o.vals.take o.top) s1) = s2 at m ⊢
  split
  · unfold clearStack
    dsimp only
    have hf : Frz o { o with vals := o.vals.take o.top ++ List.replicate (o.vals.length - o.top) .nil } := by
      refine ⟨⟨rfl, rfl, rfl, rfl, rfl, rfl⟩, fun h => absurd hk h, ?_, List.forall₂_same.mpr fun _ _ => .inl rfl⟩
      dsimp only
      by_cases hl : o.top ≤ o.vals.length
      · rw [List.take_append_of_le_length (by simp [hl]), List.take_take, Nat.min_self]
      · have : o.vals.length - o.top = 0 := by omega
        rw [this, List.replicate_zero, List.append_nil, List.take_take, Nat.min_self]
    have hk2 := (h.mks m).setObj (by rw [m.obj]; exact ho) hf.toHdr fun _ => hf
    split
    · exact hk2.mks ⟨rfl, rfl, rfl, rfl, rfl, ⟨rfl, rfl, rfl, rfl, rfl⟩⟩
    · exact hk2
  · exact h.mks m

theorem clearCache_keep {s0 s : G} (h : Keep s0 s) {i : Id} {o : Obj} (ho : s.obj i = some o) : Keep s0 (clearCache s i o) := by
  unfold clearCache
  split
  · exact h
  · split
    · exact h.mks (fail_mk s)
    · split
      · have hf : Frz o { o with cache := none } := ⟨⟨rfl, rfl, rfl, rfl, rfl, rfl⟩, fun _ => rfl, rfl, List.forall₂_same.mpr fun _ _ => .inl rfl⟩
        exact h.setObj ho hf.toHdr fun _ => hf
      · exact h

theorem traverse_keep (n : Nat) {s0 s : G} (h : Keep s0 s) (i : Id) : Keep s0 (traverse n s i) := by
  unfold traverse
  split
  · exact h.mks (fail_mk s)
  · next o ho =>
    split
    · next hk => exact traversetable_keep n h ho hk
    · exact lclUps_keep n _ _ (h.mks (fold_mk n _ _))
    · exact h.mks (fold_mk n _ _)
    · exact (clearCache_keep h ho).mks (fold_mk n _ _)
    · next hk => exact traversethread_keep n h ho hk
    · exact h.mks (fail_mk s)

theorem nw2black_mk (s : G) (i : Id) : Mk s (nw2black s i) := by
  unfold nw2black
  split
  · exact fail_mk s
  · exact setCol_mk s i _

theorem propagatemark_keep (n : Nat) {s0 s : G} (h : Keep s0 s) : Keep s0 (propagatemark n s) := by
  unfold propagatemark
  split
  · exact h.mks (fail_mk s)
  · next i rest _ =>
    have h1 : Keep s0 { nw2black s i with gray := rest } := (h.mks (nw2black_mk s i)).mks ⟨rfl, rfl, rfl, rfl, rfl, ⟨rfl, rfl, rfl, rfl, rfl⟩⟩
    exact traverse_keep n h1 i

theorem propagateall_keep (n k : Nat) {s0 : G} : ∀ s : G, Keep s0 s → Keep s0 (propagateall n k s) := by
  induction k with
  | zero => exact fun s h => h.mks ⟨rfl, rfl, rfl, rfl, rfl, ⟨rfl, rfl, rfl, rfl, rfl⟩⟩
  | succ k ih =>
    intro s h
    rw [propagateall]
    split
    · exact h
    · exact ih _ (propagatemark_keep n h)

theorem convPass_keep (n : Nat) {s0 : G} (hs : List Id) : ∀ (c : Bool) (s : G), Keep s0 s →
    (∀ h ∈ hs, ∀ o, s0.obj h = some o → WkL s0 h) → Keep s0 (convPass n hs c s).2 := by
  induction hs with
  | nil => exact fun _ s h _ => h
  | cons i hs ih =>
    intro c s h hw
    rw [convPass]
    split
    · exact h.mks (fail_mk s)
    · next o ho =>
      dsimp only
      obtain ⟨o0, ho0, _⟩ := h.obj' ho
      have h1 := traverseephemeron_keep n (h.mks (nw2black_mk s i)) (by rw [(nw2black_mk s i).obj]; exact ho) (hw i (by simp) o0 ho0)
      generalize traverseephemeron n (nw2black s i) i o = p at h1 ⊢
      split
      · exact ih _ _ (propagateall_keep n n _ h1) fun j hj => hw j (by simp [hj])
      · exact ih _ _ h1 fun j hj => hw j (by simp [hj])

theorem Keep.unlist {s0 s s' : G} (h : Keep s0 s) (h1 : s'.obj = s.obj) (h2 : s'.up = s.up) (hr : Rt s s')
    (h3 : ∀ i, i ∈ s'.weak ∨ i ∈ s'.allweak ∨ i ∈ s'.ephemeron → i ∈ s.weak ∨ i ∈ s.allweak ∨ i ∈ s.ephemeron) : Keep s0 s' where
  objs := by rw [h1]; exact h.objs
  none := by rw [h1]; exact h.none
  upc := by rw [h2]; exact h.upc
  upo := by rw [h2]; exact h.upo
  lists i o ho hi := h.lists i o ho (h3 i hi)
  rt := h.rt.trans hr

theorem converge_keep (n k : Nat) {s0 : G} : ∀ s : G, Keep s0 s → Keep s0 (converge n k s) := by
  induction k with
  | zero => exact fun s h => h.mks ⟨rfl, rfl, rfl, rfl, rfl, ⟨rfl, rfl, rfl, rfl, rfl⟩⟩
  | succ k ih =>
    intro s h
    rw [converge]
    have h1 : Keep s0 { s with ephemeron := [] } := h.unlist rfl rfl ⟨rfl, rfl, rfl, rfl, rfl⟩ fun i hi => by
      rcases hi with hi | hi | hi
      · exact .inl hi
      · exact .inr (.inl hi)
      · cases hi
    have h2 := convPass_keep n s.ephemeron false _ h1 (fun j hj o ho => h.lists j o ho (.inr (.inr hj)))
    generalize convPass n s.ephemeron false { s with ephemeron := [] } = p at h2 ⊢
    obtain ⟨c, s1⟩ := p
    dsimp only at h2 ⊢
    split
    · exact ih s1 h2
    · exact h2

theorem remarkUps_keep (n : Nat) {s0 : G} (us : List Nat) : ∀ s : G, Keep s0 s → Keep s0 (remarkUps n us s) := by
  induction us with
  | nil => exact fun s h => h
  | cons u us ih =>
    intro s h
    rw [remarkUps]
    split
    · next hu =>
      have m := markvalue_mk n s (s.upGet u)
      exact ih _ ((h.mks m).setUp (by rw [m.up]; exact hu))
    · exact ih _ h

theorem remarkThreads_keep (n : Nat) {s0 : G} (ths : List Id) : ∀ s : G, Keep s0 s → Keep s0 (remarkThreads n ths s).2 := by
  induction ths with
  | nil => exact fun s h => h
  | cons th ths ih =>
    intro s h
    rw [remarkThreads]
    split
    · exact h.mks (fail_mk s)
    · split
      · exact ih s h
      · exact ih _ (remarkUps_keep n _ _ h)

theorem remarkupvals_keep (n : Nat) {s0 s : G} (h : Keep s0 s) : Keep s0 (remarkupvals n s) :=
  (remarkThreads_keep n s.twups s h).mks ⟨rfl, rfl, rfl, rfl, rfl, ⟨rfl, rfl, rfl, rfl, rfl⟩⟩

theorem atomicMark_keep (n : Nat) {s0 s : G} (h : Keep s0 s) : Keep s0 (atomicMark n s) := by
  have h1 : Keep s0 { s with grayagain := [], phase := .atomic } := h.mks ⟨rfl, rfl, rfl, rfl, rfl, ⟨rfl, rfl, rfl, rfl, rfl⟩⟩
  exact converge_keep n n _ (propagateall_keep n n _ ((propagateall_keep n n _ (remarkupvals_keep n (propagateall_keep n n _
    (((h1.mks (markobject_mk n _ _)).mks (markvalue_mk n _ _)).mks (fold_mk n _ _))))).mks ⟨rfl, rfl, rfl, rfl, rfl, ⟨rfl, rfl, rfl, rfl, rfl⟩⟩))

theorem keysLoop_mk (n : Nat) (xs : List Node) : ∀ s : G, Mk s (keysLoop n xs s).2 := by
  induction xs with
  | nil => exact fun s => .refl s
  | cons x xs ih =>
    intro s
    rw [keysLoop]
    dsimp only
    refine Mk.trans ?_ (ih _)
    split
    · exact .refl s
    · exact isclearedK_mk n s _

theorem valsLoop_mk (n : Nat) (xs : List Val) : ∀ s : G, Mk s (valsLoop n xs s).2 := by
  induction xs with
  | nil => exact fun s => .refl s
  | cons x xs ih => exact fun s => (isclearedV_mk n s x).trans (ih _)

theorem nvalsLoop_mk (n : Nat) (xs : List Node) : ∀ s : G, Mk s (nvalsLoop n xs s).2 := by
  induction xs with
  | nil => exact fun s => .refl s
  | cons x xs ih => exact fun s => (isclearedV_mk n s x.val).trans (ih _)

theorem clearbykeys_keep (n : Nat) {s0 : G} (hs : List Id) : ∀ s : G, Keep s0 s → (∀ h ∈ hs, ∀ o, s0.obj h = some o → WkL s0 h) →
    Keep s0 (clearbykeys n hs s) := by
  induction hs with
  | nil => exact fun s h _ => h
  | cons i hs ih =>
    intro s h hw
    rw [clearbykeys]
    split
    · exact h.mks (fail_mk s)
    · next o ho =>
      dsimp only
      obtain ⟨o0, ho0, _⟩ := h.obj' ho
      have m := keysLoop_mk n o.nodes s
      exact ih _ ((h.mks m).setObj (o := o) (by rw [m.obj]; exact ho) ⟨rfl, rfl, rfl, rfl, rfl, rfl⟩ fun hn => absurd (hw i (by simp) o0 ho0) hn)
        fun j hj => hw j (by simp [hj])

theorem clearbyvalues_keep (n : Nat) {s0 : G} (hs : List Id) : ∀ s : G, Keep s0 s → (∀ h ∈ hs, ∀ o, s0.obj h = some o → WkL s0 h) →
    Keep s0 (clearbyvalues n hs s) := by
  induction hs with
  | nil => exact fun s h _ => h
  | cons i hs ih =>
    intro s h hw
    rw [clearbyvalues]
    split
    · exact h.mks (fail_mk s)
    · next o ho =>
      dsimp only
      obtain ⟨o0, ho0, _⟩ := h.obj' ho
      have m := (valsLoop_mk n o.vals s).trans (nvalsLoop_mk n o.nodes _)
      exact ih _ ((h.mks m).setObj (o := o) (by rw [m.obj]; exact ho) ⟨rfl, rfl, rfl, rfl, rfl, rfl⟩ fun hn => absurd (hw i (by simp) o0 ho0) hn)
        fun j hj => hw j (by simp [hj])

theorem atomicClear_keep (n : Nat) {s0 s : G} (h : Keep s0 s) : Keep s0 (atomicClear n s) := by
  unfold atomicClear
  dsimp only
  have h1 := clearbyvalues_keep n s.weak s h fun i hi o ho => h.lists i o ho (.inl hi)
  generalize clearbyvalues n s.weak s = s1 at h1 ⊢
  have h2 := clearbyvalues_keep n s1.allweak s1 h1 fun i hi o ho => h1.lists i o ho (.inr (.inl hi))
  generalize clearbyvalues n s1.allweak s1 = s2 at h2 ⊢
  have h3 : Keep s0 (separatetobefnz s2) := h2.mks ⟨rfl, rfl, rfl, rfl, rfl, ⟨rfl, rfl, rfl, rfl, rfl⟩⟩
  have h4 : Keep s0 (markbeingfnz n (separatetobefnz s2)) := h3.mks (fold_mk n _ _)
  have h5 := converge_keep n n _ (propagateall_keep n n _ h4)
  generalize converge n n (propagateall n n (markbeingfnz n (separatetobefnz s2))) = s5 at h5 ⊢
  have h6 := clearbykeys_keep n s5.ephemeron s5 h5 fun i hi o ho => h5.lists i o ho (.inr (.inr hi))
  generalize clearbykeys n s5.ephemeron s5 = s6 at h6 ⊢
  have h7 := clearbykeys_keep n s6.allweak s6 h6 fun i hi o ho => h6.lists i o ho (.inr (.inl hi))
  generalize clearbykeys n s6.allweak s6 = s7 at h7 ⊢
  have h8 := clearbyvalues_keep n (s7.weak.take (s7.weak.length - s2.weak.length)) s7 h7 fun i hi o ho =>
    h7.lists i o ho (.inl (List.mem_of_mem_take hi))
  generalize clearbyvalues n (s7.weak.take (s7.weak.length - s2.weak.length)) s7 = s8 at h8 ⊢
  have h9 := clearbyvalues_keep n (s8.allweak.take (s8.allweak.length - s2.allweak.length)) s8 h8 fun i hi o ho =>
    h8.lists i o ho (.inr (.inl (List.mem_of_mem_take hi)))
  exact h9.mks ⟨rfl, rfl, rfl, rfl, rfl, ⟨rfl, rfl, rfl, rfl, rfl⟩⟩

theorem atomic_keep (n : Nat) (s : G) : Keep s (atomic n s) :=
  (atomicClear_keep n (atomicMark_keep n (.refl s))).mks ⟨rfl, rfl, rfl, rfl, rfl, ⟨rfl, rfl, rfl, rfl, rfl⟩⟩

theorem restart_mk (n : Nat) (s : G) : Mk (cleargraylists s) (restartcollection n s) :=
  (((markobject_mk n _ _).trans (markvalue_mk n _ _)).trans (fold_mk n _ _)).trans (fold_mk n _ _)

end Verif.GC
