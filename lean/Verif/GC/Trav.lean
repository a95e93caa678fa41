import Verif.GC.Inv

/-!
# Traversing objects keeps the tri-colour invariant
-/
namespace Verif.GC

/-- an object of another kind than a string -/
def NonStr (s : G) (i : Id) : Prop := ∃ o, s.obj i = some o ∧ o.kind ≠ .str

/-- marking of strings only -/
structure SExt (s s' : G) : Prop extends MExt s s' where
  same : s'.gray = s.gray
  str : ∀ i, NonStr s i → (NW s' i ↔ NW s i)

theorem SExt.refl (s : G) : SExt s s := ⟨.refl s, rfl, fun _ _ => .rfl⟩

theorem NonStr.mext {s s' : G} (h : MExt s s') {i : Id} : NonStr s' i ↔ NonStr s i := by
  unfold NonStr; rw [h.obj]

theorem SExt.trans {a b c : G} (h : SExt a b) (h' : SExt b c) : SExt a c :=
  ⟨h.toMExt.trans h'.toMExt, h'.same.trans h.same, fun i hi => (h'.str i ((NonStr.mext h.toMExt).mpr hi)).trans (h.str i hi)⟩

theorem markstr_ok (n : Nat) {s : G} {i : Id} {o : Obj} (ho : s.obj i = some o) (hk : o.kind = .str) :
    SExt s (markobject n s i) ∧ ((markobject n s i).oof = false → NW (markobject n s i) i) := by
  have oo : SExt s { s with oof := true } := ⟨oof_ext s, rfl, fun _ _ => .rfl⟩
  cases n with
  | zero => rw [markobject]; exact ⟨oo, fun h => nomatch h⟩
  | succ n =>
    simp only [markobject, ho]
    split
    · next hw =>
      cases n with
      | zero => rw [reallymark]; exact ⟨oo, fun h => nomatch h⟩
      | succ n =>
        simp only [reallymark, ho, hk]
        have hn : NW (s.setCol i .black) i := NW_of_ne_white (.inl (by rw [setCol_col, if_pos rfl]))
        refine ⟨⟨paint_ext ho (not_NW.mpr hw) hk, rfl, ?_⟩, fun _ => hn⟩
        rintro j ⟨oj, hj, hkj⟩
        by_cases h : j = i
        · subst h
          rw [ho] at hj
          cases hj
          exact absurd hk hkj
        · exact NW_setCol_ne s i _ j h
    · exact ⟨.refl s, fun _ => Bool.eq_false_iff.mpr ‹_›⟩

theorem iscleared_ok (n : Nat) {s : G} {i : Id} (hi : (s.obj i).isSome) :
    SExt s (iscleared n s i).2 ∧ ((iscleared n s i).2.oof = false → (iscleared n s i).1 = false → NW (iscleared n s i).2 i) ∧
    ((iscleared n s i).1 = true → (iscleared n s i).2 = s ∧ ¬ NW s i ∧ NonStr s i) := by
  obtain ⟨o, ho⟩ := Option.isSome_iff_exists.mp hi
  simp only [iscleared, ho]
  split
  · next hk =>
    obtain ⟨h1, h2⟩ := markstr_ok n ho hk
    exact ⟨h1, fun h _ => h2 h, fun h => nomatch h⟩
  · next hk =>
    exact ⟨.refl s, fun _ h => h, fun h => ⟨rfl, not_NW.mpr h, o, ho, hk⟩⟩

theorem isclearedV_ok (n : Nat) {s : G} {v : Val} (hi : ∀ r, v = .ref r → (s.obj r).isSome) :
    SExt s (isclearedV n s v).2 ∧ ((isclearedV n s v).2.oof = false → (isclearedV n s v).1 = false → NWv (isclearedV n s v).2 v) ∧
    ((isclearedV n s v).1 = true → (isclearedV n s v).2 = s ∧ ∃ r, v = .ref r ∧ ¬ NW s r ∧ NonStr s r) := by
  cases v with
  | nil => exact ⟨.refl s, fun _ _ r h => (nomatch h), fun h => nomatch h⟩
  | prim => exact ⟨.refl s, fun _ _ r h => (nomatch h), fun h => nomatch h⟩
  | ref r =>
    obtain ⟨h1, h2, h3⟩ := iscleared_ok n (hi r rfl)
    exact ⟨h1, fun h h' r hr => by cases hr; exact h2 h h', fun h => ⟨(h3 h).1, r, rfl, (h3 h).2⟩⟩

theorem isclearedK_ok (n : Nat) {s : G} {v : Key} (hi : ∀ r, v = .ref r → (s.obj r).isSome) :
    SExt s (isclearedK n s v).2 ∧ ((isclearedK n s v).2.oof = false → (isclearedK n s v).1 = false → NWk (isclearedK n s v).2 v) ∧
    ((isclearedK n s v).1 = true → (isclearedK n s v).2 = s ∧ ∃ r, v = .ref r ∧ ¬ NW s r ∧ NonStr s r) := by
  cases v with
  | dead => exact ⟨.refl s, fun _ _ r h => (nomatch h), fun h => nomatch h⟩
  | prim => exact ⟨.refl s, fun _ _ r h => (nomatch h), fun h => nomatch h⟩
  | ref r =>
    obtain ⟨h1, h2, h3⟩ := iscleared_ok n (hi r rfl)
    exact ⟨h1, fun h h' r hr => by cases hr; exact h2 h h', fun h => ⟨(h3 h).1, r, rfl, (h3 h).2⟩⟩

/-- the objects that nodes refer to exist -/
def NodesIn (s : G) (xs : List Node) : Prop := ∀ x ∈ xs, (∀ r, x.key = .ref r → (s.obj r).isSome) ∧ ∀ r, x.val = .ref r → (s.obj r).isSome
def ValsIn (s : G) (vs : List Val) : Prop := ∀ r, Val.ref r ∈ vs → (s.obj r).isSome

theorem NodesIn.le {s s' : G} (h : Le0 s s') {xs : List Node} (hx : NodesIn s xs) : NodesIn s' xs :=
  fun x hm => ⟨fun r hr => h.isSome ((hx x hm).1 r hr), fun r hr => h.isSome ((hx x hm).2 r hr)⟩
theorem ValsIn.le {s s' : G} (h : Le0 s s') {xs : List Val} (hx : ValsIn s xs) : ValsIn s' xs :=
  fun r hm => h.isSome (hx r hm)

theorem Full.nodes {s : G} (h : Full s) {i : Id} {o : Obj} (ho : s.obj i = some o) : NodesIn s o.nodes :=
  fun x hx => ⟨fun r hr => h i o ho r (.key hx hr), fun r hr => h i o ho r (.nval hx hr)⟩
theorem Full.vals {s : G} (h : Full s) {i : Id} {o : Obj} (ho : s.obj i = some o) : ValsIn s o.vals :=
  fun r hr => h i o ho r (.val hr)

theorem NodesIn.tail {s : G} {x : Node} {xs : List Node} (h : NodesIn s (x :: xs)) : NodesIn s xs :=
  fun y hy => h y (List.mem_cons_of_mem _ hy)

theorem markobject_ok (n : Nat) {s : G} {i : Id} (hf : Full s) (hi : (s.obj i).isSome) :
    MarkOk s (markobject n s i) fun s' => NW s' i := (mark_ok n).2 s i hf hi

theorem foldMark_ok' (n : Nat) {s : G} {vs : List Val} (hf : Full s) (hi : ValsIn s vs) :
    MarkOk s (foldMark (markobject n) vs s) fun s' => ∀ v ∈ vs, NWv s' v := foldMark_ok (mark_ok n).2 vs s hf hi

theorem markvalue_ok (n : Nat) {s : G} {v : Val} (hf : Full s) (hi : ∀ r, v = .ref r → (s.obj r).isSome) :
    MarkOk s (markvalue n s v) fun s' => NWv s' v := by
  obtain ⟨h1, h2⟩ := foldMark_ok' n (vs := [v]) hf (fun r hr => hi r (by simpa using (List.mem_singleton.mp hr).symm))
  exact ⟨h1, fun h => h2 h v (by simp)⟩

theorem markkey_ok (n : Nat) {s : G} {v : Key} (hf : Full s) (hi : ∀ r, v = .ref r → (s.obj r).isSome) :
    MarkOk s (markkey n s v) fun s' => NWk s' v := by
  cases v with
  | dead => exact ⟨.refl s, fun _ r h => nomatch h⟩
  | prim => exact ⟨.refl s, fun _ r h => nomatch h⟩
  | ref r =>
    obtain ⟨h1, h2⟩ := markobject_ok n hf (hi r rfl)
    exact ⟨h1, fun h r hr => by cases hr; exact h2 h⟩

theorem markN_ok (n : Nat) {s : G} {m : Option Id} (hf : Full s) (hi : ∀ r, m = some r → (s.obj r).isSome) :
    MarkOk s (markobjectN n s m) fun s' => ∀ r, m = some r → NW s' r := by
  cases m with
  | none => exact ⟨.refl s, fun _ r h => nomatch h⟩
  | some r =>
    obtain ⟨h1, h2⟩ := markobject_ok n hf (hi r rfl)
    exact ⟨h1, fun h r hr => by cases hr; exact h2 h⟩

theorem NWk.mext {s s' : G} (h : MExt s s') {k : Key} (hk : NWk s k) : NWk s' k := fun r hr => h.mono (hk r hr)

theorem weakLoop_ok (n : Nat) (xs : List Node) : ∀ (hc : Bool) (s : G), Full s → NodesIn s xs →
    MarkOk s (weakLoop n xs hc s).2 fun s' => (∀ x ∈ xs, x.val ≠ .nil → NWk s' x.key) ∧
      ((weakLoop n xs hc s).1 = false → hc = false ∧ ∀ x ∈ xs, NWv s' x.val) := by
  induction xs with
  | nil => exact fun hc s _ _ => ⟨.refl s, fun _ => ⟨by simp, fun h => ⟨h, by simp⟩⟩⟩
  | cons x xs ih =>
    intro hc s hf hi
    rw [weakLoop]
    split
    · next hnil =>
      obtain ⟨h1, h2⟩ := ih hc s hf hi.tail
      refine ⟨h1, fun ho => ⟨?_, fun h => ⟨((h2 ho).2 h).1, ?_⟩⟩⟩
      · intro y hy hv
        rcases List.mem_cons.mp hy with rfl | hy
        · exact absurd hnil hv
        · exact (h2 ho).1 y hy hv
      · intro y hy
        rcases List.mem_cons.mp hy with rfl | hy
        · rw [hnil]; exact fun r h => nomatch h
        · exact ((h2 ho).2 h).2 y hy
    · dsimp only
      obtain ⟨h1, h2⟩ := markkey_ok n hf (hi x (by simp)).1
      generalize markkey n s x.key = s1 at h1 h2 ⊢
      have hf1 := h1.full hf
      have hi1 := hi.le h1.le.toLe0
      split
      · next hc' =>
        obtain ⟨h3, h4⟩ := ih hc s1 hf1 hi1.tail
        refine ⟨h1.trans h3, fun ho => ⟨?_, fun h => ?_⟩⟩
        · intro y hy hv
          rcases List.mem_cons.mp hy with rfl | hy
          · exact (h2 (h3.oof ho)).mext h3
          · exact (h4 ho).1 y hy hv
        · have := ((h4 ho).2 h).1
          rw [hc'] at this; cases this
      · next hc' =>
        obtain ⟨h3, h4, h5⟩ := isclearedV_ok n (s := s1) (v := x.val) (fun r hr => (hi1 x (by simp)).2 r hr)
        generalize isclearedV n s1 x.val = p at h3 h4 h5 ⊢
        obtain ⟨c, s2⟩ := p
        dsimp only at h3 h4 h5 ⊢
        obtain ⟨h6, h7⟩ := ih c s2 (h3.full hf1) (hi1.le h3.le.toLe0).tail
        refine ⟨h1.trans (h3.toMExt.trans h6), fun ho => ⟨?_, fun h => ⟨by simpa using hc', ?_⟩⟩⟩
        · intro y hy hv
          rcases List.mem_cons.mp hy with rfl | hy
          · exact ((h2 (h3.oof (h6.oof ho))).mext h3.toMExt).mext h6
          · exact (h7 ho).1 y hy hv
        · intro y hy
          rcases List.mem_cons.mp hy with rfl | hy
          · exact h6.monoV (h4 (h6.oof ho) ((h7 ho).2 h).1)
          · exact ((h7 ho).2 h).2 y hy

theorem markW_ok (n : Nat) {s : G} {v : Val} (hf : Full s) (hi : ∀ r, v = .ref r → (s.obj r).isSome) :
    MarkOk s (markW n s v).2 (fun s' => NWv s' v) ∧ ((markW n s v).1 = false → (markW n s v).2 = s) := by
  cases v with
  | nil => exact ⟨⟨.refl s, fun _ r h => nomatch h⟩, fun _ => rfl⟩
  | prim => exact ⟨⟨.refl s, fun _ r h => nomatch h⟩, fun _ => rfl⟩
  | ref r =>
    obtain ⟨o, ho⟩ := Option.isSome_iff_exists.mp (hi r rfl)
    simp only [markW, ho]
    split
    · next hw =>
      obtain ⟨h1, h2⟩ := (mark_ok n).1 s r hf (hi r rfl) (not_NW.mpr hw)
      exact ⟨⟨h1, fun h r hr => by cases hr; exact h2 h⟩, fun h => nomatch h⟩
    · next hw =>
      exact ⟨⟨.refl s, fun _ r hr => by cases hr; exact Bool.eq_false_iff.mpr hw⟩, fun _ => rfl⟩

theorem ephArray_ok (n : Nat) (vs : List Val) : ∀ (m : Bool) (s : G), Full s → ValsIn s vs →
    MarkOk s (ephArray n vs m s).2 (fun s' => ∀ v ∈ vs, NWv s' v) ∧
    ((ephArray n vs m s).1 = false → m = false ∧ (ephArray n vs m s).2 = s) := by
  induction vs with
  | nil => exact fun m s _ _ => ⟨⟨.refl s, fun _ => by simp⟩, fun h => ⟨h, rfl⟩⟩
  | cons v vs ih =>
    intro m s hf hi
    rw [ephArray]
    obtain ⟨⟨h1, h2⟩, h3⟩ := markW_ok n (v := v) hf (fun r hr => hi r (by simp [hr]))
    generalize markW n s v = p at h1 h2 h3 ⊢
    obtain ⟨w, s1⟩ := p
    dsimp only at h1 h2 h3 ⊢
    obtain ⟨⟨h4, h5⟩, h6⟩ := ih (m || w) s1 (h1.full hf) (fun r hr => h1.le.isSome (hi r (by simp [hr])))
    refine ⟨⟨h1.trans h4, fun ho => ?_⟩, fun h => ?_⟩
    · intro y hy
      rcases List.mem_cons.mp hy with rfl | hy
      · exact h4.monoV (h2 (h4.oof ho))
      · exact h5 ho y hy
    · have := h6 h
      rw [Bool.or_eq_false_iff] at this
      exact ⟨this.1.1, by rw [this.2, h3 this.1.2]⟩

/-- an entry of an ephemeron table: its value is marked, or its key is not -/
def EphOk (s : G) (xs : List Node) : Prop := ∀ x ∈ xs, NWv s x.val ∨ ∃ r, x.key = .ref r ∧ ¬ NW s r ∧ NonStr s r

theorem ephNodes_ok (n : Nat) (xs : List Node) : ∀ (e : Eph) (s : G), Full s → NodesIn s xs →
    MarkOk s (ephNodes n xs e s).2 (fun s' =>
      ((ephNodes n xs e s).1.hasww = false → e.hasww = false ∧ ∀ x ∈ xs, NWv s' x.val) ∧
      ((ephNodes n xs e s).1.hasclears = false → e.hasclears = false ∧ ∀ x ∈ xs, x.val ≠ .nil → NWk s' x.key) ∧
      ((ephNodes n xs e s).1.marked = false → e.marked = false ∧ SExt s s' ∧ EphOk s' xs)) := by
  induction xs with
  | nil => exact fun e s _ _ => ⟨.refl s, fun _ => ⟨fun h => ⟨h, by simp⟩, fun h => ⟨h, by simp⟩, fun h => ⟨h, .refl s, by simp [EphOk, ephNodes]⟩⟩⟩
  | cons x xs ih =>
    intro e s hf hi
    rw [ephNodes]
    split
    · next hnil =>
      obtain ⟨h1, h2⟩ := ih e s hf hi.tail
      have nv : ∀ s', NWv s' x.val := by
        intro s'; rw [hnil]; exact fun r h => nomatch h
      refine ⟨h1, fun ho => ⟨fun h => ⟨((h2 ho).1 h).1, ?_⟩, fun h => ⟨((h2 ho).2.1 h).1, ?_⟩,
        fun h => ⟨((h2 ho).2.2 h).1, ((h2 ho).2.2 h).2.1, ?_⟩⟩⟩
      · intro y hy
        rcases List.mem_cons.mp hy with rfl | hy
        · exact nv _
        · exact ((h2 ho).1 h).2 y hy
      · intro y hy hv
        rcases List.mem_cons.mp hy with rfl | hy
        · exact absurd hnil hv
        · exact ((h2 ho).2.1 h).2 y hy hv
      · intro y hy
        rcases List.mem_cons.mp hy with rfl | hy
        · exact .inl (nv _)
        · exact ((h2 ho).2.2 h).2.2 y hy
    · obtain ⟨h3, h4, h5⟩ := isclearedK_ok n (s := s) (v := x.key) (fun r hr => (hi x (by simp)).1 r hr)
      generalize isclearedK n s x.key = p at h3 h4 h5 ⊢
      obtain ⟨c, s1⟩ := p
      dsimp only at h3 h4 h5 ⊢
      have hf1 := h3.full hf
      have hi1 := hi.le h3.le.toLe0
      split
      · next hc =>
        obtain ⟨rfl, r, hr, hw, hns⟩ := h5 hc
        have hv : (valiswhite s1 x.val).2 = s1 ∧ ((valiswhite s1 x.val).1 = false → NWv s1 x.val) := by
          cases hx : x.val with
          | nil => exact ⟨rfl, fun _ r h => nomatch h⟩
          | prim => exact ⟨rfl, fun _ r h => nomatch h⟩
          | ref q =>
            obtain ⟨o, ho⟩ := Option.isSome_iff_exists.mp ((hi x (by simp)).2 q hx)
            simp only [valiswhite, ho]
            exact ⟨trivial, fun h r hr => by cases hr; exact h⟩
        generalize valiswhite s1 x.val = p at hv ⊢
        obtain ⟨w, s2⟩ := p
        obtain ⟨rfl, hv⟩ := hv
        dsimp only at hv ⊢
        obtain ⟨h6, h7⟩ := ih { e with hasclears := true, hasww := e.hasww || w } s2 hf hi.tail
        refine ⟨h6, fun ho => ⟨fun h => ?_, fun h => ?_, fun h => ⟨((h7 ho).2.2 h).1, ((h7 ho).2.2 h).2.1, ?_⟩⟩⟩
        · have h8 := (h7 ho).1 h
          have h9 := Bool.or_eq_false_iff.mp h8.1
          refine ⟨h9.1, fun y hy => ?_⟩
          rcases List.mem_cons.mp hy with rfl | hy
          · exact h6.monoV (hv h9.2)
          · exact h8.2 y hy
        · exact nomatch ((h7 ho).2.1 h).1
        · intro y hy
          rcases List.mem_cons.mp hy with rfl | hy
          · refine .inr ⟨r, hr, ?_, (NonStr.mext h6).mpr hns⟩
            rw [((h7 ho).2.2 h).2.1.str r hns]
            exact hw
          · exact ((h7 ho).2.2 h).2.2 y hy
      · next hc =>
        have hc : c = false := by simpa using hc
        obtain ⟨⟨h8, h9⟩, h10⟩ := markW_ok n (v := x.val) hf1 (fun r hr => (hi1 x (by simp)).2 r hr)
        generalize markW n s1 x.val = p at h8 h9 h10 ⊢
        obtain ⟨w, s2⟩ := p
        dsimp only at h8 h9 h10 ⊢
        obtain ⟨h6, h7⟩ := ih { e with marked := e.marked || w } s2 (h8.full hf1) (hi1.le h8.le.toLe0).tail
        have hval : (ephNodes n xs { e with marked := e.marked || w } s2).2.oof = false →
            NWv (ephNodes n xs { e with marked := e.marked || w } s2).2 x.val := fun ho => h6.monoV (h9 (h6.oof ho))
        refine ⟨h3.toMExt.trans (h8.trans h6), fun ho => ⟨fun h => ⟨((h7 ho).1 h).1, ?_⟩, fun h => ⟨((h7 ho).2.1 h).1, ?_⟩, fun h => ?_⟩⟩
        · intro y hy
          rcases List.mem_cons.mp hy with rfl | hy
          · exact hval ho
          · exact ((h7 ho).1 h).2 y hy
        · intro y hy hv
          rcases List.mem_cons.mp hy with rfl | hy
          · exact ((h4 (h8.oof (h6.oof ho)) hc).mext h8).mext h6
          · exact ((h7 ho).2.1 h).2 y hy hv
        · have h11 := (h7 ho).2.2 h
          have h12 := Bool.or_eq_false_iff.mp h11.1
          have := h10 h12.2
          subst this
          refine ⟨h12.1, h3.trans h11.2.1, fun y hy => ?_⟩
          rcases List.mem_cons.mp hy with rfl | hy
          · exact .inl (hval ho)
          · exact h11.2.2 y hy

theorem strongNodes_ok (n : Nat) (xs : List Node) : ∀ s, Full s → NodesIn s xs →
    MarkOk s (strongNodes n xs s) fun s' => ∀ x ∈ xs, x.val ≠ .nil → NWv s' x.val ∧ NWk s' x.key := by
  induction xs with
  | nil => exact fun s _ _ => ⟨.refl s, fun _ => by simp⟩
  | cons x xs ih =>
    intro s hf hi
    rw [strongNodes]
    split
    · next hnil =>
      obtain ⟨h1, h2⟩ := ih s hf hi.tail
      refine ⟨h1, fun ho y hy hv => ?_⟩
      rcases List.mem_cons.mp hy with rfl | hy
      · exact absurd hnil hv
      · exact h2 ho y hy hv
    · obtain ⟨h1, h2⟩ := markkey_ok n hf (hi x (by simp)).1
      generalize markkey n s x.key = s1 at h1 h2 ⊢
      obtain ⟨h3, h4⟩ := markvalue_ok n (v := x.val) (h1.full hf) (fun r hr => h1.le.isSome ((hi x (by simp)).2 r hr))
      generalize markvalue n s1 x.val = s2 at h3 h4 ⊢
      obtain ⟨h5, h6⟩ := ih s2 (h3.full (h1.full hf)) ((hi.le h1.le.toLe0).le h3.le.toLe0).tail
      refine ⟨h1.trans (h3.trans h5), fun ho y hy hv => ?_⟩
      rcases List.mem_cons.mp hy with rfl | hy
      · exact ⟨h5.monoV (h4 (h5.oof ho)), ((h2 (h3.oof (h5.oof ho))).mext h3).mext h5⟩
      · exact h6 ho y hy hv

theorem markUps_ok (n : Nat) (us : List Nat) : ∀ s, Full s → (∀ u ∈ us, ∀ r, s.upGet u = .ref r → (s.obj r).isSome) →
    MExt s (markUps n us s) := by
  induction us with
  | nil => exact fun s _ _ => .refl s
  | cons u us ih =>
    intro s hf hi
    rw [markUps]
    have h1 := (markvalue_ok n hf (hi u (by simp))).1
    refine h1.trans (ih _ (h1.full hf) ?_)
    intro w hw r hr
    rw [h1.upGet] at hr
    rw [h1.obj]
    exact hi w (by simp [hw]) r hr

/-! ## Tables -/

def clean (o : Obj) : Obj := { o with nodes := o.nodes.map removeIfNil }

theorem removeIfNil_val (x : Node) : (removeIfNil x).val = x.val := by
  unfold removeIfNil removeentry
  split
  · split <;> rfl
  · rfl

theorem removeIfNil_or (x : Node) : removeIfNil x = x ∨ ((removeIfNil x).val = .nil ∧ ∀ r, (removeIfNil x).key ≠ .ref r) := by
  rw [removeIfNil_val]
  unfold removeIfNil removeentry
  split
  · next h =>
    right
    refine ⟨h, ?_⟩
    split
    · simp
    · next h => exact h
  · exact .inl rfl

theorem removeIfNil_key {x : Node} {r : Id} (h : (removeIfNil x).key = .ref r) : x.key = .ref r ∧ x.val ≠ .nil := by
  rcases removeIfNil_or x with h1 | h1
  · have hk : x.key = .ref r := by rw [← h1]; exact h
    refine ⟨hk, fun hv => ?_⟩
    unfold removeIfNil removeentry at h
    rw [if_pos hv, hk] at h
    cases h
  · exact absurd h (h1.2 r)

theorem clean_shr (o : Obj) : Shr o (clean o) where
  kind := rfl
  mt := rfl
  ups := rfl
  top := rfl
  wk := rfl
  wv := rfl
  vals := List.forall₂_same.mpr fun _ _ => .inl rfl
  nodes := by
    show List.Forall₂ _ o.nodes (o.nodes.map removeIfNil)
    rw [List.forall₂_map_right_iff]
    exact List.forall₂_same.mpr fun x _ => removeIfNil_or x
  cache := .inl rfl

theorem clean_weak {s : G} {o : Obj} (h : ∀ x ∈ o.nodes, x.val ≠ .nil → NWk s x.key) : TWeak s (clean o) := by
  intro x hx r hr
  obtain ⟨y, hy, rfl⟩ := List.mem_map.mp hx
  have := removeIfNil_key hr
  exact h y hy this.2 r this.1

theorem clean_nil {o : Obj} : ∀ x ∈ (clean o).nodes, x.val = .nil → ∀ r, x.key ≠ .ref r := by
  intro x hx hv r hr
  obtain ⟨y, hy, rfl⟩ := List.mem_map.mp hx
  have := removeIfNil_key hr
  rw [removeIfNil_val] at hv
  exact this.2 hv

theorem clean_strong {s : G} {o : Obj} (hv : ValsNW s o) (h1 : ∀ x ∈ o.nodes, x.val ≠ .nil → NWk s x.key)
    (h2 : ∀ x ∈ o.nodes, NWv s x.val) : TStrong s (clean o) := by
  refine ⟨hv, fun x hx => ⟨?_, clean_weak h1 x hx⟩⟩
  obtain ⟨y, hy, rfl⟩ := List.mem_map.mp hx
  rw [removeIfNil_val]
  exact h2 y hy

/-- the phase in which the stage happens -/
def PhOk (st : Stage) (s : G) : Prop := (st = .prop ∧ s.phase = .propagate) ∨ (st ≠ .prop ∧ s.phase = .atomic)

theorem PhOk.le {st : Stage} {s s' : G} (h : Le0 s s') (hp : PhOk st s) : PhOk st s' := by
  unfold PhOk at hp ⊢; rw [h.phase]; exact hp

/-- the object has been visited -/
def Vis (st : Stage) (pend : List Id) (s : G) (i : Id) : Prop :=
  ∀ o, s.obj i = some o → InPend st pend s i ∨ (Done st s i o ∧ (s.col i = .gray → st = .prop → i ∈ s.allweak))

def VisOk (st : Stage) (pend ex : List Id) (s s' : G) (i : Id) : Prop := CStep st pend ex s s' ∧ (s'.oof = false → Vis st pend s' i)

theorem MExt.black {s s' : G} (h : MExt s s') {i : Id} (hb : s.col i = .black) : s'.col i = .black :=
  (h.keep i (NW_of_ne_white (.inl hb))).trans hb

/-- `Done` for a table, in a state with the same marks -/
theorem TStrong.col {s s' : G} {o : Obj} (h : ∀ j, NW s' j ↔ NW s j) (ht : TStrong s o) : TStrong s' o :=
  ⟨fun v hv r hr => (h r).mpr (ht.1 v hv r hr), fun x hx => ⟨fun r hr => (h r).mpr ((ht.2 x hx).1 r hr), fun r hr => (h r).mpr ((ht.2 x hx).2 r hr)⟩⟩

theorem genlink_ok {st : Stage} {pend ex : List Id} {s : G} {i : Id} {o : Obj} (ho : s.obj i = some o) (hk : o.kind = .table)
    (hb : s.col i = .black) (hx : i ∈ ex) (hmt : s.oof = false → MtNW s o) (hts : s.oof = false → TStrong s o) :
    VisOk st pend ex s (genlink s i) i := by
  unfold genlink
  split
  · obtain ⟨h1, h2, h3, h4, h5, h6, _⟩ := link_cstep (st := st) (pend := pend) (l := .grayagain) hb hx (by simp)
      ⟨o, ho, by rw [if_pos rfl, hk]; rfl⟩ (fun _ => .inl rfl)
    refine ⟨h1, fun ho' o' hoo => ?_⟩
    rw [h2, ho] at hoo
    cases hoo
    have hs := h1.le.oof ho'
    by_cases hst : st = .prop
    · exact .inl (.inl ⟨hst, h6 rfl⟩)
    · right
      refine ⟨?_, fun _ h => absurd h hst⟩
      unfold Done
      rw [hk]
      exact ⟨fun m hm => (h5 m).mpr (hmt hs m hm), .inl ((hts hs).col h5)⟩
  · refine ⟨.refl _ _ _ s, fun hs o' hoo => ?_⟩
    rw [ho] at hoo
    cases hoo
    refine .inr ⟨?_, fun h => ?_⟩
    · unfold Done
      rw [hk]
      exact ⟨hmt hs, .inl (hts hs)⟩
    · rw [hb] at h; cases h

theorem setObj_self (s : G) (i : Id) (o : Obj) : (s.setObj i (some o)).obj i = some o := if_pos rfl

theorem traverseweakvalue_ok (n : Nat) {st : Stage} {pend ex : List Id} {s : G} {i : Id} {o : Obj} (ho : s.obj i = some o)
    (hk : o.kind = .table) (hb : s.col i = .black) (hx : i ∈ ex) (hf : Full s) (hp : PhOk st s) (hmt : s.oof = false → MtNW s o) :
    VisOk st pend ex s (traverseweakvalue n s i o) i := by
  unfold traverseweakvalue
  have c0 : CStep st pend ex s (cleanNodes s i o) := setObj_cstep ho (clean_shr o)
  have ho1 : (cleanNodes s i o).obj i = some (clean o) := setObj_self s i (clean o)
  have hb1 : (cleanNodes s i o).col i = .black := hb
  have hni := (hf.nodes ho).le c0.le.toLe0
  dsimp only
  generalize cleanNodes s i o = s1 at c0 ho1 hb1 hni ⊢
  obtain ⟨h1, h2⟩ := weakLoop_ok n o.nodes (!o.vals.isEmpty) s1 (c0.le.full hf) hni
  generalize weakLoop n o.nodes (!o.vals.isEmpty) s1 = p at h1 h2 ⊢
  obtain ⟨hc, s2⟩ := p
  dsimp only at h1 h2 ⊢
  have c1 : CStep st pend ex s s2 := c0.trans h1.cstep
  have ho2 : s2.obj i = some (clean o) := by rw [h1.obj]; exact ho1
  have hb2 := h1.black hb1
  have hp2 := hp.le c1.le.toLe0
  have hmt2 : s2.oof = false → MtNW s2 (clean o) := fun h => (hmt (c1.le.oof h)).mono c1.le.toLe0 (clean_shr o)
  split
  · next hcond =>
    rw [Bool.and_eq_true] at hcond
    have hst : st ≠ .prop := by
      rcases hp2 with h | h
      · rw [h.2] at hcond; exact absurd hcond.1 (by decide)
      · exact h.1
    obtain ⟨c2, g2, g3, g4, g5, _, g7, _⟩ := link_cstep (st := st) (pend := pend) (l := .weak) hb2 hx (by simp)
      ⟨_, ho2, by simpa [clean] using hk⟩ (fun h => absurd h hst)
    refine ⟨c1.trans c2, fun hoof o' hoo => .inr ⟨?_, fun _ h => absurd h hst⟩⟩
    rw [g2, ho2] at hoo
    cases hoo
    have hs := c2.le.oof hoof
    unfold Done
    rw [show (clean o).kind = .table from hk]
    exact ⟨fun m hm => (g5 m).mpr (hmt2 hs m hm), .inr (.inl ⟨g7 rfl, fun x hx r hr => (g5 r).mpr (clean_weak (h2 hs).1 x hx r hr)⟩)⟩
  · next hcond =>
    obtain ⟨c2, g2, g3, g4, g5, g6, _⟩ := link_cstep (st := st) (pend := pend) (l := .grayagain) hb2 hx (by simp)
      ⟨_, ho2, by rw [if_pos rfl, show (clean o).kind = .table from hk]; rfl⟩ (fun _ => .inl rfl)
    refine ⟨c1.trans c2, fun hoof o' hoo => ?_⟩
    rw [g2, ho2] at hoo
    cases hoo
    have hs := c2.le.oof hoof
    rcases hp2 with ⟨hst, _⟩ | ⟨hst, hph⟩
    · exact .inl (.inl ⟨hst, g6 rfl⟩)
    · refine .inr ⟨?_, fun _ h => absurd h hst⟩
      have hc' : hc = false := by simpa [hph] using hcond
      obtain ⟨he, hv⟩ := (h2 hs).2 hc'
      unfold Done
      rw [show (clean o).kind = .table from hk]
      refine ⟨fun m hm => (g5 m).mpr (hmt2 hs m hm), .inl (TStrong.col g5 (clean_strong ?_ (h2 hs).1 hv))⟩
      have : o.vals = [] := by simpa using he
      intro v hv
      rw [this] at hv
      cases hv

theorem traverseephemeron_ok (n : Nat) {st : Stage} {pend ex : List Id} {s : G} {i : Id} {o : Obj} (ho : s.obj i = some o)
    (hk : o.kind = .table) (hb : s.col i = .black) (hx : i ∈ ex) (hf : Full s) (hp : PhOk st s) (hmt : s.oof = false → MtNW s o) :
    VisOk st pend ex s (traverseephemeron n s i o).2 i ∧
    ((traverseephemeron n s i o).2.oof = false → (traverseephemeron n s i o).1 = false →
      (∀ j, NonStr s j → (NW (traverseephemeron n s i o).2 j ↔ NW s j)) ∧
      (traverseephemeron n s i o).2.gray = s.gray ∧
      (∀ j ∈ (traverseephemeron n s i o).2.ephemeron, j ∈ s.ephemeron ∨ (j = i ∧
        ∀ oj, (traverseephemeron n s i o).2.obj i = some oj → EphOk (traverseephemeron n s i o).2 oj.nodes)) ∧
      s.ephemeron.length ≤ (traverseephemeron n s i o).2.ephemeron.length) := by
  unfold traverseephemeron
  have c0 : CStep st pend ex s (cleanNodes s i o) := setObj_cstep ho (clean_shr o)
  have ho1 : (cleanNodes s i o).obj i = some (clean o) := setObj_self s i (clean o)
  have hb1 : (cleanNodes s i o).col i = .black := hb
  have hni := (hf.nodes ho).le c0.le.toLe0
  have hva := (hf.vals ho).le c0.le.toLe0
  have hns : ∀ j, NonStr s j → NonStr (cleanNodes s i o) j := by
    rintro j ⟨oj, hj, hkj⟩
    obtain ⟨o', h1, h2⟩ := c0.le.objs j oj hj
    exact ⟨o', h1, by rw [h2.kind]; exact hkj⟩
  have hgr : (cleanNodes s i o).gray = s.gray := rfl
  have heph : (cleanNodes s i o).ephemeron = s.ephemeron := rfl
  have hcol0 : ∀ j, NW (cleanNodes s i o) j ↔ NW s j := fun _ => .rfl
  dsimp only
  generalize cleanNodes s i o = s1 at c0 ho1 hb1 hni hva hns hgr heph hcol0 ⊢
  obtain ⟨⟨h1, h2⟩, h3⟩ := ephArray_ok n o.vals false s1 (c0.le.full hf) hva
  generalize ephArray n o.vals false s1 = p at h1 h2 h3 ⊢
  obtain ⟨m, s2⟩ := p
  dsimp only at h1 h2 h3 ⊢
  obtain ⟨h4, h5⟩ := ephNodes_ok n o.nodes ⟨m, false, false⟩ s2 (h1.full (c0.le.full hf)) (hni.le h1.le.toLe0)
  generalize ephNodes n o.nodes ⟨m, false, false⟩ s2 = p at h4 h5 ⊢
  obtain ⟨e, s3⟩ := p
  dsimp only at h4 h5 ⊢
  have h14 := h1.trans h4
  have c1 : CStep st pend ex s s3 := c0.trans h14.cstep
  have ho3 : s3.obj i = some (clean o) := by rw [h14.obj]; exact ho1
  have hb3 := h14.black hb1
  have hp3 := hp.le c1.le.toLe0
  have hmt3 : s3.oof = false → MtNW s3 (clean o) := fun h => (hmt (c1.le.oof h)).mono c1.le.toLe0 (clean_shr o)
  have hvals : s3.oof = false → ValsNW s3 (clean o) := fun h v hv => h4.monoV (h2 (h4.oof h) v hv)
  have heph3 : s3.ephemeron = s.ephemeron := by
    obtain ⟨c, g, f, rfl⟩ := h14.eq; exact heph
  have hcolk : (clean o).kind = .table := hk
  -- nothing was marked
  have quiet : s3.oof = false → e.marked = false → (∀ j, NonStr s j → (NW s3 j ↔ NW s j)) ∧ s3.gray = s.gray ∧ EphOk s3 (clean o).nodes := by
    intro hs hm
    obtain ⟨hm', hse, hok⟩ := (h5 hs).2.2 hm
    obtain ⟨_, h21⟩ := h3 hm'
    subst h21
    refine ⟨fun j hj => (hse.str j (hns j hj)).trans (hcol0 j), hse.same.trans hgr, ?_⟩
    intro x hx
    obtain ⟨y, hy, rfl⟩ := List.mem_map.mp hx
    rw [removeIfNil_val]
    rcases hok y hy with h | ⟨r, hr, h⟩
    · exact .inl h
    · by_cases hv : y.val = .nil
      · left; rw [hv]; exact fun r h => nomatch h
      · exact .inr ⟨r, by rw [show removeIfNil y = y by unfold removeIfNil; rw [if_neg hv]]; exact hr, h⟩
  -- the last part
  suffices H : ∀ s4, VisOk st pend ex s3 s4 i → (∀ j, NW s4 j ↔ NW s3 j) → s4.gray = s3.gray → s4.obj = s3.obj →
      (s4.ephemeron = s3.ephemeron ∨ s4.ephemeron = i :: s3.ephemeron) →
      VisOk st pend ex s s4 i ∧ (s4.oof = false → e.marked = false →
      (∀ j, NonStr s j → (NW s4 j ↔ NW s j)) ∧ s4.gray = s.gray ∧
      (∀ j ∈ s4.ephemeron, j ∈ s.ephemeron ∨ (j = i ∧ ∀ oj, s4.obj i = some oj → EphOk s4 oj.nodes)) ∧
      s.ephemeron.length ≤ s4.ephemeron.length) by
    have lk : ∀ l, l ≠ .gray → (if l = GList.grayagain then Trav (clean o).kind = true else (clean o).kind = .table) := by
      intro l hl
      split
      · rw [hcolk]; rfl
      · exact hcolk
    have lg : ∀ l, l ≠ .gray → (link s3 l i).gray = s3.gray := by
      intro l hl
      unfold link
      rw [if_neg (by rw [hb3]; simp)]
      cases l <;> first | rfl | exact absurd rfl hl
    have le : ∀ l, (link s3 l i).ephemeron = s3.ephemeron ∨ (link s3 l i).ephemeron = i :: s3.ephemeron := by
      intro l
      unfold link
      rw [if_neg (by rw [hb3]; simp)]
      cases l <;> first | exact .inl rfl | exact .inr rfl
    split
    · next hph =>
      have hst : st = .prop := by
        rcases hp3 with h | h
        · exact h.1
        · rw [h.2] at hph; cases hph
      obtain ⟨c2, g2, g3, g4, g5, g6, _⟩ := link_cstep (st := st) (pend := pend) (l := .grayagain) hb3 hx (by simp)
        ⟨_, ho3, lk _ (by simp)⟩ (fun _ => .inl rfl)
      exact H _ ⟨c2, fun _ o' _ => .inl (.inl ⟨hst, g6 rfl⟩)⟩ g5 (lg _ (by simp)) g2 (le _)
    · next hph =>
      have hst : st ≠ .prop := by
        rcases hp3 with h | h
        · exact absurd h.2 hph
        · exact h.1
      split
      · obtain ⟨c2, g2, g3, g4, g5, _, _, _, g9⟩ := link_cstep (st := st) (pend := pend) (l := .ephemeron) hb3 hx (by simp)
          ⟨_, ho3, lk _ (by simp)⟩ (fun h => absurd h hst)
        refine H _ ⟨c2, fun hoof o' hoo => .inr ⟨?_, fun _ h => absurd h hst⟩⟩ g5 (lg _ (by simp)) g2 (le _)
        rw [g2, ho3] at hoo
        cases hoo
        have hs := c2.le.oof hoof
        unfold Done
        rw [hcolk]
        exact ⟨fun m hm => (g5 m).mpr (hmt3 hs m hm), .inr (.inr (.inl ⟨g9 rfl, fun v hv r hr => (g5 r).mpr (hvals hs v hv r hr), clean_nil⟩))⟩
      · next hww =>
        have hww : e.hasww = false := by simpa using hww
        split
        · obtain ⟨c2, g2, g3, g4, g5, _, _, g8, _⟩ := link_cstep (st := st) (pend := pend) (l := .allweak) hb3 hx (by simp)
            ⟨_, ho3, lk _ (by simp)⟩ (fun h => absurd h hst)
          refine H _ ⟨c2, fun hoof o' hoo => .inr ⟨?_, fun _ h => absurd h hst⟩⟩ g5 (lg _ (by simp)) g2 (le _)
          rw [g2, ho3] at hoo
          cases hoo
          have hs := c2.le.oof hoof
          unfold Done
          rw [hcolk]
          exact ⟨fun m hm => (g5 m).mpr (hmt3 hs m hm), .inr (.inr (.inr (g8 rfl)))⟩
        · next hcl =>
          have hcl : e.hasclears = false := by simpa using hcl
          refine H _ (genlink_ok ho3 hcolk hb3 hx hmt3 fun hs => clean_strong (hvals hs) ((h5 hs).2.1 hcl).2 ((h5 hs).1 hww).2) ?_ ?_ ?_ ?_
          · intro j
            unfold genlink
            split
            · exact (link_cstep (st := st) (pend := pend) (l := .grayagain) hb3 hx (by simp) ⟨_, ho3, lk _ (by simp)⟩ (fun _ => .inl rfl)).2.2.2.2.1 j
            · exact .rfl
          · unfold genlink
            split
            · exact lg _ (by simp)
            · rfl
          · unfold genlink
            split
            · exact (link_cstep (st := st) (pend := pend) (l := .grayagain) hb3 hx (by simp) ⟨_, ho3, lk _ (by simp)⟩ (fun _ => .inl rfl)).2.1
            · rfl
          · unfold genlink
            split
            · exact le _
            · exact .inl rfl
  intro s4 hv hnw hg hobj he
  refine ⟨⟨c1.trans hv.1, hv.2⟩, fun hs4 hm => ?_⟩
  have hs := hv.1.le.oof hs4
  obtain ⟨q1, q2, q3⟩ := quiet hs hm
  refine ⟨fun j hj => (hnw j).trans (q1 j hj), hg.trans q2, fun j hj => ?_, ?_⟩
  · rw [heph3] at he
    have hnew : ∀ oj, s4.obj i = some oj → EphOk s4 oj.nodes := by
      intro oj hoj
      rw [hobj, ho3] at hoj
      cases hoj
      intro x hx
      rcases q3 x hx with h | ⟨r, hr, h1, h2⟩
      · exact .inl fun r hr => (hnw r).mpr (h r hr)
      · refine .inr ⟨r, hr, fun h => h1 ((hnw r).mp h), ?_⟩
        unfold NonStr
        rw [hobj]
        exact h2
    rcases he with he | he
    · rw [he] at hj; exact .inl hj
    · rw [he] at hj
      rcases List.mem_cons.mp hj with h | h
      · exact .inr ⟨h, hnew⟩
      · exact .inl h
  · rw [heph3] at he
    rcases he with he | he <;> simp [he]

theorem traversestrong_ok (n : Nat) {st : Stage} {pend ex : List Id} {s : G} {i : Id} {o : Obj} (ho : s.obj i = some o)
    (hk : o.kind = .table) (hb : s.col i = .black) (hx : i ∈ ex) (hf : Full s) (hmt : s.oof = false → MtNW s o) :
    VisOk st pend ex s (traversestrongtable n s i o) i := by
  unfold traversestrongtable
  have c0 : CStep st pend ex s (cleanNodes s i o) := setObj_cstep ho (clean_shr o)
  have ho1 : (cleanNodes s i o).obj i = some (clean o) := setObj_self s i (clean o)
  have hb1 : (cleanNodes s i o).col i = .black := hb
  have hni := (hf.nodes ho).le c0.le.toLe0
  have hva := (hf.vals ho).le c0.le.toLe0
  dsimp only
  generalize cleanNodes s i o = s1 at c0 ho1 hb1 hni hva ⊢
  obtain ⟨h1, h2⟩ := foldMark_ok' n (c0.le.full hf) hva
  generalize foldMark (markobject n) o.vals s1 = s2 at h1 h2 ⊢
  obtain ⟨h3, h4⟩ := strongNodes_ok n o.nodes s2 (h1.full (c0.le.full hf)) (hni.le h1.le.toLe0)
  generalize strongNodes n o.nodes s2 = s3 at h3 h4 ⊢
  have h14 := h1.trans h3
  have c1 : CStep st pend ex s s3 := c0.trans h14.cstep
  have ho3 : s3.obj i = some (clean o) := by rw [h14.obj]; exact ho1
  obtain ⟨v1, v2⟩ := genlink_ok (st := st) (pend := pend) ho3 hk (h14.black hb1) hx
    (fun h => (hmt (c1.le.oof h)).mono c1.le.toLe0 (clean_shr o))
    (fun h => clean_strong (fun v hv => h3.monoV (h2 (h3.oof h) v hv)) (fun x hx hv => (h4 h x hx hv).2) (fun x hx => by
      by_cases hv : x.val = .nil
      · rw [hv]; exact fun r h => nomatch h
      · exact (h4 h x hx hv).1))
  exact ⟨c1.trans v1, v2⟩

theorem traversetable_ok (n : Nat) {st : Stage} {pend ex : List Id} {s : G} {i : Id} {o : Obj} (ho : s.obj i = some o)
    (hk : o.kind = .table) (hb : s.col i = .black) (hx : i ∈ ex) (hf : Full s) (hp : PhOk st s) :
    VisOk st pend ex s (traversetable n s i o) i := by
  unfold traversetable
  obtain ⟨h1, h2⟩ := markN_ok n (m := o.mt) hf (fun r hr => hf i o ho r (.mt hr))
  dsimp only
  generalize markobjectN n s o.mt = s1 at h1 h2 ⊢
  have c1 : CStep st pend ex s s1 := h1.cstep
  have ho1 : s1.obj i = some o := by rw [h1.obj]; exact ho
  have hb1 := h1.black hb
  have hf1 := h1.full hf
  have hp1 := hp.le h1.le.toLe0
  generalize modeOf s o = md
  obtain ⟨a, b⟩ := md
  have tr : ∀ s2, VisOk st pend ex s1 s2 i → VisOk st pend ex s s2 i := fun s2 h => ⟨c1.trans h.1, h.2⟩
  cases a <;> cases b
  · exact tr _ (traversestrong_ok n ho1 hk hb1 hx hf1 h2)
  · exact tr _ (traverseweakvalue_ok n ho1 hk hb1 hx hf1 hp1 h2)
  · exact tr _ (traverseephemeron_ok n ho1 hk hb1 hx hf1 hp1 h2).1
  · obtain ⟨c2, g2, g3, g4, g5, _, _, g8, _⟩ := link_cstep (st := st) (pend := pend) (l := .allweak) hb1 hx (by simp)
      ⟨_, ho1, by rw [if_neg (by simp)]; exact hk⟩ (fun _ => .inr rfl)
    refine tr _ ⟨c2, fun hoof o' hoo => .inr ⟨?_, fun _ _ => g8 rfl⟩⟩
    rw [g2, ho1] at hoo
    cases hoo
    unfold Done
    rw [hk]
    exact ⟨fun m hm => (g5 m).mpr (h2 (c2.le.oof hoof) m hm), .inr (.inr (.inr (g8 rfl)))⟩

/-! ## The other objects -/

theorem UpOk.mext {st : Stage} {s s' : G} (h : MExt s s') {u : Nat} (hu : UpOk st s u) : UpOk st s' u := hu.mono h.le

theorem lclUps_ok (n : Nat) {st : Stage} {pend ex : List Id} (us : List Nat) : ∀ s, Full s → PhOk st s →
    (∀ u ∈ us, ∀ r, s.upGet u = .ref r → (s.obj r).isSome) →
    CStep st pend ex s (lclUps n us s) ∧ (lclUps n us s).obj = s.obj ∧ (∀ j, s.col j = .black → (lclUps n us s).col j = .black) ∧
      ((lclUps n us s).oof = false → ∀ u ∈ us, UpOk st (lclUps n us s) u) := by
  induction us with
  | nil => exact fun s _ _ _ => ⟨.refl _ _ _ s, rfl, fun _ h => h, fun _ => by simp⟩
  | cons u us ih =>
    intro s hf hp hi
    have mk : ∀ v, v = s.upGet u → (PhOk st s → ∀ s', MExt s s' → NWv s' v → UpOk st s' u) →
        CStep st pend ex s (lclUps n us (markvalue n s v)) ∧ (lclUps n us (markvalue n s v)).obj = s.obj ∧
        (∀ j, s.col j = .black → (lclUps n us (markvalue n s v)).col j = .black) ∧
        ((lclUps n us (markvalue n s v)).oof = false → ∀ w ∈ u :: us, UpOk st (lclUps n us (markvalue n s v)) w) := by
      intro v hv hU
      obtain ⟨h1, h2⟩ := markvalue_ok n (v := v) hf (fun r hr => hi u (by simp) r (by rw [← hv]; exact hr))
      generalize markvalue n s v = s1 at h1 h2 ⊢
      obtain ⟨h3, h4, h5, h6⟩ := ih s1 (h1.full hf) (hp.le h1.le.toLe0) (by
        intro w hw r hr
        rw [h1.upGet] at hr
        rw [h1.obj]
        exact hi w (by simp [hw]) r hr)
      refine ⟨h1.cstep.trans h3, h4.trans h1.obj, fun j hj => h5 j (h1.black hj), fun ho w hw => ?_⟩
      rcases List.mem_cons.mp hw with rfl | hw
      · exact (hU hp s1 h1 (h2 (h3.le.oof ho))).mono h3.le
      · exact h6 ho w hw
    rw [lclUps]
    cases hu : s.up u with
    | closed v =>
      dsimp only
      refine mk v (by simp [G.upGet, hu]) ?_
      intro _ s' hs' hv
      unfold UpOk
      rw [hs'.up, hu]
      exact hv
    | opn th sl t =>
      dsimp only
      split
      · next hph =>
        have hst : st = .prop := by
          rcases hp with h | h
          · exact h.1
          · exact absurd h.2 hph
        have c1 : CStep st pend ex s (s.setUp u (.opn th sl true)) := touch_cstep hu
        have hg : ∀ w, (s.setUp u (.opn th sl true)).upGet w = s.upGet w := by
          intro w
          by_cases hw : w = u
          · subst hw; simp [G.upGet, G.setUp, hu]
          · simp [G.upGet, G.setUp, hw]
        obtain ⟨h3, h4, h5, h6⟩ := ih (s.setUp u (.opn th sl true)) (c1.le.full hf) (hp.le c1.le.toLe0) (by
          intro w hw r hr
          rw [hg] at hr
          exact hi w (by simp [hw]) r hr)
        refine ⟨c1.trans h3, h4, h5, fun ho w hw => ?_⟩
        rcases List.mem_cons.mp hw with rfl | hw
        · have : UpOk st (s.setUp w (.opn th sl true)) w := by
            unfold UpOk
            rw [show (s.setUp w (.opn th sl true)).up w = .opn th sl true from if_pos rfl, hst]
          exact this.mono h3.le
        · exact h6 ho w hw
      · next hph =>
        have hst : st ≠ .prop := by
          rcases hp with h | h
          · exact absurd h.2 (by intro h; exact hph (by rw [h]; simp))
          · exact h.1
        refine mk _ rfl ?_
        intro _ s' hs' hv
        unfold UpOk
        rw [hs'.up, hu, hs'.upGet]
        cases st with
        | prop => exact absurd rfl hst
        | at1 => exact .inr hv
        | at2 => exact .inl hv

theorem traverseLclosure_ok (n : Nat) {st : Stage} {pend ex : List Id} {s : G} {i : Id} {o : Obj} (ho : s.obj i = some o)
    (hk : o.kind = .lcl) (hb : s.col i = .black) (hf : Full s) (hp : PhOk st s) : VisOk st pend ex s (traverseLclosure n s o) i := by
  unfold traverseLclosure
  obtain ⟨h1, h2⟩ := foldMark_ok' n hf (hf.vals ho)
  generalize foldMark (markobject n) o.vals s = s1 at h1 h2 ⊢
  have hf1 := h1.full hf
  have ho1 : s1.obj i = some o := by rw [h1.obj]; exact ho
  obtain ⟨h3, h4, h5, h6⟩ := lclUps_ok n (st := st) (pend := pend) (ex := ex) o.ups s1 hf1 (hp.le h1.le.toLe0)
    (fun u hu r hr => hf1 i o ho1 r (.up hu hr))
  refine ⟨h1.cstep.trans h3, fun hs o' hoo => .inr ⟨?_, fun h => ?_⟩⟩
  · rw [h4, ho1] at hoo
    cases hoo
    unfold Done
    rw [hk]
    exact ⟨fun v hv => h3.le.monoV (h2 (h3.le.oof hs) v hv), h6 hs⟩
  · rw [h5 i (h1.black hb)] at h; cases h

theorem traverseproto_ok (n : Nat) {st : Stage} {pend ex : List Id} {s : G} {i : Id} {o : Obj} (ho : s.obj i = some o)
    (hk : o.kind = .proto) (hb : s.col i = .black) (hf : Full s) : VisOk st pend ex s (traverseproto n s i o) i := by
  unfold traverseproto
  have hc : ∃ o', Shr o o' ∧ o'.vals = o.vals ∧ CStep st pend ex s (clearCache s i o) ∧ (clearCache s i o).obj i = some o' ∧
      (clearCache s i o).col = s.col ∧ ∀ c, o'.cache = some c → NW s c := by
    unfold clearCache
    cases hcc : o.cache with
    | none => exact ⟨o, .refl o, rfl, .refl _ _ _ s, ho, rfl, fun c h => by rw [hcc] at h; cases h⟩
    | some c =>
      obtain ⟨oc, hoc⟩ := Option.isSome_iff_exists.mp (hf i o ho c (.cache hcc))
      simp only [hoc]
      split
      · have hs : Shr o { o with cache := none } := { Shr.refl o with cache := .inr rfl }
        exact ⟨{ o with cache := none }, hs, rfl, setObj_cstep ho hs, setObj_self s i _, rfl, fun c h => nomatch h⟩
      · next hw => exact ⟨o, .refl o, rfl, .refl _ _ _ s, ho, rfl, fun c' h => by rw [hcc] at h; cases h; exact Bool.eq_false_iff.mpr hw⟩
  obtain ⟨o', hs, hv, c1, ho1, hcol, hcache⟩ := hc
  have hva := (hf.vals ho).le c1.le.toLe0
  generalize clearCache s i o = s1 at c1 ho1 hcol hva ⊢
  obtain ⟨h1, h2⟩ := foldMark_ok' n (c1.le.full hf) hva
  generalize foldMark (markobject n) o.vals s1 = s2 at h1 h2 ⊢
  refine ⟨c1.trans h1.cstep, fun hs' o2 hoo => .inr ⟨?_, fun h => ?_⟩⟩
  · rw [h1.obj, ho1] at hoo
    cases hoo
    unfold Done
    rw [hs.kind, hk]
    refine ⟨fun v hv' => h2 hs' v (hv ▸ hv'), fun c hc => h1.mono (c1.le.nw c (hcache c hc))⟩
  · rw [h1.black (by rw [hcol]; exact hb)] at h; cases h

theorem twups_cstep {st : Stage} {pend ex : List Id} (s : G) (i : Id) (hi : (s.obj i).isSome) (hn : NW s i) : CStep st pend ex s { s with twups := i :: s.twups } := by
  have hle : Le s { s with twups := i :: s.twups } := {
    objs := fun _ o ho => ⟨o, ho, .refl o⟩
    none := fun _ h => h
    upc := fun _ _ h => h
    upo := fun _ _ _ t h => ⟨t, h⟩
    nw := fun _ h => h
    wh := fun _ _ => rfl
    fixd := fun _ _ h => h
    oof := fun h => h
    rest := ⟨_, _, _, _, _, _, _, _, _, _, _, rfl⟩
    weak := List.suffix_refl _
    allweak := List.suffix_refl _
    tws := fun th h => by
      rcases List.mem_cons.mp h with rfl | h
      · exact .inr ⟨hi, hn⟩
      · exact .inl h
    tch := fun _ _ _ h => h
    eph := fun _ h => h
    tw := fun _ h => List.mem_cons_of_mem _ h }
  exact ⟨hle, fun hl => hl.step hle.toLe0 (fun _ h => .inl h) (fun _ h => .inl h) (fun _ h => h),
    fun _ hj => hj.step hle (fun _ _ => .inl rfl) (fun _ h => .inl h) (fun _ h => h) (fun _ _ _ h h' => absurd h' h)⟩

theorem forall₂_take (l : List Val) (k : Nat) :
    List.Forall₂ (fun v v' => v' = v ∨ v' = .nil) l (l.take k ++ List.replicate (l.length - k) .nil) := by
  induction l generalizing k with
  | nil => simp
  | cons v l ih =>
    cases k with
    | zero =>
      have := ih 0
      simp only [List.take_zero, List.nil_append, Nat.sub_zero, List.length_cons, List.replicate_succ] at this ⊢
      exact .cons (.inr rfl) this
    | succ k =>
      simp only [List.take_succ_cons, List.cons_append, List.length_cons, Nat.succ_sub_succ]
      exact .cons (.inl rfl) (ih k)

theorem traversethread_ok (n : Nat) {st : Stage} {pend ex : List Id} {s : G} {i : Id} {o : Obj} (ho : s.obj i = some o)
    (hk : o.kind = .thread) (hb : s.col i = .black) (hx : i ∈ ex) (hf : Full s) (hp : PhOk st s) :
    VisOk st pend ex s (traversethread n s i o) i := by
  unfold traversethread
  have h0 : ∃ s1, (if s.isOld i || s.phase = .propagate then link s .grayagain i else s) = s1 ∧ CStep st pend ex s s1 ∧ s1.obj = s.obj ∧
      (st = .prop → i ∈ s1.grayagain) := by
    obtain ⟨c2, g2, g3, g4, g5, g6, _⟩ := link_cstep (st := st) (pend := pend) (l := .grayagain) hb hx (by simp)
        ⟨_, ho, by rw [if_pos rfl, hk]; rfl⟩ (fun _ => .inl rfl)
    split
    · exact ⟨_, rfl, c2, g2, fun _ => g6 rfl⟩
    · next hc =>
      refine ⟨s, rfl, .refl _ _ _ s, rfl, fun hst => ?_⟩
      rcases hp with h | h
      · rw [h.2] at hc; simp at hc
      · exact absurd hst h.1
  obtain ⟨s1, hs1, c1, ho1, hga⟩ := h0
  dsimp only
  rw [hs1]
  have hf1 := c1.le.full hf
  have hoi : s1.obj i = some o := by rw [ho1]; exact ho
  obtain ⟨h1, h2⟩ := foldMark_ok' n (vs := o.vals.take o.top) hf1 (fun r hr => hf1.vals hoi r (List.mem_of_mem_take hr))
  generalize foldMark (markobject n) (o.vals.take o.top) s1 = s2 at h1 h2 ⊢
  have hf2 := h1.full hf1
  have h3 := markUps_ok n o.ups s2 hf2 (fun u hu r hr => hf2 i o (by rw [h1.obj]; exact hoi) r (.up hu hr))
  generalize markUps n o.ups s2 = s3 at h3 ⊢
  have h13 := h1.trans h3
  have c3 : CStep st pend ex s s3 := c1.trans h13.cstep
  have ho3 : s3.obj i = some o := by rw [h13.obj]; exact hoi
  have hp3 := hp.le c3.le.toLe0
  split
  · next hph =>
    have hst : st ≠ .prop := by
      rcases hp3 with h | h
      · rw [h.2] at hph; cases hph
      · exact h.1
    unfold clearStack
    have hs : Shr o { o with vals := o.vals.take o.top ++ List.replicate (o.vals.length - o.top) .nil } :=
      { Shr.refl o with vals := forall₂_take _ _ }
    have c4 : CStep st pend ex s3 (s3.setObj i (some { o with vals := o.vals.take o.top ++ List.replicate (o.vals.length - o.top) .nil })) :=
      setObj_cstep ho3 hs
    have ho4 := setObj_self s3 i { o with vals := o.vals.take o.top ++ List.replicate (o.vals.length - o.top) .nil }
    have hcol : ∀ j, NW (s3.setObj i (some { o with vals := o.vals.take o.top ++ List.replicate (o.vals.length - o.top) .nil })) j ↔ NW s3 j :=
      fun _ => .rfl
    have hoof : (s3.setObj i (some { o with vals := o.vals.take o.top ++ List.replicate (o.vals.length - o.top) .nil })).oof = s3.oof := rfl
    have hvals : s3.oof = false → ValsNW s3 { o with vals := o.vals.take o.top ++ List.replicate (o.vals.length - o.top) .nil } := by
      intro hs v hv
      rcases List.mem_append.mp hv with hv | hv
      · exact h3.monoV (h2 (h3.oof hs) v hv)
      · rw [List.eq_of_mem_replicate hv]; exact fun r h => nomatch h
    dsimp only
    generalize s3.setObj i (some { o with vals := o.vals.take o.top ++ List.replicate (o.vals.length - o.top) .nil }) = s4 at c4 ho4 hcol hoof ⊢
    split
    · refine ⟨c3.trans (c4.trans (twups_cstep s4 i (by rw [ho4]; rfl) (c4.le.nw i (c3.le.nw i (NW_of_ne_white (.inl hb)))))), fun hs4 o' hoo => .inr ⟨?_, fun _ h => absurd h hst⟩⟩
      have hoo : s4.obj i = some o' := hoo
      rw [ho4] at hoo
      cases hoo
      have hs3 : s3.oof = false := hoof ▸ hs4
      unfold Done
      simp only [hk]
      exact ⟨hst, fun v hv r hr => (hcol r).mpr (hvals hs3 v hv r hr), fun _ => List.mem_cons_self⟩
    · next hcond =>
      refine ⟨c3.trans c4, fun hs4 o' hoo => .inr ⟨?_, fun _ h => absurd h hst⟩⟩
      rw [ho4] at hoo
      cases hoo
      have hs3 : s3.oof = false := hoof ▸ hs4
      unfold Done
      simp only [hk]
      refine ⟨hst, fun v hv r hr => (hcol r).mpr (hvals hs3 v hv r hr), fun hu => ?_⟩
      exact Classical.byContradiction fun h => hcond ⟨h, hu⟩
  · next hph =>
    have hst : st = .prop := by
      rcases hp3 with h | h
      · exact h.1
      · exact absurd h.2 hph
    refine ⟨c3, fun _ o' _ => .inl (.inl ⟨hst, ?_⟩)⟩
    have : s3.grayagain = s1.grayagain := by obtain ⟨c, g, f, rfl⟩ := h13.eq; rfl
    rw [this]
    exact hga hst

theorem traverse_ok (n : Nat) {st : Stage} {pend ex : List Id} {s : G} {i : Id} {o : Obj} (ho : s.obj i = some o)
    (hk : Trav o.kind = true) (hb : s.col i = .black) (hx : i ∈ ex) (hf : Full s) (hp : PhOk st s) :
    VisOk st pend ex s (traverse n s i) i := by
  simp only [traverse, ho]
  cases hk' : o.kind with
  | str => rw [hk'] at hk; cases hk
  | udata => rw [hk'] at hk; cases hk
  | arr => rw [hk'] at hk; cases hk
  | table => exact traversetable_ok n ho hk' hb hx hf hp
  | lcl => exact traverseLclosure_ok n ho hk' hb hf hp
  | proto => exact traverseproto_ok n ho hk' hb hf
  | thread => exact traversethread_ok n ho hk' hb hx hf hp
  | ccl =>
    obtain ⟨h1, h2⟩ := foldMark_ok' n hf (hf.vals ho)
    refine ⟨h1.cstep, fun hs o' hoo => .inr ⟨?_, fun h => ?_⟩⟩
    · rw [h1.obj, ho] at hoo
      cases hoo
      unfold Done
      rw [hk']
      exact h2 hs
    · rw [h1.black hb] at h; cases h

/-- the object at the head of the gray list becomes black -/
theorem black_cstep {st : Stage} {pend ex : List Id} {s : G} {i : Id} {g : List Id} (hi : NW s i) (hf : i ∉ s.fixedgc) (hx : i ∈ ex)
    (hg1 : ∀ j ∈ g, j ∈ s.gray) (hg2 : ∀ j ∈ s.gray, j = i ∨ j ∈ g) :
    CStep st pend ex s { nw2black s i with gray := g } ∧ ({ nw2black s i with gray := g } : G).col i = .black ∧
      ({ nw2black s i with gray := g } : G).obj = s.obj := by
  have he : nw2black s i = s.setCol i .black := by
    unfold nw2black
    rw [if_neg]
    rw [hi]; simp
  rw [he]
  have hcol : ∀ j, ({ s.setCol i .black with gray := g } : G).col j = if j = i then .black else s.col j := fun _ => rfl
  have hnw : ∀ j, NW ({ s.setCol i .black with gray := g } : G) j ↔ NW s j := by
    intro j
    by_cases h : j = i
    · subst h
      exact ⟨fun _ => hi, fun _ => NW_of_ne_white (.inl (by rw [hcol, if_pos rfl]))⟩
    · exact NW_col (by rw [hcol, if_neg h])
  have hle : Le s { s.setCol i .black with gray := g } := {
    objs := fun _ o ho => ⟨o, ho, .refl o⟩
    none := fun _ h => h
    upc := fun _ _ h => h
    upo := fun _ _ _ t h => ⟨t, h⟩
    nw := fun j h => (hnw j).mpr h
    wh := fun j h => by
      rw [hcol, if_neg]
      rintro rfl
      exact h ((hnw j).mpr hi)
    fixd := fun j hj h => by
      rw [hcol, if_neg, h]
      rintro rfl
      exact hf hj
    oof := fun h => h
    rest := ⟨_, _, _, _, _, _, _, _, _, _, _, rfl⟩
    weak := List.suffix_refl _
    allweak := List.suffix_refl _
    tws := fun _ h => .inl h
    tch := fun _ _ _ h => h
    eph := fun _ h => h
    tw := fun _ h => h }
  refine ⟨⟨hle, fun hl => hl.step hle.toLe0 ?_ (fun _ h => .inl h) (fun _ h => h),
    fun _ hj => hj.step hle ?_ ?_ (fun _ h => h) (fun j _ _ h h' => absurd ((hnw j).mp h') h)⟩, by rw [hcol, if_pos rfl], rfl⟩
  · intro j hj
    exact .inl (hj.imp (hg1 j) id)
  · intro j _
    by_cases h : j = i
    · subst h; exact .inr hx
    · exact .inl (by rw [hcol, if_neg h])
  · intro j hj
    rcases hg2 j hj with rfl | h
    · exact .inr hx
    · exact .inl h

theorem CStep.weaken {st : Stage} {pend ex : List Id} {s s' : G} {i : Id} (h : CStep st pend (i :: ex) s s')
    (hv : s'.oof = false → Vis st pend s' i) : CStep st pend ex s s' :=
  ⟨h.le, h.l, fun ho hj => (h.j ho (hj.weaken fun _ h => List.mem_cons_of_mem _ h)).discharge (hv ho)⟩

theorem L.nofix {st : Stage} {pend : List Id} {s : G} (h : L st pend s) {i : Id} {o : Obj} (ho : s.obj i = some o) (hk : o.kind ≠ .str) :
    i ∉ s.fixedgc := by
  intro hi
  obtain ⟨o', ho', hk'⟩ := h.fix i hi
  rw [ho] at ho'
  cases ho'
  exact hk hk'

theorem Trav.ne_str {k : Kind} (h : Trav k = true) : k ≠ .str := by rintro rfl; cases h

theorem propagatemark_ok (n : Nat) {st : Stage} {pend ex : List Id} {s : G} (hf : Full s) (hl : L st pend s) (hp : PhOk st s)
    (hg : s.gray ≠ []) : CStep st pend ex s (propagatemark n s) := by
  unfold propagatemark
  cases h : s.gray with
  | nil => exact absurd h hg
  | cons i rest =>
    dsimp only
    obtain ⟨hnw, o, ho, hk⟩ := hl.lst i (.inl (by rw [h]; simp))
    obtain ⟨c1, hb, hob⟩ := black_cstep (st := st) (pend := pend) (ex := i :: ex) (g := rest) hnw (hl.nofix ho (Trav.ne_str hk)) (by simp)
      (fun j hj => by rw [h]; simp [hj]) (fun j hj => by rw [h] at hj; simpa using hj)
    generalize ({ nw2black s i with gray := rest } : G) = s1 at c1 hb hob ⊢
    obtain ⟨c2, hv⟩ := traverse_ok n (st := st) (pend := pend) (ex := i :: ex) (s := s1) (i := i) (o := o) (by rw [hob]; exact ho) hk hb
      (by simp) (c1.le.full hf) (hp.le c1.le.toLe0)
    exact (c1.trans c2).weaken hv

theorem propagateall_ok (n k : Nat) : ∀ {st : Stage} {pend ex : List Id} {s : G}, Full s → L st pend s → PhOk st s →
    CStep st pend ex s (propagateall n k s) ∧ ((propagateall n k s).oof = false → (propagateall n k s).gray = []) := by
  induction k with
  | zero =>
    intro st pend ex s _ _ _
    rw [propagateall]
    exact ⟨(oof_ext s).cstep, fun h => nomatch h⟩
  | succ k ih =>
    intro st pend ex s hf hl hp
    rw [propagateall]
    split
    · next hg => exact ⟨.refl _ _ _ s, fun _ => hg⟩
    · next hg =>
      have c1 := propagatemark_ok n (ex := ex) hf hl hp hg
      obtain ⟨c2, h2⟩ := ih (st := st) (pend := pend) (ex := ex) (c1.le.full hf) (c1.l hl) (hp.le c1.le.toLe0)
      exact ⟨c1.trans c2, h2⟩

end Verif.GC
