import Verif.GC.Ops

/-!
# Every operation keeps the invariant
-/
namespace Verif.GC

theorem modify_eq {s : G} {i : Id} {o : Obj} (ho : s.obj i = some o) (f : Obj → Obj) : modify s i f = s.setObj i (some (f o)) := by
  unfold modify; rw [ho]

theorem done_thread {s : G} {i : Id} {o : Obj} (h : Done .prop s i o) (hk : o.kind = .thread) : False := by
  unfold Done at h
  rw [hk] at h
  exact h.1 rfl

theorem done_table {s : G} {i : Id} {o : Obj} (h : Done .prop s i o) (hk : o.kind = .table) (hw : s.weak = []) (he : s.ephemeron = []) :
    MtNW s o ∧ (TStrong s o ∨ i ∈ s.allweak) := by
  unfold Done at h
  rw [hk] at h
  dsimp only at h
  rw [hw, he] at h
  refine ⟨h.1, ?_⟩
  rcases h.2 with h | h | h | h
  · exact .inl h
  · exact nomatch h.1
  · exact nomatch h.1
  · exact .inr h

theorem table_done {s : G} {i : Id} {o : Obj} (hk : o.kind = .table) (h : MtNW s o) (h' : TStrong s o ∨ i ∈ s.allweak) : Done .prop s i o := by
  unfold Done
  rw [hk]
  exact ⟨h, h'.imp id fun h => .inr (.inr h)⟩

theorem NW_cases {s : G} {i : Id} (h : NW s i) : s.col i = .black ∨ s.col i = .gray := by
  cases hc : s.col i with
  | white b => simp [NW, G.isWhite, hc, Color.isWhite] at h
  | gray => exact .inr rfl
  | black => exact .inl rfl

/-- a gray object that was visited is a table -/
theorem MarkInv.gray_table {s : G} (h : MarkInv [] s) {i : Id} {o : Obj} (ho : s.obj i = some o) (hk : o.kind ≠ .table) : i ∉ s.allweak := by
  intro hi
  obtain ⟨_, o', ho', hk'⟩ := h.l.lstw i (.inr (.inl hi))
  rw [ho] at ho'
  cases ho'
  exact hk hk'

theorem ref_vals {s : G} {o o' : Obj} {v : Val} (hm : o'.mt = o.mt) (hn : o'.nodes = o.nodes) (hu : o'.ups = o.ups) (hc : o'.cache = o.cache)
    (hv : ∀ r, .ref r ∈ o'.vals → .ref r ∈ o.vals ∨ v = .ref r) (r : Id) (h : Ref s o' r) : Ref s o r ∨ v = .ref r := by
  cases h with
  | mt h => exact .inl (.mt (hm ▸ h))
  | val h => exact (hv r h).imp .val id
  | key h h' => exact .inl (.key (hn ▸ h) h')
  | nval h h' => exact .inl (.nval (hn ▸ h) h')
  | up h h' => exact .inl (.up (hu ▸ h) h')
  | cache h => exact .inl (.cache (hc ▸ h))

theorem mem_set_ref {l : List Val} {j : Nat} {v : Val} {x : Val} (h : x ∈ l.set j v) : x ∈ l ∨ v = x :=
  (List.mem_or_eq_of_mem_set h).imp id Eq.symm

theorem mem_modify {α : Type} {f : α → α} {x : α} : ∀ {l : List α} {j : Nat}, x ∈ l.modify j f → x ∈ l ∨ ∃ y ∈ l, x = f y := by
  intro l
  induction l with
  | nil => intro j h; simp at h
  | cons a l ih =>
    intro j h
    cases j with
    | zero =>
      simp only [List.modify_zero_cons, List.mem_cons] at h
      rcases h with h | h
      · exact .inr ⟨a, by simp, h⟩
      · exact .inl (by simp [h])
    | succ j =>
      simp only [List.modify_succ_cons, List.mem_cons] at h
      rcases h with h | h
      · exact .inl (by simp [h])
      · rcases ih h with h | ⟨y, h, h'⟩
        · exact .inl (by simp [h])
        · exact .inr ⟨y, by simp [h], h'⟩

/-! ## Stacks -/

theorem stack_inv {s : G} {th : Id} {o o' : Obj} {v : Val} (h : Inv s) (hth : Live s th) (ho : s.obj th = some o) (hk : o.kind = .thread)
    (hv : ∀ r, v = .ref r → Ok s r) (e : ∃ vs tp, o' = { o with vals := vs, top := tp })
    (hvs : ∀ r, .ref r ∈ o'.vals → .ref r ∈ o.vals ∨ v = .ref r) : Inv (s.setObj th (some o')) := by
  obtain ⟨vs, tp, rfl⟩ := e
  have sh := h.core.shapes th o ho
  exact op_plain v h hth hv ho rfl rfl ⟨sh.mt, fun _ => by dsimp only; rw [hk]; simp, sh.nodes, sh.ups, sh.cache, sh.own⟩
    (ref_vals rfl rfl rfl rfl hvs) (fun _ _ _ _ hd _ => (done_thread hd hk).elim)

theorem push_inv {s : G} {v : Val} (h : Inv s) (hv : ∀ r, v = .ref r → Ok s r) : Inv (push s v) ∧ (push s v).oof = s.oof := by
  obtain ⟨o, ho, hk⟩ := h.core.run
  unfold push
  rw [ho]
  refine ⟨stack_inv (v := v) h (h.core.roots _ .running).2 ho hk hv ⟨_, _, rfl⟩ ?_, rfl⟩
  intro r hr
  simp only [List.mem_append, List.mem_cons] at hr
  rcases hr with hr | hr | hr
  · exact .inl (List.mem_of_mem_take hr)
  · exact .inr hr.symm
  · exact .inl (List.mem_of_mem_drop hr)

/-! ## Tables -/

theorem table_inv {s : G} {t : Id} {o o' : Obj} {v : Val} (h : Inv s) (hof : s.oof = false) (ht : Acc s t) (hv : AccV s v) (ho : s.obj t = some o)
    (hk : o.kind = .table) (e : ∃ vs ns, o' = { o with vals := vs, nodes := ns })
    (hvs : ∀ x ∈ o'.vals, x ∈ o.vals ∨ v = x)
    (hns : ∀ x ∈ o'.nodes, (∃ y ∈ o.nodes, x.key = y.key ∧ (x.val = y.val ∨ x.val = v)) ∨
      (∃ y ∈ o.nodes, (x.key = y.key ∨ ∀ r, x.key = .ref r → v = .ref r) ∧ x.val = y.val)) :
    Inv (barrierback (s.setObj t (some o')) t v) ∧ (barrierback (s.setObj t (some o')) t v).oof = s.oof := by
  obtain ⟨vs, ns, rfl⟩ := e
  have sh := h.core.shapes t o ho
  refine op_back h hof (h.core.acc ht).2 (fun r hr => h.core.acc (hv r hr)) ho hk rfl rfl
    ⟨sh.mt, fun _ => by dsimp only; rw [hk]; simp, fun _ => hk, sh.ups, sh.cache, sh.own⟩ ?_ ?_
  · intro r hr
    cases hr with
    | mt h => exact .inl (.mt h)
    | val h => exact (hvs _ h).imp .val id
    | key h h' =>
      rcases hns _ h with ⟨y, hy, h1, h2⟩ | ⟨y, hy, h1, h2⟩
      · exact .inl (.key hy (h1 ▸ h'))
      · rcases h1 with h1 | h1
        · exact .inl (.key hy (h1 ▸ h'))
        · exact .inr (h1 r h')
    | nval h h' =>
      rcases hns _ h with ⟨y, hy, h1, h2⟩ | ⟨y, hy, h1, h2⟩
      · rcases h2 with h2 | h2
        · exact .inl (.nval hy (h2 ▸ h'))
        · exact .inr (h2 ▸ h')
      · exact .inl (.nval hy (h2 ▸ h'))
    | up h h' => exact .inl (.up h h')
    | cache h => exact .inl (.cache h)
  · intro _ hw he hn hd hb hg
    obtain ⟨d1, d2⟩ := done_table hd hk hw he
    refine table_done hk d1 ?_
    rcases NW_cases hn with hc | hc
    · refine d2.imp (fun d => ⟨fun x hx => ?_, fun x hx => ?_⟩) id
      · rcases hvs x hx with h1 | h1
        · exact d.1 x h1
        · exact h1 ▸ hb hc
      · rcases hns x hx with ⟨y, hy, h1, h2⟩ | ⟨y, hy, h1, h2⟩
        · refine ⟨?_, fun r hr => (d.2 y hy).2 r (h1 ▸ hr)⟩
          rcases h2 with h2 | h2
          · exact fun r hr => (d.2 y hy).1 r (h2 ▸ hr)
          · exact fun r hr => hb hc r (h2 ▸ hr)
        · refine ⟨fun r hr => (d.2 y hy).1 r (h2 ▸ hr), fun r hr => ?_⟩
          rcases h1 with h1 | h1
          · exact (d.2 y hy).2 r (h1 ▸ hr)
          · exact hb hc r (h1 r hr)
    · exact .inr (hg hc)

/-! ## Fields -/

theorem Done.vals {s t : G} {i : Id} {o : Obj} {vs : List Val} (h : Done .prop s i o) (nw : ∀ j, NW s j → NW t j) (hup : t.up = s.up)
    (hk : o.kind ≠ .table) (hv : ∀ v ∈ vs, v ∈ o.vals ∨ NWv t v) : Done .prop t i { o with vals := vs } := by
  have e1 : ValsNW s o → ValsNW t { o with vals := vs } := fun h v hm => (hv v hm).elim (fun h1 r hr => nw r (h v h1 r hr)) id
  have e2 : MtNW s o → MtNW t { o with vals := vs } := fun h m hm => nw m (h m hm)
  unfold Done at h ⊢
  dsimp only
  revert h
  cases hkj : o.kind with
  | str => exact id
  | udata => exact fun hd => ⟨e2 hd.1, e1 hd.2⟩
  | arr => exact fun hd => ⟨e2 hd.1, e1 hd.2⟩
  | ccl => exact e1
  | proto => exact fun hd => ⟨e1 hd.1, fun c hc => nw c (hd.2 c hc)⟩
  | lcl =>
    refine fun hd => ⟨e1 hd.1, fun u hu => ?_⟩
    have := hd.2 u hu
    unfold UpOk at this ⊢
    rw [hup]
    revert this
    cases s.up u with
    | closed v => exact fun h r hr => nw r (h r hr)
    | opn th sl t => exact id
  | thread => exact fun hd => absurd rfl hd.1
  | table => exact absurd hkj hk

theorem field_inv (n : Nat) {s : G} {i : Id} {o : Obj} {vs : List Val} {v : Val} (h : Inv s) (hi : Acc s i) (hv : AccV s v) (ho : s.obj i = some o)
    (hk : o.kind = .udata ∨ o.kind = .arr ∨ o.kind = .ccl ∨ o.kind = .lcl ∨ o.kind = .proto) (hvs : ∀ x ∈ vs, x ∈ o.vals ∨ v = x)
    (hoof : (barrier n (s.setObj i (some { o with vals := vs })) i v).oof = false) :
    Inv (barrier n (s.setObj i (some { o with vals := vs })) i v) := by
  have sh := h.core.shapes i o ho
  have hnt : o.kind ≠ .table := by rcases hk with hk | hk | hk | hk | hk <;> rw [hk] <;> simp
  refine op_fwd n h (h.core.acc hi).2 (fun r hr => h.core.acc (hv r hr)) ho rfl rfl
    ⟨sh.mt, fun _ => by dsimp only; rcases hk with hk | hk | hk | hk | hk <;> rw [hk] <;> simp, sh.nodes, sh.ups, sh.cache, sh.own⟩
    (ref_vals rfl rfl rfl rfl fun r hr => hvs _ hr) ?_ hoof
  intro hkp t nw hup _ _ _ hn hd hb hg
  refine hd.vals nw hup hnt fun x hx => (hvs x hx).imp id fun hx => ?_
  subst hx
  rcases NW_cases hn with hc | hc
  · exact hb hc
  · exact absurd (hg hc) ((h.mark hkp).gray_table ho hnt)

theorem Done.mt {s t : G} {i : Id} {o : Obj} {m : Option Id} (h : Done .prop s i o) (nw : ∀ j, NW s j → NW t j) (ha : t.allweak = s.allweak)
    (hw : s.weak = []) (he : s.ephemeron = []) (hk : o.kind = .table ∨ o.kind = .udata ∨ o.kind = .arr) (hm : ∀ m', m = some m' → NW t m') :
    Done .prop t i { o with mt := m } := by
  rcases hk with hk | hk
  · obtain ⟨_, d⟩ := done_table h hk hw he
    refine table_done hk hm (d.imp (fun d => ⟨fun x hx r hr => nw r (d.1 x hx r hr), fun x hx => ⟨fun r hr => nw r ((d.2 x hx).1 r hr),
      fun r hr => nw r ((d.2 x hx).2 r hr)⟩⟩) fun h => by rw [ha]; exact h)
  · have hv : ValsNW s o := by
      unfold Done at h
      rcases hk with hk | hk <;> rw [hk] at h <;> exact h.2
    unfold Done
    rcases hk with hk | hk <;> rw [hk] <;> exact ⟨hm, fun x hx r hr => nw r (hv x hx r hr)⟩

theorem ref_mt {s : G} {o : Obj} {m : Option Id} {v : Val} (hm : ∀ m', m = some m' → v = .ref m') (r : Id) (h : Ref s { o with mt := m } r) :
    Ref s o r ∨ v = .ref r := by
  cases h with
  | mt h => exact .inr (hm r h)
  | val h => exact .inl (.val h)
  | key h h' => exact .inl (.key h h')
  | nval h h' => exact .inl (.nval h h')
  | up h h' => exact .inl (.up h h')
  | cache h => exact .inl (.cache h)

/-! ## Upvalues -/

/-- values of upvalues do not change if stacks do not, and a changed upvalue has the same value -/
theorem upGet_eq {s s' : G} (hobj : ∀ j, ((s'.obj j).map Obj.vals) = ((s.obj j).map Obj.vals)) {u : Nat}
    (hu : s'.up u = s.up u ∨ s'.up u = .closed (s.upGet u) ∨ ∃ th sl t t', s.up u = .opn th sl t ∧ s'.up u = .opn th sl t') :
    s'.upGet u = s.upGet u := by
  have key : ∀ th sl, (match s'.obj th with | some o => o.vals.getD sl .nil | none => .nil : Val) =
      (match s.obj th with | some o => o.vals.getD sl .nil | none => .nil) := by
    intro th sl
    have := hobj th
    cases h1 : s'.obj th <;> cases h2 : s.obj th <;> rw [h1, h2] at this <;> simp at this ⊢
    rw [this]
  rcases hu with hu | hu | ⟨th, sl, t, t', h1, h2⟩
  · cases h : s.up u with
    | closed v => rw [upGet_closed h, upGet_closed (hu.trans h)]
    | opn th sl t =>
      unfold G.upGet
      rw [hu, h]
      exact key th sl
  · exact upGet_closed hu
  · unfold G.upGet
    rw [h1, h2]
    exact key th sl

theorem UpOk.same {s s' : G} {u : Nat} (hc : s'.col = s.col) (hu : s'.up u = s.up u) (h : UpOk .prop s u) : UpOk .prop s' u := by
  unfold UpOk at h ⊢
  rw [hu]
  revert h
  cases s.up u with
  | closed v => exact fun h r hr => (NW_col (by rw [hc])).mpr (h r hr)
  | opn th sl t => exact id

theorem Done.lcl {s s' : G} {i : Id} {o : Obj} {us : List Nat} (h : Done .prop s i o) (hc : s'.col = s.col) (hk : o.kind = .lcl)
    (hu : ∀ u ∈ us, (u ∈ o.ups ∧ (UpOk .prop s u → UpOk .prop s' u)) ∨ UpOk .prop s' u) : Done .prop s' i { o with ups := us } := by
  unfold Done at h ⊢
  dsimp only
  rw [hk] at h ⊢
  exact ⟨fun v hv r hr => (NW_col (by rw [hc])).mpr (h.1 v hv r hr), fun u hm => (hu u hm).elim (fun h1 => h1.2 (h.2 u h1.1)) id⟩

/-- a closure gets upvalues: `us` are its upvalues then, `f` says what upvalues are -/
theorem lcl_inv {s s' : G} {i : Id} {o : Obj} {us : List Nat} {f : Nat → UpVal} (h : Inv s) (ho : s.obj i = some o) (hk : o.kind = .lcl)
    (e : s' = { s with obj := (s.setObj i (some { o with ups := us })).obj, up := f })
    (hopn : ∀ u th sl t, f u = .opn th sl t → ∃ t', s.up u = .opn th sl t')
    (hopn' : ∀ u th sl t, s.up u = .opn th sl t → ∃ t', f u = .opn th sl t')
    (hus : ∀ u ∈ us, u ∈ o.ups ∨ ∀ r, s'.upGet u = .ref r → Ok s r)
    (hget : ∀ j oj, s.obj j = some oj → Live s j → ∀ u ∈ oj.ups, ∀ r, s'.upGet u = .ref r → s.upGet u = .ref r ∨ Ok s r)
    (hup : s.keepinvariant = true → ∀ j oj, s.obj j = some oj → ∀ u ∈ oj.ups, UpOk .prop s u → UpOk .prop s' u)
    (hd : s.keepinvariant = true → NW s i → ∀ u ∈ us, u ∈ o.ups ∨ UpOk .prop s' u) : Inv s' := by
  have sh := h.core.shapes i o ho
  have nth : o.kind ≠ .thread := by rw [hk]; simp
  have hne : ∀ u th sl t, s.up u = .opn th sl t → th ≠ i := by
    rintro u th sl t hu rfl
    obtain ⟨o2, h1, h2, _⟩ := h.core.upt u th sl t hu
    rw [ho] at h1
    cases h1
    exact nth h2
  have sm : Same s s' := by subst e; constructor <;> rfl
  have hcol : s'.col = s.col := by subst e; rfl
  have hobj : s'.obj = (s.setObj i (some { o with ups := us })).obj := by subst e; rfl
  have hfu : s'.up = f := by subst e; rfl
  have htw : s'.twups = s.twups := by subst e; rfl
  refine op_up h sm hcol (by subst e; rfl) (by subst e; rfl) (by subst e; exact ⟨rfl, rfl, rfl, rfl, rfl⟩) ho hobj rfl ?_
    (fun hkp j oj _ hj _ => hup hkp j oj hj) ?_
  · refine h.core.upd (o' := { o with ups := us }) sm hcol ho hobj rfl ⟨sh.mt, sh.vals, sh.nodes, fun _ => .inl hk, sh.cache, fun hk' => absurd hk' nth⟩
      ?_ ?_ (fun hk' => absurd hk' nth) ?_ ?_ ?_ ?_
    · intro j oj _ hj hkj u hu
      obtain ⟨sl, t, h1⟩ := (h.core.shapes j oj hj).own hkj u hu
      obtain ⟨t', h2⟩ := hopn' u j sl t h1
      exact ⟨sl, t', by rw [hfu]; exact h2⟩
    · intro u th sl t hu
      rw [hfu] at hu
      obtain ⟨t', h1⟩ := hopn u th sl t hu
      exact .inl ⟨hne u th sl t' h1, t', h1⟩
    · intro u th sl t hu hl
      rw [hfu] at hu
      obtain ⟨t', h1⟩ := hopn u th sl t hu
      rw [htw]
      exact h.core.tw u th sl t' h1 hl
    · intro th ht
      rw [htw] at ht
      exact .inl ht
    · intro hl r hr
      cases hr with
      | mt h1 => exact h.core.closed i o ho hl r (.mt h1)
      | val h1 => exact h.core.closed i o ho hl r (.val h1)
      | key h1 h2 => exact h.core.closed i o ho hl r (.key h1 h2)
      | nval h1 h2 => exact h.core.closed i o ho hl r (.nval h1 h2)
      | cache h1 => exact h.core.closed i o ho hl r (.cache h1)
      | up h1 h2 =>
        rcases hus _ h1 with h3 | h3
        · rcases hget i o ho hl _ h3 r h2 with h4 | h4
          · exact h.core.closed i o ho hl r (.up h3 h4)
          · exact h4
        · exact h3 r h2
    · exact fun j oj _ hj hl u hu r hr => hget j oj hj hl u hu r hr
  · intro hkp hn hdn _
    exact hdn.lcl hcol hk fun u hu => (hd hkp hn u hu).imp (fun h1 => ⟨h1, hup hkp i o ho u h1⟩) id

theorem setObj_vals {s : G} {i : Id} {o o' : Obj} (ho : s.obj i = some o) (hv : o'.vals = o.vals) (j : Id) :
    (((s.setObj i (some o')).obj j).map Obj.vals) = ((s.obj j).map Obj.vals) := by
  rw [setObj_obj]
  split
  · subst_vars; rw [ho]; simp [hv]
  · rfl

theorem setObj_ups {s : G} {i : Id} {o : Obj} (us : List Nat) (ho : s.obj i = some o) (j : Id) :
    (((s.setObj i (some { o with ups := us })).obj j).map Obj.vals) = ((s.obj j).map Obj.vals) :=
  setObj_vals (o' := { o with ups := us }) ho rfl j

theorem setObj_view {s : G} {i : Id} {o o' : Obj} (ho : s.obj i = some o) (hv : view o' = view o) (j : Id) :
    (((s.setObj i (some o')).obj j).map view) = ((s.obj j).map view) := by
  rw [setObj_obj]
  split
  · subst_vars; rw [ho]; simp [hv]
  · rfl

theorem addup_inv {s : G} {i : Id} {u : Nat} (h : Inv s) (hv : Valid s (.addup i u)) : Inv (modify s i fun o => { o with ups := o.ups ++ [u] }) := by
  obtain ⟨⟨_, o, ho, hk⟩, hw, c, oc, hc, hoc, hu⟩ := hv
  rw [modify_eq ho]
  have hg : ∀ w, (s.setObj i (some { o with ups := o.ups ++ [u] })).upGet w = s.upGet w := fun w =>
    upGet_eq (fun j => setObj_ups (o.ups ++ [u]) ho j) (.inl rfl)
  refine lcl_inv (us := o.ups ++ [u]) (f := s.up) h ho hk rfl (fun _ _ _ t h => ⟨t, h⟩) (fun _ _ _ t h => ⟨t, h⟩) ?_ ?_ (fun _ _ _ _ _ _ h => h) ?_
  · intro w hw
    rw [List.mem_append, List.mem_singleton] at hw
    refine hw.imp id ?_
    rintro rfl r hr
    rw [hg] at hr
    exact h.core.acc (.step hc hoc (.up hu hr))
  · intro j oj _ _ w _ r hr
    rw [hg] at hr
    exact .inl hr
  · intro _ hn
    exact absurd hw (by simpa [NW] using hn)

theorem initup_inv {s : G} {i : Id} {u : Nat} (h : Inv s) (hv : Valid s (.initup i u)) :
    Inv ((modify s i fun o => { o with ups := o.ups ++ [u] }).setUp u (.closed .nil)) := by
  obtain ⟨⟨_, o, ho, hk⟩, hf1, hf2⟩ := hv
  rw [modify_eq ho]
  have hup : ∀ w, ((s.setObj i (some { o with ups := o.ups ++ [u] })).setUp u (.closed .nil)).up w = if w = u then .closed .nil else s.up w :=
    fun _ => rfl
  have hg : ∀ w, w ≠ u → ((s.setObj i (some { o with ups := o.ups ++ [u] })).setUp u (.closed .nil)).upGet w = s.upGet w := fun w hw =>
    by
    refine upGet_eq ?_ (.inl ?_)
    · exact fun j => setObj_ups (o.ups ++ [u]) ho j
    · rw [hup, if_neg hw]
  refine lcl_inv (us := o.ups ++ [u]) (f := fun w => if w = u then .closed .nil else s.up w) h ho hk rfl ?_ ?_ ?_ ?_ ?_ ?_
  · intro w th sl t hw
    split at hw
    · cases hw
    · exact ⟨t, hw⟩
  · intro w th sl t hw
    refine ⟨t, ?_⟩
    rw [if_neg]
    · exact hw
    · rintro rfl; exact hf2 th sl t hw
  · intro w hw
    rw [List.mem_append, List.mem_singleton] at hw
    refine hw.imp id ?_
    rintro rfl r hr
    rw [upGet_closed (v := .nil) (by rw [hup, if_pos rfl])] at hr
    cases hr
  · intro j oj hj _ w hw r hr
    have : w ≠ u := by rintro rfl; exact hf1 j oj hj hw
    rw [hg w this] at hr
    exact .inl hr
  · intro _ j oj hj w hw hok
    have : w ≠ u := by rintro rfl; exact hf1 j oj hj hw
    exact hok.same (s := s) rfl (by rw [hup, if_neg this])
  · intro _ _ w hw
    rw [List.mem_append, List.mem_singleton] at hw
    refine hw.imp id ?_
    rintro rfl
    unfold UpOk
    rw [hup, if_pos rfl]
    exact fun r hr => nomatch hr

theorem join_inv (n : Nat) {s : G} {i : Id} {j u : Nat} (h : Inv s) (hv : Valid s (.join i j u)) (hoof : (exec n s (.join i j u)).oof = false) :
    Inv (exec n s (.join i j u)) := by
  obtain ⟨⟨_, o, ho, hk⟩, c, oc, hc, hoc, _, hu⟩ := hv
  simp only [exec] at hoof ⊢
  rw [modify_eq ho] at hoof ⊢
  have hus : ∀ w ∈ o.ups.set j u, w ∈ o.ups ∨ w = u := fun w hw => List.mem_or_eq_of_mem_set hw
  rw [show (s.setObj i (some { o with ups := o.ups.set j u })).up u = s.up u from rfl] at hoof ⊢
  have hcr : ∀ r, s.upGet u = .ref r → Ok s r := fun r hr => h.core.acc (.step hc hoc (.up hu hr))
  cases hup : s.up u with
  | opn th slot tt =>
    rw [hup] at hoof
    dsimp only at hoof ⊢
    have hupw : ∀ w, ((s.setObj i (some { o with ups := o.ups.set j u })).setUp u (.opn th slot true)).up w =
        if w = u then .opn th slot true else s.up w := fun _ => rfl
    have hg : ∀ w, ((s.setObj i (some { o with ups := o.ups.set j u })).setUp u (.opn th slot true)).upGet w = s.upGet w := by
      intro w
      refine upGet_eq ?_ ?_
      · exact fun k => setObj_ups (o.ups.set j u) ho k
      by_cases hw : w = u
      · subst hw
        exact .inr (.inr ⟨th, slot, tt, true, hup, by rw [hupw, if_pos rfl]⟩)
      · exact .inl (by rw [hupw, if_neg hw])
    refine lcl_inv (us := o.ups.set j u) (f := fun w => if w = u then .opn th slot true else s.up w) h ho hk rfl ?_ ?_ ?_ ?_ ?_ ?_
    · intro w th' sl t hw
      split at hw
      · subst_vars
        cases hw
        exact ⟨tt, hup⟩
      · exact ⟨t, hw⟩
    · intro w th' sl t hw
      by_cases hwu : w = u
      · subst hwu
        rw [hup] at hw
        cases hw
        exact ⟨true, if_pos rfl⟩
      · exact ⟨t, by rw [if_neg hwu]; exact hw⟩
    · intro w hw
      refine (hus w hw).imp id ?_
      rintro rfl r hr
      rw [hg] at hr
      exact hcr r hr
    · intro j oj _ _ w _ r hr
      rw [hg] at hr
      exact .inl hr
    · intro _ k ok hk w hw hok
      by_cases hwu : w = u
      · unfold UpOk
        rw [hupw, if_pos hwu]
      · exact hok.same (s := s) rfl (by rw [hupw, if_neg hwu])
    · intro _ _ w hw
      refine (hus w hw).imp id ?_
      rintro rfl
      unfold UpOk
      rw [hupw, if_pos rfl]
  | closed v =>
    rw [hup] at hoof
    dsimp only at hoof ⊢
    have hvr : ∀ r, v = .ref r → Ok s r := fun r hr => hcr r (by rw [upGet_closed hup]; exact hr)
    have e := (upvalbarrier_comm n v s).1 (s.setObj i (some { o with ups := o.ups.set j u })).obj s.up (setObj_view ho rfl)
    dsimp only at e
    rw [show (s.setObj i (some { o with ups := o.ups.set j u })) =
      { s with obj := (s.setObj i (some { o with ups := o.ups.set j u })).obj, up := s.up } from rfl] at hoof ⊢
    rw [e] at hoof ⊢
    have ub := upvalbarrier_inv n h hvr hoof
    clear e hoof
    generalize upvalbarrier n s v = t at ub ⊢
    have hot : t.obj i = some o := by rw [ub.obj]; exact ho
    have hg : ∀ w, G.upGet { t with obj := (s.setObj i (some { o with ups := o.ups.set j u })).obj, up := s.up } w = t.upGet w := by
      intro w
      refine upGet_eq (fun k => ?_) (.inl (by rw [ub.up]))
      rw [ub.obj]
      exact setObj_ups (o.ups.set j u) ho k
    refine lcl_inv (us := o.ups.set j u) (f := s.up) ub.inv hot hk ?_ ?_ ?_ ?_ ?_ ?_ ?_
    · have : (s.setObj i (some { o with ups := o.ups.set j u })).obj = (t.setObj i (some { o with ups := o.ups.set j u })).obj := by
        funext k
        rw [setObj_obj, setObj_obj, ub.obj]
      rw [this]
    · intro w th sl tt hw
      rw [ub.up]
      exact ⟨tt, hw⟩
    · intro w th sl tt hw
      rw [ub.up] at hw
      exact ⟨tt, hw⟩
    · intro w hw
      refine (hus w hw).imp id ?_
      rintro rfl r hr
      rw [hg, upGet_closed (by rw [ub.up]; exact hup)] at hr
      exact ub.ok r (hvr r hr)
    · intro j oj _ _ w _ r hr
      rw [hg] at hr
      exact .inl hr
    · intro _ k ok hk w hw hok
      exact hok.same (s := t) rfl (by rw [ub.up])
    · intro hkp _ w hw
      refine (hus w hw).imp id ?_
      rintro rfl
      unfold UpOk
      rw [show ({ t with obj := (s.setObj i (some { o with ups := o.ups.set j w })).obj, up := s.up } : G).up w = .closed v from hup]
      exact ub.nw (by rw [← keep_congr ub.phase]; exact hkp)

/-- a closed upvalue gets a value -/
theorem setup_closed_inv (n : Nat) {s : G} {i : Id} {u : Nat} {v v0 : Val} (h : Inv s) (hv : Valid s (.setup i u v)) (hup : s.up u = .closed v0)
    (hoof : (upvalbarrier n (s.setUp u (.closed v)) v).oof = false) : Inv (upvalbarrier n (s.setUp u (.closed v)) v) := by
  obtain ⟨_, hav, o, ho, hk, hu⟩ := hv
  have hvr : ∀ r, v = .ref r → Ok s r := fun r hr => h.core.acc (hav r hr)
  have e := (upvalbarrier_comm n v s).1 s.obj (s.setUp u (.closed v)).up (fun _ => rfl)
  dsimp only at e
  rw [show s.setUp u (.closed v) = { s with obj := s.obj, up := (s.setUp u (.closed v)).up } from rfl] at hoof ⊢
  rw [e] at hoof ⊢
  have ub := upvalbarrier_inv n h hvr hoof
  clear e hoof
  generalize upvalbarrier n s v = t at ub ⊢
  have hot : t.obj i = some o := by rw [ub.obj]; exact ho
  have hupw : ∀ w, ({ t with obj := s.obj, up := (s.setUp u (.closed v)).up } : G).up w = if w = u then .closed v else s.up w := fun _ => rfl
  have hg : ∀ w, w ≠ u → G.upGet { t with obj := s.obj, up := (s.setUp u (.closed v)).up } w = t.upGet w := by
    intro w hw
    refine upGet_eq (fun j => by rw [ub.obj]) (.inl ?_)
    rw [hupw, if_neg hw, ub.up]
  refine lcl_inv (us := o.ups) (f := (s.setUp u (.closed v)).up) ub.inv hot hk ?_ ?_ ?_ (fun w hw => .inl hw) ?_ ?_ (fun _ _ w hw => .inl hw)
  · have : s.obj = (t.setObj i (some { o with ups := o.ups })).obj := by
      funext k
      rw [setObj_obj, ub.obj]
      split
      · subst_vars; exact ho
      · rfl
    rw [← this]
  · intro w th sl tt hw
    rw [ub.up]
    by_cases hwu : w = u
    · rw [show (s.setUp u (.closed v)).up w = if w = u then .closed v else s.up w from rfl, if_pos hwu] at hw
      cases hw
    · rw [show (s.setUp u (.closed v)).up w = if w = u then .closed v else s.up w from rfl, if_neg hwu] at hw
      exact ⟨tt, hw⟩
  · intro w th sl tt hw
    rw [ub.up] at hw
    refine ⟨tt, ?_⟩
    rw [show (s.setUp u (.closed v)).up w = if w = u then .closed v else s.up w from rfl, if_neg]
    · exact hw
    · rintro rfl
      rw [hup] at hw
      cases hw
  · intro j oj _ _ w _ r hr
    by_cases hwu : w = u
    · rw [upGet_closed (v := v) (by rw [hupw, if_pos hwu])] at hr
      exact .inr (ub.ok r (hvr r hr))
    · rw [hg w hwu] at hr
      exact .inl hr
  · intro hkp k ok hk w hw hok
    by_cases hwu : w = u
    · unfold UpOk
      rw [hupw, if_pos hwu]
      exact ub.nw (by rw [← keep_congr ub.phase]; exact hkp)
    · exact hok.same (s := t) rfl (by rw [hupw, if_neg hwu, ub.up])

/-- an open upvalue gets a value: a stack slot is written, perhaps of a thread that is dead -/
theorem setup_open_inv {s : G} {u : Nat} {v : Val} {th : Id} {slot : Nat} {t : Bool} (h : Inv s) (hav : AccV s v)
    (hup : s.up u = .opn th slot t) : Inv (modify s th fun o => { o with vals := o.vals.set slot v }) := by
  obtain ⟨o, ho, hk, hm⟩ := h.core.upt u th slot t hup
  have hvr : ∀ r, v = .ref r → Ok s r := fun r hr => h.core.acc (hav r hr)
  rw [modify_eq ho]
  by_cases hl : Live s th
  · exact stack_inv (v := v) h hl ho hk hvr ⟨_, _, rfl⟩ fun r hr => mem_set_ref hr
  · have sh := h.core.shapes th o ho
    have hget : ∀ w r, (s.setObj th (some { o with vals := o.vals.set slot v })).upGet w = .ref r → s.upGet w = .ref r ∨ Ok s r := by
      intro w r hr
      rcases upGet_setObj (o' := { o with vals := o.vals.set slot v }) h.core ho w with h1 | ⟨_, sl, h1, h2⟩
      · exact .inl (h1 ▸ hr)
      · rw [h1] at hr
        rw [h2]
        dsimp only at hr
        rw [List.getD_eq_getElem?_getD, List.getElem?_set] at hr
        split at hr
        · split at hr
          · exact .inr (hvr r hr)
          · cases hr
        · exact .inl (by rw [List.getD_eq_getElem?_getD]; exact hr)
    have hnw : s.keepinvariant = true → False := fun hkp => hl ((h.mark hkp).live th (by rw [ho]; rfl))
    refine op_up h (setObj_same s th _) rfl rfl rfl ⟨rfl, rfl, rfl, rfl, rfl⟩ ho rfl rfl ?_ (fun hkp => (hnw hkp).elim) (fun hkp => (hnw hkp).elim)
    refine h.core.upd (o' := { o with vals := o.vals.set slot v }) (setObj_same s th _) rfl ho rfl rfl
      ⟨sh.mt, fun _ => by dsimp only; rw [hk]; simp, sh.nodes, sh.ups, sh.cache, sh.own⟩ ?_ ?_ ?_ ?_ ?_ ?_ ?_
    · exact fun j oj _ hj hkj u hu => (h.core.shapes j oj hj).own hkj u hu
    · intro w th' sl t hu
      by_cases hth : th' = th
      · subst hth
        obtain ⟨o2, ho2, hk2, hm⟩ := h.core.upt w th' sl t hu
        rw [ho] at ho2
        cases ho2
        exact .inr ⟨rfl, hk2, hm⟩
      · exact .inl ⟨hth, t, hu⟩
    · exact fun hk' => h.core.upnd th o ho hk'
    · exact fun u th sl t hu hl => h.core.tw u th sl t hu hl
    · exact fun th ht => .inl ht
    · exact fun hl' => absurd hl' hl
    · exact fun j oj _ _ _ u _ r hr => hget u r hr

theorem capture_inv {s : G} {th : Id} {slot u : Nat} (n : Nat) (h : Inv s) (hv : Valid s (.capture th slot u)) :
    Inv (exec n s (.capture th slot u)) ∧ (exec n s (.capture th slot u)).oof = s.oof := by
  obtain ⟨⟨hf1, hf2⟩, ha, o, ho, hk, _⟩ := hv
  have hok := h.core.acc ha
  simp only [exec]
  rw [modify_eq ho]
  have sh := h.core.shapes th o ho
  obtain ⟨tw, etw, htw1, htw2, htw3⟩ : ∃ tw, (if th ∈ ((s.setObj th (some { o with ups := u :: o.ups })).setUp u (.opn th slot true)).twups then
      (s.setObj th (some { o with ups := u :: o.ups })).setUp u (.opn th slot true)
      else { (s.setObj th (some { o with ups := u :: o.ups })).setUp u (.opn th slot true) with
        twups := th :: ((s.setObj th (some { o with ups := u :: o.ups })).setUp u (.opn th slot true)).twups }) =
      { (s.setObj th (some { o with ups := u :: o.ups })).setUp u (.opn th slot true) with twups := tw } ∧
      th ∈ tw ∧ (∀ x ∈ s.twups, x ∈ tw) ∧ (∀ x ∈ tw, x ∈ s.twups ∨ x = th) := by
    by_cases hm : th ∈ s.twups
    · exact ⟨s.twups, (if_pos hm).trans rfl, hm, fun _ h => h, fun _ h => .inl h⟩
    · refine ⟨th :: s.twups, (if_neg hm).trans rfl, by simp, fun _ h => by simp [h], fun x hx => ?_⟩
      rw [List.mem_cons] at hx
      exact hx.symm
  rw [etw]
  refine ⟨?_, rfl⟩
  have hupw : ∀ w, ({ (s.setObj th (some { o with ups := u :: o.ups })).setUp u (.opn th slot true) with twups := tw } : G).up w =
      if w = u then .opn th slot true else s.up w := fun _ => rfl
  have hg : ∀ w, w ≠ u → G.upGet { (s.setObj th (some { o with ups := u :: o.ups })).setUp u (.opn th slot true) with twups := tw } w = s.upGet w := by
    intro w hw
    refine upGet_eq ?_ (.inl ?_)
    · exact fun j => setObj_ups (u :: o.ups) ho j
    · rw [hupw, if_neg hw]
  have hgu : G.upGet { (s.setObj th (some { o with ups := u :: o.ups })).setUp u (.opn th slot true) with twups := tw } u = o.vals.getD slot .nil := by
    unfold G.upGet
    rw [hupw, if_pos rfl]
    dsimp only
    rw [show ((s.setObj th (some { o with ups := u :: o.ups })).setUp u (.opn th slot true)).obj th = some { o with ups := u :: o.ups } from if_pos rfl]
  refine op_up (o' := { o with ups := u :: o.ups }) h (by constructor <;> rfl) rfl rfl rfl ⟨rfl, rfl, rfl, rfl, rfl⟩ ho rfl rfl ?_ ?_ (fun _ _ hd _ => (done_thread hd hk).elim)
  · refine h.core.upd (o' := { o with ups := u :: o.ups }) (by constructor <;> rfl) rfl ho rfl rfl
      ⟨sh.mt, sh.vals, sh.nodes, fun _ => .inr hk, sh.cache, fun _ w hw => ?_⟩ ?_ ?_ ?_ ?_ ?_ ?_ ?_
    · rw [hupw]
      by_cases hwu : w = u
      · exact ⟨slot, true, if_pos hwu⟩
      · rw [if_neg hwu]
        exact sh.own hk w (by simpa [hwu] using hw)
    · intro j oj _ hj hkj w hw
      rw [hupw, if_neg]
      · exact (h.core.shapes j oj hj).own hkj w hw
      · rintro rfl; exact hf1 j oj hj hw
    · intro w th' sl t hw
      rw [hupw] at hw
      by_cases hwu : w = u
      · rw [if_pos hwu] at hw
        cases hw
        exact .inr ⟨rfl, hk, by simp [hwu]⟩
      · rw [if_neg hwu] at hw
        by_cases hth : th' = th
        · subst hth
          obtain ⟨o2, ho2, hk2, hm⟩ := h.core.upt w th' sl t hw
          rw [ho] at ho2
          cases ho2
          exact .inr ⟨rfl, hk2, by simp [hm]⟩
        · exact .inl ⟨hth, t, hw⟩
    · exact fun _ => List.nodup_cons.mpr ⟨hf1 th o ho, h.core.upnd th o ho hk⟩
    · intro w th' sl t hw hl
      rw [hupw] at hw
      by_cases hwu : w = u
      · rw [if_pos hwu] at hw
        cases hw
        exact htw1
      · rw [if_neg hwu] at hw
        exact htw2 _ (h.core.tw w th' sl t hw hl)
    · intro x hx
      exact (htw3 x hx).imp id (fun (e : x = th) => by rw [e]; exact hok)
    · intro hl r hr
      cases hr with
      | mt h1 => exact h.core.closed th o ho hl r (.mt h1)
      | val h1 => exact h.core.closed th o ho hl r (.val h1)
      | key h1 h2 => exact h.core.closed th o ho hl r (.key h1 h2)
      | nval h1 h2 => exact h.core.closed th o ho hl r (.nval h1 h2)
      | cache h1 => exact h.core.closed th o ho hl r (.cache h1)
      | @up w _ h1 h2 =>
        by_cases hwu : w = u
        · subst hwu
          rw [hgu] at h2
          exact h.core.closed th o ho hl r (.val (Shape.getD_mem h2))
        · rw [hg w hwu] at h2
          exact h.core.closed th o ho hl r (.up (by simpa [hwu] using h1) h2)
    · intro j oj _ hj _ w hw r hr
      have : w ≠ u := by rintro rfl; exact hf1 j oj hj hw
      rw [hg w this] at hr
      exact .inl hr
  · intro _ j oj _ hj _ w hw hok'
    have : w ≠ u := by rintro rfl; exact hf1 j oj hj hw
    exact hok'.same (s := s) rfl (by rw [hupw, if_neg this])

end Verif.GC
