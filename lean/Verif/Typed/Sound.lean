import Verif.Typed.Model

/-! # Soundness of the static types: invariants of expressions -/
namespace Verif.Typed

/-- Not undefined, and the condition holds of the outcome. -/
def Post {α : Type} (r : Res α) (P : α → Prop) : Prop :=
  match r with
  | .ok a => P a
  | .err _ => True
  | .ub => False

theorem Post.bind {α β : Type} {r : Res α} {f : α → Res β} {P : α → Prop} {Q : β → Prop} (h : Post r P)
    (g : ∀ a, P a → Post (f a) Q) : Post (r >>= f) Q := by
  cases r with
  | ok a => exact g a h
  | err m => trivial
  | ub => exact h.elim

theorem Post.mono {α : Type} {r : Res α} {P Q : α → Prop} (h : Post r P) (g : ∀ a, P a → Q a) : Post r Q := by
  cases r with
  | ok a => exact g a h
  | err m => trivial
  | ub => exact h.elim

theorem Post.ok {α : Type} {a : α} {P : α → Prop} (h : P a) : Post (.ok a) P := h
theorem Post.pure {α : Type} {a : α} {P : α → Prop} (h : P a) : Post (pure a) P := h
theorem Post.err {α : Type} {m : String} {P : α → Prop} : Post (.err m : Res α) P := trivial

theorem Post.map {α β : Type} {r : Res α} {f : α → β} {Q : β → Prop} (h : Post r fun a => Q (f a)) : Post (r.map' f) Q := by
  cases r with
  | ok a => exact h
  | err m => trivial
  | ub => exact h.elim

/-! ## Type maps -/

theorem has_any (v : Val) : has tANY v = true := by
  cases v <;> first | (rename_i b; cases b <;> simp [has, tANY, Val.ti]; done) | simp [has, tANY, Val.ti]

theorem has_or (a b : TM) (v : Val) : has (a ||| b) v = (has a v || has b v) := by
  simp only [has, BitVec.getLsbD_or]
  cases a.getLsbD v.ti <;> cases b.getLsbD v.ti <;> cases a.getLsbD 10 <;> cases b.getLsbD 10 <;> cases v.indexable <;> rfl

theorem ti_lt (v : Val) : v.ti < 32 := by
  cases v <;> first | (rename_i b; cases b <;> simp [Val.ti]; done) | simp [Val.ti]

theorem sub_bit {a b : TM} (h : sub a b = true) {i : Nat} (hi : i < 32) (ha : a.getLsbD i = true) : b.getLsbD i = true := by
  have h0 : a &&& ~~~b = 0#32 := by simpa [sub] using h
  have h1 : (a &&& ~~~b).getLsbD i = false := by rw [h0]; simp
  simp only [BitVec.getLsbD_and, BitVec.getLsbD_not, ha, Bool.true_and, hi, decide_true] at h1
  simpa using h1

theorem sub_has {a b : TM} (h : sub a b = true) {v : Val} (hv : has a v = true) : has b v = true := by
  simp only [has, Bool.or_eq_true, Bool.and_eq_true] at hv ⊢
  rcases hv with hv | ⟨hv, hx⟩
  · exact .inl (sub_bit h (ti_lt v) hv)
  · exact .inr ⟨sub_bit h (by decide) hv, hx⟩

/-- All cases of a value. -/
macro "vcases" v:ident h:ident : tactic => `(tactic|
  (cases $v:ident with
    | bool b => cases b <;> simp [has, Val.ti, Val.indexable, Val.falsy, Val.isNum, Val.isStrNum, tTRUISH, tFALSISH, tNIL, tFALSE, tINT, tFLT, tIARR, tFARR, tTAB, tSTR, tNUM] at $h:ident ⊢ <;> try assumption
    | _ => simp [has, Val.ti, Val.indexable, Val.falsy, Val.isNum, Val.isStrNum, tTRUISH, tFALSISH, tNIL, tFALSE, tINT, tFLT, tIARR, tFARR, tTAB, tSTR, tNUM] at $h:ident ⊢ <;> try assumption))

theorem has_truish {t : TM} {v : Val} (h : has t v = true) (hv : v.falsy = false) : has (t &&& tTRUISH) v = true := by
  revert hv
  vcases v h

theorem has_falsish {t : TM} {v : Val} (h : has t v = true) (hv : v.falsy = true) : has (t &&& tFALSISH) v = true := by
  revert hv
  vcases v h

theorem has_ne {t : TM} {v : Val} (h : has t v = true) : t ≠ 0#32 := by
  rintro rfl
  simp [has] at h

theorem has_int {v : Val} (h : has tINT v = true) : ∃ i, v = .int i := by vcases v h

theorem has_flt {v : Val} (h : has tFLT v = true) : ∃ i, v = .flt i := by vcases v h

theorem has_iarr {v : Val} (h : has tIARR v = true) : ∃ i, v = .iarr i := by vcases v h

theorem has_farr {v : Val} (h : has tFARR v = true) : ∃ i, v = .farr i := by vcases v h

theorem has_tab {v : Val} (h : has tTAB v = true) : ∃ i, v = .tab i := by vcases v h

theorem has_num {v : Val} (h : has tNUM v = true) : (∃ i, v = .int i) ∨ ∃ n, v = .flt n := by vcases v h

@[simp] theorem hii (i : Int) : has tINT (.int i) = true := by simp [has, tINT, Val.ti]
@[simp] theorem hff (n : Nat) : has tFLT (.flt n) = true := by simp [has, tFLT, Val.ti]
@[simp] theorem hfi (i : Int) : has tFLT (.int i) = false := by simp [has, tFLT, Val.ti, Val.indexable]
@[simp] theorem hif (n : Nat) : has tINT (.flt n) = false := by simp [has, tINT, Val.ti, Val.indexable]
@[simp] theorem hss (x : String) : has tSTR (.str x) = true := by simp [has, tSTR, Val.ti]

theorem has_bit {t : TM} {v : Val} (h : has t v = true) (hv : v.indexable = false) : t.getLsbD v.ti = true := by
  simpa [has, hv] using h

theorem has_of_bit {t : TM} {v : Val} (h : t.getLsbD v.ti = true) : has t v = true := by simp [has, h]

theorem has_strnum {v : Val} (h : has (tSTR ||| tINT ||| tFLT) v = true) : v.isStrNum = true := by vcases v h

theorem has_lenarg {v : Val} (h : has (tIARR ||| tFARR ||| tSTR) v = true) :
    (∃ i, v = .iarr i) ∨ (∃ i, v = .farr i) ∨ ∃ s, v = .str s := by vcases v h

theorem has_arrs {v : Val} (h : has (tIARR ||| tFARR) v = true) : (∃ i, v = .iarr i) ∨ ∃ i, v = .farr i := by vcases v h

theorem bit_and {t : TM} {m : TM} {i : Nat} (h : t.getLsbD i = true) (hm : m.getLsbD i = true) : t &&& m ≠ 0#32 := by
  intro h0
  have : (t &&& m).getLsbD i = false := by rw [h0]; simp
  simp [h, hm] at this

/-! ## Well-typed states -/

/-- Every variable holds a value of its declared type. -/
structure WT (G : Env) (s : St) : Prop where
  ll : s.regs.length = G.loc.length
  lv : ∀ (n : Nat) (t : Decl), G.loc[n]? = some t → ∃ v, s.regs[n]? = some v ∧ has (declTm t) v = true
  ul : s.ups.length = G.up.length
  uv : ∀ (n : Nat) (t : Decl), G.up[n]? = some t → ∃ v, s.ups[n]? = some v ∧ has (declTm t) v = true

theorem mix_length : ∀ (ds : List Decl) (vs hs : List Val), (mix ds vs hs).length = vs.length
  | [], vs, hs => by simp [mix]
  | _ :: _, [], hs => by simp [mix]
  | _ :: _, _ :: _, [] => by simp [mix]
  | d :: ds, v :: vs, h :: hs => by simp [mix, mix_length ds vs hs]

theorem mix_ok : ∀ (ds : List Decl) (vs hs : List Val),
    (∀ (n : Nat) (t : Decl), ds[n]? = some t → ∃ v, vs[n]? = some v ∧ has (declTm t) v = true) →
    ∀ (n : Nat) (t : Decl), ds[n]? = some t → ∃ v, (mix ds vs hs)[n]? = some v ∧ has (declTm t) v = true
  | [], vs, hs, _, n, t, ht => by simp at ht
  | _ :: _, [], hs, h, n, t, ht => by simpa [mix] using h n t ht
  | _ :: _, _ :: _, [], h, n, t, ht => by simpa [mix] using h n t ht
  | d :: ds, v :: vs, x :: hs, h, n, t, ht => by
    cases n with
    | zero =>
      simp only [List.getElem?_cons_zero, Option.some.injEq] at ht
      subst ht
      obtain ⟨w, hw, hh⟩ := h 0 d (by simp)
      simp only [List.getElem?_cons_zero, Option.some.injEq] at hw
      subst hw
      refine ⟨if has (declTm d) x then x else v, by simp [mix], ?_⟩
      split
      · assumption
      · exact hh
    | succ n =>
      simp only [mix, List.getElem?_cons_succ] at ht ⊢
      exact mix_ok ds vs hs (fun m u hu => by simpa using h (m + 1) u (by simpa using hu)) n t ht

theorem other_wt {G : Env} {W : World} {s : St} (h : WT G s) : WT G (other G W s) :=
  ⟨by simp only [other, mix_length]; exact h.ll, mix_ok _ _ _ h.lv, by simp only [other, mix_length]; exact h.ul, mix_ok _ _ _ h.uv⟩

theorem tick_wt {G : Env} {s : St} (h : WT G s) (n : Nat) : WT G { s with n := n } := ⟨h.ll, h.lv, h.ul, h.uv⟩

theorem ask_post {G : Env} {W : World} {s : St} (h : WT G s) : Post (ask G W s) fun r => WT G r.2 := by
  unfold ask
  cases W.orc s.n with
  | none => trivial
  | some v => exact other_wt h

theorem wr_wt {G : Env} {s : St} (h : WT G s) {n : Nat} {v : Val} (hv : ∀ t, G.loc[n]? = some t → has (declTm t) v = true) :
    WT G (wr s n v) := by
  refine ⟨by simpa [wr] using h.ll, fun m t ht => ?_, h.ul, h.uv⟩
  obtain ⟨w, hw, hh⟩ := h.lv m t ht
  by_cases e : n = m
  · subst e
    refine ⟨v, ?_, hv t ht⟩
    simp only [wr, List.getElem?_set_self']
    rw [hw]
    rfl
  · exact ⟨w, by simp only [wr]; rw [List.getElem?_set_ne e]; exact hw, hh⟩

theorem setup_wt {G : Env} {s : St} (h : WT G s) {n : Nat} {v : Val} (hv : ∀ t, G.up[n]? = some t → has (declTm t) v = true) :
    WT G { s with ups := s.ups.set n v } := by
  refine ⟨h.ll, h.lv, by simpa using h.ul, fun m t ht => ?_⟩
  obtain ⟨w, hw, hh⟩ := h.uv m t ht
  by_cases e : n = m
  · subst e
    refine ⟨v, ?_, hv t ht⟩
    simp only [List.getElem?_set_self']
    rw [hw]
    rfl
  · exact ⟨w, by simp only []; rw [List.getElem?_set_ne e]; exact hw, hh⟩

/-! ## Operands and flows -/

/-- The operand reads, and gives a value of the type. -/
def Reads (s : St) (t : TM) (o : Opd) : Prop := ∃ v, rd s o = .ok v ∧ has t v = true

/-- The operand keeps its type whatever other code does. -/
def Stab (G : Env) (t : TM) (o : Opd) : Prop := ∀ s, WT G s → Reads s t o

/-- What the operand of a descriptor is. -/
def OkO (G : Env) (s : St) (d : D) (o : Opd) : Prop :=
  match d.k with
  | .indexed _ ktm _ => ∃ ot ok, o = .idx ot ok ∧ Stab G d.tm ot ∧ Stab G ktm ok
  | .jmp => ∃ b, o = .cond b ∧ has d.tm (.bool b) = true
  | .nonreloc (some n) => o = .loc n ∧ Reads s d.tm o
  | .loc n => o = .loc n ∧ ∃ c, G.loc[n]? = some c ∧ d.tm = declTm c
  | .up n => o = .up n ∧ ∃ c, G.up[n]? = some c ∧ d.tm = declTm c
  | .nil => o = .val .nil ∧ has d.tm .nil = true
  | .fls => o = .val (.bool false) ∧ has d.tm (.bool false) = true
  | .tru | .k _ | .kint _ | .kflt _ => ∃ v, o = .val v ∧ v.falsy = false ∧ has d.tm v = true
  | .reloc true => ∃ b, o = .val (.bool b) ∧ has d.tm (.bool b) = true
  | .reloc false | .nonreloc none | .call | .dots => ∃ v, o = .val v ∧ has d.tm v = true

/-- The value a flow that has left the expression carries. -/
def outVal (b : Bool) (v : Option Val) : Val := v.getD (.bool b)

/-- What the flow of a descriptor is. -/
def OkF (G : Env) (s : St) (d : D) (f : Flow) : Prop :=
  match f with
  | .thru o => OkO G s d o
  | .out b v => has (disch d).tm (outVal b v) = true ∧ (outVal b v).falsy = !b ∧ (if b then d.jt = true else d.jf = true)

theorem stab_val {G : Env} {t : TM} {v : Val} (h : has t v = true) : Stab G t (.val v) := fun _ _ => ⟨v, rfl, h⟩

theorem stab_loc {G : Env} {n : Nat} {c : Decl} (h : G.loc[n]? = some c) : Stab G (declTm c) (.loc n) := by
  intro s hs
  obtain ⟨v, hv, hh⟩ := hs.lv n c h
  exact ⟨v, by simp only [rd, hv], hh⟩

theorem stab_up {G : Env} {n : Nat} {c : Decl} (h : G.up[n]? = some c) : Stab G (declTm c) (.up n) := by
  intro s hs
  obtain ⟨v, hv, hh⟩ := hs.uv n c h
  exact ⟨v, by simp only [rd, hv], hh⟩

theorem reads_sub {s : St} {a b : TM} {o : Opd} (h : sub a b = true) (r : Reads s a o) : Reads s b o :=
  r.imp fun _ hv => ⟨hv.1, sub_has h hv.2⟩

/-- The operand is not the register of a variable, or one whose declared type is not larger. -/
def stableD (G : Env) (d : D) : Bool :=
  d.hasjumps || match d.k with
    | .nonreloc (some n) => (match G.loc[n]? with | some c => sub (declTm c) d.tm | none => false)
    | _ => true

/-! ## Accesses -/

theorem idx_int {t : TM} {a : Nat} (h : has t (.iarr a) = true) (i : Int) : has (idxTm t) (.int i) = true := by
  unfold idxTm
  split
  · exact has_any _
  · rename_i hs
    have hs : sub t (tIARR ||| tFARR) = true := by simpa using hs
    have hb : t.getLsbD 5 = true := by
      simp only [has, Bool.or_eq_true, Bool.and_eq_true] at h
      rcases h with h | ⟨h, _⟩
      · exact h
      · exact absurd (sub_bit hs (by decide) h) (by decide)
    rw [if_pos (bit_and hb (by decide)), has_or, hii]
    rfl

theorem idx_flt {t : TM} {a : Nat} (h : has t (.farr a) = true) (i : Nat) : has (idxTm t) (.flt i) = true := by
  unfold idxTm
  split
  · exact has_any _
  · rename_i hs
    have hs : sub t (tIARR ||| tFARR) = true := by simpa using hs
    have hb : t.getLsbD 6 = true := by
      simp only [has, Bool.or_eq_true, Bool.and_eq_true] at h
      rcases h with h | ⟨h, _⟩
      · exact h
      · exact absurd (sub_bit hs (by decide) h) (by decide)
    rw [if_pos (bit_and (m := tFARR) hb (by decide)), has_or, hff, Bool.or_true]

theorem idx_any {t : TM} {v : Val} (h : has t v = true) (h1 : ∀ a, v ≠ .iarr a) (h2 : ∀ a, v ≠ .farr a) : idxTm t = tANY := by
  unfold idxTm
  split
  · rfl
  · rename_i hs
    have hs : sub t (tIARR ||| tFARR) = true := by simpa using hs
    rcases has_arrs (sub_has hs h) with ⟨a, rfl⟩ | ⟨a, rfl⟩
    · exact absurd rfl (h1 a)
    · exact absurd rfl (h2 a)

theorem getI_post {G : Env} {W : World} {s : St} (hs : WT G s) {t : TM} {a : Nat} (h : has t (.iarr a) = true) :
    Post (getI W s) fun r => WT G r.2 ∧ has (idxTm t) r.1 = true := by
  unfold getI
  cases W.elI s.n with
  | none => trivial
  | some i => exact ⟨tick_wt hs _, idx_int h i⟩

theorem getF_post {G : Env} {W : World} {s : St} (hs : WT G s) {t : TM} {a : Nat} (h : has t (.farr a) = true) :
    Post (getF W s) fun r => WT G r.2 ∧ has (idxTm t) r.1 = true := by
  unfold getF
  cases W.elF s.n with
  | none => trivial
  | some i => exact ⟨tick_wt hs _, idx_flt h i⟩

theorem ask_any {G : Env} {W : World} {s : St} (hs : WT G s) {t : TM} (ht : t = tANY) :
    Post (ask G W s) fun r => WT G r.2 ∧ has t r.1 = true :=
  (ask_post hs).mono fun _ h => ⟨h, ht ▸ has_any _⟩

theorem getGen_post {G : Env} {W : World} {s : St} (hs : WT G s) {t : TM} {vt vk : Val} (h : has t vt = true) :
    Post (getGen G W vt vk s) fun r => WT G r.2 ∧ has (idxTm t) r.1 = true := by
  cases vt with
  | iarr a => cases vk <;> first | exact getI_post hs h | trivial
  | farr a => cases vk <;> first | exact getF_post hs h | trivial
  | _ => exact ask_any hs (idx_any h (fun a e => nomatch e) (fun a e => nomatch e))

theorem ivalue_post {v : Val} (h : has tINT v = true) : ∃ i, ivalue v = .ok i := by
  obtain ⟨i, rfl⟩ := has_int h
  exact ⟨i, rfl⟩

theorem fltvalue_post {v : Val} (h : has tFLT v = true) : ∃ i, fltvalue v = .ok i := by
  obtain ⟨i, rfl⟩ := has_flt h
  exact ⟨i, rfl⟩

theorem getOp_post {G : Env} {W : World} {s : St} (hs : WT G s) {isup : Bool} {ktm : TM} {short : Bool} {t : TM} {vt vk : Val}
    (h : has t vt = true) (hk : has ktm vk = true) :
    Post (getOp G W isup ktm short t vt vk s) fun r => WT G r.2 ∧ has (idxTm t) r.1 = true := by
  unfold getOp
  split
  · exact getGen_post hs h
  · split
    · rename_i e
      subst e
      obtain ⟨i, hi⟩ := ivalue_post hk
      rw [hi, Res.bind_ok]
      split
      · rename_i e
        subst e
        obtain ⟨a, rfl⟩ := has_farr h
        exact getF_post hs h
      · split
        · rename_i e
          subst e
          obtain ⟨a, rfl⟩ := has_iarr h
          exact getI_post hs h
        · exact getGen_post hs h
    · split
      · rename_i e
        obtain ⟨_, _, rfl⟩ := e
        obtain ⟨a, rfl⟩ := has_tab h
        exact ask_any hs (by rfl)
      · exact getGen_post hs h

theorem rd_bind {β : Type} {s : St} {t : TM} {o : Opd} {f : Val → Res β} {Q : β → Prop} (h : Reads s t o)
    (g : ∀ v, has t v = true → Post (f v) Q) : Post (rd s o >>= f) Q := by
  obtain ⟨v, hv, hh⟩ := h
  rw [hv, Res.bind_ok]
  exact g v hh

theorem dischR_post {G : Env} {W : World} {s : St} {d : D} {o : Opd} (hs : WT G s) (h : OkO G s d o) :
    Post (dischR G W d o s) fun r => WT G r.2 ∧ OkO G r.2 (disch d) r.1 := by
  obtain ⟨k, tm, ut, pc, jt, jf⟩ := d
  cases k with
  | indexed isup ktm short =>
    obtain ⟨ot, ok, rfl, ht, hk⟩ := h
    unfold dischR
    refine rd_bind (ht s hs) fun vt hvt => rd_bind (hk s hs) fun vk hvk => ?_
    refine (getOp_post hs hvt hvk).bind fun r hr => ?_
    exact ⟨hr.1, r.1, rfl, hr.2⟩
  | up n =>
    obtain ⟨rfl, c, hc, rfl⟩ := h
    unfold dischR
    refine rd_bind (stab_up hc s hs) fun v hv => ?_
    exact ⟨hs, v, rfl, hv⟩
  | loc n =>
    obtain ⟨rfl, c, hc, ht⟩ := h
    refine ⟨hs, rfl, ?_⟩
    change Reads s tm (.loc n)
    rw [show tm = declTm c from ht]
    exact stab_loc hc s hs
  | jmp => obtain ⟨b, rfl, hb⟩ := h; exact ⟨hs, b, rfl, hb⟩
  | nonreloc l =>
    cases l with
    | none => obtain ⟨v, rfl, hv⟩ := h; exact ⟨hs, v, rfl, hv⟩
    | some n => obtain ⟨rfl, hv⟩ := h; exact ⟨hs, rfl, hv⟩
  | reloc b =>
    cases b with
    | true => obtain ⟨v, rfl, hv⟩ := h; exact ⟨hs, v, rfl, hv⟩
    | false => obtain ⟨v, rfl, hv⟩ := h; exact ⟨hs, v, rfl, hv⟩
  | nil => obtain ⟨rfl, hv⟩ := h; exact ⟨hs, rfl, hv⟩
  | fls => obtain ⟨rfl, hv⟩ := h; exact ⟨hs, rfl, hv⟩
  | tru => obtain ⟨v, rfl, hv⟩ := h; exact ⟨hs, v, rfl, hv⟩
  | k x => obtain ⟨v, rfl, hv⟩ := h; exact ⟨hs, v, rfl, hv⟩
  | kint x => obtain ⟨v, rfl, hv⟩ := h; exact ⟨hs, v, rfl, hv⟩
  | kflt x => obtain ⟨v, rfl, hv⟩ := h; exact ⟨hs, v, rfl, hv⟩
  | call => obtain ⟨v, rfl, hv⟩ := h; exact ⟨hs, v, rfl, hv⟩
  | dots => obtain ⟨v, rfl, hv⟩ := h; exact ⟨hs, v, rfl, hv⟩

/-- Descriptors whose operand can be read. -/
theorem okO_reads {G : Env} {s : St} {d : D} {o : Opd} (hs : WT G s) (h : OkO G s d o) (hk : ∀ a b c, d.k ≠ .indexed a b c) :
    Reads s d.tm o := by
  obtain ⟨k, tm, ut, pc, jt, jf⟩ := d
  cases k with
  | indexed a b c => exact absurd rfl (hk a b c)
  | up n => obtain ⟨rfl, c, hc, e⟩ := h; rw [e]; exact stab_up hc s hs
  | loc n => obtain ⟨rfl, c, hc, e⟩ := h; rw [e]; exact stab_loc hc s hs
  | jmp => obtain ⟨b, rfl, hb⟩ := h; exact ⟨_, rfl, hb⟩
  | nonreloc l =>
    cases l with
    | none => obtain ⟨v, rfl, hv⟩ := h; exact ⟨v, rfl, hv⟩
    | some n => exact h.2
  | reloc b =>
    cases b with
    | true => obtain ⟨v, rfl, hv⟩ := h; exact ⟨_, rfl, hv⟩
    | false => obtain ⟨v, rfl, hv⟩ := h; exact ⟨v, rfl, hv⟩
  | nil => obtain ⟨rfl, hv⟩ := h; exact ⟨_, rfl, hv⟩
  | fls => obtain ⟨rfl, hv⟩ := h; exact ⟨_, rfl, hv⟩
  | tru => obtain ⟨v, rfl, _, hv⟩ := h; exact ⟨v, rfl, hv⟩
  | k x => obtain ⟨v, rfl, _, hv⟩ := h; exact ⟨v, rfl, hv⟩
  | kint x => obtain ⟨v, rfl, _, hv⟩ := h; exact ⟨v, rfl, hv⟩
  | kflt x => obtain ⟨v, rfl, _, hv⟩ := h; exact ⟨v, rfl, hv⟩
  | call => obtain ⟨v, rfl, hv⟩ := h; exact ⟨v, rfl, hv⟩
  | dots => obtain ⟨v, rfl, hv⟩ := h; exact ⟨v, rfl, hv⟩

theorem disch_not_indexed (d : D) (a : Bool) (b : TM) (c : Bool) : (disch d).k ≠ .indexed a b c := by
  obtain ⟨k, tm, ut, pc, jt, jf⟩ := d
  cases k <;> simp [disch]

theorem disch_idem (d : D) : disch (disch d) = disch d := by
  obtain ⟨k, tm, ut, pc, jt, jf⟩ := d
  cases k <;> rfl

theorem anyreg_tm (d : D) : (anyreg d).tm = (disch d).tm := by
  obtain ⟨k, tm, ut, pc, jt, jf⟩ := d
  cases jt <;> cases jf <;> cases k <;> rfl

theorem exp2val_tm (d : D) : (exp2val d).tm = (disch d).tm := by
  unfold exp2val
  split
  · exact anyreg_tm d
  · rfl

theorem disch_jt (d : D) : (disch d).jt = d.jt := by
  obtain ⟨k, tm, ut, pc, jt, jf⟩ := d
  cases k <;> rfl

theorem disch_jf (d : D) : (disch d).jf = d.jf := by
  obtain ⟨k, tm, ut, pc, jt, jf⟩ := d
  cases k <;> rfl

theorem exp2rk_tm (d : D) : (exp2rk d).tm = (disch d).tm := by
  have e : (disch (exp2val d)).tm = (exp2val d).tm := by
    have : ∀ x : D, (∀ a b c, x.k ≠ .indexed a b c) → (disch x).tm = x.tm := by
      rintro ⟨k, tm, ut, pc, jt, jf⟩ h
      cases k <;> first | rfl | exact absurd rfl (h _ _ _)
    apply this
    intro a b c
    unfold exp2val
    split
    · obtain ⟨k, tm, ut, pc, jt, jf⟩ := d
      cases jt <;> cases jf <;> cases k <;> simp [anyreg, disch, D.hasjumps]
    · exact disch_not_indexed d a b c
  unfold exp2rk
  dsimp only
  split <;> first | exact exp2val_tm d | (rw [anyreg_tm, e]; exact exp2val_tm d)

theorem settle_post {G : Env} {W : World} {s : St} {d : D} {f : Flow} (hs : WT G s) (h : OkF G s d f) :
    Post (settle G W d f s) fun r => WT G r.2 ∧ has (disch d).tm r.1 = true := by
  cases f with
  | thru o =>
    unfold settle
    refine (dischR_post hs h).bind fun r hr => ?_
    refine rd_bind (okO_reads hr.1 hr.2 (disch_not_indexed d)) fun v hv => ?_
    exact ⟨hr.1, hv⟩
  | out b v =>
    cases v with
    | none => exact ⟨hs, h.1⟩
    | some v => exact ⟨hs, h.1⟩

theorem rkR_post {G : Env} {W : World} {s : St} {d : D} {f : Flow} (hs : WT G s) (h : OkF G s d f) :
    Post (rkR G W d f s) fun r => WT G r.2 ∧ Reads r.2 (disch d).tm r.1 ∧ (stableD G d = true → Stab G (disch d).tm r.1) := by
  unfold rkR
  split
  · refine (settle_post hs h).bind fun r hr => ?_
    exact ⟨hr.1, ⟨r.1, rfl, hr.2⟩, fun _ => stab_val hr.2⟩
  · rename_i hj
    cases f with
    | out b v =>
      exfalso
      apply hj
      simp only [D.hasjumps]
      have := h.2.2
      cases b <;> simp_all
    | thru o =>
      refine (dischR_post hs h).mono fun r hr => ⟨hr.1, okO_reads hr.1 hr.2 (disch_not_indexed d), fun st => ?_⟩
      have h2 := hr.2
      obtain ⟨k, tm, ut, pc, jt, jf⟩ := d
      cases k with
      | nonreloc l =>
        cases l with
        | none => obtain ⟨v, e, hv⟩ := h2; rw [e]; exact stab_val hv
        | some n =>
          rw [h2.1]
          unfold stableD at st
          rw [Bool.or_eq_true] at st
          rcases st with st | st
          · exact absurd st hj
          · simp only [] at st
            cases hc : G.loc[n]? with
            | none => rw [hc] at st; cases st
            | some c =>
              rw [hc] at st
              intro s' hs'
              exact reads_sub st (stab_loc hc s' hs')
      | loc n =>
        rw [h2.1]
        obtain ⟨-, c, hc, e⟩ := h
        rw [show (disch (D.mk (.loc n) tm ut pc jt jf)).tm = declTm c from e]
        exact stab_loc hc
      | jmp => obtain ⟨b, e, hb⟩ := h2; rw [e]; exact fun _ _ => ⟨_, rfl, hb⟩
      | indexed a b c => obtain ⟨v, e, hv⟩ := h2; rw [e]; exact stab_val hv
      | up n => obtain ⟨v, e, hv⟩ := h2; rw [e]; exact stab_val hv
      | reloc b => cases b <;> (obtain ⟨v, e, hv⟩ := h2; rw [e]; exact stab_val hv)
      | nil => obtain ⟨e, hv⟩ := h2; rw [e]; exact stab_val hv
      | fls => obtain ⟨e, hv⟩ := h2; rw [e]; exact stab_val hv
      | tru => obtain ⟨v, e, _, hv⟩ := h2; rw [e]; exact stab_val hv
      | k x => obtain ⟨v, e, _, hv⟩ := h2; rw [e]; exact stab_val hv
      | kint x => obtain ⟨v, e, _, hv⟩ := h2; rw [e]; exact stab_val hv
      | kflt x => obtain ⟨v, e, _, hv⟩ := h2; rw [e]; exact stab_val hv
      | call => obtain ⟨v, e, hv⟩ := h2; rw [e]; exact stab_val hv
      | dots => obtain ⟨v, e, hv⟩ := h2; rw [e]; exact stab_val hv

theorem dischF_post {G : Env} {W : World} {s : St} {d : D} {f : Flow} (hs : WT G s) (h : OkF G s d f) :
    Post (dischF G W d f s) fun r => WT G r.2 ∧ OkF G r.2 (disch d) r.1 := by
  cases f with
  | thru o =>
    unfold dischF
    exact (dischR_post hs h).bind fun r hr => ⟨hr.1, hr.2⟩
  | out b v =>
    refine ⟨hs, ?_, h.2.1, ?_⟩
    · rw [disch_idem]; exact h.1
    · rw [disch_jt, disch_jf]; exact h.2.2

/-! ## Operations -/

theorem arith_int {ii t1 t2 : TM} {i j k : Int} (hii : ii = tINT) (h1 : has t1 (.int i) = true) (h2 : has t2 (.int j) = true) :
    has (arithTm ii t1 t2) (.int k) = true := by
  subst hii
  unfold arithTm
  split
  · rename_i h
    rw [h.1, hfi] at h1
    cases h1
  · split
    · rename_i h
      rw [h.2, hfi] at h2
      cases h2
    · split
      · exact hii k
      · split
        · rw [if_pos, has_or, hii, Bool.or_true]
          · have b1 := has_bit h1 rfl
            have b2 := has_bit h2 rfl
            exact bit_and (i := 3) (by rw [BitVec.getLsbD_and, show t1.getLsbD 3 = true from b1, show t2.getLsbD 3 = true from b2]; rfl) (by decide)
        · exact has_any _

theorem arith_flt {ii t1 t2 : TM} {v1 v2 : Val} {n : Nat} (h1 : has t1 v1 = true) (h2 : has t2 v2 = true)
    (h : ii = tFLT ∨ ∀ i j, v1 = .int i → v2 = .int j → False) : has (arithTm ii t1 t2) (.flt n) = true := by
  unfold arithTm
  split
  · exact hff n
  · split
    · exact hff n
    · split
      · rename_i e
        rcases h with h | h
        · subst h; exact hff n
        · rw [e.1] at h1
          rw [e.2] at h2
          obtain ⟨i, e1⟩ := has_int h1
          obtain ⟨j, e2⟩ := has_int h2
          exact (h i j e1 e2).elim
      · split
        · split
          · rw [has_or, hff]; rfl
          · exact hff n
        · exact has_any _

theorem arith_any {ii t1 t2 : TM} {v1 v2 : Val} (h1 : has t1 v1 = true) (h2 : has t2 v2 = true)
    (h : ¬(v1.isNum = true ∧ v2.isNum = true)) : arithTm ii t1 t2 = tANY := by
  have hn : ∀ {t : TM} {v : Val}, sub t tNUM = true → has t v = true → v.isNum = true := by
    intro t v hs hv
    rcases has_num (sub_has hs hv) with ⟨i, rfl⟩ | ⟨n, rfl⟩ <;> rfl
  have c1 : sub tINT tNUM = true := by decide
  have c2 : sub tFLT tNUM = true := by decide
  unfold arithTm
  split
  · rename_i e
    refine (h ⟨hn (e.1 ▸ c2) h1, ?_⟩).elim
    rcases e.2 with e | e
    · exact hn (e ▸ c2) h2
    · exact hn (e ▸ c1) h2
  · split
    · rename_i e
      exact (h ⟨hn (e.1 ▸ c1) h1, hn (e.2 ▸ c2) h2⟩).elim
    · split
      · rename_i e
        exact (h ⟨hn (e.1 ▸ c1) h1, hn (e.2 ▸ c1) h2⟩).elim
      · split
        · rename_i e
          exact (h ⟨hn e.1 h1, hn e.2 h2⟩).elim
        · rfl

/-- Arithmetic on numbers. -/
def Bin.isArith : Bin → Bool
  | .add | .sub | .mul | .idiv | .mod => true
  | _ => false

/-- Bitwise operations. -/
def Bin.isBit : Bin → Bool
  | .band | .bor | .bxor | .shl | .shr => true
  | _ => false

theorem resI_post {G : Env} {s : St} (hs : WT G s) {x : Option Int} {t : TM} (ht : ∀ i, has t (.int i) = true) :
    Post (resI x s) fun r => WT G r.2 ∧ has t r.1 = true := by
  cases x with
  | none => trivial
  | some i => exact ⟨hs, ht i⟩

theorem bit_int {a b : TM} (i : Int) :
    has (if a = tINT ∧ b = tINT then tINT else if sub a tNUM = true ∧ sub b tNUM = true then tINT else tANY) (.int i) = true := by
  split
  · exact hii i
  · split
    · exact hii i
    · exact has_any _

theorem bitop_post {G : Env} {W : World} (hW : ∀ n, W.numbit n = none) {s : St} {v1 v2 : Val} {o : Bin} (ho : o.isBit = true) (hs : WT G s) {t : TM}
    (ht : ∀ i, has t (.int i) = true) : Post (numOp W o v1 v2 s) fun r => WT G r.2 ∧ has t r.1 = true := by
  cases o <;> simp [Bin.isBit] at ho <;>
  · simp only [numOp, hW]
    split
    · exact resI_post hs ht
    · trivial

theorem isNum_cases {v : Val} (h : v.isNum = true) : (∃ i, v = .int i) ∨ ∃ n, v = .flt n := by
  cases v <;> simp [Val.isNum] at h ⊢

theorem divop_post {G : Env} {W : World} {s : St} (hs : WT G s) {o : Bin} (ho : o = .div ∨ o = .pow) {t1 t2 : TM} {v1 v2 : Val}
    (h1 : has t1 v1 = true) (h2 : has t2 v2 = true) (n1 : v1.isNum = true) (n2 : v2.isNum = true) :
    Post (numOp W o v1 v2 s) fun r => WT G r.2 ∧ has (arithTm tFLT t1 t2) r.1 = true := by
  rcases isNum_cases n1 with ⟨i, rfl⟩ | ⟨a, rfl⟩ <;> rcases isNum_cases n2 with ⟨j, rfl⟩ | ⟨b, rfl⟩ <;> rcases ho with rfl | rfl <;>
    exact ⟨hs, arith_flt h1 h2 (.inl rfl)⟩

theorem arop_post {G : Env} {W : World} {s : St} (hs : WT G s) {o : Bin} (ho : o.isArith = true) {t1 t2 : TM} {v1 v2 : Val}
    (h1 : has t1 v1 = true) (h2 : has t2 v2 = true) (n1 : v1.isNum = true) (n2 : v2.isNum = true) :
    Post (numOp W o v1 v2 s) fun r => WT G r.2 ∧ has (arithTm tINT t1 t2) r.1 = true := by
  rcases isNum_cases n1 with ⟨i, rfl⟩ | ⟨a, rfl⟩ <;> rcases isNum_cases n2 with ⟨j, rfl⟩ | ⟨b, rfl⟩
  · cases o <;> simp [Bin.isArith] at ho <;> exact resI_post hs fun i => arith_int rfl h1 h2
  · cases o <;> simp [Bin.isArith] at ho <;> exact ⟨hs, arith_flt h1 h2 (.inr fun _ _ _ e => nomatch e)⟩
  · cases o <;> simp [Bin.isArith] at ho <;> exact ⟨hs, arith_flt h1 h2 (.inr fun _ _ e => nomatch e)⟩
  · cases o <;> simp [Bin.isArith] at ho <;> exact ⟨hs, arith_flt h1 h2 (.inr fun _ _ e => nomatch e)⟩

theorem numOp_post {G : Env} {W : World} (hW : ∀ n, W.numbit n = none) {s : St} (hs : WT G s) {o : Bin} {t1 t2 : TM} {v1 v2 : Val}
    (h1 : has t1 v1 = true) (h2 : has t2 v2 = true) (n1 : v1.isNum = true) (n2 : v2.isNum = true) (ho : o ≠ .concat) :
    Post (numOp W o v1 v2 s) fun r => WT G r.2 ∧ has (binTm o t1 t2) r.1 = true := by
  cases o with
  | concat => exact absurd rfl ho
  | div => exact divop_post hs (.inl rfl) h1 h2 n1 n2
  | pow => exact divop_post hs (.inr rfl) h1 h2 n1 n2
  | add => exact arop_post hs rfl h1 h2 n1 n2
  | sub => exact arop_post hs rfl h1 h2 n1 n2
  | mul => exact arop_post hs rfl h1 h2 n1 n2
  | idiv => exact arop_post hs rfl h1 h2 n1 n2
  | mod => exact arop_post hs rfl h1 h2 n1 n2
  | band => exact bitop_post hW rfl hs bit_int
  | bor => exact bitop_post hW rfl hs bit_int
  | bxor => exact bitop_post hW rfl hs bit_int
  | shl => exact bitop_post hW rfl hs bit_int
  | shr => exact bitop_post hW rfl hs bit_int

theorem binR_post {G : Env} {W : World} (hW : ∀ n, W.numbit n = none) {s : St} (hs : WT G s) {o : Bin} {t1 t2 : TM} {v1 v2 : Val}
    (h1 : has t1 v1 = true) (h2 : has t2 v2 = true) :
    Post (binR G W o t1 t2 v1 v2 s) fun r => WT G r.2 ∧ has (binTm o t1 t2) r.1 = true := by
  unfold binR
  split
  · rename_i hsp
    split
    · rename_i e
      obtain ⟨rfl, rfl, ho⟩ := e
      obtain ⟨i, rfl⟩ := has_int h1
      obtain ⟨j, rfl⟩ := has_int h2
      refine resI_post hs fun k => ?_
      cases o with
      | add => exact arith_int rfl (hii i) (hii j)
      | sub => exact arith_int rfl (hii i) (hii j)
      | mul => exact arith_int rfl (hii i) (hii j)
      | div => exact absurd rfl ho
      | idiv => exact nomatch hsp
      | mod => exact nomatch hsp
      | pow => exact nomatch hsp
      | concat => exact nomatch hsp
      | band => exact bit_int k
      | bor => exact bit_int k
      | bxor => exact bit_int k
      | shl => exact bit_int k
      | shr => exact bit_int k
    · rename_i e
      have hh : ∀ t : TM, (t == tINT || t == tFLT) = true → t = tINT ∨ t = tFLT := by intro t h; simpa using h
      have key : (o = .div ∨ ¬(t1 = tINT ∧ t2 = tINT)) → (t1 = tINT ∨ t1 = tFLT) → (t2 = tINT ∨ t2 = tFLT) →
          (∃ ii, binTm o t1 t2 = arithTm ii t1 t2 ∧ (o = .div → ii = tFLT)) → Post (do
            let a ← rdF W t1 v1
            let b ← rdF W t2 v2
            pure (Val.flt (W.fop o a b), s)) fun r => WT G r.2 ∧ has (binTm o t1 t2) r.1 = true := by
        rintro hd ht1 ht2 ⟨ii, eb, hdiv⟩
        have r : ∀ {t v}, t = tINT ∨ t = tFLT → has t v = true → ∃ n, rdF W t v = .ok n := by
          rintro t v (rfl | rfl) hv
          · obtain ⟨i, rfl⟩ := has_int hv
            exact ⟨_, rfl⟩
          · obtain ⟨i, rfl⟩ := has_flt hv
            exact ⟨_, rfl⟩
        obtain ⟨a, ha⟩ := r ht1 h1
        obtain ⟨b, hb⟩ := r ht2 h2
        rw [ha, hb]
        refine ⟨hs, ?_⟩
        rw [eb]
        refine arith_flt h1 h2 ?_
        rcases hd with hd | hd
        · exact .inl (hdiv hd)
        · refine .inr fun i j e1 e2 => hd ?_
          subst e1 e2
          rcases ht1 with rfl | rfl
          · rcases ht2 with rfl | rfl
            · exact ⟨rfl, rfl⟩
            · rw [hfi] at h2; cases h2
          · rw [hfi] at h1; cases h1
      cases o with
      | add => simp only [spec, Bool.and_eq_true] at hsp; exact key (.inr fun x => e ⟨x.1, x.2, by decide⟩) (hh _ hsp.1) (hh _ hsp.2) ⟨_, rfl, by rintro ⟨⟩⟩
      | sub => simp only [spec, Bool.and_eq_true] at hsp; exact key (.inr fun x => e ⟨x.1, x.2, by decide⟩) (hh _ hsp.1) (hh _ hsp.2) ⟨_, rfl, by rintro ⟨⟩⟩
      | mul => simp only [spec, Bool.and_eq_true] at hsp; exact key (.inr fun x => e ⟨x.1, x.2, by decide⟩) (hh _ hsp.1) (hh _ hsp.2) ⟨_, rfl, by rintro ⟨⟩⟩
      | div => simp only [spec, Bool.and_eq_true] at hsp; exact key (.inl rfl) (hh _ hsp.1) (hh _ hsp.2) ⟨_, rfl, fun _ => rfl⟩
      | idiv => cases hsp
      | mod => cases hsp
      | pow => cases hsp
      | concat => cases hsp
      | band => simp only [spec, Bool.and_eq_true, beq_iff_eq] at hsp; exact (e ⟨hsp.1, hsp.2, by decide⟩).elim
      | bor => simp only [spec, Bool.and_eq_true, beq_iff_eq] at hsp; exact (e ⟨hsp.1, hsp.2, by decide⟩).elim
      | bxor => simp only [spec, Bool.and_eq_true, beq_iff_eq] at hsp; exact (e ⟨hsp.1, hsp.2, by decide⟩).elim
      | shl => simp only [spec, Bool.and_eq_true, beq_iff_eq] at hsp; exact (e ⟨hsp.1, hsp.2, by decide⟩).elim
      | shr => simp only [spec, Bool.and_eq_true, beq_iff_eq] at hsp; exact (e ⟨hsp.1, hsp.2, by decide⟩).elim
  · split
    · rename_i e
      subst e
      split
      · refine ⟨hs, ?_⟩
        simp only [binTm]
        split
        · exact hss ""
        · exact has_any _
      · rename_i hc
        refine ask_any hs ?_
        simp only [binTm]
        rw [if_neg]
        rintro ⟨a, b⟩
        exact hc ⟨has_strnum (sub_has a h1), has_strnum (sub_has b h2)⟩
    · rename_i ho
      split
      · rename_i hn
        exact numOp_post hW hs h1 h2 hn.1 hn.2 ho
      · rename_i hn
        refine ask_any hs ?_
        have hb : (if t1 = tINT ∧ t2 = tINT then tINT else if sub t1 tNUM = true ∧ sub t2 tNUM = true then tINT else tANY) = tANY := by
          have c1 : sub tINT tNUM = true := by decide
          have hx : ∀ {t : TM} {v : Val}, sub t tNUM = true → has t v = true → v.isNum = true := by
            intro t v hs hv
            rcases has_num (sub_has hs hv) with ⟨i, rfl⟩ | ⟨n, rfl⟩ <;> rfl
          rw [if_neg, if_neg]
          · rintro ⟨a, b⟩
            exact hn ⟨hx a h1, hx b h2⟩
          · rintro ⟨rfl, rfl⟩
            exact hn ⟨hx c1 h1, hx c1 h2⟩
        cases o with
        | concat => exact absurd rfl ho
        | band => exact hb
        | bor => exact hb
        | bxor => exact hb
        | shl => exact hb
        | shr => exact hb
        | _ => exact arith_any h1 h2 hn

theorem cmpR_post {G : Env} {W : World} {s : St} (hs : WT G s) {t1 t2 : TM} {v1 v2 : Val} (h1 : has t1 v1 = true) (h2 : has t2 v2 = true) :
    Post (cmpR G W t1 t2 v1 v2 s) fun r => WT G r.2 := by
  unfold cmpR
  split
  · rename_i e
    obtain ⟨rfl, rfl⟩ := e
    obtain ⟨i, rfl⟩ := has_int h1
    obtain ⟨j, rfl⟩ := has_int h2
    exact tick_wt hs _
  · split
    · rename_i e
      obtain ⟨rfl, rfl⟩ := e
      obtain ⟨i, rfl⟩ := has_flt h1
      obtain ⟨j, rfl⟩ := has_flt h2
      exact tick_wt hs _
    · cases W.orc s.n with
      | none => trivial
      | some v => exact other_wt hs

/-- A conversion gives a value of the type or an error. -/
theorem conv_post {W : World} (c : Ann) (v : Val) : Post (conv W c v) fun v' => has c.tm v' = true := by
  cases c with
  | int =>
    cases v with
    | flt n =>
      simp only [conv]
      cases W.toInt n with
      | none => trivial
      | some i => exact hii i
    | int i => exact hii i
    | _ => trivial
  | typ u =>
    simp only [conv]
    split
    · rename_i e; subst e; simp [Post, has, Ann.tm, Val.ti, tUDN, tUD, tNIL]
    · split
      · rename_i e
        simp [Post, has, Ann.tm, e.1, tUDN, tUD, tNIL]
      · trivial
  | _ => cases v <;> simp [Post, conv, has, Ann.tm, Val.ti, tFLT, tIARR, tFARR, tTAB, tSTRN, tFUNN, tFUN, tSTR, tNIL]

theorem moveTo_post {W : World} (c : Decl) (v : Val) : Post (moveTo W c v) fun v' => has (declTm c) v' = true := by
  cases c with
  | none => exact has_any v
  | some a => exact conv_post a v

/-- Conversions other than between the two kinds of numbers keep the value. -/
theorem conv_same {W : World} {c : Ann} {v v' : Val} (h : conv W c v = .ok v') :
    v' = v ∨ (c = .int ∧ ∃ n, v = .flt n) ∨ (c = .num ∧ ∃ i, v = .int i) := by
  cases c with
  | int => cases v <;> simp_all [conv]
  | num => cases v <;> simp_all [conv]
  | iarr => cases v <;> simp_all [conv]
  | farr => cases v <;> simp_all [conv]
  | tab => cases v <;> simp_all [conv]
  | str => cases v <;> simp_all [conv]
  | clos => cases v <;> simp_all [conv]
  | typ u =>
    simp only [conv] at h
    split at h
    · cases h; exact .inl rfl
    · split at h
      · cases h; exact .inl rfl
      · cases h

theorem unR_post {G : Env} {W : World} (hW : ∀ n, W.numbit n = none) {s : St} (hs : WT G s) {o : Un} {t : TM} {v : Val}
    (h : has t v = true) : Post (unR G W o t v s) fun r => WT G r.2 ∧ has (unTm o t) r.1 = true := by
  cases o with
  | neg =>
    simp only [unTm]
    unfold unR
    dsimp only
    split
    · refine resI_post hs fun i => ?_
      split
      · have := has_bit h rfl
        exact has_of_bit this
      · exact has_any _
    · refine ⟨hs, ?_⟩
      split
      · exact has_of_bit (has_bit h rfl)
      · exact has_any _
    · rename_i h1 h2
      refine ask_any hs (if_neg fun hn => ?_)
      rcases has_num (sub_has hn h) with ⟨i, e⟩ | ⟨n, e⟩
      · exact h1 i e
      · exact h2 n e
  | bnot =>
    simp only [unTm]
    unfold unR
    dsimp only
    split
    · rename_i e
      subst e
      obtain ⟨i, rfl⟩ := has_int h
      exact resI_post hs hii
    · rename_i ht
      have hi : ∀ i, has (if t = tFLT then tINT else tANY) (.int i) = true := by
        intro i
        split
        · exact hii i
        · exact has_any _
      split
      · exact bitop_post hW rfl hs hi
      · exact bitop_post hW rfl hs hi
      · rename_i h1 h2
        refine ask_any hs (if_neg ?_)
        rintro rfl
        obtain ⟨n, e⟩ := has_flt h
        exact h2 n e
  | len =>
    have hi : ∀ i, has (unTm .len t) (.int i) = true := by
      intro i
      simp only [unTm]
      split
      · exact hii i
      · split
        · exact hii i
        · exact has_any _
    unfold unR
    dsimp only
    split
    · cases W.elI s.n with
      | none => exact ⟨tick_wt hs _, hi _⟩
      | some i => exact ⟨tick_wt hs _, hi _⟩
    · cases W.elI s.n with
      | none => exact ⟨tick_wt hs _, hi _⟩
      | some i => exact ⟨tick_wt hs _, hi _⟩
    · cases W.elI s.n with
      | none => exact ⟨tick_wt hs _, hi _⟩
      | some i => exact ⟨tick_wt hs _, hi _⟩
    · rename_i h1 h2 h3
      refine (ask_post hs).bind fun r hr => ?_
      split
      · refine (conv_post .int r.1).bind fun v' hv => ?_
        obtain ⟨i, rfl⟩ := has_int hv
        exact ⟨hr, hi i⟩
      · rename_i hl
        refine ⟨hr, ?_⟩
        have hn : sub t (tIARR ||| tFARR ||| tSTR) = false := by
          rw [Bool.eq_false_iff]
          intro hc
          rcases has_lenarg (sub_has hc h) with ⟨i, e⟩ | ⟨i, e⟩ | ⟨i, e⟩
          · exact h1 i e
          · exact h2 i e
          · exact h3 i e
        have h4 : sub t (tIARR ||| tFARR ||| tSTR ||| tTAB) = false := by simpa [lenConv, hn] using hl
        simp only [unTm, hn, h4]
        exact has_any _

end Verif.Typed
