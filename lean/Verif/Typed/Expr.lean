import Verif.Typed.Sound

/-! # Soundness of the static types of expressions -/
namespace Verif.Typed

/-- A table constructor, possibly in parentheses. -/
def isCons : E → Bool
  | .tnew => true
  | .paren a => isCons a
  | _ => false

/-- A conversion in place keeps the declared type of the variable. -/
def compat (G : Env) (c : Ann) (k : Kind) : Bool :=
  match k with
  | .nonreloc (some n) => (match G.loc[n]? with
    | some (some .int) => c != .num
    | some (some .num) => c != .int
    | _ => true)
  | _ => true

/-- A type assertion checks all of its operand: a conversion has an operand without pending jumps and does not change a variable to another
type; a change of the constructor has the constructor itself as operand. -/
def goodCast (G : Env) (c : Ann) (a : E) : Bool :=
  match st G a with
  | none => true
  | some d => match castAct c d with
    | .conv => !d.hasjumps && compat G c (disch d).k
    | .patch => isCons a
    | _ => true

/-- The operand keeps its type while the other operand is computed. -/
def goodOpd (G : Env) (a : E) : Bool := (st G a).all (stableD G)

/-- Expressions whose type assertions check all of their operand, and whose operands keep their types while other operands are computed. -/
def goodE (G : Env) : E → Bool
  | .paren a | .not a | .un _ a => goodE G a
  | .index t k => goodE G t && goodE G k && goodOpd G t && goodOpd G k
  | .bin o a b => goodE G a && goodE G b && (o == .concat || goodOpd G a)
  | .cmp _ a b => goodE G a && goodE G b && goodOpd G a
  | .and a b | .or a b => goodE G a && goodE G b
  | .cast c a => goodE G a && goodCast G c a
  | _ => true

theorem disch_tm {d : D} (h : ∀ a b c, d.k ≠ .indexed a b c) : (disch d).tm = d.tm := by
  obtain ⟨k, tm, ut, pc, jt, jf⟩ := d
  cases k <;> first | rfl | exact absurd rfl (h _ _ _)

/-- A descriptor with the same kind and a larger type. -/
theorem okO_weaken {G : Env} {s : St} {d d' : D} {o : Opd} (hd : disch d = d) (hk : d'.k = d.k) (ht : ∀ v, has d.tm v = true → has d'.tm v = true)
    (h : OkO G s d o) : OkO G s d' o := by
  obtain ⟨k, tm, ut, pc, jt, jf⟩ := d
  obtain ⟨k', tm', ut', pc', jt', jf'⟩ := d'
  cases hk
  cases k with
  | indexed a b c => simp [disch] at hd
  | up n => simp [disch] at hd
  | loc n => simp [disch] at hd
  | jmp => obtain ⟨b, e, hb⟩ := h; exact ⟨b, e, ht _ hb⟩
  | nonreloc l =>
    cases l with
    | none => obtain ⟨v, e, hv⟩ := h; exact ⟨v, e, ht _ hv⟩
    | some n => obtain ⟨e, v, hr, hv⟩ := h; exact ⟨e, v, hr, ht _ hv⟩
  | reloc b =>
    cases b with
    | true => obtain ⟨v, e, hv⟩ := h; exact ⟨v, e, ht _ hv⟩
    | false => obtain ⟨v, e, hv⟩ := h; exact ⟨v, e, ht _ hv⟩
  | nil => exact ⟨h.1, ht _ h.2⟩
  | fls => exact ⟨h.1, ht _ h.2⟩
  | tru => obtain ⟨v, e, ht', hv⟩ := h; exact ⟨v, e, ht', ht _ hv⟩
  | k x => obtain ⟨v, e, ht', hv⟩ := h; exact ⟨v, e, ht', ht _ hv⟩
  | kint x => obtain ⟨v, e, ht', hv⟩ := h; exact ⟨v, e, ht', ht _ hv⟩
  | kflt x => obtain ⟨v, e, ht', hv⟩ := h; exact ⟨v, e, ht', ht _ hv⟩
  | call => obtain ⟨v, e, hv⟩ := h; exact ⟨v, e, ht _ hv⟩
  | dots => obtain ⟨v, e, hv⟩ := h; exact ⟨v, e, ht _ hv⟩

theorem okF_weaken {G : Env} {s : St} {d d' : D} {f : Flow} (hd : disch d = d) (hk : d'.k = d.k) (ht : ∀ v, has d.tm v = true → has d'.tm v = true)
    (h1 : d.jt = true → d'.jt = true) (h2 : d.jf = true → d'.jf = true) (h : OkF G s d f) : OkF G s d' f := by
  cases f with
  | thru o => exact okO_weaken hd hk ht h
  | out b v =>
    obtain ⟨a, e, j⟩ := h
    refine ⟨?_, e, ?_⟩
    · rw [disch_tm (by rw [hk, ← hd]; exact disch_not_indexed d)]
      exact ht _ (by rw [hd] at a; exact a)
    · cases b
      · exact h2 j
      · exact h1 j

/-! ## Tests -/

/-- What is left of a flow after `luaK_goiftrue`. -/
def GT (d : D) (f : Flow) : Prop :=
  match f with
  | .thru _ => d.tm &&& tTRUISH ≠ 0#32
  | .out b v => b = false ∧ has (d.tm &&& tFALSISH) (outVal false v) = true ∧ (outVal false v).falsy = true ∧ (d.jf || gtJump d) = true

/-- What is left of a flow after `luaK_goiffalse`. -/
def GF (d : D) (f : Flow) : Prop :=
  match f with
  | .thru _ => d.tm &&& tFALSISH ≠ 0#32
  | .out b v => b = true ∧ has (d.tm &&& tTRUISH) (outVal true v) = true ∧ (outVal true v).falsy = false ∧ (d.jt || gfJump d) = true

theorem reloc_bool {G : Env} {s : St} {d : D} {o : Opd} {v : Val} (h : OkO G s d o) (hk : d.k = .reloc true) (hv : rd s o = .ok v) :
    ∃ b, v = .bool b := by
  obtain ⟨k, tm, ut, pc, jt, jf⟩ := d
  cases hk
  obtain ⟨b, rfl, _⟩ := h
  cases hv
  exact ⟨b, rfl⟩

theorem gtDefault {G : Env} {s : St} {d : D} {o : Opd} (hs : WT G s) (hd : disch d = d) (h : OkO G s d o)
    (hg : d.tm &&& tFALSISH ≠ 0#32 → gtJump d = true) :
    Post (if d.tm &&& tFALSISH ≠ 0#32 then do
        let v ← rd s o
        pure (if v.falsy then Flow.out false (if d.k = .reloc true then none else some v) else .thru o)
      else .ok (.thru o)) (GT d) := by
  have hr := okO_reads hs h (by rw [← hd]; exact disch_not_indexed d)
  obtain ⟨v, hv, hh⟩ := hr
  split
  · rename_i hf
    rw [hv, Res.bind_ok]
    change GT d _
    split
    · rename_i hfal
      refine ⟨rfl, ?_⟩
      have e : outVal false (if d.k = .reloc true then none else some v) = v := by
        split
        · rename_i hk
          obtain ⟨b, rfl⟩ := reloc_bool h hk hv
          cases b
          · rfl
          · cases hfal
        · rfl
      rw [e]
      exact ⟨has_falsish hh hfal, hfal, by rw [hg hf, Bool.or_true]⟩
    · rename_i hfal
      exact has_ne (has_truish hh (by simpa using hfal))
  · rename_i hf
    refine has_ne (has_truish hh ?_)
    rw [Bool.eq_false_iff]
    intro hc
    exact hf (has_ne (has_falsish hh hc))

theorem gfDefault {G : Env} {s : St} {d : D} {o : Opd} (hs : WT G s) (hd : disch d = d) (h : OkO G s d o)
    (hg : d.tm &&& tTRUISH ≠ 0#32 → gfJump d = true) :
    Post (if d.tm &&& tTRUISH ≠ 0#32 then do
        let v ← rd s o
        pure (if v.falsy then Flow.thru o else .out true (if d.k = .reloc true then none else some v))
      else .ok (.thru o)) (GF d) := by
  have hr := okO_reads hs h (by rw [← hd]; exact disch_not_indexed d)
  obtain ⟨v, hv, hh⟩ := hr
  split
  · rename_i hf
    rw [hv, Res.bind_ok]
    change GF d _
    split
    · rename_i hfal
      exact has_ne (has_falsish hh hfal)
    · rename_i hfal
      have hfal : v.falsy = false := by simpa using hfal
      refine ⟨rfl, ?_⟩
      have e : outVal true (if d.k = .reloc true then none else some v) = v := by
        split
        · rename_i hk
          obtain ⟨b, rfl⟩ := reloc_bool h hk hv
          cases b
          · cases hfal
          · rfl
        · rfl
      rw [e]
      exact ⟨has_truish hh hfal, hfal, by rw [hg hf, Bool.or_true]⟩
  · rename_i hf
    refine has_ne (has_falsish hh ?_)
    rw [← Bool.not_eq_false]
    intro hc
    exact hf (has_ne (has_truish hh hc))

theorem gtR_post {G : Env} {s : St} {d : D} {f : Flow} (hs : WT G s) (hd : disch d = d) (h : OkF G s d f) : Post (gtR d f s) (GT d) := by
  cases f with
  | out b v =>
    obtain ⟨h1, h2, h3⟩ := h
    rw [hd] at h1
    cases b with
    | true => exact has_ne (has_truish h1 h2)
    | false => exact ⟨rfl, has_falsish h1 h2, h2, by rw [show d.jf = true from h3]; rfl⟩
  | thru o =>
    have dflt := gtDefault hs hd h
    simp only [gtJump, hd] at dflt
    unfold gtR
    obtain ⟨k, tm, ut, pc, jt, jf⟩ := d
    cases k with
    | jmp =>
      obtain ⟨b, rfl, hb⟩ := h
      cases b with
      | true => exact has_ne (has_truish hb rfl)
      | false => exact ⟨rfl, has_falsish hb rfl, rfl, by simp [gtJump, disch]⟩
    | tru => obtain ⟨v, -, hv, hh⟩ := h; exact has_ne (has_truish hh hv)
    | k x => obtain ⟨v, -, hv, hh⟩ := h; exact has_ne (has_truish hh hv)
    | kint x => obtain ⟨v, -, hv, hh⟩ := h; exact has_ne (has_truish hh hv)
    | kflt x => obtain ⟨v, -, hv, hh⟩ := h; exact has_ne (has_truish hh hv)
    | nil => exact dflt fun hf => by simpa using hf
    | fls => exact dflt fun hf => by simpa using hf
    | loc n => exact dflt fun hf => by simpa using hf
    | up n => exact dflt fun hf => by simpa using hf
    | indexed a b c => exact dflt fun hf => by simpa using hf
    | call => exact dflt fun hf => by simpa using hf
    | dots => exact dflt fun hf => by simpa using hf
    | reloc b => exact dflt fun hf => by simpa using hf
    | nonreloc l => exact dflt fun hf => by simpa using hf

theorem gfR_post {G : Env} {s : St} {d : D} {f : Flow} (hs : WT G s) (hd : disch d = d) (h : OkF G s d f) : Post (gfR d f s) (GF d) := by
  cases f with
  | out b v =>
    obtain ⟨h1, h2, h3⟩ := h
    rw [hd] at h1
    cases b with
    | false => exact has_ne (has_falsish h1 h2)
    | true => exact ⟨rfl, has_truish h1 h2, h2, by rw [show d.jt = true from h3]; rfl⟩
  | thru o =>
    have dflt := gfDefault hs hd h
    simp only [gfJump, hd] at dflt
    unfold gfR
    obtain ⟨k, tm, ut, pc, jt, jf⟩ := d
    cases k with
    | jmp =>
      obtain ⟨b, rfl, hb⟩ := h
      cases b with
      | false => exact has_ne (has_falsish hb rfl)
      | true => exact ⟨rfl, has_truish hb rfl, rfl, by simp [gfJump, disch]⟩
    | nil => exact has_ne (has_falsish h.2 rfl)
    | fls => exact has_ne (has_falsish h.2 rfl)
    | tru => exact dflt fun hf => by simpa using hf
    | k x => exact dflt fun hf => by simpa using hf
    | kint x => exact dflt fun hf => by simpa using hf
    | kflt x => exact dflt fun hf => by simpa using hf
    | loc n => exact dflt fun hf => by simpa using hf
    | up n => exact dflt fun hf => by simpa using hf
    | indexed a b c => exact dflt fun hf => by simpa using hf
    | call => exact dflt fun hf => by simpa using hf
    | dots => exact dflt fun hf => by simpa using hf
    | reloc b => exact dflt fun hf => by simpa using hf
    | nonreloc l => exact dflt fun hf => by simpa using hf

theorem gtJump_disch (d : D) : gtJump (disch d) = gtJump d := by simp only [gtJump, disch_idem]

theorem gfJump_disch (d : D) : gfJump (disch d) = gfJump d := by simp only [gfJump, disch_idem]

/-! ## Constructors -/

theorem cons_st {G : Env} : ∀ {a : E}, isCons a = true → st G a = some ⟨.nonreloc none, tTAB, none, .fresh, false, false⟩
  | .tnew, _ => rfl
  | .paren a, h => by
    simp only [st, cons_st (a := a) h, Option.map_some]
    rfl

theorem cons_ev {G : Env} {W : World} (p : Option Arr) (s : St) : ∀ {a : E}, isCons a = true → ev G W a p s = .ok (newR p s)
  | .tnew, _ => rfl
  | .paren a, h => by
    have hd : stR G a = .ok ⟨.nonreloc none, tTAB, none, .fresh, false, false⟩ := by simp only [stR, cons_st (a := a) h]
    simp only [ev, hd, Res.bind_ok, cons_ev p s (a := a) h]
    rfl

theorem ann_ne_any (c : Ann) : c.tm ≠ tANY := by cases c <;> simp [Ann.tm, tANY, tINT, tFLT, tIARR, tFARR, tTAB, tSTRN, tSTR, tFUNN, tFUN, tUDN, tUD, tNIL]

theorem ann_int {c : Ann} {i : Int} (h : has c.tm (.int i) = true) : c = .int := by
  cases c <;> simp [has, Val.ti, Val.indexable, Ann.tm, tINT, tFLT, tIARR, tFARR, tTAB, tSTRN, tSTR, tFUNN, tFUN, tUDN, tUD, tNIL] at h ⊢

theorem ann_flt {c : Ann} {i : Nat} (h : has c.tm (.flt i) = true) : c = .num := by
  cases c <;> simp [has, Val.ti, Val.indexable, Ann.tm, tINT, tFLT, tIARR, tFARR, tTAB, tSTRN, tSTR, tFUNN, tFUN, tUDN, tUD, tNIL] at h ⊢

/-- A conversion in place of a variable. -/
theorem convIn_loc {G : Env} {W : World} {s : St} {c : Ann} {n : Nat} {t : TM} (hs : WT G s) (hr : Reads s t (.loc n))
    (hc : compat G c (.nonreloc (some n)) = true) :
    Post (convIn W c (.loc n) s) fun r => WT G r.2 ∧ r.1 = .loc n ∧ Reads r.2 c.tm (.loc n) := by
  obtain ⟨v, hv, hh⟩ := hr
  unfold convIn
  rw [hv, Res.bind_ok]
  have hp := conv_post (W := W) c v
  have hsame := @conv_same W c v
  cases hcv : conv W c v with
  | err m => trivial
  | ub => rw [hcv] at hp; exact hp.elim
  | ok v' =>
    rw [hcv] at hp
    have hp : has c.tm v' = true := hp
    rw [Res.bind_ok]
    have hreg : s.regs[n]? = some v := by
      simp only [rd] at hv
      split at hv
      · cases hv; assumption
      · cases hv
    refine ⟨wr_wt hs fun t ht => ?_, rfl, v', ?_, hp⟩
    · cases t with
      | none => exact has_any _
      | some c' =>
        obtain ⟨w, hw, hwt⟩ := hs.lv n _ ht
        rw [hreg] at hw
        cases hw
        simp only [compat, ht] at hc
        rcases hsame hcv with rfl | ⟨rfl, i, rfl⟩ | ⟨rfl, i, rfl⟩
        · exact hwt
        · rw [ann_flt hwt] at hc
          cases hc
        · rw [ann_int hwt] at hc
          cases hc
    · simp only [rd, wr]
      rw [List.getElem?_set_self', hreg]
      rfl

theorem convIn_val {G : Env} {W : World} {s : St} {c : Ann} {o : Opd} {t : TM} (hs : WT G s) (hr : Reads s t o) (hl : ∀ n, o ≠ .loc n) :
    Post (convIn W c o s) fun r => WT G r.2 ∧ ∃ v, r.1 = .val v ∧ has c.tm v = true := by
  unfold convIn
  refine rd_bind hr fun v hv => ?_
  refine (conv_post c v).bind fun v' hv' => ?_
  split
  · exact absurd rfl (hl _)
  · exact ⟨hs, v', rfl, hv'⟩

theorem and_has (a b : TM) (v : Val) (x : TM) (h : has b v = true) : has (if a ≠ 0#32 then x ||| b else b) v = true := by
  split
  · rw [has_or, h, Bool.or_true]
  · exact h

theorem bool_has (b : Bool) : has tBOOL (.bool b) = true := by cases b <;> simp [has, tBOOL, Val.ti, tFALSE, tTRUE]

theorem not_has {t : TM} {v : Val} (h : has t v = true) :
    has ((if t &&& tTRUISH ≠ 0#32 then tFALSE else 0#32) ||| (if t &&& tFALSISH ≠ 0#32 then tTRUE else 0#32)) (.bool v.falsy) = true := by
  rw [has_or]
  cases hv : v.falsy with
  | true =>
    rw [if_pos (has_ne (has_falsish h hv))]
    simp [has, tTRUE, Val.ti]
  | false =>
    rw [if_pos (has_ne (has_truish h hv))]
    simp [has, tFALSE, Val.ti]

/-- The operand of a negation. -/
def negO (o : Opd) (v : Val) : Opd :=
  match o with
  | .cond b => .cond (!b)
  | _ => .val (.bool v.falsy)

theorem notD_disch (d : D) : notD (disch d) = notD d := by simp only [notD, disch_idem]

theorem not_ok {G : Env} {s : St} {d : D} {o : Opd} {v : Val} (hd : disch d = d) (hO : OkO G s d o) (hv : rd s o = .ok v)
    (hn : has ((if d.tm &&& tTRUISH ≠ 0#32 then tFALSE else 0#32) ||| (if d.tm &&& tFALSISH ≠ 0#32 then tTRUE else 0#32)) (.bool v.falsy) = true) :
    OkO G s (notD d) (negO o v) := by
  simp only [notD, hd]
  obtain ⟨k, tm, ut, pc, jt, jf⟩ := d
  cases k with
  | nil => obtain ⟨rfl, _⟩ := hO; cases hv; exact ⟨_, rfl, rfl, hn⟩
  | fls => obtain ⟨rfl, _⟩ := hO; cases hv; exact ⟨_, rfl, rfl, hn⟩
  | tru => obtain ⟨w, rfl, hw, _⟩ := hO; cases hv; simp only [negO]; rw [hw] at hn ⊢; exact ⟨rfl, hn⟩
  | k x => obtain ⟨w, rfl, hw, _⟩ := hO; cases hv; simp only [negO]; rw [hw] at hn ⊢; exact ⟨rfl, hn⟩
  | kint x => obtain ⟨w, rfl, hw, _⟩ := hO; cases hv; simp only [negO]; rw [hw] at hn ⊢; exact ⟨rfl, hn⟩
  | kflt x => obtain ⟨w, rfl, hw, _⟩ := hO; cases hv; simp only [negO]; rw [hw] at hn ⊢; exact ⟨rfl, hn⟩
  | jmp => obtain ⟨b, rfl, _⟩ := hO; cases hv; cases b <;> exact ⟨_, rfl, hn⟩
  | reloc b =>
    cases b with
    | true => obtain ⟨w, rfl, _⟩ := hO; exact ⟨_, rfl, hn⟩
    | false => obtain ⟨w, rfl, _⟩ := hO; exact ⟨_, rfl, hn⟩
  | nonreloc l =>
    cases l with
    | none => obtain ⟨w, rfl, _⟩ := hO; exact ⟨_, rfl, hn⟩
    | some n => obtain ⟨rfl, _⟩ := hO; exact ⟨_, rfl, hn⟩
  | loc n => obtain ⟨rfl, _⟩ := hO; exact ⟨_, rfl, hn⟩
  | up n => obtain ⟨rfl, _⟩ := hO; exact ⟨_, rfl, hn⟩
  | indexed a b c => obtain ⟨_, _, rfl, _⟩ := hO; exact ⟨_, rfl, hn⟩
  | call => obtain ⟨w, rfl, _⟩ := hO; exact ⟨_, rfl, hn⟩
  | dots => obtain ⟨w, rfl, _⟩ := hO; exact ⟨_, rfl, hn⟩

theorem castAct_kind {c : Ann} {d : D} (h : castAct c d = .conv) : (∃ b, (disch d).k = .reloc b) ∨ ∃ l, (disch d).k = .nonreloc l := by
  unfold castAct at h
  dsimp only at h
  split at h
  · split at h <;> cases h
  · split at h <;> cases h
  · split at h <;> cases h
  · exact .inl ⟨_, by assumption⟩
  · exact .inr ⟨_, by assumption⟩
  · cases h

theorem st_ok {G : Env} {a : E} {d : D} (h : st G a = some d) : stR G a = .ok d := by simp only [stR, h]

/-- The static types of expressions are sound. -/
theorem ev_sound {G : Env} {W : World} (hW : ∀ n, W.numbit n = none) : ∀ (e : E) (d : D) (s : St), goodE G e = true → st G e = some d → WT G s →
    Post (ev G W e none s) fun r => WT G r.2 ∧ OkF G r.2 d r.1 := by
  intro e
  induction e with
  | nil => intro d s hg hd hs; cases hd; exact ⟨hs, rfl, by simp [has, tNIL, Val.ti]⟩
  | tru => intro d s hg hd hs; cases hd; exact ⟨hs, _, rfl, rfl, by simp [has, tTRUE, Val.ti]⟩
  | fls => intro d s hg hd hs; cases hd; exact ⟨hs, rfl, by simp [has, tFALSE, Val.ti]⟩
  | int i => intro d s hg hd hs; cases hd; exact ⟨hs, _, rfl, rfl, hii i⟩
  | flt n => intro d s hg hd hs; cases hd; exact ⟨hs, _, rfl, rfl, hff n⟩
  | str x => intro d s hg hd hs; cases hd; exact ⟨hs, _, rfl, rfl, hss x⟩
  | loc n =>
    intro d s hg hd hs
    simp only [st, Option.map_eq_some_iff] at hd
    obtain ⟨c, hc, rfl⟩ := hd
    exact ⟨hs, rfl, c, hc, rfl⟩
  | up n =>
    intro d s hg hd hs
    simp only [st, Option.map_eq_some_iff] at hd
    obtain ⟨c, hc, rfl⟩ := hd
    exact ⟨hs, rfl, c, hc, rfl⟩
  | call =>
    intro d s hg hd hs
    cases hd
    simp only [ev, callR]
    cases W.res s.n with
    | none => trivial
    | some vs => exact ⟨other_wt hs, _, rfl, has_any _⟩
  | dots => intro d s hg hd hs; cases hd; exact ⟨hs, _, rfl, has_any _⟩
  | tnew => intro d s hg hd hs; cases hd; exact ⟨tick_wt hs _, _, rfl, by simp [has, tTAB, Val.ti]⟩
  | func => intro d s hg hd hs; cases hd; exact ⟨tick_wt hs _, _, rfl, by simp [has, tFUN, Val.ti]⟩
  | paren a ih =>
    intro d s hg hd hs
    simp only [st, Option.map_eq_some_iff] at hd
    obtain ⟨da, ha, rfl⟩ := hd
    simp only [ev, st_ok ha, Res.bind_ok]
    refine (ih da s hg ha hs).bind fun r hr => ?_
    exact dischF_post hr.1 hr.2
  | index t k iht ihk =>
    intro d s hg hd hs
    simp only [goodE, Bool.and_eq_true] at hg
    obtain ⟨⟨⟨gt, gk⟩, ot⟩, ok⟩ := hg
    cases ht : st G t with
    | none => simp [st, ht] at hd
    | some dt =>
      cases hk : st G k with
      | none => simp [st, ht, hk] at hd
      | some dk =>
        simp only [st, ht, hk, Option.some.injEq] at hd
        subst hd
        simp only [goodOpd, ht, hk, Option.all_some] at ot ok
        simp only [ev, st_ok ht, st_ok hk, Res.bind_ok]
        refine (iht dt s gt ht hs).bind fun r hr => ?_
        obtain ⟨ft, s1⟩ := r
        have rest : ∀ (isup : Bool) (dt' : D) (r : Opd × St), WT G r.2 → Stab G dt'.tm r.1 → Post (do
            let __x ← ev G W k none r.2
            let __y ← rkR G W dk __x.1 __x.2
            pure (Flow.thru (.idx r.1 __y.1), __y.2)) fun q => WT G q.2 ∧
              OkF G q.2 ⟨.indexed isup (exp2val dk).tm (shortK (exp2val dk).k), dt'.tm, dt'.ut, dt'.pc, false, false⟩ q.1 := by
          intro isup dt' r hr1 hr2
          refine (ihk dk r.2 gk hk hr1).bind fun q hq => ?_
          refine (rkR_post hq.1 hq.2).bind fun u hu => ?_
          exact ⟨hu.1, r.1, u.1, rfl, hr2, by rw [exp2val_tm]; exact hu.2.2 ok⟩
        have rk : Post (rkR G W dt ft s1) fun r => WT G r.2 ∧ Stab G (anyreg dt).tm r.1 :=
          (rkR_post hr.1 hr.2).mono fun u hu => ⟨hu.1, by rw [anyreg_tm]; exact hu.2.2 ot⟩
        have hF := hr.2
        dsimp only at hF
        dsimp only
        cases hdk : dt.k with
        | up n =>
          cases ft with
          | out b v =>
            have hj : dt.hasjumps = true := by
              have := hF.2.2
              cases b <;> simp_all [D.hasjumps]
            simp only [hj]
            refine rk.bind fun u hu => ?_
            exact rest _ (anyreg dt) u hu.1 hu.2
          | thru o =>
            by_cases hj : dt.hasjumps = true
            · simp only [hj, if_true]
              refine rk.bind fun u hu => ?_
              exact rest _ (anyreg dt) u hu.1 hu.2
            · have hj : dt.hasjumps = false := by simpa using hj
              simp only [hj]
              refine rest _ dt (o, s1) hr.1 ?_
              obtain ⟨kk, tm, ut, pc, jt, jf⟩ := dt
              cases hdk
              obtain ⟨rfl, c, hc, e⟩ := hF
              rw [e]
              exact stab_up hc
        | _ =>
          refine rk.bind fun u hu => ?_
          exact rest _ (anyreg dt) u hu.1 hu.2
  | bin o a b iha ihb =>
    intro d s hg hd hs
    simp only [goodE, Bool.and_eq_true] at hg
    obtain ⟨⟨ga, gb⟩, oa⟩ := hg
    cases ha : st G a with
    | none => simp [st, ha] at hd
    | some da =>
      cases hb : st G b with
      | none => simp [st, ha, hb] at hd
      | some db =>
        simp only [st, ha, hb, Option.some.injEq] at hd
        subst hd
        simp only [goodOpd, ha, Option.all_some] at oa
        simp only [ev, st_ok ha, st_ok hb, Res.bind_ok]
        refine (iha da s ga ha hs).bind fun r hr => ?_
        have fin : ∀ (o1 o2 : Opd) (s : St), WT G s → Reads s (disch da).tm o1 → Reads s (disch db).tm o2 → Post (do
            let v1 ← rd s o1
            let v2 ← rd s o2
            let __x ← binR G W o (exp2rk da).tm (exp2rk db).tm v1 v2 s
            pure (Flow.thru (.val __x.1), __x.2)) fun q => WT G q.2 ∧
              OkF G q.2 { exp2rk da with k := .reloc false, tm := binTm o (exp2rk da).tm (exp2rk db).tm, jt := false, jf := false } q.1 := by
          intro o1 o2 s hs h1 h2
          refine rd_bind h1 fun v1 hv1 => rd_bind h2 fun v2 hv2 => ?_
          rw [exp2rk_tm, exp2rk_tm]
          refine (binR_post hW hs hv1 hv2).bind fun q hq => ?_
          exact ⟨hq.1, _, rfl, hq.2⟩
        by_cases ho : o = .concat
        · simp only [ho, if_true]
          rw [ho] at fin
          refine Post.bind (P := fun r => WT G r.2 ∧ Stab G (disch da).tm r.1) ?_ fun u hu => ?_
          · refine (settle_post hr.1 hr.2).bind fun u hu => ?_
            exact ⟨hu.1, stab_val hu.2⟩
          · refine (ihb db u.2 gb hb hu.1).bind fun q hq => ?_
            refine Post.bind (P := fun r => WT G r.2 ∧ Reads r.2 (disch db).tm r.1) ?_ fun w hw => ?_
            · refine (settle_post hq.1 hq.2).bind fun u hu => ?_
              exact ⟨hu.1, _, rfl, hu.2⟩
            · exact fin u.1 w.1 w.2 hw.1 (hu.2 _ hw.1) hw.2
        · simp only [ho, if_false]
          have oa : stableD G da = true := by simpa [ho] using oa
          refine (rkR_post hr.1 hr.2).bind fun u hu => ?_
          refine (ihb db u.2 gb hb hu.1).bind fun q hq => ?_
          refine (rkR_post hq.1 hq.2).bind fun w hw => ?_
          exact fin u.1 w.1 w.2 hw.1 (hu.2.2 oa _ hw.1) hw.2.1
  | cmp o a b iha ihb =>
    intro d s hg hd hs
    simp only [goodE, Bool.and_eq_true] at hg
    obtain ⟨⟨ga, gb⟩, oa⟩ := hg
    cases ha : st G a with
    | none => simp [st, ha] at hd
    | some da =>
      cases hb : st G b with
      | none => simp [st, ha, hb] at hd
      | some db =>
        simp only [st, ha, hb, Option.some.injEq] at hd
        subst hd
        simp only [goodOpd, ha, Option.all_some] at oa
        simp only [ev, st_ok ha, st_ok hb, Res.bind_ok]
        refine (iha da s ga ha hs).bind fun r hr => ?_
        refine (rkR_post hr.1 hr.2).bind fun u hu => ?_
        refine (ihb db u.2 gb hb hu.1).bind fun q hq => ?_
        refine (rkR_post hq.1 hq.2).bind fun w hw => ?_
        refine rd_bind (hu.2.2 oa _ hw.1) fun v1 hv1 => rd_bind hw.2.1 fun v2 hv2 => ?_
        rw [exp2rk_tm, exp2rk_tm]
        split
        · exact (cmpR_post hw.1 hv2 hv1).bind fun q hq => ⟨hq, _, rfl, bool_has _⟩
        · exact (cmpR_post hw.1 hv2 hv1).bind fun q hq => ⟨hq, _, rfl, bool_has _⟩
        · exact (cmpR_post hw.1 hv1 hv2).bind fun q hq => ⟨hq, _, rfl, bool_has _⟩
  | and a b iha ihb =>
    intro d s hg hd hs
    simp only [goodE, Bool.and_eq_true] at hg
    cases ha : st G a with
    | none => simp [st, ha] at hd
    | some da =>
      cases hb : st G b with
      | none => simp [st, ha, hb] at hd
      | some db =>
        simp only [st, ha, hb, Option.some.injEq] at hd
        subst hd
        simp only [ev, st_ok ha, st_ok hb, Res.bind_ok]
        refine (iha da s hg.1 ha hs).bind fun r hr => ?_
        refine (dischF_post hr.1 hr.2).bind fun u hu => ?_
        refine (gtR_post hu.1 (disch_idem da) hu.2).bind fun f hf => ?_
        cases f with
        | out c v =>
          obtain ⟨rfl, h1, h2, h3⟩ := hf
          refine ⟨hu.1, ?_, h2, ?_⟩
          · rw [disch_tm (by exact disch_not_indexed db)]
            exact and_has _ _ _ _ h1
          · rw [disch_jf, gtJump_disch] at h3
            simp only [andD, Bool.or_assoc]
            simp [h3]
        | thru o =>
          refine (ihb db u.2 hg.2 hb hu.1).bind fun q hq => ?_
          refine (dischF_post hq.1 hq.2).mono fun w hw => ⟨hw.1, ?_⟩
          refine okF_weaken (disch_idem db) rfl (fun v hv => ?_) (fun h => h) (fun h => ?_) hw.2
          · have hf : (disch da).tm &&& tTRUISH ≠ 0#32 := hf
            simp only [andD]
            rw [if_pos hf, has_or, hv]
            rfl
          · simp only [andD, h, Bool.true_or]
  | or a b iha ihb =>
    intro d s hg hd hs
    simp only [goodE, Bool.and_eq_true] at hg
    cases ha : st G a with
    | none => simp [st, ha] at hd
    | some da =>
      cases hb : st G b with
      | none => simp [st, ha, hb] at hd
      | some db =>
        simp only [st, ha, hb, Option.some.injEq] at hd
        subst hd
        simp only [ev, st_ok ha, st_ok hb, Res.bind_ok]
        refine (iha da s hg.1 ha hs).bind fun r hr => ?_
        refine (dischF_post hr.1 hr.2).bind fun u hu => ?_
        refine (gfR_post hu.1 (disch_idem da) hu.2).bind fun f hf => ?_
        cases f with
        | out c v =>
          obtain ⟨rfl, h1, h2, h3⟩ := hf
          refine ⟨hu.1, ?_, h2, ?_⟩
          · rw [disch_tm (by exact disch_not_indexed db)]
            exact and_has _ _ _ _ h1
          · rw [disch_jt, gfJump_disch] at h3
            simp only [orD, Bool.or_assoc]
            simp [h3]
        | thru o =>
          refine (ihb db u.2 hg.2 hb hu.1).bind fun q hq => ?_
          refine (dischF_post hq.1 hq.2).mono fun w hw => ⟨hw.1, ?_⟩
          refine okF_weaken (disch_idem db) rfl (fun v hv => ?_) (fun h => ?_) (fun h => h) hw.2
          · have hf : (disch da).tm &&& tFALSISH ≠ 0#32 := hf
            simp only [orD]
            rw [if_pos hf, has_or, hv]
            rfl
          · simp only [orD, h, Bool.true_or]
  | not a ih =>
    intro d s hg hd hs
    simp only [st, Option.map_eq_some_iff] at hd
    obtain ⟨da, ha, rfl⟩ := hd
    simp only [ev, st_ok ha, Res.bind_ok]
    refine (ih da s hg ha hs).bind fun r hr => ?_
    refine (dischF_post hr.1 hr.2).bind fun u hu => ?_
    obtain ⟨f, s2⟩ := u
    have hnk : ∀ a b c, (notD da).k ≠ .indexed a b c := by
      intro a b c
      simp only [notD]
      split <;> simp
    cases f with
    | out b v =>
      obtain ⟨h1, h2, h3⟩ := hu.2
      rw [disch_idem] at h1
      refine ⟨hu.1, ?_, ?_, ?_⟩
      · rw [disch_tm hnk]
        have := not_has h1
        rw [h2] at this
        exact this
      · cases b <;> rfl
      · cases b
        · exact h3
        · exact h3
    | thru o =>
      have hO : OkO G s2 (disch da) o := hu.2
      obtain ⟨v, hv, hh⟩ := okO_reads hu.1 hO (disch_not_indexed da)
      have hn := not_has hh
      have key : OkO G s2 (notD da) (negO o v) := by
        rw [← notD_disch]
        exact not_ok (disch_idem da) hO hv hn
      cases o with
      | cond b => exact ⟨hu.1, key⟩
      | val w => simp only [hv, Res.bind_ok]; exact ⟨hu.1, key⟩
      | loc w => simp only [hv, Res.bind_ok]; exact ⟨hu.1, key⟩
      | up w => simp only [hv, Res.bind_ok]; exact ⟨hu.1, key⟩
      | idx w x => simp only [hv, Res.bind_ok]; exact ⟨hu.1, key⟩
  | un o a ih =>
    intro d s hg hd hs
    simp only [st, Option.map_eq_some_iff] at hd
    obtain ⟨da, ha, rfl⟩ := hd
    simp only [ev, st_ok ha, Res.bind_ok]
    refine (ih da s hg ha hs).bind fun r hr => ?_
    refine (rkR_post hr.1 hr.2).bind fun u hu => ?_
    refine rd_bind hu.2.1 fun v hv => ?_
    rw [← anyreg_tm] at hv
    refine (unR_post hW hu.1 hv).bind fun q hq => ?_
    refine ⟨hq.1, ?_⟩
    simp only [OkF, OkO]
    split
    · rename_i e; split at e <;> cases e
    · rename_i e; split at e <;> cases e
    · rename_i e; split at e <;> cases e
    · rename_i e; split at e <;> cases e
    · rename_i e; split at e <;> cases e
    · rename_i e; split at e <;> cases e
    · rename_i e; split at e <;> cases e
    · rename_i e; split at e <;> cases e
    · rename_i e; split at e <;> cases e
    · rename_i e; split at e <;> cases e
    · rename_i e; split at e <;> cases e
    · rename_i e; split at e <;> cases e
    all_goals exact ⟨_, rfl, hq.2⟩
  | cast c a ih =>
    intro d s hg hd hs
    simp only [goodE, Bool.and_eq_true] at hg
    obtain ⟨ga, gc⟩ := hg
    cases ha : st G a with
    | none => simp [st, ha] at hd
    | some da =>
      simp only [st, ha] at hd
      split at hd
      · cases hd
      rename_i hbad
      simp only [Option.some.injEq] at hd
      subst hd
      simp only [goodCast, ha] at gc
      simp only [ev, st_ok ha, Res.bind_ok]
      by_cases hp : castAct c da = .patch
      · simp only [hp] at gc
        simp only [hp, if_true, cons_ev _ _ gc, Res.bind_ok]
        rw [cons_st gc] at ha
        cases ha
        have hcc : c = .iarr ∨ c = .farr := by
          cases c with
          | iarr => exact .inl rfl
          | farr => exact .inr rfl
          | typ u => exact nomatch hp
          | _ =>
            simp only [castAct, disch] at hp
            exact absurd hp (by decide)
        rcases hcc with rfl | rfl
        · refine ⟨tick_wt hs _, .iarr s.n, rfl, by simp [castD, hp, has, Ann.tm, tIARR, Val.ti]⟩
        · refine ⟨tick_wt hs _, .farr s.n, rfl, by simp [castD, hp, has, Ann.tm, tFARR, Val.ti]⟩
      · simp only [hp, if_false]
        refine (ih da s ga ha hs).bind fun r hr => ?_
        refine (dischF_post hr.1 hr.2).bind fun u hu => ?_
        obtain ⟨f, s2⟩ := u
        have hF : OkF G s2 (disch da) f := hu.2
        have hs2 : WT G s2 := hu.1
        cases hc : castAct c da with
        | bad => exact absurd hc hbad
        | patch => exact absurd hc hp
        | skip =>
          have hres : OkF G s2 (castD c da) f := by
            simp only [castD, hc]
            revert hF
            have hi := disch_idem da
            generalize disch da = dd at *
            intro hF
            obtain ⟨k, tm, ut, pc, jt, jf⟩ := dd
            cases k with
            | reloc b =>
              cases f with
              | thru o =>
                cases b with
                | true => obtain ⟨v, e, hv⟩ := hF; exact ⟨_, e, hv⟩
                | false => exact hF
              | out b v => exact hF
            | _ => exact hF
          cases f with
          | thru o => exact ⟨hs2, hres⟩
          | out b v => exact ⟨hs2, hres⟩
        | conv =>
          simp only [hc, Bool.and_eq_true, Bool.not_eq_true'] at gc
          obtain ⟨hj, hcp⟩ := gc
          cases f with
          | out b v =>
            have := hF.2.2
            rw [disch_jt, disch_jf] at this
            cases b <;> simp_all [D.hasjumps]
          | thru o =>
            have hO : OkO G s2 (disch da) o := hF
            have hr := okO_reads hs2 hO (disch_not_indexed da)
            have hk := castAct_kind hc
            simp only [if_true]
            have hcd : ∀ s', ∀ o', (match (disch da).k with | .nonreloc (some n) => o' = Opd.loc n ∧ Reads s' c.tm o' | _ => ∃ v, o' = .val v ∧ has c.tm v = true) →
                OkO G s' (castD c da) o' := by
              intro s' o' h
              simp only [castD, hc]
              revert h
              generalize disch da = dd at *
              intro h
              obtain ⟨k, tm, ut, pc, jt, jf⟩ := dd
              rcases hk with ⟨b, e⟩ | ⟨l, e⟩
              · cases e; exact h
              · cases e
                cases l with
                | none => exact h
                | some n => exact h
            cases hkk : (disch da).k with
            | nonreloc l =>
              cases l with
              | some n =>
                have ho : o = .loc n := by
                  revert hO
                  generalize disch da = dd at *
                  intro hO
                  obtain ⟨k, tm, ut, pc, jt, jf⟩ := dd
                  cases hkk
                  exact hO.1
                subst ho
                rw [hkk] at hcp
                refine (convIn_loc hs2 hr hcp).bind fun q hq => ?_
                refine ⟨hq.1, hcd _ _ ?_⟩
                rw [hkk, hq.2.1]
                exact ⟨rfl, hq.2.2⟩
              | none =>
                have ho : ∀ n, o ≠ .loc n := by
                  revert hO
                  generalize disch da = dd at *
                  intro hO
                  obtain ⟨k, tm, ut, pc, jt, jf⟩ := dd
                  cases hkk
                  obtain ⟨v, rfl, _⟩ := hO
                  exact fun n e => nomatch e
                refine (convIn_val hs2 hr ho).bind fun q hq => ?_
                refine ⟨hq.1, hcd _ _ ?_⟩
                rw [hkk]
                exact hq.2
            | reloc b =>
              have ho : ∀ n, o ≠ .loc n := by
                revert hO
                generalize disch da = dd at *
                intro hO
                obtain ⟨k, tm, ut, pc, jt, jf⟩ := dd
                cases hkk
                cases b <;> (obtain ⟨v, rfl, _⟩ := hO; exact fun n e => nomatch e)
              refine (convIn_val hs2 hr ho).bind fun q hq => ?_
              refine ⟨hq.1, hcd _ _ ?_⟩
              rw [hkk]
              exact hq.2
            | _ => rw [hkk] at hk; rcases hk with ⟨_, e⟩ | ⟨_, e⟩ <;> cases e

end Verif.Typed
