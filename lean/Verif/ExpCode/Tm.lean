import Verif.ExpCode.Main
/-! When `luaK_goiftrue` and `luaK_goiffalse` do not take their short cut. -/
namespace Verif.ExpCode
open Verif.Fold (FOps BOp UOp)
open Verif.Typed (TM tNIL tFALSE tTRUE tINT tFLT tIARR tFARR tTAB tSTR tFUN tFALSISH tTRUISH tBOOL
  tNUM tANY sub)

/-- questions about the type map of an expression: is it that of an unknown value, does it contain nil or
false, does it contain a true type -/
inductive Ask where
  | any | f | t
deriving DecidableEq

/-- what the type map of an expression is known to contain -/
def E.may : E → Ask → Bool
  | .nil, q | .fls, q => q = .f
  | .tru, q | .int _, q | .flt _, q | .str _, q | .tnew, q | .func _, q => q = .t
  | .loc _, _ | .up _, _ | .call .., _ | .mcall .., _ => true
  | .anil, _ | .acons .., _ | .aopen .., _ | .amopen .., _ => true
  | .cmp .., q => q ≠ .any
  | .paren a, q => a.may q
  | .index a _, _ => a.may .any
  | .bin _ a b, q | .cat a b, q => q = .t || a.may .any || b.may .any
  | .len a, q | .un .bnot a, q => q = .t || a.may .any
  | .un .unm a, .t => a.may .t
  | .un .unm a, _ => a.may .any
  | .not _, .any => false
  | .not a, .f => a.may .t
  | .not a, .t => a.may .f
  | .and a b, .any => a.may .t && b.may .any
  | .and a b, .t => a.may .t && b.may .t
  | .and a b, .f => a.may .f || (a.may .t && b.may .f)
  | .or a b, .any => a.may .f && b.may .any
  | .or a b, .t => a.may .t || (a.may .f && b.may .t)
  | .or a b, .f => a.may .f && b.may .f

/-- Every first operand of `and` may be false, as far as the code generator knows, or is a literal; every
first operand of `or` may be true, or is a literal. -/
def E.tame : E → Prop
  | .paren a | .not a | .un _ a | .len a => a.tame
  | .bin _ a b | .cmp _ a b | .cat a b | .index a b | .call a b | .mcall a _ b | .acons a b | .aopen a b | .amopen a _ b => a.tame ∧ b.tame
  | .and a b => a.tame ∧ b.tame ∧ (a.may .f = true ∨ a = .tru ∨ (∃ i, a = .int i) ∨ (∃ x, a = .flt x) ∨ ∃ b, a = .str b)
  | .or a b => a.tame ∧ b.tame ∧ (a.may .t = true ∨ a = .nil ∨ a = .fls)
  | _ => True

/-! ### bits -/

def hasF (t : TM) : Prop := t &&& tFALSISH ≠ 0
def hasT (t : TM) : Prop := t &&& tTRUISH ≠ 0

theorem bv_or_ne {a b : BitVec 32} (h : a ≠ 0 ∨ b ≠ 0) : a ||| b ≠ 0 := by
  intro e
  rcases BitVec.or_eq_zero_iff.1 e with ⟨h1, h2⟩
  rcases h with h | h
  · exact h h1
  · exact h h2

theorem bv_and_or (a b m : BitVec 32) : (a ||| b) &&& m = (a &&& m) ||| (b &&& m) := by
  ext i hi
  simp [Bool.and_or_distrib_right]

theorem bv_and_same (a m : BitVec 32) : a &&& m &&& m = a &&& m := by
  rw [BitVec.and_assoc, BitVec.and_self]

theorem tm_any : hasF tANY ∧ hasT tANY := by unfold hasF hasT; decide

theorem bne_ne {a : BitVec 32} : (a != 0) = true ↔ a ≠ 0 := bne_iff_ne

theorem not_tm (t : TM) : (hasT t → hasF (notTm t)) ∧ (hasF t → hasT (notTm t)) := by
  unfold notTm
  constructor
  · intro h
    unfold hasF
    rw [if_pos (bne_ne.2 h), bv_and_or]
    exact bv_or_ne (Or.inl (by decide))
  · intro h
    unfold hasT
    rw [if_pos (bne_ne.2 h), bv_and_or]
    exact bv_or_ne (Or.inr (by decide))

theorem and_tm (a b : TM) : (hasF a → hasF (andTm a b)) ∧ (hasT a → hasF b → hasF (andTm a b)) ∧
    (hasT a → hasT b → hasT (andTm a b)) := by
  unfold andTm
  refine ⟨?_, ?_, ?_⟩
  · intro h
    split
    · unfold hasF; rw [bv_and_or, bv_and_same]; exact bv_or_ne (Or.inr h)
    · unfold hasF; rw [bv_and_same]; exact h
  · intro h h2
    rw [if_pos (bne_ne.2 h)]
    unfold hasF; rw [bv_and_or]; exact bv_or_ne (Or.inl h2)
  · intro h h2
    rw [if_pos (bne_ne.2 h)]
    unfold hasT; rw [bv_and_or]; exact bv_or_ne (Or.inl h2)

theorem or_tm (a b : TM) : (hasT a → hasT (orTm a b)) ∧ (hasF a → hasT b → hasT (orTm a b)) ∧
    (hasF a → hasF b → hasF (orTm a b)) := by
  unfold orTm
  refine ⟨?_, ?_, ?_⟩
  · intro h
    split
    · unfold hasT; rw [bv_and_or, bv_and_same]; exact bv_or_ne (Or.inr h)
    · unfold hasT; rw [bv_and_same]; exact h
  · intro h h2
    rw [if_pos (bne_ne.2 h)]
    unfold hasT; rw [bv_and_or]; exact bv_or_ne (Or.inl h2)
  · intro h h2
    rw [if_pos (bne_ne.2 h)]
    unfold hasF; rw [bv_and_or]; exact bv_or_ne (Or.inl h2)

theorem bin_tm (o : BOp) (a b : TM) : hasT (binTm o a b) := by
  have h1 : hasT tINT := by unfold hasT; decide
  have h2 : hasT tFLT := by unfold hasT; decide
  have h3 : hasT (tFLT ||| tINT) := by unfold hasT; decide
  have h4 : hasT (tFLT ||| tFLT) := by unfold hasT; decide
  have h5 := tm_any.2
  unfold binTm
  cases o <;> dsimp only <;> repeat' split
  all_goals first | exact h1 | exact h2 | exact h3 | exact h4 | exact h5

theorem un_tm (o : UOp) (t : TM) (h : o = .unm → hasT t) : hasT (unTm o t) := by
  unfold unTm
  cases o with
  | unm =>
    dsimp only
    split
    · exact h rfl
    · exact tm_any.2
  | bnot =>
    dsimp only
    split
    · unfold hasT; decide
    · split
      · unfold hasT; decide
      · exact tm_any.2

theorem cat_tm (a b : TM) : hasT (catTm a b) := by
  unfold catTm
  split
  · unfold hasT; decide
  · exact tm_any.2

theorem index_tm : indexTm tANY = tANY := by decide

/-! ### type maps of descriptors -/

/-- the type map after `luaK_dischargevars` -/
def D.dtm (d : D) : TM :=
  match d.kind with
  | .indexed .. | .indexup .. => indexTm d.tm
  | _ => d.tm

theorem dischargevars_tm (s : FS) (d : D) : (dischargevars s d).2.tm = d.dtm ∧ (dischargevars s d).2.dtm = d.dtm := by
  obtain ⟨kind, t, f, tm⟩ := d
  unfold dischargevars D.dtm
  cases kind <;> exact ⟨rfl, rfl⟩

theorem dtm_nonreloc {d : D} {r : Nat} (h : d.kind = .nonreloc r) : d.dtm = d.tm := by
  unfold D.dtm; rw [h]

theorem discharge2reg_tm (s : FS) (d : D) (reg : Nat) : (discharge2reg s d reg).2.tm = d.dtm := by
  have h := (dischargevars_tm s d).1
  unfold discharge2reg
  generalize dischargevars s d = x at *
  dsimp only
  split <;> exact h

theorem exp2reg_tm (s : FS) (d : D) (reg : Nat) : (exp2reg s d reg).2.tm = d.dtm := discharge2reg_tm s d reg

theorem exp2nextreg_tm {s : FS} {d : D} {s' : FS} {d' : D} {r : Nat} (h : exp2nextreg s d = .ok (s', d', r)) :
    d'.tm = d.dtm ∧ d'.dtm = d.dtm := by
  unfold exp2nextreg at h
  obtain ⟨s1, e1, h⟩ := Res.bind_eq_ok.1 h
  cases h
  have : (exp2reg s1 (dischargevars s d).2 (s1.freereg - 1)).2.tm = d.dtm := by
    rw [exp2reg_tm, (dischargevars_tm s d).2]
  exact ⟨this, (dtm_nonreloc rfl).trans this⟩

theorem exp2anyreg_tm {s : FS} {d : D} {s' : FS} {d' : D} {r : Nat} (h : exp2anyreg s d = .ok (s', d', r)) :
    d'.tm = d.dtm ∧ d'.dtm = d.dtm := by
  have ht := dischargevars_tm s d
  unfold exp2anyreg at h
  generalize dischargevars s d = x at *
  obtain ⟨s1, d1⟩ := x
  dsimp only at h ht
  have next : exp2nextreg s1 d1 = .ok (s', d', r) → d'.tm = d.dtm ∧ d'.dtm = d.dtm := by
    intro e
    have := exp2nextreg_tm e
    rw [ht.2] at this
    exact this
  split at h
  · rename_i r' hk
    split at h
    · cases h; exact ht
    · split at h
      · cases h
        have : (exp2reg s1 d1 r).2.tm = d.dtm := by rw [exp2reg_tm, ht.2]
        exact ⟨this, (dtm_nonreloc rfl).trans this⟩
      · exact next h
  · exact next h

theorem exp2val_tm {s : FS} {d : D} {s' : FS} {d' : D} (h : exp2val s d = .ok (s', d')) :
    d'.tm = d.dtm ∧ d'.dtm = d.dtm := by
  unfold exp2val at h
  split at h
  · obtain ⟨⟨s1, d1, r⟩, e1, h⟩ := Res.bind_eq_ok.1 h
    cases h
    exact exp2anyreg_tm e1
  · have ht := dischargevars_tm s d
    generalize dischargevars s d = x at *
    cases h
    exact ht

theorem exp2RK_tm {s : FS} {d : D} {s' : FS} {d' : D} {rk : RK} (h : exp2RK s d = .ok (s', d', rk)) :
    d'.tm = d.dtm := by
  unfold exp2RK at h
  obtain ⟨⟨s1, d1⟩, e1, h⟩ := Res.bind_eq_ok.1 h
  have ht := exp2val_tm e1
  dsimp only at h
  split at h
  · split at h
    · cases h; exact ht.1
    · obtain ⟨⟨s2, d2, r⟩, e2, h⟩ := Res.bind_eq_ok.1 h
      cases h
      exact (exp2anyreg_tm e2).1.trans ht.1
  · obtain ⟨⟨s2, d2, r⟩, e2, h⟩ := Res.bind_eq_ok.1 h
    cases h
    exact (exp2anyreg_tm e2).1.trans ht.2

theorem discharge2anyreg_tm {s : FS} {d : D} {s' : FS} {d' : D} {r : Nat} (h : discharge2anyreg s d = .ok (s', d', r)) :
    d'.tm = d.dtm := by
  unfold discharge2anyreg at h
  split at h
  · rename_i r' hk
    cases h
    exact (dtm_nonreloc hk).symm
  · obtain ⟨s1, e1, h⟩ := Res.bind_eq_ok.1 h
    have := discharge2reg_tm s1 d (s1.freereg - 1)
    dsimp only at h
    generalize discharge2reg s1 d (s1.freereg - 1) = x at *
    cases h
    exact this

theorem jumponcond_tm {s : FS} {d : D} {c : Bool} {s' : FS} {d' : D} {l : List Nat}
    (h : jumponcond s d c = .ok (s', d', l)) (hd : d.dtm = d.tm) : d'.tm = d.tm := by
  unfold jumponcond at h
  dsimp only at h
  split at h
  · cases h; rfl
  · obtain ⟨⟨s1, d1, r⟩, e1, h⟩ := Res.bind_eq_ok.1 h
    cases h
    exact (discharge2anyreg_tm e1).trans hd

theorem goiftrueJump_tm {b : Bool} {s : FS} {d : D} {r : FS × D × List Nat} (h : goiftrueJump b s d = .ok r)
    (hd : d.dtm = d.tm) : r.2.1.tm = d.tm := by
  have last : (if b || d.tm &&& tFALSISH != 0 then jumponcond s d false else .ok (s, d, [])) = Res.ok r →
      r.2.1.tm = d.tm := by
    intro h
    split at h
    · obtain ⟨s', d', l⟩ := r
      exact jumponcond_tm h hd
    · cases h; rfl
  unfold goiftrueJump at h
  cases hk : d.kind with
  | jmp j => rw [hk] at h; cases h; rfl
  | k i => rw [hk] at h; cases h; rfl
  | kflt i => rw [hk] at h; cases h; rfl
  | kint i => rw [hk] at h; cases h; rfl
  | tru => rw [hk] at h; cases h; rfl
  | _ => rw [hk] at h; exact last h

theorem goiftrue_tm {b : Bool} {s : FS} {d : D} {s' : FS} {d' : D} (h : goiftrue b s d = .ok (s', d')) :
    d'.tm = d.dtm := by
  have ht := dischargevars_tm s d
  unfold goiftrue at h
  generalize dischargevars s d = x at *
  obtain ⟨s1, d1⟩ := x
  obtain ⟨⟨s2, d2, l⟩, e1, h⟩ := Res.bind_eq_ok.1 h
  cases h
  show d2.tm = d.dtm
  dsimp only at ht
  rw [← ht.1]
  exact goiftrueJump_tm e1 (ht.2.trans ht.1.symm)

theorem goiffalse_tm {b : Bool} {s : FS} {d : D} {s' : FS} {d' : D} (h : goiffalse b s d = .ok (s', d')) :
    d'.tm = d.dtm := by
  have ht := dischargevars_tm s d
  unfold goiffalse at h
  generalize dischargevars s d = x at *
  obtain ⟨s1, d1⟩ := x
  obtain ⟨⟨s2, d2, l⟩, e1, h⟩ := Res.bind_eq_ok.1 h
  cases h
  show d2.tm = d.dtm
  dsimp only at ht
  rw [← ht.1]
  unfold goiffalseJump at e1
  have hd : d1.dtm = d1.tm := ht.2.trans ht.1.symm
  split at e1
  any_goals (cases e1; rfl)
  split at e1
  · exact jumponcond_tm e1 hd
  · cases e1; rfl

theorem numD_tm (n : Verif.Float.Num) : hasT (numD n).dtm := by
  cases n with
  | int i => show hasT tINT; unfold hasT; decide
  | flt x => show hasT tFLT; unfold hasT; decide

/-- `tonumeral` by kind -/
def Kind.isNum : Kind → Bool
  | .kint _ | .kflt _ => true
  | _ => false

theorem isNum_numeral {d : D} (h : d.kind.isNum = false) : d.numeral = none := by
  unfold D.numeral
  split
  · rfl
  · split
    · rename_i hk; rw [hk] at h; cases h
    · rename_i hk; rw [hk] at h; cases h
    · rfl

theorem dischargevars_isNum {s : FS} {d : D} (h : d.kind.isNum = false) : (dischargevars s d).2.kind.isNum = false := by
  unfold dischargevars
  split <;> first | rfl | exact h

theorem foldD_none {F : FOps} {o : Fold.Op} {d1 d2 : D} (h : d1.numeral = none ∨ d2.numeral = none) :
    foldD F o d1 d2 = .ok none := by
  unfold foldD
  rcases h with h | h
  · rw [h]
  · rw [h]; cases d1.numeral <;> rfl

theorem any_or (a m : TM) (hm : m = tFALSISH ∨ m = tTRUISH) : tANY ||| (a &&& m) = tANY := by
  have : ∀ x : TM, x &&& tANY = x → tANY ||| x = tANY := by
    intro x hx
    ext i hi
    have := congrArg (fun v : BitVec 32 => v.getLsbD i) hx
    simp only [BitVec.getLsbD_and] at this
    simp only [← BitVec.getLsbD_eq_getElem, BitVec.getLsbD_or]
    cases h1 : x.getLsbD i <;> cases h2 : tANY.getLsbD i <;> simp_all
  refine this _ ?_
  rw [BitVec.and_assoc]
  rcases hm with rfl | rfl
  · rw [show tFALSISH &&& tANY = tFALSISH from by decide]
  · rw [show tTRUISH &&& tANY = tTRUISH from by decide]

theorem and_any {a : TM} (h : hasT a) : andTm a tANY = tANY := by
  unfold andTm
  rw [if_pos (bne_ne.2 h)]
  exact any_or _ _ (Or.inl rfl)

theorem or_any {a : TM} (h : hasF a) : orTm a tANY = tANY := by
  unfold orTm
  rw [if_pos (bne_ne.2 h)]
  exact any_or _ _ (Or.inr rfl)

theorem bin_any {o : BOp} {a b : TM} (h : a = tANY ∨ b = tANY) : binTm o a b = tANY := by
  have e1 : sub tANY tNUM = false := by decide
  have e2 : tANY ≠ tFLT := by decide
  have e3 : tANY ≠ tINT := by decide
  unfold binTm
  rcases h with rfl | rfl
  · cases o <;> simp [e1, e2, e3]
  · cases o <;> simp [e1, e2, e3]

theorem un_any (o : UOp) : unTm o tANY = tANY := by cases o <;> decide

theorem cat_any {a b : TM} (h : a = tANY ∨ b = tANY) : catTm a b = tANY := by
  have e1 : sub tANY (tSTR ||| tINT ||| tFLT) = false := by decide
  unfold catTm
  rcases h with rfl | rfl
  · rw [e1]; rfl
  · rw [e1, Bool.and_false]; rfl

theorem exp2nextreg_isNum {s : FS} {d : D} {s' : FS} {d' : D} {r : Nat} (h : exp2nextreg s d = .ok (s', d', r)) :
    d'.kind.isNum = false := by
  unfold exp2nextreg at h
  obtain ⟨s1, e1, h⟩ := Res.bind_eq_ok.1 h
  cases h
  rfl

theorem exp2anyreg_isNum {s : FS} {d : D} {s' : FS} {d' : D} {r : Nat} (h : exp2anyreg s d = .ok (s', d', r)) :
    d'.kind.isNum = false := by
  unfold exp2anyreg at h
  generalize dischargevars s d = x at *
  dsimp only at h
  split at h
  · rename_i r' hk
    split at h
    · cases h; rw [hk]; rfl
    · split at h
      · cases h; rfl
      · exact exp2nextreg_isNum h
  · exact exp2nextreg_isNum h

theorem exp2RK_isNum {s : FS} {d : D} {s' : FS} {d' : D} {rk : RK} (h : exp2RK s d = .ok (s', d', rk)) :
    d'.kind.isNum = false := by
  unfold exp2RK at h
  obtain ⟨⟨s1, d1⟩, e1, h⟩ := Res.bind_eq_ok.1 h
  dsimp only at h
  split at h
  · split at h
    · cases h; rfl
    · obtain ⟨⟨s2, d2, r⟩, e2, h⟩ := Res.bind_eq_ok.1 h
      cases h
      exact exp2anyreg_isNum e2
  · obtain ⟨⟨s2, d2, r⟩, e2, h⟩ := Res.bind_eq_ok.1 h
    cases h
    exact exp2anyreg_isNum e2

theorem exp2RK_dtm {s : FS} {d : D} {s' : FS} {d' : D} {rk : RK} (h : exp2RK s d = .ok (s', d', rk)) :
    d'.dtm = d.dtm := by
  have ht := exp2RK_tm h
  unfold exp2RK at h
  obtain ⟨⟨s1, d1⟩, e1, h⟩ := Res.bind_eq_ok.1 h
  have h1 := exp2val_tm e1
  dsimp only at h
  split at h
  · split at h
    · cases h; exact ht
    · obtain ⟨⟨s2, d2, r⟩, e2, h⟩ := Res.bind_eq_ok.1 h
      cases h
      exact (exp2anyreg_tm e2).2.trans h1.1
  · obtain ⟨⟨s2, d2, r⟩, e2, h⟩ := Res.bind_eq_ok.1 h
    cases h
    exact (exp2anyreg_tm e2).2.trans h1.2

/-- what is known of the type map of an expression -/
theorem gen_tm {F : FOps} {b : Bool} : ∀ (e : E) (s s' : FS) (d : D), gen F b e s = .ok (s', d) →
    (e.may .any = true → d.dtm = tANY ∧ d.kind.isNum = false) ∧ (e.may .f = true → hasF d.dtm) ∧
    (e.may .t = true → hasT d.dtm) := by
  intro e
  induction e with
  | nil =>
    intro s s' d h; simp only [gen] at h; cases h
    exact ⟨fun e => by simp [E.may] at e, fun _ => by show hasF tNIL; unfold hasF; decide, fun e => by simp [E.may] at e⟩
  | tru =>
    intro s s' d h; simp only [gen] at h; cases h
    exact ⟨fun e => by simp [E.may] at e, fun e => by simp [E.may] at e, fun _ => by show hasT tTRUE; unfold hasT; decide⟩
  | fls =>
    intro s s' d h; simp only [gen] at h; cases h
    exact ⟨fun e => by simp [E.may] at e, fun _ => by show hasF tFALSE; unfold hasF; decide, fun e => by simp [E.may] at e⟩
  | int i =>
    intro s s' d h; simp only [gen] at h; cases h
    exact ⟨fun e => by simp [E.may] at e, fun e => by simp [E.may] at e, fun _ => by show hasT tINT; unfold hasT; decide⟩
  | flt x =>
    intro s s' d h; simp only [gen] at h; cases h
    exact ⟨fun e => by simp [E.may] at e, fun e => by simp [E.may] at e, fun _ => by show hasT tFLT; unfold hasT; decide⟩
  | str x =>
    intro s s' d h; simp only [gen] at h; cases h
    exact ⟨fun e => by simp [E.may] at e, fun e => by simp [E.may] at e, fun _ => by show hasT tSTR; unfold hasT; decide⟩
  | loc r =>
    intro s s' d h; simp only [gen] at h; cases h
    exact ⟨fun _ => ⟨rfl, rfl⟩, fun _ => tm_any.1, fun _ => tm_any.2⟩
  | up u =>
    intro s s' d h; simp only [gen] at h; cases h
    exact ⟨fun _ => ⟨rfl, rfl⟩, fun _ => tm_any.1, fun _ => tm_any.2⟩
  | call f as ihf iha =>
    intro s s' d h; simp only [gen] at h
    obtain ⟨⟨s1, d1⟩, e1, h⟩ := Res.bind_eq_ok.1 h
    obtain ⟨⟨s2, d2, r⟩, e2, h⟩ := Res.bind_eq_ok.1 h
    obtain ⟨⟨s3, o⟩, e3, h⟩ := Res.bind_eq_ok.1 h
    cases h
    exact ⟨fun _ => ⟨rfl, rfl⟩, fun _ => tm_any.1, fun _ => tm_any.2⟩
  | anil => intro s s' d h; simp only [gen] at h; cases h
  | acons a r => intro s s' d h; simp only [gen] at h; cases h
  | aopen f as => intro s s' d h; simp only [gen] at h; cases h
  | amopen f k as => intro s s' d h; simp only [gen] at h; cases h
  | mcall f k as ihf iha =>
    intro s s' d h; simp only [gen] at h
    obtain ⟨⟨s1, d1⟩, e1, h⟩ := Res.bind_eq_ok.1 h
    dsimp only at h
    obtain ⟨⟨s2, r⟩, e2, h⟩ := Res.bind_eq_ok.1 h
    obtain ⟨⟨s3, o⟩, e3, h⟩ := Res.bind_eq_ok.1 h
    cases h
    exact ⟨fun _ => ⟨rfl, rfl⟩, fun _ => tm_any.1, fun _ => tm_any.2⟩
  | tnew =>
    intro s s' d h; simp only [gen] at h
    obtain ⟨⟨s1, d1, r⟩, e1, h⟩ := Res.bind_eq_ok.1 h
    cases h
    refine ⟨fun e => by simp [E.may] at e, fun e => by simp [E.may] at e, fun _ => ?_⟩
    rw [(exp2nextreg_tm e1).2]
    show hasT tTAB; unfold hasT; decide
  | func i =>
    intro s s' d h; simp only [gen] at h
    obtain ⟨⟨s1, d1, r⟩, e1, h⟩ := Res.bind_eq_ok.1 h
    cases h
    refine ⟨fun e => by simp [E.may] at e, fun e => by simp [E.may] at e, fun _ => ?_⟩
    rw [(exp2nextreg_tm e1).2]
    show hasT tFUN; unfold hasT; decide
  | paren a ih =>
    intro s s' d h; simp only [gen] at h
    obtain ⟨⟨s1, d1⟩, e1, h⟩ := Res.bind_eq_ok.1 h
    have := ih _ _ _ e1
    have ht := dischargevars_tm s1 d1
    have hi := dischargevars_isNum (s := s1) (d := d1)
    dsimp only at h
    generalize dischargevars s1 d1 = x at *
    cases h
    dsimp only at ht hi
    rw [ht.2]
    simp only [E.may]
    exact ⟨fun e => ⟨(this.1 e).1, hi (this.1 e).2⟩, this.2⟩
  | bin o a b iha ihb =>
    intro s s' d h; simp only [gen] at h
    obtain ⟨⟨s1, d1⟩, e1, h⟩ := Res.bind_eq_ok.1 h
    obtain ⟨⟨s2, d2⟩, e2, h⟩ := Res.bind_eq_ok.1 h
    obtain ⟨⟨s3, d3⟩, e3, h⟩ := Res.bind_eq_ok.1 h
    have key : a.may .any = true ∨ b.may .any = true → d.tm = tANY ∧ ∃ pc, d.kind = .reloc pc := by
      intro ha
      dsimp only at h
      have hn : d2.numeral = none ∨ d3.numeral = none := by
        rcases ha with ha | ha
        · left
          have hk := ((iha _ _ _ e1).1 ha).2
          unfold infixArith at e2
          rw [isNum_numeral hk] at e2
          obtain ⟨⟨s4, d4, rk4⟩, e4, e2⟩ := Res.bind_eq_ok.1 e2
          cases e2
          exact isNum_numeral (exp2RK_isNum e4)
        · right
          exact isNum_numeral ((ihb _ _ _ e3).1 ha).2
      have ht : a.may .any = true → d2.dtm = tANY := by
        intro ha
        have hk := (iha _ _ _ e1).1 ha
        unfold infixArith at e2
        rw [isNum_numeral hk.2] at e2
        obtain ⟨⟨s4, d4, rk4⟩, e4, e2⟩ := Res.bind_eq_ok.1 e2
        cases e2
        exact (exp2RK_dtm e4).trans hk.1
      unfold posfixArith at h
      rw [foldD_none hn] at h
      simp only [Res.bind_ok] at h
      unfold codebin at h
      obtain ⟨⟨s4, d4, rk4⟩, e4, h⟩ := Res.bind_eq_ok.1 h
      obtain ⟨⟨s5, d5, rk5⟩, e5, h⟩ := Res.bind_eq_ok.1 h
      cases h
      refine ⟨bin_any ?_, _, rfl⟩
      rcases ha with ha | ha
      · left; exact (exp2RK_tm e5).trans (ht ha)
      · right; exact (exp2RK_tm e4).trans ((ihb _ _ _ e3).1 ha).1
    have key2 : a.may .any = true ∨ b.may .any = true → d.dtm = tANY ∧ d.kind.isNum = false := by
      intro ha
      obtain ⟨h1, pc, h2⟩ := key ha
      exact ⟨by unfold D.dtm; rw [h2]; exact h1, by rw [h2]; rfl⟩
    refine ⟨fun e => key2 (by simpa [E.may] using e), fun e => by rw [(key2 (by simpa [E.may] using e)).1]; exact tm_any.1, fun _ => ?_⟩
    dsimp only at h
    unfold posfixArith at h
    obtain ⟨r, e4, h⟩ := Res.bind_eq_ok.1 h
    cases r with
    | some r => cases h; exact numD_tm r
    | none =>
      dsimp only at h
      unfold codebin at h
      obtain ⟨⟨s4, d4, rk4⟩, e4, h⟩ := Res.bind_eq_ok.1 h
      obtain ⟨⟨s5, d5, rk5⟩, e5, h⟩ := Res.bind_eq_ok.1 h
      cases h
      exact bin_tm o _ _
  | cmp o a b iha ihb =>
    intro s s' d h; simp only [gen] at h
    obtain ⟨⟨s1, d1⟩, e1, h⟩ := Res.bind_eq_ok.1 h
    obtain ⟨⟨s2, d2, rk2⟩, e2, h⟩ := Res.bind_eq_ok.1 h
    obtain ⟨⟨s3, d3⟩, e3, h⟩ := Res.bind_eq_ok.1 h
    dsimp only at h
    unfold codecomp at h
    obtain ⟨⟨s4, d4, rk4⟩, e4, h⟩ := Res.bind_eq_ok.1 h
    cases h
    exact ⟨fun e => by simp [E.may] at e, fun _ => by show hasF tBOOL; unfold hasF; decide,
      fun _ => by show hasT tBOOL; unfold hasT; decide⟩
  | and a b iha ihb =>
    intro s s' d h; simp only [gen] at h
    obtain ⟨⟨s1, d1⟩, e1, h⟩ := Res.bind_eq_ok.1 h
    obtain ⟨⟨s2, d2⟩, e2, h⟩ := Res.bind_eq_ok.1 h
    obtain ⟨⟨s3, d3⟩, e3, h⟩ := Res.bind_eq_ok.1 h
    have i1 := iha _ _ _ e1
    have i2 := ihb _ _ _ e3
    have t1 := goiftrue_tm e2
    have t2 := dischargevars_tm s3 d3
    dsimp only at h
    have hi := dischargevars_isNum (s := s3) (d := d3)
    have hdis : ∀ u x, (dischargevars s3 d3).2.kind ≠ .indexed u x ∧ (dischargevars s3 d3).2.kind ≠ .indexup u x := by
      intro u x
      unfold dischargevars
      split <;> simp_all
    generalize dischargevars s3 d3 = x at *
    cases h
    dsimp only at t1 t2
    have hdt : D.dtm { x.2 with f := x.2.f ++ d2.f, tm := andTm d2.tm x.2.tm } = andTm d1.dtm d3.dtm := by
      unfold D.dtm at t2 ⊢
      dsimp only
      split
      · rename_i u y hk; exact absurd hk (hdis u y).1
      · rename_i u y hk; exact absurd hk (hdis u y).2
      · unfold D.dtm at t1
        rw [t1, t2.1]
    rw [hdt]
    have hx := and_tm d1.dtm d3.dtm
    refine ⟨fun e => ?_, fun e => ?_, fun e => ?_⟩
    · simp only [E.may, Bool.and_eq_true] at e
      exact ⟨by rw [(i2.1 e.2).1]; exact and_any (i1.2.2 e.1), hi (i2.1 e.2).2⟩
    · simp only [E.may, Bool.or_eq_true, Bool.and_eq_true] at e
      rcases e with e | ⟨e, e'⟩
      · exact hx.1 (i1.2.1 e)
      · exact hx.2.1 (i1.2.2 e) (i2.2.1 e')
    · simp only [E.may, Bool.and_eq_true] at e
      exact hx.2.2 (i1.2.2 e.1) (i2.2.2 e.2)
  | or a b iha ihb =>
    intro s s' d h; simp only [gen] at h
    obtain ⟨⟨s1, d1⟩, e1, h⟩ := Res.bind_eq_ok.1 h
    obtain ⟨⟨s2, d2⟩, e2, h⟩ := Res.bind_eq_ok.1 h
    obtain ⟨⟨s3, d3⟩, e3, h⟩ := Res.bind_eq_ok.1 h
    have i1 := iha _ _ _ e1
    have i2 := ihb _ _ _ e3
    have t1 := goiffalse_tm e2
    have t2 := dischargevars_tm s3 d3
    dsimp only at h
    have hi := dischargevars_isNum (s := s3) (d := d3)
    have hdis : ∀ u x, (dischargevars s3 d3).2.kind ≠ .indexed u x ∧ (dischargevars s3 d3).2.kind ≠ .indexup u x := by
      intro u x
      unfold dischargevars
      split <;> simp_all
    generalize dischargevars s3 d3 = x at *
    cases h
    dsimp only at t1 t2
    have hdt : D.dtm { x.2 with t := x.2.t ++ d2.t, tm := orTm d2.tm x.2.tm } = orTm d1.dtm d3.dtm := by
      unfold D.dtm at t2 ⊢
      dsimp only
      split
      · rename_i u y hk; exact absurd hk (hdis u y).1
      · rename_i u y hk; exact absurd hk (hdis u y).2
      · unfold D.dtm at t1
        rw [t1, t2.1]
    rw [hdt]
    have hx := or_tm d1.dtm d3.dtm
    refine ⟨fun e => ?_, fun e => ?_, fun e => ?_⟩
    · simp only [E.may, Bool.and_eq_true] at e
      exact ⟨by rw [(i2.1 e.2).1]; exact or_any (i1.2.1 e.1), hi (i2.1 e.2).2⟩
    · simp only [E.may, Bool.and_eq_true] at e
      exact hx.2.2 (i1.2.1 e.1) (i2.2.1 e.2)
    · simp only [E.may, Bool.or_eq_true, Bool.and_eq_true] at e
      rcases e with e | ⟨e, e'⟩
      · exact hx.1 (i1.2.2 e)
      · exact hx.2.1 (i1.2.1 e) (i2.2.2 e')
  | not a ih =>
    intro s s' d h; simp only [gen] at h
    obtain ⟨⟨s1, d1⟩, e1, h⟩ := Res.bind_eq_ok.1 h
    have i1 := ih _ _ _ e1
    have t1 := dischargevars_tm s1 d1
    dsimp only at h
    have hk : ∀ u x, d.kind ≠ .indexed u x ∧ d.kind ≠ .indexup u x := by
      unfold codenot at h
      obtain ⟨⟨s1, k⟩, e1, h⟩ := Res.bind_eq_ok.1 h
      cases h
      intro u x
      rcases codenotKind_cases e1 with ⟨_, e⟩ | ⟨_, e⟩ | ⟨j, _, e⟩ | ⟨_, s3, d3, r, _, e⟩ <;>
        (cases e; exact ⟨(fun e => nomatch e), (fun e => nomatch e)⟩)
    have htm : d.tm = notTm d1.dtm := by
      unfold codenot at h
      generalize dischargevars s1 d1 = x at *
      obtain ⟨⟨s2, k⟩, e2, h⟩ := Res.bind_eq_ok.1 h
      cases h
      show notTm x.2.tm = _
      rw [t1.1]
    have hdt : d.dtm = notTm d1.dtm := by
      rw [← htm]
      unfold D.dtm
      split
      · rename_i u y hk'; exact absurd hk' (hk u y).1
      · rename_i u y hk'; exact absurd hk' (hk u y).2
      · rfl
    rw [hdt]
    exact ⟨fun e => by simp [E.may] at e, fun e => (not_tm _).1 (i1.2.2 e),
      fun e => (not_tm _).2 (i1.2.1 e)⟩
  | un o a ih =>
    intro s s' d h; simp only [gen] at h
    obtain ⟨⟨s1, d1⟩, e1, h⟩ := Res.bind_eq_ok.1 h
    have i1 := ih _ _ _ e1
    have key : a.may .any = true → d.dtm = tANY ∧ d.kind.isNum = false := by
      intro ha
      dsimp only at h
      unfold prefixUn at h
      rw [foldD_none (Or.inl (isNum_numeral (i1.1 ha).2))] at h
      simp only [Res.bind_ok] at h
      unfold codeun at h
      obtain ⟨⟨s4, d4, rk4⟩, e5, h⟩ := Res.bind_eq_ok.1 h
      cases h
      refine ⟨?_, rfl⟩
      show unTm o d4.tm = _
      rw [(exp2anyreg_tm e5).1, (i1.1 ha).1, un_any]
    refine ⟨fun e => key (by cases o <;> simpa [E.may] using e),
      fun e => by rw [(key (by cases o <;> simpa [E.may] using e)).1]; exact tm_any.1, fun he => ?_⟩
    dsimp only at h
    unfold prefixUn at h
    obtain ⟨r, e4, h⟩ := Res.bind_eq_ok.1 h
    cases r with
    | some r => cases h; exact numD_tm r
    | none =>
      dsimp only at h
      unfold codeun at h
      obtain ⟨⟨s4, d4, rk4⟩, e5, h⟩ := Res.bind_eq_ok.1 h
      cases h
      show hasT (unTm o d4.tm)
      refine un_tm o _ ?_
      rintro rfl
      rw [(exp2anyreg_tm e5).1]
      exact i1.2.2 (by simpa only [E.may] using he)
  | len a ih =>
    intro s s' d h; simp only [gen] at h
    obtain ⟨⟨s1, d1⟩, e1, h⟩ := Res.bind_eq_ok.1 h
    have key : a.may .any = true → d.dtm = tANY ∧ d.kind.isNum = false := by
      intro ha
      dsimp only at h
      unfold codelen at h
      obtain ⟨⟨s4, d4, rk4⟩, e4, h⟩ := Res.bind_eq_ok.1 h
      have ht : d4.tm = tANY := (exp2anyreg_tm e4).1.trans ((ih _ _ _ e1).1 ha).1
      dsimp only at h
      rw [ht] at h
      rw [if_neg (by decide), if_neg (by decide)] at h
      cases h
      exact ⟨rfl, rfl⟩
    refine ⟨fun e => key (by simpa [E.may] using e), fun e => by rw [(key (by simpa [E.may] using e)).1]; exact tm_any.1, fun he => ?_⟩
    dsimp only at h
    unfold codelen at h
    obtain ⟨⟨s4, d4, rk4⟩, e4, h⟩ := Res.bind_eq_ok.1 h
    dsimp only at h
    split at h
    · cases h; show hasT tINT; unfold hasT; decide
    · split at h
      · cases h
      · cases h; exact tm_any.2
  | cat a b iha ihb =>
    intro s s' d h; simp only [gen] at h
    obtain ⟨⟨s1, d1⟩, e1, h⟩ := Res.bind_eq_ok.1 h
    obtain ⟨⟨s2, d2, rk2⟩, e2, h⟩ := Res.bind_eq_ok.1 h
    obtain ⟨⟨s3, d3⟩, e3, h⟩ := Res.bind_eq_ok.1 h
    have key : a.may .any = true ∨ b.may .any = true → d.dtm = tANY ∧ d.kind.isNum = false := by
      intro ha
      have ha' : d2.tm = tANY ∨ d3.dtm = tANY := by
        rcases ha with ha | ha
        · left; exact (exp2nextreg_tm e2).1.trans ((iha _ _ _ e1).1 ha).1
        · right; exact ((ihb _ _ _ e3).1 ha).1
      dsimp only at h
      unfold posfixCat at h
      obtain ⟨⟨s4, d4⟩, e4, h⟩ := Res.bind_eq_ok.1 h
      have t4 := exp2val_tm e4
      dsimp only at h
      split at h
      · cases h
        refine ⟨?_, rfl⟩
        show (if _ then _ else _) = _
        rw [if_neg]
        rintro ⟨h1, h2⟩
        rcases ha' with ha' | ha'
        · rw [ha'] at h2; exact absurd h2 (by decide)
        · rw [t4.1, ha'] at h1; exact absurd h1 (by decide)
      · obtain ⟨⟨s5, d5, r5⟩, e5, h⟩ := Res.bind_eq_ok.1 h
        cases h
        refine ⟨cat_any ?_, rfl⟩
        rcases ha' with ha' | ha'
        · exact Or.inl ha'
        · right; exact (exp2nextreg_tm e5).1.trans (t4.2.trans ha')
    refine ⟨fun e => key (by simpa [E.may] using e), fun e => by rw [(key (by simpa [E.may] using e)).1]; exact tm_any.1, fun he => ?_⟩
    dsimp only at h
    unfold posfixCat at h
    obtain ⟨⟨s4, d4⟩, e4, h⟩ := Res.bind_eq_ok.1 h
    dsimp only at h
    split at h
    · cases h
      show hasT (if _ then _ else _)
      split
      · unfold hasT; decide
      · exact tm_any.2
    · obtain ⟨⟨s5, d5, r5⟩, e5, h⟩ := Res.bind_eq_ok.1 h
      cases h
      exact cat_tm _ _
  | index a b iha ihb =>
    intro s s' d h; simp only [gen] at h
    obtain ⟨⟨s1, d1⟩, e1, h⟩ := Res.bind_eq_ok.1 h
    obtain ⟨⟨s2, d2⟩, e2, h⟩ := Res.bind_eq_ok.1 h
    obtain ⟨⟨s3, d3⟩, e3, h⟩ := Res.bind_eq_ok.1 h
    obtain ⟨⟨s4, d4⟩, e4, h⟩ := Res.bind_eq_ok.1 h
    have i1 := iha _ _ _ e1
    dsimp only at h e2
    have t2 : d2.tm = d1.dtm := by
      unfold exp2anyregup at e2
      split at e2
      · rename_i u hk hj
        cases e2
        unfold D.dtm; rw [hk]
      · obtain ⟨⟨s5, d5, r5⟩, e5, e2⟩ := Res.bind_eq_ok.1 e2
        cases e2
        exact (exp2anyreg_tm e5).1
    have key : a.may .any = true → d.dtm = tANY ∧ d.kind.isNum = false := by
      intro ha
      have := (i1.1 ha).1
      unfold indexed at h
      obtain ⟨⟨s5, d5, r5⟩, e5, h⟩ := Res.bind_eq_ok.1 h
      dsimp only at h
      split at h
      · cases h
        refine ⟨?_, rfl⟩
        show indexTm d2.tm = _
        rw [t2, this]; exact index_tm
      · cases h
        refine ⟨?_, rfl⟩
        show indexTm d2.tm = _
        rw [t2, this]; exact index_tm
      · cases h
    refine ⟨fun e => key (by simpa only [E.may] using e), fun e => ?_, fun e => ?_⟩
    · rw [(key (by simpa only [E.may] using e)).1]; exact tm_any.1
    · rw [(key (by simpa only [E.may] using e)).1]; exact tm_any.2

/-! ### the code generator without its short cut -/

theorem goiftrue_same {s : FS} {d : D} (h : hasF d.dtm ∨ d.kind = .tru ∨ (∃ i, d.kind = .kint i) ∨
    (∃ x, d.kind = .kflt x) ∨ ∃ i, d.kind = .k i) : goiftrue false s d = goiftrue true s d := by
  have key : goiftrueJump false (dischargevars s d).1 (dischargevars s d).2 =
      goiftrueJump true (dischargevars s d).1 (dischargevars s d).2 := by
    rcases h with h | h | ⟨i, h⟩ | ⟨i, h⟩ | ⟨i, h⟩
    · rw [← (dischargevars_tm s d).1] at h
      unfold goiftrueJump
      have h' : ((dischargevars s d).2.tm &&& tFALSISH != 0) = true := bne_ne.2 h
      rw [h', Bool.or_true, Bool.or_true]
    all_goals
      have hd : dischargevars s d = (s, d) := by unfold dischargevars; rw [h]
      rw [hd]; unfold goiftrueJump; rw [h]
  unfold goiftrue
  dsimp only
  rw [key]

theorem goiffalse_same {s : FS} {d : D} (h : hasT d.dtm ∨ d.kind = .nil ∨ d.kind = .fls) :
    goiffalse false s d = goiffalse true s d := by
  have key : goiffalseJump false (dischargevars s d).1 (dischargevars s d).2 =
      goiffalseJump true (dischargevars s d).1 (dischargevars s d).2 := by
    rcases h with h | h | h
    · rw [← (dischargevars_tm s d).1] at h
      unfold goiffalseJump
      have h' : ((dischargevars s d).2.tm &&& tTRUISH != 0) = true := bne_ne.2 h
      rw [h', Bool.or_true, Bool.or_true]
    all_goals
      have hd : dischargevars s d = (s, d) := by unfold dischargevars; rw [h]
      rw [hd]; unfold goiffalseJump; rw [h]
  unfold goiffalse
  dsimp only
  rw [key]

theorem bind_congr_ok {α β : Type} {x : Res α} {f g : α → Res β} (h : ∀ a, x = .ok a → f a = g a) : x >>= f = x >>= g := by
  cases x with
  | ok a => exact h a rfl
  | err m => rfl
  | ub => rfl

theorem tame_args : ∀ (e : E), e.tame → ∀ a ∈ e.args, a.tame := by
  intro e
  induction e using E.indArgs with
  | anil => intro _ a h; cases h
  | acons a r ih =>
    intro h x hx
    rcases List.mem_cons.1 hx with rfl | hx
    · exact h.1
    · exact ih h.2 x hx
  | aopen f as ih =>
    intro h x hx
    rcases List.mem_cons.1 hx with rfl | hx
    · exact h.1
    · exact ih h.2 x hx
  | amopen f k as ih =>
    intro h x hx
    rcases List.mem_cons.1 hx with rfl | hx
    · exact h.1
    · exact ih h.2 x hx
  | other e h1 h2 h3 h4 =>
    intro _ x hx
    exfalso
    cases e <;> first | exact h1 rfl | exact h2 _ _ rfl | exact h3 _ _ rfl | exact h4 _ _ _ rfl | (simp [E.args] at hx)

theorem genArgs_tame {F : FOps} : ∀ (as : E), (∀ a ∈ as.args, ∀ s, gen F false a s = gen F true a s) →
    ∀ s, genArgs F false as s = genArgs F true as s := by
  intro as
  induction as using E.indArgs with
  | anil => intro _ s; simp only [genArgs]
  | acons a r ih =>
    intro h s
    simp only [genArgs, h a (by simp [E.args]), ih (fun a ha => h a (by simp [E.args, ha]))]
  | aopen f as ih =>
    intro h s
    simp only [genArgs, h f (by simp [E.args]), ih (fun a ha => h a (by simp [E.args, ha]))]
  | amopen f k as ih =>
    intro h s
    simp only [genArgs, h f (by simp [E.args]), ih (fun a ha => h a (by simp [E.args, ha]))]
  | other e h1 h2 h3 h4 =>
    intro _ s
    cases e <;> first | exact (h1 rfl).elim | exact (h2 _ _ rfl).elim | exact (h3 _ _ rfl).elim | exact (h4 _ _ _ rfl).elim | simp only [genArgs]

theorem gen_tame {F : FOps} : ∀ (e : E) (s : FS), e.tame → gen F false e s = gen F true e s := by
  intro e
  induction e with
  | nil => intro s _; simp only [gen]
  | tru => intro s _; simp only [gen]
  | fls => intro s _; simp only [gen]
  | int i => intro s _; simp only [gen]
  | flt x => intro s _; simp only [gen]
  | str x => intro s _; simp only [gen]
  | loc r => intro s _; simp only [gen]
  | up u => intro s _; simp only [gen]
  | tnew => intro s _; simp only [gen]
  | func i => intro s _; simp only [gen]
  | paren a ih => intro s h; simp only [gen]; rw [ih s h]
  | bin o a b iha ihb => intro s h; simp only [gen, iha _ h.1, ihb _ h.2]
  | cmp o a b iha ihb => intro s h; simp only [gen, iha _ h.1, ihb _ h.2]
  | and a b iha ihb =>
    intro s h
    simp only [gen, iha _ h.1, ihb _ h.2.1]
    refine bind_congr_ok fun p e => ?_
    obtain ⟨s1, d1⟩ := p
    dsimp only
    rw [goiftrue_same]
    rcases h.2.2 with h | rfl | ⟨i, rfl⟩ | ⟨x, rfl⟩ | ⟨b, rfl⟩
    · exact Or.inl ((gen_tm _ _ _ _ e).2.1 h)
    · simp only [gen] at e; cases e; exact Or.inr (Or.inl rfl)
    · simp only [gen] at e; cases e; exact Or.inr (Or.inr (Or.inl ⟨_, rfl⟩))
    · simp only [gen] at e; cases e; exact Or.inr (Or.inr (Or.inr (Or.inl ⟨_, rfl⟩)))
    · simp only [gen] at e; cases e; exact Or.inr (Or.inr (Or.inr (Or.inr ⟨_, rfl⟩)))
  | or a b iha ihb =>
    intro s h
    simp only [gen, iha _ h.1, ihb _ h.2.1]
    refine bind_congr_ok fun p e => ?_
    obtain ⟨s1, d1⟩ := p
    dsimp only
    rw [goiffalse_same]
    rcases h.2.2 with h | rfl | rfl
    · exact Or.inl ((gen_tm _ _ _ _ e).2.2 h)
    · simp only [gen] at e; cases e; exact Or.inr (Or.inl rfl)
    · simp only [gen] at e; cases e; exact Or.inr (Or.inr rfl)
  | not a ih => intro s h; simp only [gen]; rw [ih s h]
  | un o a ih => intro s h; simp only [gen]; rw [ih s h]
  | len a ih => intro s h; simp only [gen]; rw [ih s h]
  | cat a b iha ihb => intro s h; simp only [gen, iha _ h.1, ihb _ h.2]
  | index a b iha ihb => intro s h; simp only [gen, iha _ h.1, ihb _ h.2]
  | call f as ihf iha =>
    intro s h
    simp only [gen, ihf _ h.1, genArgs_tame as (fun a ha s => iha a ha s (tame_args as h.2 a ha))]
  | anil => intro s _; simp only [gen]
  | acons a r => intro s _; simp only [gen]
  | aopen f as => intro s _; simp only [gen]
  | amopen f k as => intro s _; simp only [gen]
  | mcall f k as ihf iha =>
    intro s h
    simp only [gen, ihf _ h.1, genArgs_tame as (fun a ha s => iha a ha s (tame_args as h.2 a ha))]

end Verif.ExpCode
