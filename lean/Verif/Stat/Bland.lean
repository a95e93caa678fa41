import Verif.Stat.Model
import Verif.Fold.Props
/-! The code of expressions: none of the errors on labels, and the number of variables is the same. -/
namespace Verif.Stat
open Verif.ExpCode
open Verif.Assign (Lhs)
open Verif.Fold (FOps)

/-- the messages of `closegoto`, `checkrepeated` and `undefgoto` -/
def labelErr (m : String) : Prop :=
  m = "jumps into the scope of local" ∨ m = "label already defined" ∨ m = "no visible label, or break outside a loop"

/-! ### the number of variables -/

@[simp] theorem na_emit (s : FS) (i : Instr) : (emit s i).nactvar = s.nactvar := rfl
@[simp] theorem na_getlabel (s : FS) : (getlabel s).nactvar = s.nactvar := rfl
@[simp] theorem na_patchtohere (s : FS) (l : List Nat) : (patchtohere s l).nactvar = s.nactvar := rfl
@[simp] theorem na_jump (s : FS) : (jump s).1.nactvar = s.nactvar := rfl
@[simp] theorem na_condjump (s : FS) (i : Instr) : (condjump s i).1.nactvar = s.nactvar := rfl
@[simp] theorem na_removevalues (s : FS) (l : List Nat) : (removevalues s l).nactvar = s.nactvar := rfl
@[simp] theorem na_negatecondition (s : FS) (j : Nat) : (negatecondition s j).nactvar = s.nactvar := rfl
@[simp] theorem na_freeReg (s : FS) (r : Nat) : (freeReg s r).nactvar = s.nactvar := by unfold freeReg; split <;> rfl
@[simp] theorem na_freeRK (s : FS) (r : RK) : (freeRK s r).nactvar = s.nactvar := by cases r <;> simp [freeRK]
@[simp] theorem na_freeexp (s : FS) (d : D) : (freeexp s d).nactvar = s.nactvar := by unfold freeexp; split <;> simp
@[simp] theorem na_freeexps (s : FS) (d e : D) : (freeexps s d e).nactvar = s.nactvar := by unfold freeexps; split <;> simp
@[simp] theorem na_addK (s : FS) (v : Val) : (addK s v).1.nactvar = s.nactvar := by unfold addK; split <;> rfl
@[simp] theorem na_codeNil (s : FS) (r : Nat) : (codeNil s r).nactvar = s.nactvar := by
  unfold codeNil; repeat' split
  all_goals rfl
@[simp] theorem na_dischargevars (s : FS) (d : D) : (dischargevars s d).1.nactvar = s.nactvar := by
  unfold dischargevars; split <;> simp
@[simp] theorem na_discharge2reg (s : FS) (d : D) (r : Nat) : (discharge2reg s d r).1.nactvar = s.nactvar := by
  have h := na_dischargevars s d
  unfold discharge2reg
  dsimp only
  generalize dischargevars s d = p at h
  obtain ⟨s1, k, t, f, tm⟩ := p
  dsimp only at h ⊢
  cases k <;> simp [h]
  split <;> simp [h]
@[simp] theorem na_exp2regJumps (s : FS) (b : Bool) (t f : List Nat) (r : Nat) : (exp2regJumps s b t f r).nactvar = s.nactvar := by
  unfold exp2regJumps
  split
  · cases b <;> simp
  · rfl
@[simp] theorem na_exp2reg (s : FS) (d : D) (r : Nat) : (exp2reg s d r).1.nactvar = s.nactvar := by
  unfold exp2reg
  dsimp only
  split
  · split <;> simp
  · split <;> simp
@[simp] theorem na_storelocal (s : FS) (d : D) (r : Nat) : (storelocal s d r).nactvar = s.nactvar := by unfold storelocal; simp
@[simp] theorem na_patchlist (s : FS) (l : List Nat) (t : Nat) : (patchlist s l t).nactvar = s.nactvar := by
  unfold patchlist; split <;> simp
@[simp] theorem na_jumpto (s : FS) (t : Nat) : (jumpto s t).nactvar = s.nactvar := by unfold jumpto; simp
@[simp] theorem na_forintail (b n p : Nat) (js : List Nat) (s : FS) : (forintail b n p js s).nactvar = s.nactvar := by unfold forintail; simp
@[simp] theorem na_fortail (b p : Nat) (s : FS) : (fortail b p s).nactvar = s.nactvar := by unfold fortail; simp

theorem na_constOf {s s' : FS} {d : D} {i : Nat} (h : constOf s d = some (s', i)) : s'.nactvar = s.nactvar := by
  have key : ∀ v, some (addK s v) = some (s', i) → s'.nactvar = s.nactvar := by
    intro v h
    have := na_addK s v
    rw [Option.some.inj h] at this
    exact this
  unfold constOf at h
  split at h
  · exact key _ h
  · exact key _ h
  · exact key _ h
  · exact key _ h
  · exact key _ h
  · cases h; rfl
  · cases h

/-! ### results -/

class HasFS (α : Type) where
  st : α → FS
instance : HasFS FS := ⟨id⟩
instance {α β : Type} [HasFS α] : HasFS (α × β) := ⟨fun p => HasFS.st p.1⟩

@[simp] theorem st_fs (s : FS) : HasFS.st s = s := rfl
@[simp] theorem st_pair {β : Type} (p : FS × β) : HasFS.st p = p.1 := rfl

/-- no error on labels, and `n` variables -/
structure Fine {α : Type} [HasFS α] (n : Nat) (x : Res α) : Prop where
  bland : ∀ m, x = .err m → ¬ labelErr m
  act : ∀ a, x = .ok a → (HasFS.st a).nactvar = n

variable {α β : Type} [HasFS α] [HasFS β] {n : Nat}

theorem Fine.ok {a : α} (h : (HasFS.st a).nactvar = n) : Fine n (Res.ok a) := ⟨(fun _ h => nomatch h), fun b e => by cases e; exact h⟩
theorem Fine.pure {a : α} (h : (HasFS.st a).nactvar = n) : Fine n (Pure.pure a : Res α) := Fine.ok h
theorem Fine.ub : Fine n (Res.ub : Res α) := ⟨(fun _ h => nomatch h), fun _ h => nomatch h⟩

theorem Fine.bind {x : Res α} {f : α → Res β} (hx : Fine n x) (hf : ∀ a, (HasFS.st a).nactvar = n → Fine n (f a)) :
    Fine n (x >>= f) := by
  cases x with
  | ok a => exact hf a (hx.act a rfl)
  | err m => exact ⟨fun m' h => hx.bland m' (by cases h; rfl), fun _ h => nomatch h⟩
  | ub => exact Fine.ub

theorem Fine.err {m : String} (h : ¬ labelErr m) : Fine n (Res.err m : Res α) := ⟨(fun _ e => by cases e; exact h), fun _ h => nomatch h⟩

theorem reserve_fine {s : FS} {k : Nat} (h : s.nactvar = n) : Fine n (reserve s k) := by
  unfold reserve
  split
  · exact Fine.err (by rintro (h | h | h) <;> exact absurd h (by decide))
  · exact Fine.ok h

/-- try the rules and the facts given -/
macro "fine" "[" hs:term,* "]" : tactic => do
  let hs := hs.getElems
  `(tactic| ((try dsimp only); repeat' (first
    | with_reducible refine Fine.ok ?_ | with_reducible refine Fine.pure ?_ | with_reducible exact Fine.ub
    | with_reducible refine reserve_fine ?_
    $[| with_reducible refine $hs]*
    | with_reducible refine Fine.bind ?_ (fun _ _ => ?_)
    | assumption
    | (simp_all; done)
    | split)))

theorem discharge2anyreg_fine {s : FS} (d : D) (h : s.nactvar = n) : Fine n (discharge2anyreg s d) := by
  unfold discharge2anyreg; fine []
theorem exp2nextreg_fine {s : FS} (d : D) (h : s.nactvar = n) : Fine n (exp2nextreg s d) := by unfold exp2nextreg; fine []
theorem exp2anyreg_fine {s : FS} (d : D) (h : s.nactvar = n) : Fine n (exp2anyreg s d) := by
  unfold exp2anyreg
  rw [← na_dischargevars s d] at h
  generalize dischargevars s d = p at h
  obtain ⟨s, d⟩ := p
  fine [exp2nextreg_fine _ ?_]
theorem exp2val_fine {s : FS} (d : D) (h : s.nactvar = n) : Fine n (exp2val s d) := by
  unfold exp2val; fine [exp2anyreg_fine _ ?_]
theorem exp2RK_fine {s : FS} (d : D) (h : s.nactvar = n) : Fine n (exp2RK s d) := by
  unfold exp2RK
  refine Fine.bind (exp2val_fine _ h) (fun a ha => ?_)
  cases hc : constOf a.1 a.2 with
  | none => dsimp only; fine [exp2anyreg_fine _ ?_]
  | some p =>
    obtain ⟨s', i⟩ := p
    have := (na_constOf hc).trans ha
    dsimp only; fine [exp2anyreg_fine _ ?_]
theorem jumponcond_fine {s : FS} (d : D) (c : Bool) (h : s.nactvar = n) : Fine n (jumponcond s d c) := by
  unfold jumponcond
  dsimp only
  split
  · exact Fine.ok h
  · fine [discharge2anyreg_fine _ ?_]
theorem goiftrue_fine (fixed : Bool) {s : FS} (d : D) (h : s.nactvar = n) : Fine n (goiftrue fixed s d) := by
  unfold goiftrue
  rw [← na_dischargevars s d] at h
  generalize dischargevars s d = p at h
  obtain ⟨s, k, t, f, tm⟩ := p
  refine Fine.bind ?_ (fun a h => Fine.pure h)
  unfold goiftrueJump
  cases k
  all_goals dsimp only
  all_goals first
    | exact Fine.ok h
    | (split
       · exact jumponcond_fine _ _ h
       · exact Fine.ok h)
theorem goiffalse_fine (fixed : Bool) {s : FS} (d : D) (h : s.nactvar = n) : Fine n (goiffalse fixed s d) := by
  unfold goiffalse
  rw [← na_dischargevars s d] at h
  generalize dischargevars s d = p at h
  obtain ⟨s, k, t, f, tm⟩ := p
  refine Fine.bind ?_ (fun a h => Fine.pure h)
  unfold goiffalseJump
  cases k
  all_goals dsimp only
  all_goals first
    | exact Fine.ok h
    | (split
       · exact jumponcond_fine _ _ h
       · exact Fine.ok h)
theorem codenot_fine {s : FS} (d : D) (h : s.nactvar = n) : Fine n (codenot s d) := by
  unfold codenot
  rw [← na_dischargevars s d] at h
  generalize dischargevars s d = p at h
  obtain ⟨s, k, t, f, tm⟩ := p
  refine Fine.bind ?_ (fun a h => Fine.pure h)
  unfold codenotKind
  cases k
  all_goals fine [discharge2anyreg_fine _ ?_]
theorem codebin_fine {s : FS} (o : Fold.BOp) (d1 d2 : D) (h : s.nactvar = n) : Fine n (codebin s o d1 d2) := by
  unfold codebin; fine [exp2RK_fine _ ?_]
theorem fold_fine {F : FOps} {o : Fold.Op} {d1 d2 : D} {f : Option Float.Num → Res α} (h : ∀ x, Fine n (f x)) :
    Fine n (foldD F o d1 d2 >>= f) := by
  unfold foldD
  split
  · rename_i x y _ _
    rcases Fold.constfolding_total F o x y with ⟨r, e⟩ | ⟨e, _⟩ <;> rw [e]
    · exact h r
    · exact Fine.ub
  · exact h none
theorem infixArith_fine {s : FS} (d : D) (h : s.nactvar = n) : Fine n (infixArith s d) := by
  unfold infixArith; fine [exp2RK_fine _ ?_]
theorem posfixArith_fine (F : FOps) {s : FS} (o : Fold.BOp) (d1 d2 : D) (h : s.nactvar = n) : Fine n (posfixArith F s o d1 d2) := by
  unfold posfixArith
  refine fold_fine fun x => ?_
  cases x
  · exact codebin_fine _ _ _ h
  · exact Fine.pure h
theorem prefixUn_fine (F : FOps) {s : FS} (o : Fold.UOp) (d : D) (h : s.nactvar = n) : Fine n (prefixUn F s o d) := by
  unfold prefixUn
  refine fold_fine fun x => ?_
  cases x
  · unfold codeun; fine [exp2anyreg_fine _ ?_]
  · exact Fine.pure h
theorem codelen_fine {s : FS} (d : D) (h : s.nactvar = n) : Fine n (codelen s d) := by
  unfold codelen
  refine Fine.bind (exp2anyreg_fine _ h) (fun a h => ?_)
  obtain ⟨s, d, r⟩ := a
  dsimp only
  split
  · exact Fine.pure (by simpa using h)
  · split
    · exact Fine.err (by rintro (h | h | h) <;> exact absurd h (by decide))
    · exact Fine.pure (by simpa using h)
theorem codecomp_fine {s : FS} (o : Cmp) (d1 : D) (rk : RK) (d2 : D) (h : s.nactvar = n) : Fine n (codecomp s o d1 rk d2) := by
  unfold codecomp; fine [exp2RK_fine _ ?_]
theorem posfixCat_fine {s : FS} (d1 : D) (r : Nat) (d2 : D) (h : s.nactvar = n) : Fine n (posfixCat s d1 r d2) := by
  unfold posfixCat
  refine Fine.bind (exp2val_fine _ h) (fun a h => ?_)
  dsimp only
  split
  · exact Fine.pure (by simpa using h)
  · fine [exp2nextreg_fine _ ?_]
theorem exp2anyregup_fine {s : FS} (d : D) (h : s.nactvar = n) : Fine n (exp2anyregup s d) := by
  unfold exp2anyregup; fine [exp2anyreg_fine _ ?_]
theorem indexed_fine {s : FS} (d1 d2 : D) (h : s.nactvar = n) : Fine n (indexed s d1 d2) := by
  unfold indexed; fine [exp2RK_fine _ ?_]

theorem selfOp_fine {s : FS} (d : D) (i : Nat) (h : s.nactvar = n) : Fine n (selfOp s d i) := by
  unfold selfOp
  refine Fine.bind (exp2anyreg_fine _ h) (fun p hp => ?_)
  dsimp only
  refine Fine.bind (reserve_fine ((na_freeexp _ _).trans hp)) (fun q hq => ?_)
  refine Fine.bind (exp2RK_fine _ hq) (fun r hr => ?_)
  exact Fine.pure ((na_freeexp _ _).trans hr)

theorem genArgs_fine (F : FOps) (fixed : Bool) : ∀ (as : E), (∀ a ∈ as.args, ∀ {s : FS}, s.nactvar = n → Fine n (gen F fixed a s)) →
    ∀ {s : FS}, s.nactvar = n → Fine n (genArgs F fixed as s) := by
  intro as
  induction as using E.indArgs with
  | anil => intro _ s h; simp only [genArgs]; exact Fine.ok h
  | acons a r ih =>
    intro hi s h
    simp only [genArgs]
    refine Fine.bind (hi a (by simp [E.args]) h) (fun p hp => ?_)
    refine Fine.bind (exp2nextreg_fine _ hp) (fun q hq => ?_)
    exact ih (fun a ha => hi a (by simp [E.args, ha])) hq
  | aopen f as ih =>
    intro hi s h
    simp only [genArgs]
    refine Fine.bind (hi f (by simp [E.args]) h) (fun p hp => ?_)
    refine Fine.bind (exp2nextreg_fine _ hp) (fun q hq => ?_)
    refine Fine.bind (ih (fun a ha => hi a (by simp [E.args, ha])) hq) (fun r hr => ?_)
    exact Fine.pure hr
  | amopen f k as ih =>
    intro hi s h
    simp only [genArgs]
    refine Fine.bind (hi f (by simp [E.args]) h) (fun p hp => ?_)
    refine Fine.bind (selfOp_fine _ _ ((na_addK _ _).trans hp)) (fun q hq => ?_)
    refine Fine.bind (ih (fun a ha => hi a (by simp [E.args, ha])) hq) (fun r hr => ?_)
    exact Fine.pure hr
  | other e h1 h2 h3 h4 =>
    intro _ s h
    cases e <;> first | exact (h1 rfl).elim | exact (h2 _ _ rfl).elim | exact (h3 _ _ rfl).elim | exact (h4 _ _ _ rfl).elim | (simp only [genArgs]; exact Fine.ub)

theorem gen_fine (F : FOps) (fixed : Bool) : ∀ (e : E) {s : FS}, s.nactvar = n → Fine n (gen F fixed e s) := by
  intro e
  induction e <;> intro s h <;> simp only [gen]
  case bin => rename_i iha ihb; fine [iha ?_, ihb ?_, infixArith_fine _ ?_, posfixArith_fine _ _ _ _ ?_]
  case cmp => rename_i iha ihb; fine [iha ?_, ihb ?_, exp2RK_fine _ ?_, codecomp_fine _ _ _ _ ?_]
  case and => rename_i iha ihb; fine [iha ?_, ihb ?_, goiftrue_fine _ _ ?_]
  case or => rename_i iha ihb; fine [iha ?_, ihb ?_, goiffalse_fine _ _ ?_]
  case not => rename_i iha; fine [iha ?_, codenot_fine _ ?_]
  case un => rename_i iha; fine [iha ?_, prefixUn_fine _ _ _ ?_]
  case len => rename_i iha; fine [iha ?_, codelen_fine _ ?_]
  case paren => rename_i iha; fine [iha ?_]
  case cat => rename_i iha ihb; fine [iha ?_, ihb ?_, exp2nextreg_fine _ ?_, posfixCat_fine _ _ _ ?_]
  case index => rename_i iha ihb; fine [iha ?_, ihb ?_, exp2anyregup_fine _ ?_, exp2val_fine _ ?_, indexed_fine _ _ ?_]
  case tnew => fine [exp2nextreg_fine _ ?_]
  case func => fine [exp2nextreg_fine _ ?_]
  case call =>
    rename_i ihf iha
    refine Fine.bind (ihf h) (fun p hp => ?_)
    refine Fine.bind (exp2nextreg_fine _ hp) (fun q hq => ?_)
    refine Fine.bind (genArgs_fine F fixed _ iha hq) (fun r hr => ?_)
    exact Fine.pure hr
  case anil => exact Fine.ub
  case acons => exact Fine.ub
  case aopen => exact Fine.ub
  case amopen => exact Fine.ub
  case mcall =>
    rename_i ihf iha
    refine Fine.bind (ihf h) (fun p hp => ?_)
    refine Fine.bind (selfOp_fine _ _ ((na_addK _ _).trans hp)) (fun q hq => ?_)
    refine Fine.bind (genArgs_fine F fixed _ iha hq) (fun r hr => ?_)
    exact Fine.pure hr
  all_goals exact Fine.ok (by simpa using h)

theorem genList_fine (F : FOps) (fixed : Bool) : ∀ (es : List E) {s : FS}, s.nactvar = n → Fine n (genList F fixed es s) := by
  intro es
  induction es with
  | nil => intro s h; exact Fine.ok h
  | cons e es ih => intro s h; simp only [genList]; fine [gen_fine _ _ _ ?_, exp2nextreg_fine _ ?_, ih ?_]

theorem cond_fine (F : FOps) (fixed : Bool) (c : E) {s : FS} (h : s.nactvar = n) : Fine n (cond F fixed c s) := by
  unfold cond; fine [gen_fine _ _ _ ?_, goiftrue_fine _ _ ?_]
theorem condIf_fine (F : FOps) (fixed : Bool) (c : E) {s : FS} (h : s.nactvar = n) : Fine n (condIf F fixed c s) := by
  unfold condIf; fine [gen_fine _ _ _ ?_, goiftrue_fine _ _ ?_]
theorem condGoto_fine (F : FOps) (fixed : Bool) (c : E) {s : FS} (h : s.nactvar = n) : Fine n (condGoto F fixed c s) := by
  unfold condGoto; fine [gen_fine _ _ _ ?_, goiffalse_fine _ _ ?_]
theorem genVars_fine (F : FOps) (fixed : Bool) : ∀ (vs : List Lhs) {s : FS} (lh : List Kind), s.nactvar = n →
    Fine n (Assign.genVars F fixed vs s lh) := by
  intro vs
  induction vs with
  | nil => intro s lh h; exact Fine.ok h
  | cons v vs ih =>
    intro s lh h
    have h1 : Fine n (Assign.genLhs F fixed v s) := by
      cases v with
      | loc x => exact Fine.ok h
      | up u => exact Fine.ok h
      | index a b => unfold Assign.genLhs; fine [gen_fine _ _ _ ?_]
    have h2 : ∀ {s : FS} (lh : List Kind) (k : Kind), s.nactvar = n → Fine n (Assign.checkVar s lh k) := by
      intro s lh k h
      unfold Assign.checkVar Assign.checkConflict
      split
      · exact Fine.ok h
      · exact Fine.ok h
      · fine [reserve_fine ?_]
    simp only [Assign.genVars]
    fine [h1, h2 _ _ ?_, ih _ ?_]
theorem storevar_fine {s : FS} (k : Kind) (d : D) (h : s.nactvar = n) : Fine n (Assign.storevar s k d) := by
  unfold Assign.storevar; fine [exp2anyreg_fine _ ?_, exp2RK_fine _ ?_]
theorem storeRest_fine : ∀ (ks : List Kind) {s : FS}, s.nactvar = n → Fine n (Assign.storeRest ks s) := by
  intro ks
  induction ks with
  | nil => intro s h; exact Fine.ok h
  | cons k ks ih => intro s h; simp only [Assign.storeRest]; fine [storevar_fine _ _ ?_, ih ?_]
theorem assignment_fine (F : FOps) (fixed : Bool) (vs : List Lhs) (es : List E) (e : E) {s : FS} (h : s.nactvar = n) :
    Fine n (Assign.assignment F fixed vs es e s) := by
  unfold Assign.assignment
  fine [genVars_fine _ _ _ _ ?_, genList_fine _ _ _ ?_, gen_fine _ _ _ ?_, storevar_fine _ _ ?_, storeRest_fine _ ?_]
theorem retstat_fine (F : FOps) (fixed : Bool) (es : List E) {s : FS} (h : s.nactvar = n) : Fine n (retstat F fixed es s) := by
  unfold retstat; fine [gen_fine _ _ _ ?_, exp2anyreg_fine _ ?_, genList_fine _ _ _ ?_]
theorem localstat_fine (F : FOps) (fixed : Bool) (m : Nat) (es : List E) {s : FS} (h : s.nactvar = n) :
    Fine (n + m) (localstat F fixed m es s) := by
  unfold localstat
  have h1 := genList_fine (n := n) F fixed (es ++ List.replicate (m - es.length) .nil) h
  cases hg : genList F fixed (es ++ List.replicate (m - es.length) .nil) s with
  | ok a => exact Fine.ok (by rw [← h]; rfl)
  | err e => exact Fine.err (h1.bland e hg)
  | ub => exact Fine.ub
theorem args_fine (F : FOps) (fixed : Bool) (as : E) {s : FS} (h : s.nactvar = n) : Fine n (genArgs F fixed as s) :=
  genArgs_fine F fixed as (fun a _ => gen_fine F fixed a) h
theorem genMulti_fine (F : FOps) (fixed : Bool) (as : E) (m : Nat) {s : FS} (h : s.nactvar = n) : Fine n (genMulti F fixed as m s) := by
  unfold genMulti
  refine Fine.bind (args_fine F fixed as h) (fun p hp => ?_)
  obtain ⟨s, o⟩ := p
  cases o with
  | none => exact Fine.ub
  | some o => exact Fine.bind (reserve_fine hp) (fun s hs => Fine.pure hs)
theorem localMulti_fine (F : FOps) (fixed : Bool) (m : Nat) (as : E) {s : FS} (h : s.nactvar = n) :
    Fine (n + m) (localMulti F fixed m as s) := by
  unfold localMulti
  have h1 := genMulti_fine (n := n) F fixed as m h
  cases hg : genMulti F fixed as m s with
  | ok a => exact Fine.ok (by rw [← h]; rfl)
  | err e => exact Fine.err (h1.bland e hg)
  | ub => exact Fine.ub
theorem assignMulti_fine (F : FOps) (fixed : Bool) (vs : List Lhs) (as : E) {s : FS} (h : s.nactvar = n) :
    Fine n (Assign.assignMulti F fixed vs as s) := by
  unfold Assign.assignMulti
  refine Fine.bind (genVars_fine F fixed vs _ h) (fun p hp => ?_)
  dsimp only
  split
  · exact Fine.ub
  · exact Fine.bind (genMulti_fine F fixed as _ hp) (fun s hs => storeRest_fine _ hs)
theorem retMulti_fine (F : FOps) (fixed : Bool) (as : E) {s : FS} (h : s.nactvar = n) : Fine n (retMulti F fixed as s) := by
  unfold retMulti
  refine Fine.bind (args_fine F fixed as h) (fun p hp => ?_)
  obtain ⟨s, o⟩ := p
  cases o with
  | none => exact Fine.ub
  | some o => exact Fine.pure hp
theorem forhead_fine (F : FOps) (fixed : Bool) (e1 e2 e3 : E) {s : FS} (h : s.nactvar = n) : Fine (n + 3) (forhead F fixed e1 e2 e3 s) := by
  unfold forhead
  have h1 := genList_fine (n := n) F fixed [e1, e2, e3] h
  cases hg : genList F fixed [e1, e2, e3] s with
  | ok a => exact Fine.ok (by rw [← h1.act a hg]; rfl)
  | err e => exact Fine.err (h1.bland e hg)
  | ub => exact Fine.ub

end Verif.Stat
