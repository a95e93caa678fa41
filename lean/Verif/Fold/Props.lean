import Verif.Fold.Model
import Verif.Float.Compare
import Verif.Arith.Props
/-!
C72.  Constant folding in the bytecode compiler does not change what an expression means.
C73.  Constant folding in the compiler library: what holds, and where it differs from the virtual
machine.
-/
namespace Verif.Fold
open Verif.Arith (LInt cAddS cSubS cNeg cDiv cMod idiv mod shiftl intarith IntOp cShlU cShrU minInt)
open Verif.Float (Dbl Num toIntegerNS ofInt)

/-! ### one operation -/

theorem rawarith_bin (F : FOps) (o : BOp) (x y : Num) :
    rawarith oIntarith (oNumarith F) (.b o) x y = vmBin F o x y := by
  cases o <;> first | rfl | (cases x <;> cases y <;> rfl)

theorem constfolding_bin {F : FOps} {o : BOp} {x y r : Num}
    (h : constfolding F (.b o) x y = .ok (some r)) : vmBin F o x y = .ok (some r) := by
  unfold constfolding at h
  rw [rawarith_bin] at h
  obtain ⟨v, h1, h2⟩ := Res.bind_eq_ok.1 h
  cases v with
  | false => cases h2
  | true =>
    rw [if_pos rfl] at h2
    obtain ⟨q, h3, h4⟩ := Res.bind_eq_ok.1 h2
    rw [h3]
    cases q with
    | none => cases h4
    | some q =>
      cases q with
      | int i => exact h4
      | flt n =>
        dsimp only at h4
        split at h4
        · cases h4
        · exact h4

theorem constfolding_un {F : FOps} {o : UOp} {x r : Num}
    (h : constfolding F (.u o) x (.int 0) = .ok (some r)) : vmUn o x = .ok (some r) := by
  have hraw : rawarith oIntarith (oNumarith F) (.u o) x (.int 0) = vmUn o x := by
    cases o
    · cases x <;> rfl
    · unfold rawarith vmUn
      dsimp only
      cases toIntegerNS x .eq with
      | ok a => cases a <;> rfl
      | err m => rfl
      | ub => rfl
  unfold constfolding at h
  rw [hraw] at h
  obtain ⟨v, h1, h2⟩ := Res.bind_eq_ok.1 h
  cases v with
  | false => cases h2
  | true =>
    rw [if_pos rfl] at h2
    obtain ⟨q, h3, h4⟩ := Res.bind_eq_ok.1 h2
    rw [h3]
    cases q with
    | none => cases h4
    | some q =>
      cases q with
      | int i => exact h4
      | flt n =>
        dsimp only at h4
        split at h4
        · cases h4
        · exact h4

/-- folding at one node -/
theorem foldBin_ok {F : FOps} {f : Op → Num → Num → Res (Option Num)} {o : BOp} {a b e : E}
    (hf : ∀ x y r, a = .num x → b = .num y → f (.b o) x y = .ok (some r) →
      vmBin F o x y = .ok (some r))
    (h : foldBin f o a b = .ok e) (env : Env) : eval F env e = eval F env (.bin o a b) := by
  cases a with
  | num x =>
    cases b with
    | num y =>
      unfold foldBin at h
      obtain ⟨q, h1, h2⟩ := Res.bind_eq_ok.1 h
      cases q with
      | none => cases h2; rfl
      | some r =>
        cases h2
        have h3 := hf x y r rfl rfl h1
        show Res.ok (Val.num r) = vmOp F env o (.num x) (.num y)
        unfold vmOp
        dsimp only
        rw [h3]
        rfl
    | leaf i => cases h; rfl
    | bin o' a' b' => cases h; rfl
    | un o' a' => cases h; rfl
  | leaf i => cases h; rfl
  | bin o' a' b' => cases h; rfl
  | un o' a' => cases h; rfl

theorem eval_bin_congr {F : FOps} {env : Env} {o : BOp} {a a' b b' : E}
    (ha : eval F env a' = eval F env a) (hb : eval F env b' = eval F env b) :
    eval F env (.bin o a' b') = eval F env (.bin o a b) := by
  unfold eval; rw [ha, hb]

theorem eval_un_congr {F : FOps} {env : Env} {o : UOp} {a a' : E}
    (ha : eval F env a' = eval F env a) : eval F env (.un o a') = eval F env (.un o a) := by
  unfold eval; rw [ha]

/-- **C72.** For every expression, the code the bytecode compiler emits after constant folding does
exactly what the operators as written would do: the same value (integer or float, sign of zero and NaN
included), the same error, the same calls of metamethods - whatever the other operands evaluate to,
whatever the metamethods do, and whatever the machine's double multiplication, division, `pow` and
`fmod` compute. -/
theorem fold_correct (F : FOps) (env : Env) : ∀ e e', fold F e = .ok e' →
    eval F env e' = eval F env e := by
  intro e
  induction e with
  | num n => intro e' h; cases h; rfl
  | leaf i => intro e' h; cases h; rfl
  | bin o a b iha ihb =>
    intro e' h
    unfold fold at h
    obtain ⟨a', ha, h⟩ := Res.bind_eq_ok.1 h
    obtain ⟨b', hb, h⟩ := Res.bind_eq_ok.1 h
    rw [foldBin_ok (F := F) (fun x y r _ _ h => constfolding_bin h) h env]
    exact eval_bin_congr (iha a' ha) (ihb b' hb)
  | un o a iha =>
    intro e' h
    unfold fold at h
    obtain ⟨a', ha, h⟩ := Res.bind_eq_ok.1 h
    rw [← eval_un_congr (iha a' ha)]
    cases a' with
    | num x =>
      obtain ⟨q, h1, h2⟩ := Res.bind_eq_ok.1 h
      cases q with
      | none => cases h2; rfl
      | some r =>
        cases h2
        have h3 := constfolding_un h1
        show Res.ok (Val.num r) = vmOp1 env o (.num x)
        unfold vmOp1
        dsimp only
        rw [h3]
        rfl
    | leaf i => cases h; rfl
    | bin o' a' b' => cases h; rfl
    | un o' a' => cases h; rfl

/-! ### the compiler itself -/

theorem toInt_total (x : Num) : ∃ r, toIntegerNS x .eq = .ok r := by
  cases x with
  | int i => exact ⟨_, rfl⟩
  | flt f =>
    show ∃ r, Verif.Float.fltToInteger f .eq = .ok r
    cases f with
    | nan => exact ⟨_, Verif.Float.fltToInteger_nan _⟩
    | inf b => exact ⟨_, Verif.Float.fltToInteger_inf b _⟩
    | fin n s =>
      obtain ⟨n', z, e1, e2, _⟩ := Verif.Float.floor_fin n s
      unfold Verif.Float.fltToInteger
      rw [e1]
      dsimp only
      split
      · exact ⟨_, rfl⟩
      · exact ⟨_, Verif.Float.numberToInteger_int e2⟩

theorem cNeg_ok {y : LInt} (h : y ≠ minInt) : cNeg y = .ok (-y) := by
  unfold cNeg; rw [if_neg h]

theorem toInt_minInt : (minInt : LInt).toInt = -2 ^ 63 := by decide

theorem toInt_neg' {y : LInt} (h : y ≠ minInt) : (-y).toInt = -y.toInt := by
  rw [BitVec.toInt_neg_eq_ite]
  rw [if_neg]
  intro h'
  exact h h'

theorem shiftl_total (x y : LInt) : ∃ r, shiftl x y = .ok r := by
  unfold shiftl
  split
  · split
    · exact ⟨_, rfl⟩
    · rename_i h1 h2
      have hy : y ≠ minInt := by
        intro h; subst h; rw [toInt_minInt] at h2; omega
      rw [cNeg_ok hy]
      refine ⟨x >>> (-y).toNat, ?_⟩
      show cShrU x (-y) = _
      unfold cShrU
      rw [if_neg]
      rw [toInt_neg' hy]
      omega
  · split
    · exact ⟨_, rfl⟩
    · refine ⟨x <<< y.toNat, ?_⟩
      unfold cShlU
      rw [if_neg]
      omega

/-- the integer operand of `>>` is minint -/
def ShrMin (o : BOp) (x y : Num) : Prop :=
  o = .shr ∧ (∃ i, toIntegerNS x .eq = .ok (some i)) ∧ toIntegerNS y .eq = .ok (some minInt)

theorem constfolding_total (F : FOps) (o : Op) (x y : Num) :
    (∃ r, constfolding F o x y = .ok r) ∨
      (constfolding F o x y = .ub ∧ ∃ b, o = .b b ∧ ShrMin b x y) := by
  obtain ⟨i, hi⟩ := toInt_total x
  obtain ⟨j, hj⟩ := toInt_total y
  have tail : ∀ q : Num, ∃ r, (match some q with
      | some (.int i) => (return some (.int i) : Res (Option Num))
      | some (.flt n) =>
        if !Verif.Float.eq n n || Verif.Float.eq n (.fin false 0) then return none
        else return some (.flt n)
      | none => .ub) = .ok r := by
    intro q
    cases q with
    | int i => exact ⟨_, rfl⟩
    | flt n =>
      dsimp only
      split
      · exact ⟨_, rfl⟩
      · exact ⟨_, rfl⟩
  have key : ∀ v, validop o x y = .ok v → (v = true →
      (∃ q, rawarith oIntarith (oNumarith F) o x y = .ok (some q)) ∨
      (rawarith oIntarith (oNumarith F) o x y = .ub ∧ ∃ b, o = .b b ∧ ShrMin b x y)) →
      (∃ r, constfolding F o x y = .ok r) ∨
      (constfolding F o x y = .ub ∧ ∃ b, o = .b b ∧ ShrMin b x y) := by
    intro v hv h
    unfold constfolding
    rw [hv]
    cases v with
    | false => left; exact ⟨_, rfl⟩
    | true =>
      rcases h rfl with ⟨q, h⟩ | ⟨h, h'⟩
      · left
        obtain ⟨r, hr⟩ := tail q
        rw [h]
        exact ⟨r, hr⟩
      · right
        rw [h]
        exact ⟨rfl, h'⟩
  -- bitwise operators
  have bitop : (∀ ia : Op → LInt → LInt → Res LInt, ∀ na, rawarith ia na o x y =
        (toIntegerNS x .eq >>= fun a => match a with
          | none => return none
          | some i => toIntegerNS y .eq >>= fun b => match b with
            | none => return none
            | some j => do
              let r ← ia o i j
              return some (.int r))) →
      (validop o x y = (toIntegerNS x .eq >>= fun a => match a with
          | none => return false
          | some _ => toIntegerNS y .eq >>= fun b => match b with
            | none => return false
            | some _ => return true)) →
      (∀ i j, toIntegerNS x .eq = .ok (some i) → toIntegerNS y .eq = .ok (some j) →
        (∃ r, oIntarith o i j = .ok r) ∨
        (oIntarith o i j = .ub ∧ ∃ b, o = .b b ∧ ShrMin b x y)) →
      (∃ r, constfolding F o x y = .ok r) ∨
      (constfolding F o x y = .ub ∧ ∃ b, o = .b b ∧ ShrMin b x y) := by
    intro h1 h2 h3
    rw [hi, hj] at h2
    have h1 := h1 oIntarith (oNumarith F)
    rw [hi, hj] at h1
    cases i with
    | none => exact key false h2 (fun h => by cases h)
    | some i =>
      cases j with
      | none => exact key false h2 (fun h => by cases h)
      | some j =>
        refine key true h2 (fun _ => ?_)
        rcases h3 i j hi hj with ⟨r, h⟩ | ⟨h, h'⟩
        · left
          refine ⟨.int r, ?_⟩
          rw [h1]
          simp only [Res.bind_ok]
          rw [h]
          rfl
        · right
          refine ⟨?_, h'⟩
          rw [h1]
          simp only [Res.bind_ok]
          rw [h]
          rfl
  have fltop : ∀ r, (validop o x y = .ok true ∨ validop o x y = .ok false) →
      (validop o x y = .ok true → rawarith oIntarith (oNumarith F) o x y = .ok (some r)) →
      (∃ r, constfolding F o x y = .ok r) ∨
      (constfolding F o x y = .ub ∧ ∃ b, o = .b b ∧ ShrMin b x y) := by
    intro r hv hr
    rcases hv with hv | hv
    · exact key true hv (fun _ => Or.inl ⟨r, hr hv⟩)
    · exact key false hv (fun h => by cases h)
  have boolcase : ∀ b : Bool, (Res.ok b : Res Bool) = .ok true ∨ (Res.ok b : Res Bool) = .ok false := by
    intro b; cases b <;> simp
  have hzero : Verif.Float.eq (toNum (.int 0)) (.fin false 0) = true := by decide +kernel
  cases o with
  | b o =>
    cases o with
    | band => exact bitop (fun _ _ => rfl) rfl (fun _ _ _ _ => Or.inl ⟨_, rfl⟩)
    | bor => exact bitop (fun _ _ => rfl) rfl (fun _ _ _ _ => Or.inl ⟨_, rfl⟩)
    | bxor => exact bitop (fun _ _ => rfl) rfl (fun _ _ _ _ => Or.inl ⟨_, rfl⟩)
    | shl => exact bitop (fun _ _ => rfl) rfl (fun i j _ _ => Or.inl (shiftl_total i j))
    | shr =>
      refine bitop (fun _ _ => rfl) rfl (fun i j h1 h2 => ?_)
      by_cases hm : j = minInt
      · right
        subst hm
        exact ⟨rfl, .shr, rfl, rfl, ⟨i, h1⟩, h2⟩
      · left
        obtain ⟨r, hr⟩ := shiftl_total i (-j)
        refine ⟨r, ?_⟩
        show (cNeg j >>= fun k => shiftl i k) = _
        rw [cNeg_ok hm]
        exact hr
    | div => exact fltop _ (boolcase _) (fun _ => rfl)
    | pow => exact fltop _ (Or.inl rfl) (fun _ => rfl)
    | add =>
      cases x <;> cases y <;> exact fltop _ (Or.inl rfl) (fun _ => rfl)
    | sub =>
      cases x <;> cases y <;> exact fltop _ (Or.inl rfl) (fun _ => rfl)
    | mul =>
      cases x <;> cases y <;> exact fltop _ (Or.inl rfl) (fun _ => rfl)
    | mod =>
      cases x with
      | flt x => cases y <;> exact fltop _ (boolcase _) (fun _ => rfl)
      | int x =>
        cases y with
        | flt y => exact fltop _ (boolcase _) (fun _ => rfl)
        | int y =>
          by_cases h0 : y = 0
          · subst h0
            refine key false ?_ (fun h => by cases h)
            show Res.ok (!Verif.Float.eq (toNum (.int 0)) (.fin false 0)) = _
            rw [hzero]; rfl
          · obtain ⟨r, hr, -⟩ := Verif.Arith.mod_floor x y h0
            refine fltop (.int r) (boolcase _) (fun _ => ?_)
            show (mod x y >>= fun r => (pure (some (Num.int r)) : Res (Option Num))) = _
            rw [hr]; rfl
    | idiv =>
      cases x with
      | flt x => cases y <;> exact fltop _ (boolcase _) (fun _ => rfl)
      | int x =>
        cases y with
        | flt y => exact fltop _ (boolcase _) (fun _ => rfl)
        | int y =>
          by_cases h0 : y = 0
          · subst h0
            refine key false ?_ (fun h => by cases h)
            show Res.ok (!Verif.Float.eq (toNum (.int 0)) (.fin false 0)) = _
            rw [hzero]; rfl
          · obtain ⟨r, hr, -⟩ := Verif.Arith.idiv_floor x y h0
            refine fltop (.int r) (boolcase _) (fun _ => ?_)
            show (idiv x y >>= fun r => (pure (some (Num.int r)) : Res (Option Num))) = _
            rw [hr]; rfl
  | u o =>
    cases o with
    | bnot => exact bitop (fun _ _ => rfl) rfl (fun _ _ _ _ => Or.inl ⟨_, rfl⟩)
    | unm => cases x <;> cases y <;> exact fltop _ (Or.inl rfl) (fun _ => rfl)

/-- the subexpressions of an expression -/
def subs : E → List E
  | .num n => [.num n]
  | .leaf i => [.leaf i]
  | .bin o a b => .bin o a b :: (subs a ++ subs b)
  | .un o a => .un o a :: subs a

/-- **C72, the compiler itself.** Folding never raises an error, so no program is rejected because of a
constant expression (such as `1//0`) that it may never execute; and the compiler runs into undefined
behaviour only on a program that contains, written with constants, an expression `x >> y` with `y` equal
to minint - which is undefined when executed, too (C02). -/
theorem fold_total (F : FOps) (e : E) : (∃ e', fold F e = .ok e') ∨
    (fold F e = .ub ∧ ∃ a b, E.bin .shr a b ∈ subs e ∧ ∀ env, ∃ x y, eval F env a = .ok (.num x) ∧
      eval F env b = .ok (.num y) ∧ toIntegerNS y .eq = .ok (some minInt) ∧
      eval F env (.bin .shr a b) = .ub) := by
  induction e with
  | num n => left; exact ⟨_, rfl⟩
  | leaf i => left; exact ⟨_, rfl⟩
  | bin o a b iha ihb =>
    unfold fold
    rcases iha with ⟨a', ha⟩ | ⟨ha, p, q, hp, h⟩
    · rcases ihb with ⟨b', hb⟩ | ⟨hb, p, q, hp, h⟩
      · rw [ha, hb]
        simp only [Res.bind_ok]
        cases a' with
        | num x =>
          cases b' with
          | num y =>
            rcases constfolding_total F (.b o) x y with ⟨r, hr⟩ | ⟨hr, b0, hb0, hs⟩
            · left
              unfold foldBin
              dsimp only
              rw [hr]
              cases r <;> exact ⟨_, rfl⟩
            · right
              unfold foldBin
              dsimp only
              rw [hr]
              refine ⟨rfl, ?_⟩
              cases hb0
              obtain ⟨ho, ⟨i, hi⟩, hj⟩ := hs
              subst ho
              refine ⟨a, b, by simp [subs], fun env => ?_⟩
              have ea := fold_correct F env a _ ha
              have eb := fold_correct F env b _ hb
              refine ⟨x, y, ea.symm, eb.symm, hj, ?_⟩
              have hab : eval F env (.bin .shr a b) = eval F env (.bin .shr (.num x) (.num y)) :=
                eval_bin_congr ea.symm eb.symm
              rw [hab]
              show vmOp F env .shr (.num x) (.num y) = _
              unfold vmOp vmBin
              dsimp only
              rw [hi, hj]
              rfl
          | leaf i => left; exact ⟨_, rfl⟩
          | bin o' a' b' => left; exact ⟨_, rfl⟩
          | un o' a' => left; exact ⟨_, rfl⟩
        | leaf i => left; exact ⟨_, rfl⟩
        | bin o' a' b' => left; exact ⟨_, rfl⟩
        | un o' a' => left; exact ⟨_, rfl⟩
      · right
        rw [ha, hb]
        refine ⟨rfl, p, q, ?_, h⟩
        simp only [subs, List.mem_cons, List.mem_append]
        exact Or.inr (Or.inr hp)
    · right
      rw [ha]
      refine ⟨rfl, p, q, ?_, h⟩
      simp only [subs, List.mem_cons, List.mem_append]
      exact Or.inr (Or.inl hp)
  | un o a iha =>
    unfold fold
    rcases iha with ⟨a', ha⟩ | ⟨ha, p, q, hp, h⟩
    · left
      rw [ha]
      simp only [Res.bind_ok]
      cases a' with
      | num x =>
        rcases constfolding_total F (.u o) x (.int 0) with ⟨r, hr⟩ | ⟨hr, b0, hb0, hs⟩
        · dsimp only
          rw [hr]
          cases r <;> exact ⟨_, rfl⟩
        · cases hb0
      | leaf i => exact ⟨_, rfl⟩
      | bin o' a' b' => exact ⟨_, rfl⟩
      | un o' a' => exact ⟨_, rfl⟩
    · right
      rw [ha]
      refine ⟨rfl, p, q, ?_, h⟩
      simp only [subs, List.mem_cons]
      exact Or.inr hp

/-! ### the compiler library -/

/-- a right shift that the virtual machine and the library treat alike -/
def ShiftOK (o : BOp) (i : LInt) : Prop := o = .shl ∨ o = .shr → 0 ≤ i.toInt

theorem sShiftl_ok {x y r : LInt} (hx : 0 ≤ x.toInt) (h : sShiftl x y = .ok r) :
    shiftl x y = .ok r := by
  unfold sShiftl at h
  unfold shiftl
  split at h
  · rename_i hy
    rw [if_pos hy]
    split at h
    · rename_i hy'
      rw [if_pos hy']
      exact h
    · rename_i hy'
      rw [if_neg hy']
      obtain ⟨k, h1, h2⟩ := Res.bind_eq_ok.1 h
      rw [h1]
      simp only [Res.bind_ok]
      unfold cShrS at h2
      unfold cShrU
      split at h2
      · cases h2
      · rename_i hk
        rw [if_neg hk]
        rw [← h2, BitVec.sshiftRight_eq_of_msb_false]
        rw [BitVec.msb_eq_toInt]
        simp only [decide_eq_false_iff_not]
        omega
  · rename_i hy
    rw [if_neg hy]
    split at h
    · rename_i hy'
      rw [if_pos hy']
      exact h
    · rename_i hy'
      rw [if_neg hy']
      unfold cShlS at h
      unfold cShlU
      split at h
      · cases h
      · rw [if_neg (by omega)]
        exact h

theorem sIntarith_bin {o : BOp} {i j r : LInt} (hs : ShiftOK o i)
    (h : sIntarith (.b o) i j = .ok r) : vmInt o i j = .ok r := by
  cases o with
  | add =>
    change cAddS i j = _ at h
    unfold cAddS at h
    split at h
    · cases h
    · exact h
  | sub =>
    change cSubS i j = _ at h
    unfold cSubS at h
    split at h
    · cases h
    · exact h
  | mul =>
    change cMulS i j = _ at h
    unfold cMulS at h
    split at h
    · cases h
    · exact h
  | mod => exact h
  | idiv =>
    change sIdiv i j = _ at h
    show idiv i j = _
    unfold sIdiv at h
    unfold idiv
    split at h
    · rename_i h1
      rw [if_pos h1]
      split at h
      · cases h
      · rename_i h2
        rw [if_neg h2]
        unfold cSubS at h
        split at h
        · cases h
        · exact h
    · rename_i h1
      rw [if_neg h1]
      exact h
  | pow => exact h
  | div => exact h
  | band => exact h
  | bor => exact h
  | bxor => exact h
  | shl => exact sShiftl_ok (hs (Or.inl rfl)) h
  | shr =>
    change (cNeg j >>= fun k => sShiftl i k) = _ at h
    show (cNeg j >>= fun k => shiftl i k) = _
    obtain ⟨k, h1, h2⟩ := Res.bind_eq_ok.1 h
    rw [h1]
    exact sShiftl_ok (hs (Or.inr rfl)) h2

theorem sRawarith_bin {F : FOps} {o : BOp} {x y r : Num}
    (hs : ∀ i, toIntegerNS x .eq = .ok (some i) → ShiftOK o i)
    (h : sRawarith F (.b o) x y = .ok (some r)) : vmBin F o x y = .ok (some r) := by
  have bit : ∀ q : LInt → LInt → Res LInt, (∀ i j r, toIntegerNS x .eq = .ok (some i) →
        sIntarith (.b o) i j = .ok r → q i j = .ok r) →
      (toIntegerNS x .eq >>= fun a => match a with
          | none => return none
          | some i => toIntegerNS y .eq >>= fun b => match b with
            | none => return none
            | some j => do
              let r ← sIntarith (.b o) i j
              return some (.int r)) = .ok (some r) →
      (toIntegerNS x .eq >>= fun a => match a with
          | none => return none
          | some i => toIntegerNS y .eq >>= fun b => match b with
            | none => return none
            | some j => do
              let r ← q i j
              return some (.int r)) = .ok (some r) := by
    intro q hq h
    obtain ⟨i, hi⟩ := toInt_total x
    obtain ⟨j, hj⟩ := toInt_total y
    rw [hi, hj] at h ⊢
    cases i with
    | none => cases h
    | some i =>
      cases j with
      | none => cases h
      | some j =>
        simp only [Res.bind_ok] at h ⊢
        obtain ⟨v, h1, h2⟩ := Res.bind_eq_ok.1 h
        rw [hq i j v hi h1]
        exact h2
  have int2 : ∀ i j, x = .int i → y = .int j →
      (do let r ← sIntarith (.b o) i j; return some (Num.int r) : Res (Option Num)) = .ok (some r) →
      (do let r ← vmInt o i j; return some (Num.int r) : Res (Option Num)) = .ok (some r) := by
    intro i j hx hy h
    obtain ⟨v, h1, h2⟩ := Res.bind_eq_ok.1 h
    rw [sIntarith_bin (hs i (by rw [hx]; rfl)) h1]
    exact h2
  cases o with
  | band => exact bit (vmInt .band) (fun i j r hi h => sIntarith_bin (hs i hi) h) h
  | bor => exact bit (vmInt .bor) (fun i j r hi h => sIntarith_bin (hs i hi) h) h
  | bxor => exact bit (vmInt .bxor) (fun i j r hi h => sIntarith_bin (hs i hi) h) h
  | shl => exact bit (vmInt .shl) (fun i j r hi h => sIntarith_bin (hs i hi) h) h
  | shr => exact bit (vmInt .shr) (fun i j r hi h => sIntarith_bin (hs i hi) h) h
  | pow => exact h
  | div => exact h
  | add =>
    cases x with
    | flt x => cases y <;> exact h
    | int x => cases y with
      | flt y => exact h
      | int y => exact int2 x y rfl rfl h
  | sub =>
    cases x with
    | flt x => cases y <;> exact h
    | int x => cases y with
      | flt y => exact h
      | int y => exact int2 x y rfl rfl h
  | mul =>
    cases x with
    | flt x => cases y <;> exact h
    | int x => cases y with
      | flt y => exact h
      | int y => exact int2 x y rfl rfl h
  | mod =>
    cases x with
    | flt x => cases y <;> exact h
    | int x => cases y with
      | flt y => exact h
      | int y => exact int2 x y rfl rfl h
  | idiv =>
    cases x with
    | flt x => cases y <;> exact h
    | int x => cases y with
      | flt y => exact h
      | int y => exact int2 x y rfl rfl h

theorem sRawarith_un {F : FOps} {o : UOp} {x r : Num}
    (h : sRawarith F (.u o) x x = .ok (some r)) : vmUn o x = .ok (some r) := by
  cases o with
  | unm =>
    cases x with
    | flt x => exact h
    | int x =>
      change (cSubS 0 x >>= fun r => (pure (some (Num.int r)) : Res (Option Num))) = _ at h
      unfold cSubS at h
      split at h
      · cases h
      · exact h
  | bnot =>
    unfold sRawarith rawarith at h
    unfold vmUn
    dsimp only at h ⊢
    obtain ⟨i, hi⟩ := toInt_total x
    rw [hi] at h ⊢
    cases i with
    | none => cases h
    | some i => exact h

/-- an expression of numerals only -/
def closed : E → Bool
  | .num _ => true
  | .leaf _ => false
  | .bin _ a b => closed a && closed b
  | .un _ a => closed a

/-- No shift of `e` that is written with constants only has a negative number on the left. -/
def NoNegShift (F : FOps) (e : E) : Prop :=
  ∀ o a b, E.bin o a b ∈ subs e → o = .shl ∨ o = .shr → closed a = true → closed b = true →
    ∀ env x i, eval F env a = .ok (.num x) → toIntegerNS x .eq = .ok (some i) → 0 ≤ i.toInt

theorem simplify_closed (F : FOps) : ∀ e n, simplify F e = .ok (.num n) → closed e = true := by
  intro e
  induction e with
  | num n => intro _ _; rfl
  | leaf i => intro n h; cases h
  | bin o a b iha ihb =>
    intro n h
    unfold simplify at h
    obtain ⟨a', ha, h⟩ := Res.bind_eq_ok.1 h
    obtain ⟨b', hb, h⟩ := Res.bind_eq_ok.1 h
    unfold foldBin at h
    cases a' with
    | num x =>
      cases b' with
      | num y => simp [closed, iha _ ha, ihb _ hb]
      | leaf i => cases h
      | bin o' a' b' => cases h
      | un o' a' => cases h
    | leaf i => cases h
    | bin o' a' b' => cases h
    | un o' a' => cases h
  | un o a iha =>
    intro n h
    unfold simplify at h
    obtain ⟨a', ha, h⟩ := Res.bind_eq_ok.1 h
    cases a' with
    | num x => exact iha _ ha
    | leaf i => cases h
    | bin o' a' b' => cases h
    | un o' a' => cases h

/-- **C73, what holds.** If the compiler library gets an expression through constant folding (no
undefined behaviour, no error), and the expression has no constant shift of a negative number, then the
result means what the virtual machine computes for the expression as written - same value, errors and
metamethod calls.  Missing from the full claim: constant shifts of negative numbers (`fold_shr_negative`),
constant operations that overflow (`fold_overflow`) and constant division by zero
(`fold_rejects`). -/
theorem simplify_correct_partial (F : FOps) (e e' : E) (hn : NoNegShift F e)
    (h : simplify F e = .ok e') : ∀ env, eval F env e' = eval F env e := by
  induction e generalizing e' with
  | num n => intro env; cases h; rfl
  | leaf i => intro env; cases h; rfl
  | bin o a b iha ihb =>
    unfold simplify at h
    obtain ⟨a', ha, h⟩ := Res.bind_eq_ok.1 h
    obtain ⟨b', hb, h⟩ := Res.bind_eq_ok.1 h
    have na : NoNegShift F a := fun o' p q hm => hn o' p q (by
      simp only [subs, List.mem_cons, List.mem_append]; exact Or.inr (Or.inl hm))
    have nb : NoNegShift F b := fun o' p q hm => hn o' p q (by
      simp only [subs, List.mem_cons, List.mem_append]; exact Or.inr (Or.inr hm))
    have ea := iha a' na ha
    have eb := ihb b' nb hb
    intro env
    rw [foldBin_ok (F := F) (fun x y r h1 h2 h3 => ?_) h env]
    · exact eval_bin_congr (ea env) (eb env)
    · subst h1; subst h2
      refine sRawarith_bin ?_ h3
      intro i hi ho
      exact hn o a b (by simp [subs]) ho (simplify_closed F a x ha) (simplify_closed F b y hb)
        env x i (ea env).symm hi
  | un o a iha =>
    unfold simplify at h
    obtain ⟨a', ha, h⟩ := Res.bind_eq_ok.1 h
    have na : NoNegShift F a := fun o' p q hm => hn o' p q (by
      simp only [subs, List.mem_cons]; exact Or.inr hm)
    have ea := iha a' na ha
    intro env
    rw [← eval_un_congr (ea env)]
    cases a' with
    | num x =>
      obtain ⟨q, h1, h2⟩ := Res.bind_eq_ok.1 h
      cases q with
      | none => cases h2; rfl
      | some r =>
        cases h2
        have h3 := sRawarith_un h1
        show Res.ok (Val.num r) = vmOp1 env o (.num x)
        unfold vmOp1
        dsimp only
        rw [h3]
        rfl
    | leaf i => cases h; rfl
    | bin o' a' b' => cases h; rfl
    | un o' a' => cases h; rfl

/-- **C73 fails for right shifts:** the library folds `-1 >> 1` to -1; executed, it is maxint. -/
theorem fold_shr_negative (F : FOps) (env : Env) :
    simplify F (.bin .shr (.un .unm (.num (.int 1))) (.num (.int 1))) = .ok (.num (.int (-1))) ∧
    eval F env (.bin .shr (.un .unm (.num (.int 1))) (.num (.int 1)))
      = .ok (.num (.int (BitVec.intMax 64))) ∧
    fold F (.bin .shr (.un .unm (.num (.int 1))) (.num (.int 1)))
      = .ok (.num (.int (BitVec.intMax 64))) := ⟨rfl, rfl, rfl⟩

/-- **C73 fails for overflow:** folding `maxint + 1`, `minint * -1`, `-minint` and `-1 << 1` is undefined
behaviour of the library; executed, they wrap around. -/
theorem fold_overflow (F : FOps) (env : Env) :
    (simplify F (.bin .add (.num (.int (BitVec.intMax 64))) (.num (.int 1))) = .ub ∧
      eval F env (.bin .add (.num (.int (BitVec.intMax 64))) (.num (.int 1)))
        = .ok (.num (.int minInt))) ∧
    (simplify F (.bin .mul (.num (.int minInt)) (.num (.int (-1)))) = .ub ∧
      eval F env (.bin .mul (.num (.int minInt)) (.num (.int (-1)))) = .ok (.num (.int minInt))) ∧
    (simplify F (.un .unm (.num (.int minInt))) = .ub ∧
      eval F env (.un .unm (.num (.int minInt))) = .ok (.num (.int minInt))) ∧
    (simplify F (.bin .shl (.num (.int (-1))) (.num (.int 1))) = .ub ∧
      eval F env (.bin .shl (.num (.int (-1))) (.num (.int 1))) = .ok (.num (.int (-2)))) :=
  ⟨⟨rfl, rfl⟩, ⟨rfl, rfl⟩, ⟨rfl, rfl⟩, ⟨rfl, rfl⟩⟩

/-- **C73 fails for division by zero:** the library rejects a program in which `1//0` or `1%0` occurs,
executed or not; the bytecode compiler leaves it alone. -/
theorem fold_rejects (F : FOps) :
    (∃ m, simplify F (.bin .idiv (.num (.int 1)) (.num (.int 0))) = .err m) ∧
    (∃ m, simplify F (.bin .mod (.num (.int 1)) (.num (.int 0))) = .err m) ∧
    fold F (.bin .idiv (.num (.int 1)) (.num (.int 0)))
      = .ok (.bin .idiv (.num (.int 1)) (.num (.int 0))) := by
  refine ⟨⟨_, rfl⟩, ⟨_, rfl⟩, ?_⟩
  have hzero : Verif.Float.eq (toNum (.int 0)) (.fin false 0) = true := by decide +kernel
  unfold fold
  simp only [fold, Res.bind_ok]
  unfold foldBin constfolding validop
  simp only [hzero]
  rfl

/-! ### the hypotheses are met, and folding takes place -/

/-- `x + (7 // 2 * -3 << 2)` and `~5 & x` -/
example (F : FOps) : fold F (.bin .add (.leaf 0) (.bin .shl (.bin .mul (.num (.int 7)) (.un .unm
    (.num (.int 3)))) (.num (.int 2)))) = .ok (.bin .add (.leaf 0) (.num (.int (-84)))) := rfl
example (F : FOps) : fold F (.bin .band (.un .bnot (.num (.int 5))) (.leaf 0))
    = .ok (.bin .band (.num (.int (-6))) (.leaf 0)) := rfl
example (F : FOps) : simplify F (.bin .sub (.bin .mod (.num (.int (-7))) (.num (.int 3)))
    (.leaf 1)) = .ok (.bin .sub (.num (.int 2)) (.leaf 1)) := rfl
/-- a NaN result is not folded by the bytecode compiler, but by the library -/
example (F : FOps) (h : ∀ x y, F.mul x y = .nan) (x y : Dbl) :
    fold F (.bin .mul (.num (.flt x)) (.num (.flt y))) = .ok (.bin .mul (.num (.flt x)) (.num (.flt y))) ∧
    simplify F (.bin .mul (.num (.flt x)) (.num (.flt y))) = .ok (.num (.flt .nan)) := by
  constructor
  · unfold fold
    simp only [fold, Res.bind_ok]
    unfold foldBin constfolding validop rawarith oNumarith
    simp only [toNum, h, Res.bind_ok, Res.pure_eq]
    rfl
  · unfold simplify
    simp only [simplify, Res.bind_ok]
    unfold foldBin sRawarith rawarith sNumarith
    simp only [toNum, h, Res.bind_ok, Res.pure_eq]

/-- `5 >> 1` has no negative constant shifts -/
example (F : FOps) : NoNegShift F (.bin .shr (.num (.int 5)) (.num (.int 1))) := by
  intro o a b hm _ _ _ env x i hx hi
  simp only [subs, List.mem_cons, List.mem_append, List.not_mem_nil, or_false, reduceCtorEq] at hm
  cases hm
  cases hx
  cases hi
  decide

end Verif.Fold
