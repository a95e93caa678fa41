import Verif.For.Model
import Verif.Float.Props
/-!
Property C08 (integer loops), C50 (type-specialised integer loops) and C51 (float loops).
-/
namespace Verif.For
open Verif.Arith (LInt minInt cAddS cSubS)
open Verif.Float
attribute [local irreducible] U

/-- the integer `x` has not passed the limit `lim`, for a step of sign `s` (exact values; a NaN limit is always passed) -/
def Within (s x : Int) (lim : Num) : Prop :=
  ∃ y, lim.val = some y ∧ if 0 < s then (((x : ℚ) : WithTop ℚ) : Ext) ≤ y else y ≤ (((x : ℚ) : WithTop ℚ) : Ext)

theorem maxInt_toInt : maxInt.toInt = 2 ^ 63 - 1 := by decide
theorem minInt_toInt : minInt.toInt = -2 ^ 63 := by decide

/-- the test of `OP_FORLOOP` on integers -/
def test (p s x : LInt) : Bool := if 0 < s.toInt then decide (x.toInt ≤ p.toInt) else decide (p.toInt ≤ x.toInt)

/-- what `luaV_forlimit` guarantees: with `stopnow` no integer is within the limit, and 0 fails the test; without it the test is exact -/
theorem forlimit_spec {o : Obj} {lim : Num} (ho : o.toNum = some lim) (hwf : lim.WF) {s : LInt} (hs : s ≠ 0)
    (hnan : lim = .flt .nan → 0 < s.toInt) :
    ∃ p stopnow, forlimit o s = .ok (some (p, stopnow)) ∧
      (stopnow = false → ∀ x : LInt, test p s x = true ↔ Within s.toInt x.toInt lim) ∧
      (stopnow = true → test p s 0 = false ∧ ∀ x : LInt, ¬ Within s.toInt x.toInt lim) := by
  have hs0 : s.toInt ≠ 0 := fun h => hs (BitVec.eq_of_toInt_eq (by rw [h]; rfl))
  have mx := maxInt_toInt
  have mn := minInt_toInt
  have z0 : (0 : LInt).toInt = 0 := rfl
  -- the integer case
  have hint : ∀ i : LInt, lim = .int i →
      ∀ x : LInt, test i s x = true ↔ Within s.toInt x.toInt lim := by
    rintro i rfl x
    simp only [test, Within, Num.val, Option.some.injEq, exists_eq_left']
    split <;> simp only [decide_eq_true_eq, coe_le, Int.cast_le]
  cases lim with
  | int i =>
    refine ⟨i, false, ?_, fun _ => hint i rfl, by simp⟩
    cases o with
    | num n => simp only [Obj.toNum, Option.some.injEq] at ho; subst ho; rfl
    | str c => simp only [Obj.toNum] at ho; subst ho; rfl
    | other => cases ho
  | flt f =>
    have e : forlimit o s = (do
        match ← fltToInteger f (if s.toInt < 0 then .ceil else .floor) with
        | some p => return some (p, false)
        | none =>
          if lt (ofInt 0) f then return some (maxInt, decide (s.toInt < 0))
          else return some (minInt, decide (0 ≤ s.toInt))) := by
      cases o with
      | num n => simp only [Obj.toNum, Option.some.injEq] at ho; subst ho; rfl
      | str c => simp only [Obj.toNum] at ho; subst ho; rfl
      | other => cases ho
    rw [e]
    cases f with
    | nan =>
      have h := hnan rfl
      rw [fltToInteger_nan, zero_eq]
      refine ⟨minInt, true, ?_, by simp, fun _ => ⟨?_, ?_⟩⟩
      · simp [lt]; omega
      · simp only [test, if_pos h, z0]; simp [mn]
      · rintro x ⟨y, hy, _⟩; simp [Num.val, Dbl.val] at hy
    | inf b =>
      rw [fltToInteger_inf, zero_eq]
      cases b with
      | false =>
        refine ⟨maxInt, decide (s.toInt < 0), by simp [lt], ?_, ?_⟩
        · intro hd x
          have hd : 0 < s.toInt := by have := of_decide_eq_false hd; omega
          have := toInt_range x
          simp only [test, Within, if_pos hd, Num.val, Dbl.val, Option.some.injEq, exists_eq_left', decide_eq_true_eq]
          simp only [le_top, iff_true]; omega
        · intro hd
          have hd := of_decide_eq_true hd
          have hn : ¬ 0 < s.toInt := by omega
          refine ⟨?_, ?_⟩
          · simp only [test, if_neg hn, z0]; simp [mx]
          · intro x
            simp only [Within, if_neg hn, Num.val, Dbl.val, Option.some.injEq, exists_eq_left', not_le]
            exact coe_lt_top _
      | true =>
        refine ⟨minInt, decide (0 ≤ s.toInt), by simp [lt], ?_, ?_⟩
        · intro hd x
          have hd : ¬ 0 < s.toInt := by have := of_decide_eq_false hd; omega
          have := toInt_range x
          simp only [test, Within, if_neg hd, Num.val, Dbl.val, Option.some.injEq, exists_eq_left', decide_eq_true_eq]
          simp only [bot_le, iff_true]; omega
        · intro hd
          have hd := of_decide_eq_true hd
          have hn : 0 < s.toInt := by omega
          refine ⟨?_, ?_⟩
          · simp only [test, if_pos hn, z0]; simp [mn]
          · intro x
            simp only [Within, if_pos hn, Num.val, Dbl.val, Option.some.injEq, exists_eq_left', not_le]
            exact bot_lt_coe _
    | fin n m =>
      have hr : Rep m := hwf
      have hU := U_pos
      rw [fltToInteger_fin hr, lt_zero_fin]
      have hW : ∀ x : Int, Within s.toInt x (.flt (.fin n m)) ↔ if 0 < s.toInt then x * U ≤ sc n m else sc n m ≤ x * U := by
        intro x
        simp only [Within, Num.val, Dbl.val, Option.some.injEq, exists_eq_left', sc_cast, coe_le, int_le_fin, fin_le_int]
      simp only [hW]
      by_cases hp : 0 < s.toInt
      · have hn : ¬ s.toInt < 0 := by omega
        simp only [hn, if_false, reduceCtorEq, false_and, decide_false]
        by_cases hrg : -2 ^ 63 ≤ rnd .floor (sc n m) ∧ rnd .floor (sc n m) < 2 ^ 63
        · refine ⟨_, false, by rw [if_pos hrg]; rfl, ?_, by simp⟩
          intro _ x
          simp only [test, if_pos hp, decide_eq_true_eq, toInt_ofInt hrg, le_floor]
        · by_cases h0 : 0 < sc n m
          · refine ⟨maxInt, false, by rw [if_neg hrg]; simp [h0], ?_, by simp⟩
            intro _ x
            have hx := toInt_range x
            simp only [test, if_pos hp, decide_eq_true_eq, ← le_floor]
            have : (0 : Int) ≤ rnd .floor (sc n m) := by rw [le_floor]; omega
            constructor <;> intro <;> omega
          · refine ⟨minInt, true, by rw [if_neg hrg]; simp [h0]; omega, by simp, fun _ => ⟨?_, ?_⟩⟩
            · simp only [test, if_pos hp, z0]; simp [mn]
            · intro x
              have hx := toInt_range x
              simp only [if_pos hp, ← le_floor]
              have : rnd .floor (sc n m) < 1 := by rw [floor_lt]; omega
              omega
      · have hn : s.toInt < 0 := by omega
        simp only [hn, if_true, reduceCtorEq, false_and, if_false, decide_true]
        by_cases hrg : -2 ^ 63 ≤ rnd .ceil (sc n m) ∧ rnd .ceil (sc n m) < 2 ^ 63
        · refine ⟨_, false, by rw [if_pos hrg]; rfl, ?_, by simp⟩
          intro _ x
          simp only [test, if_neg hp, decide_eq_true_eq, toInt_ofInt hrg, ceil_le]
        · by_cases h0 : 0 < sc n m
          · refine ⟨maxInt, true, by rw [if_neg hrg]; simp [h0], by simp, fun _ => ⟨?_, ?_⟩⟩
            · simp only [test, if_neg hp, z0]; simp [mx]
            · intro x
              have hx := toInt_range x
              simp only [if_neg hp, ← ceil_le]
              have : (0 : Int) < rnd .ceil (sc n m) := by rw [lt_ceil]; omega
              omega
          · refine ⟨minInt, false, by rw [if_neg hrg]; simp [h0]; omega, ?_, by simp⟩
            intro _ x
            have hx := toInt_range x
            simp only [test, if_neg hp, decide_eq_true_eq, ← ceil_le]
            have : rnd .ceil (sc n m) ≤ 0 := by rw [ceil_le]; omega
            constructor <;> intro <;> omega

/-- the `k`-th value of the loop, with wrap-around -/
def nth (a s : LInt) (k : Nat) : LInt := BitVec.ofInt 64 (a.toInt + k * s.toInt)

theorem nth_zero (a s : LInt) : nth a s 0 = a := by simp [nth]

theorem nth_succ (a s : LInt) (k : Nat) : nth a s (k + 1) = nth (a + s) s k := by
  unfold nth
  rw [BitVec.ofInt_add, BitVec.ofInt_add, BitVec.ofInt_toInt, BitVec.ofInt_toInt, BitVec.add_assoc]
  congr 1
  rw [show ((k + 1 : Nat) : Int) * s.toInt = s.toInt + k * s.toInt by push_cast; rw [Int.add_mul]; omega, BitVec.ofInt_add,
    BitVec.ofInt_toInt]

theorem forloop_int (a p s : LInt) :
    forloop (.int (a - s) p s) = if test p s a then some (.int a p s, .int a) else none := by
  simp only [forloop, BitVec.sub_add_cancel, test]
  rfl

theorem run_int {p s : LInt} : ∀ (n : Nat) (a : LInt), (∀ k < n, test p s (nth a s k) = true) →
    (test p s (nth a s n) = false → ∀ fuel, n < fuel →
      run fuel (.int (a - s) p s) = ((List.range n).map fun k => Num.int (nth a s k), true)) ∧
    run n (.int (a - s) p s) = ((List.range n).map fun k => Num.int (nth a s k), false)
  | 0, a, _ => by
    refine ⟨?_, rfl⟩
    intro h fuel hf
    obtain ⟨f, rfl⟩ : ∃ f, fuel = f + 1 := ⟨fuel - 1, by omega⟩
    rw [nth_zero] at h
    simp only [run, forloop_int, h]; simp
  | n + 1, a, h => by
    have h0 := h 0 (by omega)
    rw [nth_zero] at h0
    have ih := run_int n (a + s) (fun k hk => by rw [← nth_succ]; exact h (k + 1) (by omega))
    rw [BitVec.add_sub_cancel] at ih
    have hl : (List.range (n + 1)).map (fun k => Num.int (nth a s k)) =
        Num.int a :: (List.range n).map (fun k => Num.int (nth (a + s) s k)) := by
      rw [List.range_succ_eq_map, List.map_cons, List.map_map, nth_zero]
      congr 1
      apply List.map_congr_left
      intro k _
      simp only [Function.comp, Nat.succ_eq_add_one, nth_succ]
    rw [hl]
    refine ⟨?_, ?_⟩
    · intro hn fuel hf
      obtain ⟨f, rfl⟩ : ∃ f, fuel = f + 1 := ⟨fuel - 1, by omega⟩
      rw [nth_succ] at hn
      simp only [run, forloop_int, h0, if_true, ih.1 hn f (by omega)]
    · simp only [run, forloop_int, h0, if_true, ih.2]

/-- intermediate values fit when the ends do -/
theorem between {a s : Int} {n : Nat} (ha : -2 ^ 63 ≤ a ∧ a < 2 ^ 63) (hn : -2 ^ 63 ≤ a + n * s ∧ a + n * s < 2 ^ 63)
    {k : Nat} (hk : k ≤ n) : -2 ^ 63 ≤ a + k * s ∧ a + k * s < 2 ^ 63 := by
  obtain ⟨d, rfl⟩ := Nat.exists_eq_add_of_le hk
  rw [Int.natCast_add, Int.add_mul] at hn
  by_cases h : 0 ≤ s
  · have h1 : 0 ≤ (k : Int) * s := Int.mul_nonneg (by omega) h
    have h2 : 0 ≤ (d : Int) * s := Int.mul_nonneg (by omega) h
    omega
  · have h1 : (k : Int) * s ≤ 0 := Int.mul_nonpos_of_nonneg_of_nonpos (by omega) (by omega)
    have h2 : (d : Int) * s ≤ 0 := Int.mul_nonpos_of_nonneg_of_nonpos (by omega) (by omega)
    omega

/-- **C08 (partial).** `for i = a, lim, s` with integer `a`, non-zero integer `s` and a limit that is a number (or converts to one):
if `a, a+s, …, a+(n-1)s` are within the exact value of the limit, `a+ns` is not, and `a+ns` is an integer, then the
body runs exactly for those `n` values in that order, and the loop ends.
Missing from the full statement: a NaN limit with a negative step (see `nan_limit_never_ends`). -/
theorem int_loop_partial {a s : LInt} {o : Obj} {lim : Num} (ho : o.toNum = some lim) (hwf : lim.WF) (hs : s ≠ 0)
    (hnan : lim = .flt .nan → 0 < s.toInt) {n : Nat}
    (hin : ∀ k < n, Within s.toInt (a.toInt + k * s.toInt) lim)
    (hout : ¬ Within s.toInt (a.toInt + n * s.toInt) lim)
    (hfit : -2 ^ 63 ≤ a.toInt + n * s.toInt ∧ a.toInt + n * s.toInt < 2 ^ 63) :
    ∃ st, forprep (.num (.int a)) o (.num (.int s)) = .ok st ∧ ∀ fuel, n < fuel →
      run fuel st = ((List.range n).map fun k : Nat => Num.int (BitVec.ofInt 64 (a.toInt + k * s.toInt)), true) := by
  obtain ⟨p, stopnow, h1, h2, h3⟩ := forlimit_spec ho hwf hs hnan
  have hb : ∀ k ≤ n, (nth a s k).toInt = a.toInt + k * s.toInt := fun k hk => toInt_ofInt (between (toInt_range a) hfit hk)
  refine ⟨_, by simp only [forprep, h1, Res.bind_ok]; rfl, ?_⟩
  intro fuel hf
  cases stopnow with
  | false =>
    refine (run_int n a ?_).1 ?_ fuel hf
    · intro k hk
      rw [h2 rfl, hb k (by omega)]; exact hin k hk
    · rw [← Bool.not_eq_true, h2 rfl, hb n (by omega)]; exact hout
  | true =>
    obtain ⟨t0, hall⟩ := h3 rfl
    have : n = 0 := by
      cases n with
      | zero => rfl
      | succ m =>
        have := hin 0 (by omega)
        rw [← hb 0 (by omega)] at this
        exact absurd this (hall _)
    subst this
    exact (run_int 0 0 (by simp)).1 (by rw [nth_zero]; exact t0) fuel hf

/-- **C08, overflow.** If the first `n ≥ 1` values are within the limit and the next one does not fit a 64-bit integer, the loop does not
stop: it goes on with the wrapped value. -/
theorem int_loop_overflow_wraps {a s : LInt} {o : Obj} {lim : Num} (ho : o.toNum = some lim) (hwf : lim.WF) (hs : s ≠ 0)
    {n : Nat} (hin : ∀ k ≤ n, Within s.toInt (a.toInt + k * s.toInt) lim)
    (hfit : -2 ^ 63 ≤ a.toInt + n * s.toInt ∧ a.toInt + n * s.toInt < 2 ^ 63)
    (hov : ¬ (-2 ^ 63 ≤ a.toInt + (n + 1) * s.toInt ∧ a.toInt + (n + 1) * s.toInt < 2 ^ 63)) :
    ∃ st, forprep (.num (.int a)) o (.num (.int s)) = .ok st ∧
      run (n + 2) st = ((List.range (n + 2)).map fun k : Nat => Num.int (BitVec.ofInt 64 (a.toInt + k * s.toInt)), false) := by
  have hnan : lim = .flt .nan → 0 < s.toInt := by
    rintro rfl
    obtain ⟨y, hy, _⟩ := hin 0 (by omega)
    simp [Num.val, Dbl.val] at hy
  obtain ⟨p, stopnow, h1, h2, h3⟩ := forlimit_spec ho hwf hs hnan
  have hb : ∀ k ≤ n, (nth a s k).toInt = a.toInt + k * s.toInt := fun k hk => toInt_ofInt (between (toInt_range a) hfit hk)
  refine ⟨_, by simp only [forprep, h1, Res.bind_ok]; rfl, ?_⟩
  cases stopnow with
  | true =>
    have := hin 0 (by omega)
    rw [← hb 0 (by omega)] at this
    exact absurd this ((h3 rfl).2 _)
  | false =>
    refine (run_int (n + 2) a ?_).2
    intro k hk
    by_cases hkn : k ≤ n
    · rw [h2 rfl, hb k hkn]; exact hin k hkn
    · have hk : k = n + 1 := by omega
      subst hk
      have hl := hin n (by omega)
      rw [← hb n (by omega), ← h2 rfl] at hl
      unfold test at hl ⊢
      rw [hb n (by omega)] at hl
      have rs := toInt_range s
      have hx : (nth a s (n + 1)).toInt = (a.toInt + n * s.toInt + s.toInt).bmod (2 ^ 64) := by
        unfold nth
        rw [BitVec.toInt_ofInt]
        congr 1
        push_cast; rw [Int.add_mul]; omega
      rw [hx]
      rw [Int.add_mul] at hov
      have hov : ¬ (-2 ^ 63 ≤ a.toInt + n * s.toInt + s.toInt ∧ a.toInt + n * s.toInt + s.toInt < 2 ^ 63) := by
        intro h; apply hov; omega
      generalize a.toInt + n * s.toInt = v at *
      split at hl
      · rename_i hp
        rw [if_pos hp]
        simp only [decide_eq_true_eq] at hl ⊢
        have : (v + s.toInt).bmod (2 ^ 64) = v + s.toInt - 2 ^ 64 := by
          rw [Int.bmod_def]; split <;> omega
        omega
      · rename_i hp
        rw [if_neg hp]
        simp only [decide_eq_true_eq] at hl ⊢
        have : (v + s.toInt).bmod (2 ^ 64) = v + s.toInt + 2 ^ 64 := by
          rw [Int.bmod_def]; split <;> omega
        omega

/-- **C08, negation of the NaN case.** With a NaN limit and a negative integer step the loop is entered and never ends. -/
theorem nan_limit_never_ends (a s : LInt) (hs : s.toInt < 0) :
    ∃ st, forprep (.num (.int a)) (.num (.flt .nan)) (.num (.int s)) = .ok st ∧ ∀ fuel,
      run fuel st = ((List.range fuel).map fun k : Nat => Num.int (BitVec.ofInt 64 (a.toInt + k * s.toInt)), false) := by
  refine ⟨.int (a - s) minInt s, ?_, ?_⟩
  · simp only [forprep, forlimit, tointeger, tonumber, Obj.toNum, toIntegerNS, fltToInteger_nan, zero_eq, lt, Res.bind_ok]
    have : ¬ 0 ≤ s.toInt := by omega
    simp [this]
  · intro fuel
    refine (run_int fuel a ?_).2
    intro k _
    have := toInt_range (nth a s k)
    simp only [test, minInt_toInt]
    rw [if_neg (by omega)]
    simp; omega

/-- **C08.** A loop up to `math.maxinteger` (or any larger limit) with positive step never ends. -/
theorem loop_to_maxint_never_ends (a s : LInt) (hs : 0 < s.toInt) :
    ∃ st, forprep (.num (.int a)) (.num (.int maxInt)) (.num (.int s)) = .ok st ∧ ∀ fuel,
      run fuel st = ((List.range fuel).map fun k : Nat => Num.int (BitVec.ofInt 64 (a.toInt + k * s.toInt)), false) := by
  refine ⟨.int (a - s) maxInt s, rfl, ?_⟩
  intro fuel
  refine (run_int fuel a ?_).2
  intro k _
  have := toInt_range (nth a s k)
  simp only [test, maxInt_toInt]
  rw [if_pos hs]
  simp; omega

/-- **C08.** A step of zero: the loop does not run when `a` is below the limit, otherwise it repeats `a` forever. -/
theorem step_zero (a b : LInt) :
    ∃ st, forprep (.num (.int a)) (.num (.int b)) (.num (.int 0)) = .ok st ∧ ∀ fuel,
      run (fuel + 1) st = if a.toInt < b.toInt then ([], true) else (List.replicate (fuel + 1) (.int a), false) := by
  refine ⟨.int (a - 0) b 0, rfl, ?_⟩
  intro fuel
  have z0 : (0 : LInt).toInt = 0 := rfl
  have hn : ∀ k, nth a 0 k = a := by intro k; simp [nth]
  by_cases h : a.toInt < b.toInt
  · rw [if_pos h]
    exact (run_int 0 a (by simp)).1 (by rw [hn, test, z0]; simpa using h) (fuel + 1) (by omega)
  · rw [if_neg h, (run_int (fuel + 1) a (fun k _ => by rw [hn, test, z0]; simp; omega)).2]
    simp only [hn]
    rw [List.map_const', List.length_range]

/-- hypotheses of `int_loop_partial` are met: `for i = 1, 10.5, 3` runs over 1, 4, 7, 10 -/
example : ∃ st, forprep (.num (.int 1)) (.num (.flt (.fin false (tenAndHalf)))) (.num (.int 3)) = .ok st ∧ ∀ fuel, 4 < fuel →
    run fuel st = ([.int 1, .int 4, .int 7, .int 10], true) := by
  have hrep := tenAndHalf_rep
  have hm : (tenAndHalf : Int) * 2 = 21 * U := by have := tenAndHalf_mul; omega
  generalize tenAndHalf = m at *
  have e : ∀ x : Int, Within (3 : LInt).toInt x (.flt (.fin false m)) ↔ x * 2 ≤ 21 := by
    intro x
    have hU := U_pos
    have h3 : (3 : LInt).toInt = 3 := by decide
    rw [h3]
    simp only [Within, Num.val, Dbl.val, Option.some.injEq, exists_eq_left', sc_cast, coe_le, int_le_fin]
    simp only [sc]
    rw [if_pos (by decide), if_neg (by decide)]
    constructor
    · intro h
      refine Int.le_of_mul_le_mul_right (a := (U : Int)) ?_ (by omega)
      rw [← hm, Int.mul_right_comm]
      omega
    · intro h
      have := Int.mul_le_mul_of_nonneg_right (c := (U : Int)) h (by omega)
      rw [← hm, Int.mul_right_comm] at this
      omega
  have h3 : (3 : LInt).toInt = 3 := by decide
  have h1 : (1 : LInt).toInt = 1 := by decide
  refine int_loop_partial (a := 1) (s := 3) (o := .num (.flt (.fin false m))) (n := 4) rfl hrep (by decide) (by simp) ?_ ?_ (by decide)
  · intro k hk
    rw [e, h1, h3]; omega
  · rw [e, h1, h3]; omega

/-! ## Type-specialised integer loops (C50) -/

theorem cSubS_ok {a b : LInt} (h : -2 ^ 63 ≤ a.toInt - b.toInt ∧ a.toInt - b.toInt < 2 ^ 63) : cSubS a b = .ok (a - b) := by
  unfold cSubS BitVec.ssubOverflow
  rw [if_neg]
  simp only [Bool.or_eq_true, decide_eq_true_eq]
  omega

theorem cAddS_ok {a b : LInt} (h : -2 ^ 63 ≤ a.toInt + b.toInt ∧ a.toInt + b.toInt < 2 ^ 63) : cAddS a b = .ok (a + b) := by
  unfold cAddS BitVec.saddOverflow
  rw [if_neg]
  simp only [Bool.or_eq_true, decide_eq_true_eq]
  omega

theorem runI_spec {p s : LInt} (hs : 0 < s.toInt) : ∀ (n : Nat) (b : LInt), -- `b` is the index before the first value
    (∀ k < n, b.toInt + (k + 1) * s.toInt ≤ p.toInt) → p.toInt < b.toInt + (n + 1) * s.toInt → b.toInt + (n + 1) * s.toInt < 2 ^ 63 →
    ∀ fuel, n < fuel →
      runI fuel b p s = .ok ((List.range n).map fun k : Nat => Num.int (BitVec.ofInt 64 (b.toInt + (k + 1) * s.toInt)), true) := by
  intro n
  induction n with
  | zero =>
    intro b _ h2 h3 fuel hf
    obtain ⟨f, rfl⟩ : ∃ f, fuel = f + 1 := ⟨fuel - 1, by omega⟩
    have rb := toInt_range b
    simp only [Nat.cast_zero, Int.zero_add, Int.one_mul] at h2 h3
    have e : (b + s).toInt = b.toInt + s.toInt := by
      rw [BitVec.toInt_add, Int.bmod_eq_of_le] <;> omega
    simp only [runI, forloopI, cAddS_ok (show -2 ^ 63 ≤ b.toInt + s.toInt ∧ b.toInt + s.toInt < 2 ^ 63 by omega), Res.bind_ok, e]
    rw [if_neg (by omega)]; rfl
  | succ n ih =>
    intro b h1 h2 h3 fuel hf
    obtain ⟨f, rfl⟩ : ∃ f, fuel = f + 1 := ⟨fuel - 1, by omega⟩
    have rb := toInt_range b
    have rp := toInt_range p
    have h0 := h1 0 (by omega)
    simp only [Nat.cast_zero, Int.zero_add, Int.one_mul] at h0
    have e : (b + s).toInt = b.toInt + s.toInt := by
      rw [BitVec.toInt_add, Int.bmod_eq_of_le] <;> omega
    have hmul : ∀ k : Nat, b.toInt + ((k + 1 : Nat) + 1) * s.toInt = (b + s).toInt + (k + 1) * s.toInt := by
      intro k; rw [e]; push_cast; rw [Int.add_mul (k + 1 : Int)]; omega
    have := ih (b + s) (fun k hk => by rw [← hmul]; exact h1 (k + 1) (by omega)) (by rw [← hmul]; exact h2) (by rw [← hmul]; exact h3)
      f (by omega)
    simp only [runI, forloopI, cAddS_ok (show -2 ^ 63 ≤ b.toInt + s.toInt ∧ b.toInt + s.toInt < 2 ^ 63 by omega), Res.bind_ok, e]
    rw [if_pos h0]
    simp only [Res.pure_eq, Res.bind_ok, this]
    rw [List.range_succ_eq_map, List.map_cons, List.map_map]
    congr 3
    · congr 1
      simp only [Nat.cast_zero, Int.zero_add, Int.one_mul, ← e, BitVec.ofInt_toInt]
    · apply List.map_congr_left
      intro k _
      simp only [Function.comp, Nat.succ_eq_add_one, hmul]

/-- **C50 (partial).** A loop over integers with a constant step that fits a C `int` behaves as documented whichever opcodes the parser picks,
provided the steps just before the first and just after the last value do not overflow.
Missing from the full statement: steps outside the 32-bit range (`typed_loop_step_truncated`) and an initial value
less than `minint + step` (`typed_loop_ub`). -/
theorem typed_loop_partial {a b s : LInt} (hs : s ≠ 0) (hsm : -2 ^ 31 ≤ s.toInt ∧ s.toInt < 2 ^ 31)
    (hpre : -2 ^ 63 ≤ a.toInt - s.toInt) {n : Nat}
    (hin : ∀ k < n, if 0 < s.toInt then a.toInt + k * s.toInt ≤ b.toInt else b.toInt ≤ a.toInt + k * s.toInt)
    (hout : if 0 < s.toInt then b.toInt < a.toInt + n * s.toInt else a.toInt + n * s.toInt < b.toInt)
    (hfit : -2 ^ 63 ≤ a.toInt + n * s.toInt ∧ a.toInt + n * s.toInt < 2 ^ 63) :
    ∀ fuel, n < fuel → typedLoop fuel a b s =
      .ok ((List.range n).map fun k : Nat => Num.int (BitVec.ofInt 64 (a.toInt + k * s.toInt)), true) := by
  have hs0 : s.toInt ≠ 0 := fun h => hs (BitVec.eq_of_toInt_eq (by rw [h]; rfl))
  have ra := toInt_range a
  have ht : (s.setWidth 32).toInt = s.toInt := by
    rw [BitVec.toInt_setWidth]
    have : (s.toNat : Int).bmod (2 ^ 32) = s.toInt.bmod (2 ^ 32) := by
      rw [BitVec.toInt_eq_toNat_bmod, Int.bmod_bmod_of_dvd]
      exact ⟨2 ^ 32, rfl⟩
    rw [this, Int.bmod_eq_of_le] <;> omega
  have key : ∀ fuel, n < fuel → 0 < s.toInt → (do let i ← forprepI a s; runI fuel i b s) =
      Res.ok ((List.range n).map fun k : Nat => Num.int (BitVec.ofInt 64 (a.toInt + k * s.toInt)), true) := by
    intro fuel hf hp
    have hh := between ra hfit (k := 0) (by omega)
    have e : (a - s).toInt = a.toInt - s.toInt := by
      rw [BitVec.toInt_sub, Int.bmod_eq_of_le] <;> omega
    simp only [forprepI, cSubS_ok (show -2 ^ 63 ≤ a.toInt - s.toInt ∧ a.toInt - s.toInt < 2 ^ 63 by omega), Res.bind_ok]
    have hk : ∀ k : Nat, (a - s).toInt + (k + 1) * s.toInt = a.toInt + k * s.toInt := by
      intro k; rw [e, Int.add_mul]; omega
    rw [runI_spec hp n (a - s) ?_ ?_ ?_ fuel hf]
    · simp only [hk]
    · intro k hkn; rw [hk]; have := hin k hkn; rw [if_pos hp] at this; exact this
    · rw [hk]; rw [if_pos hp] at hout; exact hout
    · rw [hk]; exact hfit.2
  intro fuel hf
  unfold typedLoop selectLoop
  simp only [ht]
  by_cases h1 : 1 < s.toInt
  · simp only [if_pos h1]
    exact key fuel hf (by omega)
  · by_cases h2 : s.toInt = 1
    · simp only [if_neg h1, if_pos h2]
      have : s = 1 := BitVec.eq_of_toInt_eq (by rw [h2]; rfl)
      subst this
      exact key fuel hf (by decide)
    · simp only [if_neg h1, if_neg h2]
      have hn : ¬ 0 < s.toInt := by omega
      have hw : ∀ x : Int, Within s.toInt x (.int b) ↔ b.toInt ≤ x := by
        intro x
        simp only [Within, Num.val, Option.some.injEq, exists_eq_left', if_neg hn, coe_le, Int.cast_le]
      obtain ⟨st, e1, e2⟩ := int_loop_partial (a := a) (s := s) (o := .num (.int b)) (lim := .int b) rfl trivial hs (by simp)
        (fun k hk => by rw [hw]; have := hin k hk; rw [if_neg hn] at this; exact this)
        (by rw [hw]; rw [if_neg hn] at hout; omega) hfit
      rw [e1, Res.bind_ok, e2 fuel hf]; rfl

/-- **C50, negation.** The step is cut to 32 bits when the opcode is selected: with step 2^32+1 the loop from 1 to 10 runs ten times (by ones)
instead of once. -/
theorem typed_loop_step_truncated :
    typedLoop 11 1 10 (2 ^ 32 + 1) =
      .ok ([.int 1, .int 2, .int 3, .int 4, .int 5, .int 6, .int 7, .int 8, .int 9, .int 10], true) ∧
    (∃ st, forprep (.num (.int 1)) (.num (.int 10)) (.num (.int (2 ^ 32 + 1))) = .ok st ∧ run 11 st = ([.int 1], true)) :=
  ⟨by rfl, _, rfl, by rfl⟩

/-- **C50, negation.** Starting at `math.mininteger` executes a signed overflow, whatever the limit. -/
theorem typed_loop_ub (b : LInt) (fuel : Nat) : typedLoop fuel minInt b 1 = .ub := by
  have : forprepI minInt 1 = .ub := by decide
  simp only [typedLoop, show selectLoop 1 = .i1 by decide, this, Res.bind_ub]

/-- hypotheses of `typed_loop_partial` are met, with each of the three opcodes -/
example : typedLoop 5 1 3 1 = .ok ([.int 1, .int 2, .int 3], true) ∧ typedLoop 5 1 9 4 = .ok ([.int 1, .int 5, .int 9], true) ∧
    typedLoop 5 3 1 (-1) = .ok ([.int 3, .int 2, .int 1], true) :=
  ⟨typed_loop_partial (n := 3) (by decide) (by decide) (by decide) (by decide) (by decide) (by decide) 5 (by omega),
   typed_loop_partial (n := 3) (by decide) (by decide) (by decide) (by decide) (by decide) (by decide) 5 (by omega),
   typed_loop_partial (n := 3) (by decide) (by decide) (by decide) (by decide) (by decide) (by decide) 5 (by omega)⟩

/-! ## Float loops (C51) -/

/-- floats that are a given integer (either zero) -/
def IsInt (f : Dbl) (z : Int) : Prop := ∃ n s, f = .fin n s ∧ sc n s = z * U

theorem isInt_ofInt {a : Int} (ha : a.natAbs ≤ 2 ^ 53) : IsInt (ofInt a) a := by
  rw [ofInt_small ha]; exact ⟨_, _, rfl, sc_natAbs a U⟩

theorem add_isInt {x y : Dbl} {a b : Int} (hx : IsInt x a) (hy : IsInt y b) (hab : (a + b).natAbs ≤ 2 ^ 53) :
    IsInt (add x y) (a + b) := by
  have hU := U_pos
  obtain ⟨n, s, rfl, h1⟩ := hx
  obtain ⟨n', s', rfl, h2⟩ := hy
  simp only [add, h1, h2, ← Int.add_mul]
  split
  · rename_i h
    exact ⟨_, 0, rfl, by rw [h]; unfold sc; simp⟩
  · rename_i h
    have h0 : a + b ≠ 0 := fun hc => h (by rw [hc]; simp)
    have e2 : ((a + b) * (U : Int) < 0) ↔ a + b < 0 := by
      constructor
      · intro h
        by_contra hc
        have := Int.mul_nonneg (show 0 ≤ a + b by omega) (show (0 : Int) ≤ U by omega)
        omega
      · intro h; exact Int.mul_neg_of_neg_of_pos h (by omega)
    rw [Int.natAbs_mul, Int.natAbs_natCast]
    simp only [e2]
    rw [mk_int _ hab]
    exact ⟨_, _, rfl, sc_natAbs _ _⟩

theorem neg_isInt {x : Dbl} {a : Int} (hx : IsInt x a) : IsInt (neg x) (-a) := by
  obtain ⟨n, s, rfl, h1⟩ := hx
  refine ⟨_, _, rfl, ?_⟩
  rw [Int.neg_mul, ← h1]
  cases n <;> simp [sc]

theorem IsInt.val {x : Dbl} {a : Int} (hx : IsInt x a) : x.val = some (((a : ℚ) : WithTop ℚ) : Ext) := by
  obtain ⟨n, s, rfl, h1⟩ := hx
  simp only [Dbl.val, sc_cast, h1]
  congr 3
  rw [Int.cast_mul, U_cast, mul_div_cancel_right₀]
  exact ne_of_gt pow_pos'

theorem IsInt.le {x y : Dbl} {a b : Int} (hx : IsInt x a) (hy : IsInt y b) : le x y = decide (a ≤ b) := by
  have hU := U_pos
  obtain ⟨n, s, rfl, h1⟩ := hx
  obtain ⟨n', s', rfl, h2⟩ := hy
  simp only [Float.le, h1, h2]
  congr 1
  exact propext ⟨fun h => Int.le_of_mul_le_mul_right h (by omega), fun h => Int.mul_le_mul_of_nonneg_right h (by omega)⟩

theorem IsInt.pos {x : Dbl} {a : Int} (hx : IsInt x a) : lt (ofInt 0) x = decide (0 < a) := by
  have hU := U_pos
  obtain ⟨n, s, rfl, h1⟩ := hx
  rw [lt_zero_fin, h1]
  congr 1
  refine propext ⟨fun h => ?_, fun h => Int.mul_pos h (by omega)⟩
  by_contra hc
  have := Int.mul_nonpos_of_nonpos_of_nonneg (show a ≤ 0 by omega) (show (0 : Int) ≤ U by omega)
  omega

theorem run_flt {lim step : Dbl} {b s : Int} (hl : IsInt lim b) (hst : IsInt step s) : ∀ (n : Nat) (idx : Dbl) (a : Int),
    IsInt idx (a - s) →
    (∀ k < n, if 0 < s then a + k * s ≤ b else b ≤ a + k * s) → (if 0 < s then b < a + n * s else a + n * s < b) →
    (∀ k ≤ n, (a + k * s).natAbs ≤ 2 ^ 53) → ∀ fuel, n < fuel →
    ∃ vs, run fuel (.flt idx lim step) = (vs, true) ∧ vs.map Num.val = (List.range n).map fun k : Nat => some ((((a + k * s : Int) : ℚ) : WithTop ℚ) : Ext) := by
  intro n
  induction n with
  | zero =>
    intro idx a hi _ hout hsm fuel hf
    obtain ⟨f, rfl⟩ : ∃ f, fuel = f + 1 := ⟨fuel - 1, by omega⟩
    have h0 := hsm 0 (by omega)
    simp only [Nat.cast_zero, Int.zero_mul, Int.add_zero] at h0 hout
    have hv := add_isInt hi hst (by rw [Int.sub_add_cancel]; exact h0)
    rw [Int.sub_add_cancel] at hv
    refine ⟨[], ?_, rfl⟩
    simp only [run, forloop, hst.pos, hv.le hl, hl.le hv, decide_eq_true_eq]
    by_cases hp : 0 < s
    · rw [if_pos hp] at hout ⊢
      simp only [decide_eq_true_eq, show ¬ a ≤ b by omega, if_false]
    · rw [if_neg hp] at hout ⊢
      simp only [decide_eq_true_eq, show ¬ b ≤ a by omega, if_false]
  | succ n ih =>
    intro idx a hi hin hout hsm fuel hf
    obtain ⟨f, rfl⟩ : ∃ f, fuel = f + 1 := ⟨fuel - 1, by omega⟩
    have h0 := hsm 0 (by omega)
    have h1 := hin 0 (by omega)
    simp only [Nat.cast_zero, Int.zero_mul, Int.add_zero] at h0 h1
    have hv := add_isInt hi hst (by rw [Int.sub_add_cancel]; exact h0)
    rw [Int.sub_add_cancel] at hv
    have hmul : ∀ k : Nat, a + (k + 1 : Nat) * s = (a + s) + k * s := by
      intro k; push_cast; rw [Int.add_mul]; omega
    obtain ⟨vs, e1, e2⟩ := ih (add idx step) (a + s) (by rw [Int.add_sub_cancel]; exact hv)
      (fun k hk => by rw [← hmul]; exact hin (k + 1) (by omega)) (by rw [← hmul]; exact hout)
      (fun k hk => by rw [← hmul]; exact hsm (k + 1) (by omega)) f (by omega)
    refine ⟨.flt (add idx step) :: vs, ?_, ?_⟩
    · have ht : (if lt (ofInt 0) step = true then Float.le (add idx step) lim else Float.le lim (add idx step)) = true := by
        simp only [hst.pos, hv.le hl, hl.le hv, decide_eq_true_eq]
        by_cases hp : 0 < s
        · rw [if_pos hp] at h1 ⊢; simpa using h1
        · rw [if_neg hp] at h1 ⊢; simpa using h1
      simp only [run, forloop]
      rw [if_pos ht]
      simp only [e1]
    · rw [List.range_succ_eq_map, List.map_cons, List.map_cons, List.map_map, e2]
      congr 1
      · simp only [Num.val, hv.val, Nat.cast_zero, Int.zero_mul, Int.add_zero]
      · apply List.map_congr_left
        intro k _
        simp only [Function.comp, Nat.succ_eq_add_one, hmul]

/-- **C51 (partial).** A float loop whose parameters are integral floats, with every value including the one before the first and the one after the last of
magnitude at most 2^53, runs exactly over `a, a+s, …` up to the limit.
Missing from the full statement: parameters for which the additions round (`float_loop_first_value_wrong`, `float_loop_stuck`). -/
theorem float_loop_partial {oi ol os : Obj} {fi fl fs : Dbl} {a b s : Int}
    (hi : tonumber oi = some fi) (hl : tonumber ol = some fl) (hs : tonumber os = some fs)
    (hnotint : ∀ i j, ¬ (oi = .num (.int i) ∧ os = .num (.int j)))
    (vi : IsInt fi a) (vl : IsInt fl b) (vs : IsInt fs s) {n : Nat}
    (hin : ∀ k < n, if 0 < s then a + k * s ≤ b else b ≤ a + k * s)
    (hout : if 0 < s then b < a + n * s else a + n * s < b)
    (hpre : (a - s).natAbs ≤ 2 ^ 53) (hsm : ∀ k ≤ n, (a + k * s).natAbs ≤ 2 ^ 53) :
    ∃ st, forprep oi ol os = .ok st ∧ ∀ fuel, n < fuel →
      ∃ vs, run fuel st = (vs, true) ∧ vs.map Num.val = (List.range n).map fun k : Nat => some ((((a + k * s : Int) : ℚ) : WithTop ℚ) : Ext) := by
  have e : forprep oi ol os = forprepFlt oi ol os := by
    unfold forprep
    split
    · rename_i i j; exact absurd ⟨rfl, rfl⟩ (hnotint i j)
    · rfl
  refine ⟨.flt (sub fi fs) fl fs, ?_, ?_⟩
  · rw [e, forprepFlt]; simp only [hi, hl, hs]
  · have : IsInt (sub fi fs) (a - s) := by
      have := add_isInt vi (neg_isInt vs) (by rw [← Int.sub_eq_add_neg]; exact hpre)
      rw [← Int.sub_eq_add_neg] at this; exact this
    exact run_flt vl vs n _ a this hin hout hsm

/-- **C51, negation.** `for i = 1.0, 2^61, 2^60` starts at 0, not at 1: the first value is `(init - step) + step`, rounded twice. -/
theorem float_loop_first_value_wrong :
    ∃ st, forprep (.num (.flt (ofInt 1))) (.num (.flt (ofInt (2 ^ 61)))) (.num (.flt (ofInt (2 ^ 60)))) = .ok st ∧
      run 1 st = ([.flt (.fin false 0)], false) := by
  refine ⟨_, rfl, ?_⟩
  decide +kernel

/-- **C51, negation.** `for i = 2^53, 2^54, 1.0` stays at 2^53 forever. -/
theorem float_loop_stuck :
    ∃ st, forprep (.num (.flt (ofInt (2 ^ 53)))) (.num (.flt (ofInt (2 ^ 54)))) (.num (.flt (ofInt 1))) = .ok st ∧ ∀ fuel,
      run fuel st = (List.replicate fuel (.flt (ofInt (2 ^ 53))), false) := by
  have h1 : forloop (.flt (ofInt (2 ^ 53)) (ofInt (2 ^ 54)) (ofInt 1)) =
      some (.flt (ofInt (2 ^ 53)) (ofInt (2 ^ 54)) (ofInt 1), .flt (ofInt (2 ^ 53))) := by
    have e1 : add (ofInt (2 ^ 53)) (ofInt 1) = ofInt (2 ^ 53) := by decide +kernel
    have e2 : lt (ofInt 0) (ofInt 1) = true := by decide +kernel
    have e3 : Float.le (ofInt (2 ^ 53)) (ofInt (2 ^ 54)) = true := by decide +kernel
    simp only [forloop, e1, e2, e3, if_true]
  have h0 : forloop (.flt (sub (ofInt (2 ^ 53)) (ofInt 1)) (ofInt (2 ^ 54)) (ofInt 1)) =
      some (.flt (ofInt (2 ^ 53)) (ofInt (2 ^ 54)) (ofInt 1), .flt (ofInt (2 ^ 53))) := by
    have e1 : add (sub (ofInt (2 ^ 53)) (ofInt 1)) (ofInt 1) = ofInt (2 ^ 53) := by decide +kernel
    have e2 : lt (ofInt 0) (ofInt 1) = true := by decide +kernel
    have e3 : Float.le (ofInt (2 ^ 53)) (ofInt (2 ^ 54)) = true := by decide +kernel
    simp only [forloop, e1, e2, e3, if_true]
  have hr : ∀ fuel, run fuel (.flt (ofInt (2 ^ 53)) (ofInt (2 ^ 54)) (ofInt 1)) = (List.replicate fuel (.flt (ofInt (2 ^ 53))), false) := by
    intro fuel
    induction fuel with
    | zero => rfl
    | succ f ih => simp only [run, h1, ih, List.replicate_succ]
  refine ⟨_, rfl, ?_⟩
  intro fuel
  cases fuel with
  | zero => rfl
  | succ f => simp only [run, h0, hr, List.replicate_succ]

/-- hypotheses of `float_loop_partial` are met: `for i = 1.0, 7, 3` (integer limit) has float values 1, 4, 7 -/
example : ∃ st, forprep (.num (.flt (ofInt 1))) (.num (.int 7)) (.num (.int 3)) = .ok st ∧ ∀ fuel, 3 < fuel →
    ∃ vs, run fuel st = (vs, true) ∧ vs.length = 3 := by
  obtain ⟨st, h1, h2⟩ := float_loop_partial (oi := .num (.flt (ofInt 1))) (ol := .num (.int 7)) (os := .num (.int 3)) (a := 1) (b := 7) (s := 3)
    (n := 3) rfl rfl rfl (by rintro i j ⟨h, _⟩; cases h)
    (isInt_ofInt (by decide)) (isInt_ofInt (by decide)) (isInt_ofInt (by decide)) (by decide) (by decide) (by decide) (by decide)
  refine ⟨st, h1, fun fuel hf => ?_⟩
  obtain ⟨vs, e1, e2⟩ := h2 fuel hf
  refine ⟨vs, e1, ?_⟩
  have := congrArg List.length e2
  simpa using this

end Verif.For
