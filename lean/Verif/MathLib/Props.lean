import Verif.MathLib.Model
import Verif.Float.Props
import Verif.Arith.Lemmas
import Mathlib.Tactic.Linarith
import Mathlib.Tactic.FieldSimp

/-!
# C99: rounding, remainder and extremes in the mathematical library

The exact value of a number is a rational, or one of two infinities (`Num.val`).
-/
namespace Verif.MathLib
open Verif.Arith (LInt cMod)
open Verif.Float
attribute [local irreducible] U

/-- The value of a number is the rational `q`. -/
def Is (x : Num) (q : ℚ) : Prop := x.val = some ((q : WithTop ℚ) : Ext)

theorem is_fin (n : Bool) (s : Nat) (q : ℚ) :
    Is (.flt (.fin n s)) q ↔ q = ((sc n s : Int) : ℚ) / 2 ^ 1074 := by
  simp only [Is, Num.val, Dbl.val, sc_cast, Option.some.injEq, WithBot.coe_inj, WithTop.coe_inj]
  exact eq_comm

theorem is_int (i : LInt) (q : ℚ) : Is (.int i) q ↔ q = i.toInt := by
  unfold Is Num.val
  rw [Option.some.injEq, WithBot.coe_inj, WithTop.coe_inj]
  exact eq_comm

/-- A float of a rational value is finite. -/
theorem fin_of_is {f : Dbl} {q : ℚ} (h : Is (.flt f) q) :
    ∃ n s, f = .fin n s ∧ q = ((sc n s : Int) : ℚ) / 2 ^ 1074 := by
  cases f with
  | nan => cases h
  | inf b =>
    unfold Is Num.val at h
    cases b
    · exact absurd (Option.some.inj h).symm (ne_of_lt (coe_lt_top q))
    · exact absurd (Option.some.inj h) (ne_of_lt (bot_lt_coe q))
  | fin n s => exact ⟨n, s, rfl, (is_fin n s q).1 h⟩

theorem ceil_fin (n : Bool) (s : Nat) : ∃ z, ceil (.fin n s) = .fin n z ∧
    sc n z = -(-(sc n s) / (U : Int)) * U := by
  refine ⟨_, rfl, ?_⟩
  have hU := U_pos
  unfold sc
  cases n with
  | false =>
    simp only [Bool.false_eq_true, if_false, Int.natCast_mul]
    have : -(s : Int) / (U : Int) ≤ 0 := by apply Int.ediv_nonpos_of_nonpos_of_neg <;> omega
    rw [Int.natAbs_of_nonneg (by omega)]
  | true =>
    simp only [if_true, Int.natCast_mul, Int.neg_neg]
    have : 0 ≤ (s : Int) / (U : Int) := Int.ediv_nonneg (by omega) (by omega)
    rw [Int.natAbs_neg, Int.natAbs_of_nonneg this, Int.neg_mul]

/-- A float that is the integer `z` becomes an integer exactly if it fits, and keeps its value. -/
theorem pushnumint_int {n : Bool} {s : Nat} {z : Int} (h : sc n s = z * U) :
    ∃ r, pushnumint (.fin n s) = .ok r ∧ Is r z ∧
      ((∃ i, r = .int i) ↔ -2 ^ 63 ≤ z ∧ z < 2 ^ 63) := by
  unfold pushnumint
  rw [numberToInteger_int h]
  by_cases hz : -2 ^ 63 ≤ z ∧ z < 2 ^ 63
  · refine ⟨.int (BitVec.ofInt 64 z), by rw [if_pos hz]; rfl, ?_, ?_⟩
    · rw [is_int, toInt_ofInt hz]
    · exact ⟨fun _ => hz, fun _ => ⟨_, rfl⟩⟩
  · refine ⟨.flt (.fin n s), by rw [if_neg hz]; rfl, ?_, ?_⟩
    · rw [is_fin, h]
      push_cast
      rw [show ((U : Nat) : ℚ) = 2 ^ 1074 from by exact_mod_cast U_cast]
      field_simp
    · constructor
      · rintro ⟨i, hi⟩; cases hi
      · intro h; exact absurd h hz

theorem floor_bounds (v : Int) : (((v / (U : Int) : Int)) : ℚ) ≤ (v : ℚ) / 2 ^ 1074 ∧
    (v : ℚ) / 2 ^ 1074 < ((v / (U : Int) : Int) : ℚ) + 1 := by
  have hU : (0 : Int) < U := by have := U_pos; omega
  constructor
  · rw [int_le_fin]
    exact Int.ediv_mul_le v (by omega)
  · have := (fin_lt_int (v / (U : Int) + 1) v).2 (by
      have := Int.lt_ediv_add_one_mul_self v hU
      exact this)
    push_cast at this
    exact this

theorem ceil_bounds (v : Int) : (((-(-v / (U : Int)) : Int)) : ℚ) - 1 < (v : ℚ) / 2 ^ 1074 ∧
    (v : ℚ) / 2 ^ 1074 ≤ ((-(-v / (U : Int)) : Int) : ℚ) := by
  obtain ⟨h1, h2⟩ := floor_bounds (-v)
  push_cast at h1 h2 ⊢
  rw [neg_div] at h1 h2
  constructor <;> linarith

/-- `math.floor` of a number with a rational value: the greatest integer not above it, as an integer
exactly if that has 64 bits. -/
theorem floor_spec (x : Num) (q : ℚ) (h : Is x q) :
    ∃ r, ∃ z : Int, mathFloor x = .ok r ∧ Is r z ∧ (z : ℚ) ≤ q ∧ q < z + 1 ∧
      ((∃ i, r = .int i) ↔ -2 ^ 63 ≤ z ∧ z < 2 ^ 63) := by
  cases x with
  | int i =>
    rw [is_int] at h
    exact ⟨_, i.toInt, rfl, (is_int i _).2 rfl, by rw [h], by rw [h]; linarith,
      fun _ => toInt_range i, fun _ => ⟨i, rfl⟩⟩
  | flt f =>
    obtain ⟨n, s, rfl, rfl⟩ := fin_of_is h
    obtain ⟨n', z, e1, e2, rfl⟩ := floor_fin n s
    obtain ⟨r, k1, k2, k3⟩ := pushnumint_int e2
    obtain ⟨b1, b2⟩ := floor_bounds (sc n' s)
    exact ⟨r, _, by simp only [mathFloor]; rw [e1]; exact k1, k2, b1, b2, k3⟩

/-- `math.ceil`: the least integer not below. -/
theorem ceil_spec (x : Num) (q : ℚ) (h : Is x q) :
    ∃ r, ∃ z : Int, mathCeil x = .ok r ∧ Is r z ∧ (z : ℚ) - 1 < q ∧ q ≤ z ∧
      ((∃ i, r = .int i) ↔ -2 ^ 63 ≤ z ∧ z < 2 ^ 63) := by
  cases x with
  | int i =>
    rw [is_int] at h
    exact ⟨_, i.toInt, rfl, (is_int i _).2 rfl, by rw [h]; linarith, by rw [h],
      fun _ => toInt_range i, fun _ => ⟨i, rfl⟩⟩
  | flt f =>
    obtain ⟨n, s, rfl, rfl⟩ := fin_of_is h
    obtain ⟨z, e1, e2⟩ := ceil_fin n s
    obtain ⟨r, k1, k2, k3⟩ := pushnumint_int e2
    obtain ⟨b1, b2⟩ := ceil_bounds (sc n s)
    exact ⟨r, _, by simp only [mathCeil]; rw [e1]; exact k1, k2, b1, b2, k3⟩

/-- Infinities and NaN are returned as they are. -/
theorem round_other (f : Dbl) (h : ∀ q, ¬ Is (.flt f) q) :
    mathFloor (.flt f) = .ok (.flt f) ∧ mathCeil (.flt f) = .ok (.flt f) := by
  cases f with
  | nan =>
    have e : numberToInteger .nan = .ok none := by
      unfold numberToInteger
      rw [ofInt_minInt]
      simp [le]
    constructor
    · simp only [mathFloor, Float.floor, pushnumint, e, Res.bind_ok]
    · simp only [mathCeil, ceil, pushnumint, e, Res.bind_ok]
  | inf b =>
    constructor
    · simp only [mathFloor, Float.floor, pushnumint, numberToInteger_inf, Res.bind_ok]
    · simp only [mathCeil, ceil, pushnumint, numberToInteger_inf, Res.bind_ok]
  | fin n s => exact absurd ((is_fin n s _).2 rfl) (h _)

/-- The part of a double below 1 is a double. -/
theorem frac_exact {s r : Nat} (hr : Rep s) (h : r = s % U) (neg : Bool) :
    mk neg r = .fin neg r := by
  obtain ⟨m, k, hm, hk, rfl⟩ := hr
  have hU : U = 2 ^ 1074 := by unfold U; rfl
  have e : ∃ a, a < 2 ^ 53 ∧ r = a * 2 ^ k := by
    by_cases hk' : k ≤ 1074
    · obtain ⟨j, hj⟩ := Nat.exists_eq_add_of_le hk'
      refine ⟨m % 2 ^ j, lt_of_le_of_lt (Nat.mod_le _ _) hm, ?_⟩
      rw [h, hU, hj, Nat.pow_add, Nat.mul_comm (2 ^ k), Nat.mul_mod_mul_right]
    · refine ⟨0, by decide, ?_⟩
      rw [h, hU, Nat.zero_mul]
      exact Nat.mod_eq_zero_of_dvd
        (Nat.dvd_trans (Nat.pow_dvd_pow 2 (by omega)) (Nat.dvd_mul_left _ _))
  obtain ⟨a, ha, e⟩ := e
  have hlt : r < U := by rw [h]; exact Nat.mod_lt _ U_pos
  have h2 : U < 2 ^ 2098 := by rw [hU]; exact Nat.pow_lt_pow_right (by omega) (by omega)
  unfold mk
  rw [e, round53_eq ha, ← e, if_pos (by omega)]

/-- `math.modf` of a number with a rational value: the integer part is rounded towards zero, and the
fraction is exactly what is left. -/
theorem modf_spec (x : Num) (hx : x.WF) (q : ℚ) (h : Is x q) :
    ∃ r g, ∃ z : Int, mathModf x = .ok (r, g) ∧ Is r z ∧ Is (.flt g) (q - z) ∧
      (0 ≤ q → (z : ℚ) ≤ q ∧ q < z + 1) ∧ (q < 0 → (z : ℚ) - 1 < q ∧ q ≤ z) ∧
      ((∃ i, r = .int i) ↔ -2 ^ 63 ≤ z ∧ z < 2 ^ 63) := by
  have z0 : ∀ q : ℚ, q = 0 → Is (.flt (.fin false 0)) q := by
    intro q hq
    rw [is_fin, hq]
    simp [sc]
  cases x with
  | int i =>
    rw [is_int] at h
    refine ⟨_, _, i.toInt, rfl, (is_int i _).2 rfl, z0 _ (by rw [h]; ring), ?_, ?_,
      fun _ => toInt_range i, fun _ => ⟨i, rfl⟩⟩
    · intro _; rw [h]; exact ⟨le_refl _, by linarith⟩
    · intro _; rw [h]; exact ⟨by linarith, le_refl _⟩
  | flt f =>
    obtain ⟨n, s, rfl, rfl⟩ := fin_of_is h
    have hp := pow_pos'
    have hUp := U_pos
    have hs0 : sc false 0 = 0 := by simp [sc]
    -- both cases
    have fin : ∀ n' t (z : Int), sc n' t = z * U →
        (sc n s - z * U).natAbs = s % U →
        ∃ g, (if Float.eq (.fin n s) (.fin n' t) then Dbl.fin false 0 else sub (.fin n s) (.fin n' t)) = g ∧
          Is (.flt g) (((sc n s : Int) : ℚ) / 2 ^ 1074 - z) := by
      intro n' t z hz hab
      have hq : ((sc n s : Int) : ℚ) / 2 ^ 1074 - z = ((sc n s - z * U : Int) : ℚ) / 2 ^ 1074 := by
        push_cast
        rw [show ((U : Nat) : ℚ) = 2 ^ 1074 from by exact_mod_cast U_cast]
        field_simp
      rw [hq]
      refine ⟨_, rfl, ?_⟩
      by_cases he : sc n s = sc n' t
      · rw [if_pos (by simp [Float.eq, he])]
        apply z0
        rw [he, hz, sub_self]
        simp
      · rw [if_neg (by simp [Float.eq, he])]
        have hneg : sc (!n') t = -(sc n' t) := by cases n' <;> simp [sc]
        have hd : sc n s + sc (!n') t = sc n s - z * U := by rw [hneg, hz]; ring
        have hne : sc n s - z * U ≠ 0 := by rw [← hz]; omega
        simp only [sub, neg, add, hd, if_neg hne]
        rw [frac_exact hx hab, is_fin]
        have hsc : ∀ v : Int, sc (decide (v < 0)) v.natAbs = v := by
          intro v
          unfold sc
          by_cases hl : v < 0
          · simp only [hl, decide_true, if_true]; omega
          · simp only [hl, decide_false, Bool.false_eq_true, if_false]; omega
        rw [hsc]
    by_cases hl : sc n s < 0
    · have hn : n = true := by
        cases n with
        | true => rfl
        | false => simp only [sc, Bool.false_eq_true, if_false] at hl; omega
      subst hn
      have hv : sc true s = -(s : Int) := rfl
      obtain ⟨t, e1, e2⟩ := ceil_fin true s
      obtain ⟨r, k1, k2, k3⟩ := pushnumint_int e2
      obtain ⟨b1, b2⟩ := ceil_bounds (sc true s)
      have hmod := Int.emod_add_mul_ediv (s : Int) U
      obtain ⟨g, g1, g2⟩ := fin true t _ e2 (by
        rw [hv, Int.neg_neg]
        have : -(s : Int) - -((s : Int) / U) * U = -((s : Int) % U) := by linarith
        rw [this, Int.natAbs_neg, ← Int.natCast_emod, Int.natAbs_natCast])
      refine ⟨r, g, _, ?_, k2, g2, ?_, fun _ => ⟨b1, b2⟩, k3⟩
      · simp only [mathModf]
        rw [if_pos (by simp only [lt, hs0]; exact decide_eq_true hl), e1, k1]
        simp only [Res.bind_ok, g1]
      · intro h0
        exfalso
        have : ((sc true s : Int) : ℚ) < 0 := by exact_mod_cast hl
        have := div_neg_of_neg_of_pos this hp
        linarith
    · have hv : sc n s = (s : Int) := by
        cases n with
        | false => rfl
        | true => simp [sc] at hl ⊢; omega
      obtain ⟨n', t, e1, e2, rfl⟩ := floor_fin n s
      obtain ⟨r, k1, k2, k3⟩ := pushnumint_int e2
      obtain ⟨b1, b2⟩ := floor_bounds (sc n' s)
      have hmod := Int.emod_add_mul_ediv (s : Int) U
      obtain ⟨g, g1, g2⟩ := fin n' t _ e2 (by
        rw [hv]
        have : (s : Int) - (s : Int) / U * U = (s : Int) % U := by linarith
        rw [this, ← Int.natCast_emod, Int.natAbs_natCast])
      refine ⟨r, g, _, ?_, k2, g2, fun _ => ⟨b1, b2⟩, ?_, k3⟩
      · simp only [mathModf]
        rw [if_neg (by simp only [lt, hs0]; simpa using hl), e1, k1]
        simp only [Res.bind_ok, g1]
      · intro h0
        exfalso
        have : (0 : ℚ) ≤ ((sc n' s : Int) : ℚ) := by exact_mod_cast not_lt.1 hl
        have := div_nonneg this hp.le
        linarith

/-- `math.fmod` of integers: an error for 0, else the remainder with the sign of the dividend. -/
theorem fmod_spec (m d : LInt) :
    if d.toInt = 0 then mathFmod m d = .err "zero"
    else ∃ r, mathFmod m d = .ok r ∧ r.toInt = m.toInt.tmod d.toInt := by
  unfold mathFmod
  have ht := Verif.Arith.castS2U_test d
  have h0 : d.toInt = 0 ↔ d = 0 := by
    rw [← BitVec.toInt_inj]; rfl
  by_cases h : d = 0
  · rw [if_pos (h0.2 h), if_pos (ht.2 (.inl h)), if_neg (by simp [h])]
  · rw [if_neg (by rwa [h0])]
    by_cases h1 : d = -1
    · refine ⟨0, by rw [if_pos (ht.2 (.inr h1)), if_pos h], ?_⟩
      have : d.toInt = -1 := by subst h1; decide
      rw [this, Int.tmod_neg, Int.tmod_one]
      rfl
    · refine ⟨m.srem d, ?_, BitVec.toInt_srem m d⟩
      rw [if_neg (by rw [ht]; tauto)]
      unfold cMod
      rw [if_neg (by tauto)]

/-- `math.abs`: the absolute value, except for the least integer, which is returned. -/
theorem abs_spec (n : LInt) :
    (mathAbs n).toInt = if n.toInt = -2 ^ 63 then -2 ^ 63 else (n.toInt.natAbs : Int) := by
  unfold mathAbs
  have hr := toInt_range n
  by_cases h : n.toInt < 0
  · have h0 : (0 : LInt).toInt = 0 := rfl
    rw [if_pos h, BitVec.toInt_sub, h0]
    simp only [Int.zero_sub, Int.bmod]
    split <;> split <;> omega
  · rw [if_neg h, if_neg (by omega)]
    omega

/-- `math.ult`: the order of the residues modulo 2^64. -/
theorem ult_spec (a b : LInt) : mathUlt a b = decide (a.toInt % 2 ^ 64 < b.toInt % 2 ^ 64) := by
  unfold mathUlt
  rw [decide_eq_decide, BitVec.lt_def]
  have e : ∀ x : LInt, x.toInt % 2 ^ 64 = (x.toNat : Int) := by
    intro x
    rw [BitVec.toInt_eq_toNat_cond]
    have := x.isLt
    split <;> omega
  rw [e, e]
  omega

/-- Numbers of a program other than NaN. -/
def Proper (x : Num) : Prop := x.WF ∧ x ≠ .flt .nan

/-- `a` is not above `b`, as exact values. -/
def Le (a b : Num) : Prop := ∃ x y, a.val = some x ∧ b.val = some y ∧ x ≤ y

theorem Proper.val {a : Num} (h : Proper a) : ∃ x, a.val = some x := by
  cases a with
  | int i => exact ⟨_, rfl⟩
  | flt f =>
    cases f with
    | nan => exact absurd rfl h.2
    | inf n => cases n <;> exact ⟨_, rfl⟩
    | fin n s => exact ⟨_, rfl⟩

theorem Le.refl {a : Num} (h : Proper a) : Le a a := by
  obtain ⟨x, hx⟩ := h.val
  exact ⟨x, x, hx, hx, le_refl _⟩

theorem Le.trans {a b c : Num} (h : Le a b) (h' : Le b c) : Le a c := by
  obtain ⟨x, y, h1, h2, h3⟩ := h
  obtain ⟨y', z, h4, h5, h6⟩ := h'
  rw [h2] at h4
  cases h4
  exact ⟨x, z, h1, h5, le_trans h3 h6⟩

theorem lt_cases {a b : Num} (ha : Proper a) (hb : Proper b) :
    (LTnum a b = .ok true ∧ Le a b ∧ ¬ Le b a) ∨ (LTnum a b = .ok false ∧ Le b a) := by
  obtain ⟨x, hx⟩ := ha.val
  obtain ⟨y, hy⟩ := hb.val
  obtain ⟨r, h1, h2⟩ := lt_exact ha.1 hb.1
  rw [hx, hy, some_iff] at h2
  cases r with
  | true =>
    have hlt := h2.1 rfl
    refine .inl ⟨h1, ⟨x, y, hx, hy, hlt.le⟩, ?_⟩
    rintro ⟨y', x', k1, k2, k3⟩
    rw [hy] at k1; rw [hx] at k2
    cases k1; cases k2
    exact absurd hlt (not_lt.2 k3)
  | false =>
    refine .inr ⟨h1, y, x, hy, hx, not_lt.1 fun h => ?_⟩
    have := h2.2 h
    cases this

theorem minLoop_spec (xs : List Num) (m : Num) (hm : Proper m) (hx : ∀ x ∈ xs, Proper x) :
    ∃ r p q, minLoop m xs = .ok r ∧ m :: xs = p ++ r :: q ∧ (∀ x ∈ p, ¬ Le x r) ∧
      ∀ x ∈ m :: xs, Le r x := by
  induction xs generalizing m with
  | nil => exact ⟨m, [], [], rfl, rfl, by simp, by simpa using Le.refl hm⟩
  | cons x xs ih =>
    have hpx := hx x (by simp)
    rcases lt_cases hpx hm with ⟨h1, h2, h3⟩ | ⟨h1, h2⟩
    · obtain ⟨r, p, q, k1, k2, k3, k4⟩ := ih x hpx fun y hy => hx y (by simp [hy])
      refine ⟨r, m :: p, q, by simp only [minLoop, h1, Res.bind_ok, if_true, k1],
        by rw [k2]; rfl, ?_, ?_⟩
      · intro y hy
        rcases List.mem_cons.1 hy with rfl | hy
        · intro hc
          exact h3 (hc.trans (k4 x (by simp)))
        · exact k3 y hy
      · intro y hy
        rcases List.mem_cons.1 hy with rfl | hy
        · exact (k4 x (by simp)).trans h2
        · exact k4 y hy
    · obtain ⟨r, p, q, k1, k2, k3, k4⟩ := ih m hm fun y hy => hx y (by simp [hy])
      have hall : ∀ y ∈ m :: x :: xs, Le r y := by
        intro y hy
        rcases List.mem_cons.1 hy with rfl | hy
        · exact k4 _ (by simp)
        rcases List.mem_cons.1 hy with rfl | hy
        · exact (k4 m (by simp)).trans h2
        · exact k4 y (by simp [hy])
      have hrun : minLoop m (x :: xs) = .ok r := by
        simp only [minLoop, h1, Res.bind_ok, Bool.false_eq_true, if_false, k1]
      cases p with
      | nil =>
        simp only [List.nil_append, List.cons.injEq] at k2
        obtain ⟨rfl, _⟩ := k2
        exact ⟨m, [], x :: xs, hrun, rfl, by simp, hall⟩
      | cons p0 p =>
        simp only [List.cons_append, List.cons.injEq] at k2
        obtain ⟨rfl, k2⟩ := k2
        refine ⟨r, m :: x :: p, q, hrun, by rw [k2]; rfl, ?_, hall⟩
        intro y hy
        rcases List.mem_cons.1 hy with rfl | hy
        · exact k3 _ (by simp)
        rcases List.mem_cons.1 hy with rfl | hy
        · intro hc
          exact k3 m (by simp) (h2.trans hc)
        · exact k3 y (by simp [hy])

theorem maxLoop_spec (xs : List Num) (m : Num) (hm : Proper m) (hx : ∀ x ∈ xs, Proper x) :
    ∃ r p q, maxLoop m xs = .ok r ∧ m :: xs = p ++ r :: q ∧ (∀ x ∈ p, ¬ Le r x) ∧
      ∀ x ∈ m :: xs, Le x r := by
  induction xs generalizing m with
  | nil => exact ⟨m, [], [], rfl, rfl, by simp, by simpa using Le.refl hm⟩
  | cons x xs ih =>
    have hpx := hx x (by simp)
    rcases lt_cases hm hpx with ⟨h1, h2, h3⟩ | ⟨h1, h2⟩
    · obtain ⟨r, p, q, k1, k2, k3, k4⟩ := ih x hpx fun y hy => hx y (by simp [hy])
      refine ⟨r, m :: p, q, by simp only [maxLoop, h1, Res.bind_ok, if_true, k1],
        by rw [k2]; rfl, ?_, ?_⟩
      · intro y hy
        rcases List.mem_cons.1 hy with rfl | hy
        · intro hc
          exact h3 ((k4 x (by simp)).trans hc)
        · exact k3 y hy
      · intro y hy
        rcases List.mem_cons.1 hy with rfl | hy
        · exact h2.trans (k4 x (by simp))
        · exact k4 y hy
    · obtain ⟨r, p, q, k1, k2, k3, k4⟩ := ih m hm fun y hy => hx y (by simp [hy])
      have hall : ∀ y ∈ m :: x :: xs, Le y r := by
        intro y hy
        rcases List.mem_cons.1 hy with rfl | hy
        · exact k4 _ (by simp)
        rcases List.mem_cons.1 hy with rfl | hy
        · exact h2.trans (k4 m (by simp))
        · exact k4 y (by simp [hy])
      have hrun : maxLoop m (x :: xs) = .ok r := by
        simp only [maxLoop, h1, Res.bind_ok, Bool.false_eq_true, if_false, k1]
      cases p with
      | nil =>
        simp only [List.nil_append, List.cons.injEq] at k2
        obtain ⟨rfl, _⟩ := k2
        exact ⟨m, [], x :: xs, hrun, rfl, by simp, hall⟩
      | cons p0 p =>
        simp only [List.cons_append, List.cons.injEq] at k2
        obtain ⟨rfl, k2⟩ := k2
        refine ⟨r, m :: x :: p, q, hrun, by rw [k2]; rfl, ?_, hall⟩
        intro y hy
        rcases List.mem_cons.1 hy with rfl | hy
        · exact k3 _ (by simp)
        rcases List.mem_cons.1 hy with rfl | hy
        · intro hc
          exact k3 m (by simp) (hc.trans h2)
        · exact k3 y (by simp [hy])

/-- `math.min` of numbers other than NaN, of any kinds: the first of the arguments that no argument
is below. -/
theorem min_spec (xs : List Num) (hx : ∀ x ∈ xs, Proper x) (hne : xs ≠ []) :
    ∃ r p q, mathMin xs = .ok r ∧ xs = p ++ r :: q ∧ (∀ x ∈ p, ¬ Le x r) ∧ ∀ x ∈ xs, Le r x := by
  cases xs with
  | nil => exact absurd rfl hne
  | cons x xs => exact minLoop_spec xs x (hx x (by simp)) fun y hy => hx y (by simp [hy])

/-- `math.max`: the first of the arguments that is below no argument. -/
theorem max_spec (xs : List Num) (hx : ∀ x ∈ xs, Proper x) (hne : xs ≠ []) :
    ∃ r p q, mathMax xs = .ok r ∧ xs = p ++ r :: q ∧ (∀ x ∈ p, ¬ Le r x) ∧ ∀ x ∈ xs, Le x r := by
  cases xs with
  | nil => exact absurd rfl hne
  | cons x xs => exact maxLoop_spec xs x (hx x (by simp)) fun y hy => hx y (by simp [hy])

/-- With a NaN among the arguments the result depends on their order. -/
theorem min_nan : mathMin [.flt .nan, .int 1] = .ok (.flt .nan) ∧
    mathMin [.int 1, .flt .nan] = .ok (.int 1) := by
  refine ⟨?_, ?_⟩
  · simp only [mathMin, minLoop, LTnum, LTintfloat_nan, Res.bind_ok, Bool.false_eq_true, if_false]
  · simp only [mathMin, minLoop, LTnum, LTfloatint_nan, Res.bind_ok, Bool.false_eq_true, if_false]

/-- Ten and a half. -/
example : Is (.flt (.fin false tenAndHalf)) (21 / 2) ∧ (Num.flt (.fin false tenAndHalf)).WF := by
  refine ⟨?_, tenAndHalf_rep⟩
  rw [is_fin]
  have h := tenAndHalf_mul
  have : ((sc false tenAndHalf : Int) : ℚ) * 2 = 21 * 2 ^ 1074 := by
    rw [← U_cast]
    simp only [sc, Bool.false_eq_true, if_false]
    exact_mod_cast h
  have hp := pow_pos'
  generalize (2 : ℚ) ^ 1074 = P at this hp
  rw [div_eq_div_iff (by norm_num) hp.ne']
  linarith

example : ∀ x ∈ [Num.int 3, .flt (.fin false tenAndHalf), .flt (.inf true)], Proper x := by
  intro x hx
  simp only [List.mem_cons, List.not_mem_nil, or_false] at hx
  rcases hx with rfl | rfl | rfl
  · exact ⟨trivial, by simp⟩
  · exact ⟨tenAndHalf_rep, by simp⟩
  · exact ⟨trivial, by simp⟩

end Verif.MathLib
