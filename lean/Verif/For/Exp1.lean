import Verif.For.Model
/-!
The three expressions of a numeric `for`: `exp1` (`/repo/src/lparser.c` 2044-2070) makes the value of an expression that begins
with `#` an integer, unless the compiler knows that it is one.  Property C80.
-/
namespace Verif.For
open Verif.Arith (LInt minInt cAddS cSubS)
open Verif.Float

/-- what the compiler sees of one of the expressions: whether its first token is `#`, and whether its static type is integer -/
structure Form where
  hash : Bool
  int : Bool

/-- `exp1`, lparser.c 2054-2066: does it emit `OP_RAVI_TOINT`? -/
def Form.toint (f : Form) : Bool := f.hash && !f.int

/-- `OP_RAVI_TOINT`, lvm.c 2558-2564 -/
def toint (v : Obj) : Res Obj :=
  match v with
  | .num n => do
    match ← toIntegerNS n .eq with
    | some j => return .num (.int j)
    | none => .err "TOINT: integer expected"
  | _ => .err "TOINT: integer expected"

/-- the value in the register of the expression, given the value of the expression -/
def exp1 (f : Form) (v : Obj) : Res Obj := if f.toint then toint v else .ok v

/-- `for i = init, limit, step` with the generic opcodes (`fornum`, lparser.c 2114-2165): the values of the variable, and
whether the loop ended, in at most `fuel` rounds -/
def fornum (fuel : Nat) (fi fl fs : Form) (init limit step : Obj) : Res (List Num × Bool) := do
  let i ← exp1 fi init
  let l ← exp1 fl limit
  let s ← exp1 fs step
  let st ← forprep i l s
  return run fuel st

/-- the loop over the values of the expressions -/
def loop (fuel : Nat) (init limit step : Obj) : Res (List Num × Bool) := do
  let st ← forprep init limit step
  return run fuel st

/-- the expression is not one that is converted, or its value is an integer anyway -/
def Form.keeps (f : Form) (v : Obj) : Prop := f.hash = false ∨ f.int = true ∨ ∃ i, v = .num (.int i)

theorem exp1_keeps {f : Form} {v : Obj} (h : f.keeps v) : exp1 f v = .ok v := by
  unfold exp1 Form.toint
  rcases h with h | h | ⟨i, rfl⟩
  · simp [h]
  · simp [h]
  · split <;> rfl

theorem flt_modes {x : Dbl} {j : LInt} (m : Mode) (h : fltToInteger x .eq = .ok (some j)) : fltToInteger x m = .ok (some j) := by
  unfold fltToInteger at h ⊢
  dsimp only at h ⊢
  split at h
  · cases h
  · rename_i hn
    rw [if_neg hn]
    exact h

/-- C80: the loop is the loop over the values of its expressions, except that an expression that begins with `#` must have an
integer value; the limit may also be a float with an integer value, if the initial value and the step are integers.
(Missing: other values of such expressions, for which it does not hold, see `hash_limit_fails` and `hash_init_changes`.) -/
theorem for_values_partial (fuel : Nat) {fi fl fs : Form} {init limit step : Obj} (hi : fi.keeps init) (hs : fs.keeps step)
    (hl : fl.keeps limit ∨ ∃ a s x j, init = .num (.int a) ∧ step = .num (.int s) ∧ limit = .num (.flt x) ∧
      fltToInteger x .eq = .ok (some j)) :
    fornum fuel fi fl fs init limit step = loop fuel init limit step := by
  unfold fornum loop
  rw [exp1_keeps hi, exp1_keeps hs]
  simp only [Res.bind_ok]
  rcases hl with hl | ⟨a, s, x, j, rfl, rfl, rfl, hj⟩
  · rw [exp1_keeps hl]
    simp only [Res.bind_ok]
  · unfold exp1
    split
    · simp only [toint, toIntegerNS, hj, Res.bind_ok, Res.pure_eq]
      congr 1
      simp only [forprep, forlimit, tointeger, Obj.toNum, toIntegerNS, flt_modes _ hj, Res.bind_ok, Res.pure_eq]
    · rfl

/-- an expression whose form is only known to begin with `#` -/
def hashed : Form := ⟨true, false⟩
def plain : Form := ⟨false, false⟩

/-- 1.5, the value of `#t/2` for a table with three elements -/
def oneAndHalf : Dbl := .fin false (3 * 2 ^ 1073)

/-- `for i = 1, #t/2 do` with three elements in `t` raises an error; the values of the expressions make it run once. -/
theorem hash_limit_fails : ∃ init limit step, ∀ fuel, 1 < fuel →
    loop fuel init limit step = .ok ([.int 1], true) ∧
    fornum fuel plain hashed plain init limit step = .err "TOINT: integer expected" := by
  refine ⟨.num (.int 1), .num (.flt oneAndHalf), .num (.int 1), fun fuel h => ?_⟩
  obtain ⟨f, rfl⟩ : ∃ f, fuel = f + 2 := ⟨fuel - 2, by omega⟩
  have h1 : forprep (.num (.int 1)) (.num (.flt oneAndHalf)) (.num (.int 1)) = .ok (.int 0 1 1) := by
    have : fltToInteger oneAndHalf .floor = .ok (some 1) := by decide +kernel
    simp only [forprep, forlimit, tointeger, Obj.toNum, toIntegerNS, Res.bind_ok, Res.pure_eq]
    rw [if_neg (by decide), this]
    rfl
  have h2 : fltToInteger oneAndHalf .eq = .ok none := by decide +kernel
  constructor
  · unfold loop
    rw [h1]
    rfl
  · simp only [fornum, exp1, Form.toint, plain, hashed, toint, toIntegerNS, h2, Res.bind_ok, Bool.false_and, Bool.not_false,
      Bool.and_self, Bool.false_eq_true, if_false, if_true, Res.bind_err]

/-- `for i = #t/2, 2 do` with four elements in `t` gives `i` the value 2, and not 2.0. -/
theorem hash_init_changes : ∃ init limit step,
    loop 2 init limit step = .ok ([.flt (ofInt 2)], true) ∧
    fornum 2 hashed plain plain init limit step = .ok ([.int 2], true) := by
  refine ⟨.num (.flt (ofInt 2)), .num (.int 2), .num (.int 1), ?_⟩
  decide +kernel

/-- So the property fails. -/
theorem for_values_fails : ¬ ∀ fuel fi fl fs init limit step,
    fornum fuel fi fl fs init limit step = loop fuel init limit step := by
  intro h
  obtain ⟨i, l, s, h1⟩ := hash_limit_fails
  have := h 2 plain hashed plain i l s
  rw [(h1 2 (by omega)).1, (h1 2 (by omega)).2] at this
  cases this

/-- the hypotheses of `for_values_partial` are met: `for i = #t, #t/2, -1 do` with four elements in `t` -/
example : fornum 4 hashed hashed plain (.num (.int 4)) (.num (.flt (ofInt 2))) (.num (.int (-1))) =
    .ok ([.int 4, .int 3, .int 2], true) := by
  rw [for_values_partial 4 (.inr (.inr ⟨4, rfl⟩)) (.inl rfl) (.inr ⟨4, -1, ofInt 2, 2, rfl, rfl, rfl, by decide +kernel⟩)]
  decide +kernel

end Verif.For
