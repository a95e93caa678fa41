import Verif.Float.Compare

/-!
# Rounding, remainder and extremes in the mathematical library — src/lmathlib.c

Arguments are numbers; strings that convert to numbers are not modelled.
-/
namespace Verif.MathLib
open Verif.Arith (LInt cMod)
open Verif.Float

/-- `ceil` of C (lmathlib.c:110, 147). -/
def ceil : Dbl → Dbl
  | .fin n s => .fin n ((-(-(sc n s) / (U : Int))).natAbs * U)
  | x => x

/-- `pushnumint` — lmathlib.c:86-92. -/
def pushnumint (d : Dbl) : Res Num := do
  match ← numberToInteger d with
  | some i => .ok (.int i)
  | none => .ok (.flt d)

/-- `math.floor` — lmathlib.c:95-103. -/
def mathFloor : Num → Res Num
  | .int i => .ok (.int i)
  | .flt f => pushnumint (Float.floor f)

/-- `math.ceil` — lmathlib.c:106-114. -/
def mathCeil : Num → Res Num
  | .int i => .ok (.int i)
  | .flt f => pushnumint (ceil f)

/-- `math.modf` — lmathlib.c:139-153. -/
def mathModf : Num → Res (Num × Dbl)
  | .int i => .ok (.int i, .fin false 0)
  | .flt f => do
    let ip := if lt f (.fin false 0) then ceil f else Float.floor f
    let r ← pushnumint ip
    .ok (r, if Float.eq f ip then .fin false 0 else sub f ip)

/-- `math.fmod` of integers — lmathlib.c:118-126. -/
def mathFmod (m d : LInt) : Res LInt :=
  if d + 1 ≤ 1 then
    if d ≠ 0 then .ok 0 else .err "zero"
  else cMod m d

/-- `math.abs` of an integer — lmathlib.c:30-34. -/
def mathAbs (n : LInt) : LInt := if n.toInt < 0 then 0 - n else n

/-- `math.ult` — lmathlib.c:162-167. -/
def mathUlt (a b : LInt) : Bool := decide (a < b)

/-- The loop of `math.min` — lmathlib.c:211-214; the value stands for its index. -/
def minLoop (m : Num) : List Num → Res Num
  | [] => .ok m
  | x :: xs => do
    if ← LTnum x m then minLoop x xs else minLoop m xs

/-- `math.min` — lmathlib.c:206-217. -/
def mathMin : List Num → Res Num
  | [] => .err "value expected"
  | x :: xs => minLoop x xs

/-- The loop of `math.max` — lmathlib.c:225-228. -/
def maxLoop (m : Num) : List Num → Res Num
  | [] => .ok m
  | x :: xs => do
    if ← LTnum m x then maxLoop x xs else maxLoop m xs

/-- `math.max` — lmathlib.c:220-231. -/
def mathMax : List Num → Res Num
  | [] => .err "value expected"
  | x :: xs => maxLoop x xs

end Verif.MathLib
