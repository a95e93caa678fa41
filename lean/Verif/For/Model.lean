import Verif.Float.Model
/-!
Numeric `for` loops: `luaV_forlimit` (`/repo/src/lvm.c` 182-201), `OP_FORLOOP` / `OP_FORPREP` (lvm.c 1886-1938), the
specialised integer loops `OP_RAVI_FORLOOP_IP/I1`, `OP_RAVI_FORPREP_IP/I1` (lvm.c 2181-2205) and the choice
between them by the parser (`fornum`, `forbody`, `/repo/src/lparser.c` 2035-2095, 2108-2165).

The body of a loop cannot touch the three hidden control registers, so a loop is the machine made of those
registers; its observable effect is the sequence of values given to the loop variable and whether it ends.
-/
namespace Verif.For
open Verif.Arith (LInt minInt cAddS cSubS)
open Verif.Float

/-- largest integer, `LUA_MAXINTEGER` -/
def maxInt : LInt := BitVec.intMax 64

/-- a value given as a loop parameter: a number, a string together with the number it converts to (if any), or something else.
The string to number conversion itself (`luaO_str2num`) is not modelled here. -/
inductive Obj where
  | num (n : Num)
  | str (conv : Option Num)
  | other

/-- the number an object stands for: itself, or `l_strton` (lvm.c 91-97) -/
def Obj.toNum : Obj → Option Num
  | .num n => some n
  | .str c => c
  | .other => none

/-- `tonumber`, lvm.h 60-61 and `luaV_tonumber_`, lvm.c 104-116 -/
def tonumber (o : Obj) : Option Dbl :=
  match o.toNum with
  | some (.int i) => some (ofInt i.toInt)
  | some (.flt f) => some f
  | none => none

/-- `luaV_tointeger`, lvm.c 153-158 -/
def tointeger (o : Obj) (mode : Mode) : Res (Option LInt) :=
  match o.toNum with
  | some n => toIntegerNS n mode
  | none => .ok none

/-- `luaV_forlimit`, lvm.c 182-201: `none` is "not a number", otherwise the limit and `stopnow` -/
def forlimit (obj : Obj) (step : LInt) : Res (Option (LInt × Bool)) :=
  match obj with
  | .num (.int i) => .ok (some (i, false))
  | _ => do
    match ← tointeger obj (if step.toInt < 0 then .ceil else .floor) with
    | some p => return some (p, false)
    | none =>
      match tonumber obj with
      | none => return none
      | some n =>
        if lt (ofInt 0) n then return some (maxInt, decide (step.toInt < 0))
        else return some (minInt, decide (0 ≤ step.toInt))

/-- the hidden registers `ra`, `ra+1`, `ra+2`: index, limit, step -/
inductive St where
  | int (idx limit step : LInt)
  | flt (idx limit step : Dbl)

/-- the float branch of `OP_FORPREP`, lvm.c 1924-1935 -/
def forprepFlt (init limit step : Obj) : Res St :=
  match tonumber limit with
  | none => .err "'for' limit must be a number"
  | some nlimit =>
    match tonumber step with
    | none => .err "'for' step must be a number"
    | some nstep =>
      match tonumber init with
      | none => .err "'for' initial value must be a number"
      | some ninit => .ok (.flt (sub ninit nstep) nlimit nstep)

/-- `OP_FORPREP`, lvm.c 1910-1938 -/
def forprep (init limit step : Obj) : Res St :=
  match init, step with
  | .num (.int a), .num (.int s) => do
    match ← forlimit limit s with
    | some (ilimit, stopnow) => return .int ((if stopnow then 0 else a) - s) ilimit s
    | none => forprepFlt init limit step
  | _, _ => forprepFlt init limit step

/-- `OP_FORLOOP`, lvm.c 1886-1909: `none` leaves the loop, otherwise the new registers and the value of the loop variable -/
def forloop : St → Option (St × Num)
  | .int idx limit step =>
    let idx := idx + step
    if (if 0 < step.toInt then decide (idx.toInt ≤ limit.toInt) else decide (limit.toInt ≤ idx.toInt)) then
      some (.int idx limit step, .int idx)
    else none
  | .flt idx limit step =>
    let idx := add idx step
    if (if lt (ofInt 0) step then le idx limit else le limit idx) then
      some (.flt idx limit step, .flt idx)
    else none

/-- at most `fuel` executions of `OP_FORLOOP`: the values given to the loop variable, and whether the loop ended -/
def run : Nat → St → List Num × Bool
  | 0, _ => ([], false)
  | fuel + 1, st =>
    match forloop st with
    | none => ([], true)
    | some (st', v) => (v :: (run fuel st').1, (run fuel st').2)

/-- the opcode pairs available for a numeric loop -/
inductive Kind where
  | generic | ip | i1
deriving DecidableEq, Repr

/-- `fornum`/`exp1`/`forbody`, lparser.c 2035-2058, 2084-2093, 2133-2150, for a loop whose three expressions have static type integer and whose
step is the integer constant `step`: `info->int_value` is a C `int`, so the constant is reduced to 32 bits
(implementation-defined conversion, two's complement wrap as in gcc and clang). -/
def selectLoop (step : LInt) : Kind :=
  let int_value := (step.setWidth 32).toInt
  if 1 < int_value then .ip
  else if int_value = 1 then .i1
  else .generic

/-- `OP_RAVI_FORPREP_IP` / `_I1`, lvm.c 2193-2205: signed subtraction -/
def forprepI (init step : LInt) : Res LInt := cSubS init step

/-- `OP_RAVI_FORLOOP_IP` / `_I1`, lvm.c 2181-2191: signed addition; the limit test ignores the sign of the step -/
def forloopI (idx limit step : LInt) : Res (Option LInt) := do
  let idx ← cAddS idx step
  if idx.toInt ≤ limit.toInt then return some idx else return none

/-- at most `fuel` executions of the specialised loop instruction -/
def runI : Nat → LInt → LInt → LInt → Res (List Num × Bool)
  | 0, _, _, _ => .ok ([], false)
  | fuel + 1, idx, limit, step => do
    match ← forloopI idx limit step with
    | none => return ([], true)
    | some i => do
      let (l, b) ← runI fuel i limit step
      return (.int i :: l, b)

/-- a loop over integers with constant integer step, as compiled: the step of the `I1` opcodes is 1 -/
def typedLoop (fuel : Nat) (init limit step : LInt) : Res (List Num × Bool) :=
  match selectLoop step with
  | .generic => do
    let st ← forprep (.num (.int init)) (.num (.int limit)) (.num (.int step))
    return run fuel st
  | .ip => do
    let i ← forprepI init step
    runI fuel i limit step
  | .i1 => do
    let i ← forprepI init 1
    runI fuel i limit 1

end Verif.For
