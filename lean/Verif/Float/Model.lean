import Verif.Arith.Model
/-!
IEEE-754 binary64 as used for `lua_Number`, and the integer/float conversions and comparisons of the VM:
`/repo/src/lvm.c` 53-80, 122-165, 182-201, 578-705, 732-741, `/repo/include/luaconf.h` 459-462.

Every finite double is an integer multiple of 2^-1074.  A finite double is modelled by its sign and its
magnitude counted in units of 2^-1074; this makes comparison, `floor` and (correctly rounded) addition
exact integer computations.  Rounding is to nearest, ties to even (the default mode of C).
Simplification: NaN payloads and signs are not represented.
-/
namespace Verif.Float
open Verif.Arith (LInt)

/-- number of units (2^-1074) in 1.0 -/
def U : Nat := 2 ^ 1074

/-- IEEE-754 binary64 -/
inductive Dbl where
  | nan
  | inf (neg : Bool)
  | fin (neg : Bool) (s : Nat)
deriving DecidableEq, Repr

/-- magnitudes that are doubles: at most 53 significant bits, not too large -/
def Rep (s : Nat) : Prop := ∃ m k, m < 2 ^ 53 ∧ k ≤ 2045 ∧ s = m * 2 ^ k

/-- the encodable values -/
def Dbl.WF : Dbl → Prop
  | .fin _ s => Rep s
  | _ => True

/-- signed number of units -/
def sc (neg : Bool) (s : Nat) : Int := if neg then -(s : Int) else s

/-- C `a < b` (`luai_numlt`) -/
def lt : Dbl → Dbl → Bool
  | .nan, _ => false
  | _, .nan => false
  | .inf true, .inf true => false
  | .inf true, _ => true
  | .inf false, _ => false
  | .fin _ _, .inf neg => !neg
  | .fin n s, .fin n' s' => decide (sc n s < sc n' s')

/-- C `a <= b` (`luai_numle`) -/
def le : Dbl → Dbl → Bool
  | .nan, _ => false
  | _, .nan => false
  | .inf true, _ => true
  | .inf false, .inf false => true
  | .inf false, _ => false
  | .fin _ _, .inf neg => !neg
  | .fin n s, .fin n' s' => decide (sc n s ≤ sc n' s')

/-- C `a == b` (`luai_numeq`) -/
def eq : Dbl → Dbl → Bool
  | .inf a, .inf b => a == b
  | .fin n s, .fin n' s' => decide (sc n s = sc n' s')
  | _, _ => false

/-- `floor` of C -/
def floor : Dbl → Dbl
  | .fin n s => .fin n ((sc n s / (U : Int)).natAbs * U)
  | x => x

/-- round to 53 significant bits, nearest, ties to even -/
def round53 (n : Nat) : Nat :=
  if n < 2 ^ 53 then n
  else
    let k := n.log2 - 52
    let q := n / 2 ^ k
    let r := n % 2 ^ k
    let q := if 2 ^ k < 2 * r ∨ (2 * r = 2 ^ k ∧ q % 2 = 1) then q + 1 else q
    q * 2 ^ k

/-- rounding of an exact result (in units), overflow to infinity -/
def mk (neg : Bool) (n : Nat) : Dbl :=
  if round53 n < 2 ^ 2098 then .fin neg (round53 n) else .inf neg

/-- C `a + b` -/
def add : Dbl → Dbl → Dbl
  | .nan, _ => .nan
  | _, .nan => .nan
  | .inf a, .inf b => if a = b then .inf a else .nan
  | .inf a, _ => .inf a
  | _, .inf b => .inf b
  | .fin n s, .fin n' s' =>
    let z := sc n s + sc n' s'
    if z = 0 then .fin (n && n') 0 else mk (decide (z < 0)) z.natAbs

/-- C `-a` -/
def neg : Dbl → Dbl
  | .nan => .nan
  | .inf a => .inf (!a)
  | .fin n s => .fin (!n) s

/-- C `a - b` -/
def sub (a b : Dbl) : Dbl := add a (neg b)

/-- conversion of an integer to double, `cast_num` -/
def ofInt (i : Int) : Dbl := mk (decide (i < 0)) (i.natAbs * U)

/-- C cast `(lua_Integer)x`: truncation; undefined when the truncated value is out of range -/
def castInt : Dbl → Res LInt
  | .fin n s =>
    let t : Int := sc n (s / U)
    if -2 ^ 63 ≤ t ∧ t < 2 ^ 63 then .ok (BitVec.ofInt 64 t) else .ub
  | _ => .ub

/-- `lua_numbertointeger`, luaconf.h 459-462 -/
def numberToInteger (x : Dbl) : Res (Option LInt) :=
  if le (ofInt (-2 ^ 63)) x && lt x (neg (ofInt (-2 ^ 63))) then do
    let i ← castInt x
    return some i
  else return none

/-- `F2Imod`, lvm.h 43-47 -/
inductive Mode where
  | eq | floor | ceil
deriving DecidableEq, Repr

/-- `luaV_flttointeger`, lvm.c 122-130 -/
def fltToInteger (n : Dbl) (mode : Mode) : Res (Option LInt) :=
  let f := floor n
  if !(eq n f) then
    match mode with
    | .eq => return none
    | .ceil => numberToInteger (add f (ofInt 1))
    | .floor => numberToInteger f
  else numberToInteger f

/-- `l_intfitsf`, lvm.c 71-74: unsigned arithmetic, `NBM` = 53 -/
def intFitsF (i : LInt) : Bool := decide ((1#64 <<< 53) + i ≤ 2#64 * (1#64 <<< 53))

/-- `LTintfloat`, lvm.c 578-588 -/
def LTintfloat (i : LInt) (f : Dbl) : Res Bool :=
  if intFitsF i then .ok (lt (ofInt i.toInt) f)
  else do
    match ← fltToInteger f .ceil with
    | some fi => return decide (i.toInt < fi.toInt)
    | none => return lt (ofInt 0) f

/-- `LEintfloat`, lvm.c 595-605 -/
def LEintfloat (i : LInt) (f : Dbl) : Res Bool :=
  if intFitsF i then .ok (le (ofInt i.toInt) f)
  else do
    match ← fltToInteger f .floor with
    | some fi => return decide (i.toInt ≤ fi.toInt)
    | none => return lt (ofInt 0) f

/-- `LTfloatint`, lvm.c 612-622 -/
def LTfloatint (f : Dbl) (i : LInt) : Res Bool :=
  if intFitsF i then .ok (lt f (ofInt i.toInt))
  else do
    match ← fltToInteger f .floor with
    | some fi => return decide (fi.toInt < i.toInt)
    | none => return lt f (ofInt 0)

/-- `LEfloatint`, lvm.c 629-639 -/
def LEfloatint (f : Dbl) (i : LInt) : Res Bool :=
  if intFitsF i then .ok (le f (ofInt i.toInt))
  else do
    match ← fltToInteger f .ceil with
    | some fi => return decide (fi.toInt ≤ i.toInt)
    | none => return lt f (ofInt 0)

/-- a Lua number: `LUA_TNUMINT` or `LUA_TNUMFLT` -/
inductive Num where
  | int (i : LInt)
  | flt (f : Dbl)
deriving DecidableEq, Repr

/-- the values a program can have -/
def Num.WF : Num → Prop
  | .int _ => True
  | .flt f => f.WF

/-- `LTnum`, lvm.c 645-661 -/
def LTnum : Num → Num → Res Bool
  | .int l, .int r => .ok (decide (l.toInt < r.toInt))
  | .int l, .flt r => LTintfloat l r
  | .flt l, .flt r => .ok (lt l r)
  | .flt l, .int r => LTfloatint l r

/-- `LEnum`, lvm.c 667-683 -/
def LEnum : Num → Num → Res Bool
  | .int l, .int r => .ok (decide (l.toInt ≤ r.toInt))
  | .int l, .flt r => LEintfloat l r
  | .flt l, .flt r => .ok (le l r)
  | .flt l, .int r => LEfloatint l r

/-- `tointegerns`, lvm.h 67-68 with `luaV_tointegerns`, lvm.c 138-147 (mode `F2Ieq`) -/
def toIntegerNS (n : Num) (mode : Mode) : Res (Option LInt) :=
  match n with
  | .int i => .ok (some i)
  | .flt f => fltToInteger f mode

/-- `luaV_equalobj` on numbers, lvm.c 732-746 -/
def EQnum : Num → Num → Res Bool
  | .int a, .int b => .ok (decide (a = b))
  | .flt a, .flt b => .ok (eq a b)
  | a, b => do
    match ← toIntegerNS a .eq with
    | none => return false
    | some i1 =>
      match ← toIntegerNS b .eq with
      | none => return false
      | some i2 => return decide (i1 = i2)

end Verif.Float
