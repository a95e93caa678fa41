import Verif.CInt
/-!
Conversion between integers and strings: `/repo/src/lctype.c` 15-60 (character classes), `/repo/src/lobject.c` 166-175 (`luaO_hexavalue`, `isneg`),
297-331 (`l_str2int`), `/repo/src/lbaselib.c` 46-66 (`b_str2int`), 68-101 (`luaB_tonumber`), `/repo/include/luaconf.h` 544 (`lua_integer2str`).

A C pointer into a string is the list of the bytes from it to the end of the object, including the terminating 0; reading beyond is
undefined behaviour.  Simplifications: `snprintf("%lld")` and the libc classifiers `isalnum`, `isdigit`, `toupper` (in the "C" locale) are modelled
by their specification; floats (`l_str2d`, `lua_number2str`) are not modelled.
-/
namespace Verif.Num

/-- `luai_ctype_`, lctype.c 15-50, transcribed -/
def ctype : List Nat :=
  [0,
   0, 0, 0, 0, 0, 0, 0, 0, 0, 8, 8, 8, 8, 8, 0, 0, 0, 0, 0, 0, 0, 0, 0, 0, 0, 0, 0, 0, 0, 0, 0, 0,
   12, 4, 4, 4, 4, 4, 4, 4, 4, 4, 4, 4, 4, 4, 4, 4, 22, 22, 22, 22, 22, 22, 22, 22, 22, 22, 4, 4, 4, 4, 4, 4,
   4, 21, 21, 21, 21, 21, 21, 5, 5, 5, 5, 5, 5, 5, 5, 5, 5, 5, 5, 5, 5, 5, 5, 5, 5, 5, 5, 4, 4, 4, 4, 5,
   4, 21, 21, 21, 21, 21, 21, 5, 5, 5, 5, 5, 5, 5, 5, 5, 5, 5, 5, 5, 5, 5, 5, 5, 5, 5, 5, 4, 4, 4, 4, 0,
   0, 0, 0, 0, 0, 0, 0, 0, 0, 0, 0, 0, 0, 0, 0, 0, 0, 0, 0, 0, 0, 0, 0, 0, 0, 0, 0, 0, 0, 0, 0, 0,
   0, 0, 0, 0, 0, 0, 0, 0, 0, 0, 0, 0, 0, 0, 0, 0, 0, 0, 0, 0, 0, 0, 0, 0, 0, 0, 0, 0, 0, 0, 0, 0,
   0, 0, 0, 0, 0, 0, 0, 0, 0, 0, 0, 0, 0, 0, 0, 0, 0, 0, 0, 0, 0, 0, 0, 0, 0, 0, 0, 0, 0, 0, 0, 0,
   0, 0, 0, 0, 0, 0, 0, 0, 0, 0, 0, 0, 0, 0, 0, 0, 0, 0, 0, 0, 0, 0, 0, 0, 0, 0, 0, 0, 0, 0, 0, 0]

/-- `testprop(c, p)`, lctype.h 56, for an unsigned char `c` -/
def testprop (c : UInt8) (p : Nat) : Bool := (ctype[c.toNat + 1]?.getD 0) &&& p != 0

/-- `lisdigit`, lctype.h 63 -/
def isDigit (c : UInt8) : Bool := testprop c 2
/-- `lisspace`, lctype.h 64 -/
def isSpace (c : UInt8) : Bool := testprop c 8
/-- `lisxdigit`, lctype.h 66 -/
def isXdigit (c : UInt8) : Bool := testprop c 16

/-- `luaO_hexavalue`, lobject.c 166-169; `ltolower(c)` is `c | 32` -/
def hexavalue (c : UInt8) : Nat := if isDigit c then c.toNat - 48 else (c.toNat ||| 32) - 97 + 10

/-- `while (p(*s)) s++` -/
def skip (p : UInt8 → Bool) : List UInt8 → Res (List UInt8)
  | [] => .ub
  | c :: l => if p c then skip p l else .ok (c :: l)

/-- `isneg`, lobject.c 172-176 -/
def isneg : List UInt8 → Res (Bool × List UInt8)
  | [] => .ub
  | c :: l => if c = 45 then .ok (true, l) else if c = 43 then .ok (false, l) else .ok (false, c :: l)

/-- the hexadecimal loop, lobject.c 310-313 -/
def hexLoop : List UInt8 → Nat → Bool → Res (Nat × Bool × List UInt8)
  | [], _, _ => .ub
  | c :: l, a, empty => if isXdigit c then hexLoop l (uw (a * 16 + hexavalue c)) false else .ok (a, empty, c :: l)

/-- `MAXBY10`, lobject.c 297 -/
def maxBy10 : Nat := 922337203685477580
/-- `MAXLASTD`, lobject.c 298 -/
def maxLastD : Nat := 7

/-- the decimal loop, lobject.c 316-322; `none` is the overflow exit -/
def decLoop (neg : Nat) : List UInt8 → Nat → Bool → Res (Option (Nat × Bool × List UInt8))
  | [], _, _ => .ub
  | c :: l, a, empty =>
    if isDigit c then
      let d := c.toNat - 48
      if maxBy10 ≤ a ∧ (maxBy10 < a ∨ maxLastD + neg < d) then .ok none
      else decLoop neg l (uw (a * 10 + d)) false
    else .ok (some (a, empty, c :: l))

/-- is the numeral hexadecimal? lobject.c 306-307 -/
def isHex : List UInt8 → Res Bool
  | [] => .ub
  | c :: l => if c = 48 then
      match l with
      | [] => .ub
      | x :: _ => .ok (x = 120 ∨ x = 88)
    else .ok false

/-- digits of either kind: the accumulated value, the flag `empty` and the rest of the string -/
def digits (neg : Bool) (s : List UInt8) : Res (Option (Nat × Bool × List UInt8)) := do
  let hex ← isHex s
  if hex then do
    let r ← hexLoop (s.drop 2) 0 true
    return some r
  else decLoop (if neg then 1 else 0) s 0 true

/-- the end of `l_str2int`, lobject.c 324-329: trailing spaces and the terminator -/
def finish (v : Int) (empty : Bool) (s : List UInt8) : Res (Option (Int × List UInt8)) := do
  let s ← skip isSpace s
  match s with
  | [] => .ub
  | c :: _ => if empty ∨ c ≠ 0 then return none else return some (v, s)

/-- `l_str2int`, lobject.c 300-331: `none` is NULL; otherwise the integer and the final pointer -/
def lStr2int (s : List UInt8) : Res (Option (Int × List UInt8)) := do
  let s ← skip isSpace s
  let (neg, s) ← isneg s
  let r ← digits neg s
  match r with
  | none => return none
  | some (a, empty, s) => finish (toS (if neg then uw (18446744073709551616 - a) else a)) empty s

/-- `luaO_str2num` restricted to integers, as used by `luaB_tonumber`, lbaselib.c 75-79: the whole string must have been consumed -/
def str2int (s : List UInt8) : Res (Option Int) := do
  let r ← lStr2int (s ++ [0])
  match r with
  | none => return none
  | some (i, e) => return if e.length = 1 then some i else none

/-- decimal digits of a natural number (specification of `%lld` for the absolute value) -/
def decDigits (n : Nat) : List UInt8 :=
  if h : n < 10 then [UInt8.ofNat (48 + n)] else decDigits (n / 10) ++ [UInt8.ofNat (48 + n % 10)]
termination_by n

/-- `lua_integer2str`, luaconf.h 544-545 -/
def int2str (i : Int) : List UInt8 := if i < 0 then 45 :: decDigits i.natAbs else decDigits i.natAbs

/-- C `isalnum` in the "C" locale -/
def isAlnum (c : UInt8) : Bool := (48 ≤ c ∧ c ≤ 57) ∨ (65 ≤ c ∧ c ≤ 90) ∨ (97 ≤ c ∧ c ≤ 122)
/-- `SPACECHARS`, lbaselib.c 46 -/
def spaceChars : List UInt8 := [32, 12, 10, 13, 9, 11]

/-- digit of `b_str2int`, lbaselib.c 57-58 -/
def bdigit (c : UInt8) : Nat :=
  if 48 ≤ c ∧ c ≤ 57 then c.toNat - 48
  else if 97 ≤ c ∧ c ≤ 122 then c.toNat - 32 - 65 + 10 else c.toNat - 65 + 10

/-- the loop of `b_str2int`, lbaselib.c 56-62 -/
def bLoop (base : Nat) : List UInt8 → Nat → Res (Option (Nat × List UInt8))
  | [], _ => .ub
  | c :: l, n =>
    if base ≤ bdigit c then .ok none
    else match l with
      | [] => .ub
      | c' :: _ => if isAlnum c' then bLoop base l (uw (n * base + bdigit c)) else .ok (some (uw (n * base + bdigit c), l))

/-- `b_str2int`, lbaselib.c 48-66 -/
def bStr2int (s : List UInt8) (base : Nat) : Res (Option (Int × List UInt8)) := do
  let s ← skip (fun c => spaceChars.contains c) s
  let (neg, s) ← isneg s
  match s with
  | [] => .ub
  | c :: _ =>
    if ¬ isAlnum c then return none
    else do
      let r ← bLoop base s 0
      match r with
      | none => return none
      | some (n, s) => do
        let s ← skip (fun c => spaceChars.contains c) s
        return some (toS (if neg then uw (18446744073709551616 - n) else n), s)

/-- `tonumber(s, base)`, lbaselib.c 83-98 -/
def tonumberBase (s : List UInt8) (base : Int) : Res (Option Int) :=
  if 2 ≤ base ∧ base ≤ 36 then do
    let r ← bStr2int (s ++ [0]) base.toNat
    match r with
    | none => return none
    | some (i, e) => return if e.length = 1 then some i else none
  else .err "base out of range"

end Verif.Num
