import Verif.Base
import Verif.CInt

/-!
# `tonumber` with a base, and `select` — src/lbaselib.c

Strings are lists of bytes, which are naturals; the byte after the last one is read as 0, as in C.
The classes of characters are those of the C locale.
-/
namespace Verif.BaseLib

/-- `SPACECHARS` — lbaselib.c:46. -/
def isSpace (c : Nat) : Bool := c == 32 || c == 12 || c == 10 || c == 13 || c == 9 || c == 11

/-- `isdigit` — lbaselib.c:57. -/
def isDigit (c : Nat) : Bool := 48 ≤ c && c ≤ 57
/-- The upper-case letters of `isalnum` — lbaselib.c:54, 62. -/
def isUpper (c : Nat) : Bool := 65 ≤ c && c ≤ 90
/-- The letters that `toupper` changes — lbaselib.c:58. -/
def isLower (c : Nat) : Bool := 97 ≤ c && c ≤ 122

/-- `isalnum` — lbaselib.c:54, 62. -/
def isAlnum (c : Nat) : Bool := isDigit c || isUpper c || isLower c

/-- `toupper` — lbaselib.c:58. -/
def toUpper (c : Nat) : Nat := if isLower c then c - 32 else c

/-- `s += strspn(s, SPACECHARS)` — lbaselib.c:51, 63; the list is what is left of the string, without
the zero at its end. -/
def skip : List Nat → List Nat
  | [] => []
  | c :: s => if isSpace c then skip s else c :: s

/-- The digit of a character — lbaselib.c:57-58. -/
def digit (c : Nat) : Int := if isDigit c then (c : Int) - 48 else ((toUpper c : Int) - 65) + 10

/-- The loop — lbaselib.c:56-62; `n` is a `lua_Unsigned`.  The loop is entered only if there is a
character that is a digit or a letter, so it may test first. -/
def digits (base : Nat) : List Nat → Nat → Option (Nat × List Nat)
  | [], n => some (n, [])
  | c :: s, n =>
    if isAlnum c then
      if digit c ≥ base then none else digits base s (uw (n * base + toU (digit c)))
    else some (n, c :: s)

/-- The sign — lbaselib.c:52-53: whether it is `-`, and what is left of the string. -/
def sign : List Nat → Bool × List Nat
  | [] => (false, [])
  | c :: s => if c = 45 then (true, s) else if c = 43 then (false, s) else (false, c :: s)

/-- `b_str2int` — lbaselib.c:48-66: the number and what is left of the string. -/
def str2int (base : Nat) (s : List Nat) : Option (Int × List Nat) :=
  match (sign (skip s)).2 with
  | [] => none
  | c :: t =>
    if isAlnum c then
      match digits base (c :: t) 0 with
      | none => none
      | some (n, r) => some (toS (if (sign (skip s)).1 then uw (2 ^ 64 - n) else n), skip r)
    else none

/-- `tonumber(s, base)` — lbaselib.c:84-97; `none` is nil.  The whole string must be used.
The first argument is a string and the second an integer; other types are not modelled. -/
def tonumber (s : List Nat) (base : Int) : Res (Option Int) :=
  if 2 ≤ base ∧ base ≤ 36 then
    match str2int base.toNat s with
    | some (n, []) => .ok (some n)
    | _ => .ok none
  else .err "base out of range"

/-- `select(i, ...)` with an integer `i` — lbaselib.c:444-448.  `args` are the values after `i`, so
`lua_gettop` is one more; the function returns the topmost `n - i` values of the stack.  (`n + i`
cannot overflow: `n` is not negative and `i` is.)  `select('#', ...)` and an index that is not an
integer are not modelled. -/
def select {α : Type} (i : Int) (args : List α) : Res (List α) :=
  let n : Int := args.length + 1
  let i := if i < 0 then n + i else if i > n then n else i
  if 1 ≤ i then .ok (args.drop (args.length - (n - i).toNat)) else .err "index out of range"

end Verif.BaseLib
