import Verif.Base

/-!
# Reading a numeral from a file — src/liolib.c 385-472

The state has the bytes still to be read, the look-ahead `rn.c` first (none at `EOF`), so that the
`ungetc` at the end changes nothing.  Simplified: the "C" locale (decimal point `.`, classes of
characters as in ASCII).
-/
namespace Verif.IoNum

/-- `RN` — liolib.c:391-396: `buff` with its `n` bytes, and whether its first byte was set to zero. -/
structure S where
  buff : List Nat
  bad : Bool
  file : List Nat
deriving DecidableEq, Repr

/-- `L_MAXLENNUM` — liolib.c:386. -/
def MAXLEN : Nat := 200

/-- `isspace`, `isdigit`, `isxdigit` of the C library. -/
def isspace (c : Nat) : Bool := c = 32 || (9 ≤ c && c ≤ 13)
/-- See `isspace`. -/
def isdigit (c : Nat) : Bool := 48 ≤ c && c ≤ 57
/-- See `isspace`. -/
def isxdigit (c : Nat) : Bool := isdigit c || (97 ≤ c && c ≤ 102) || (65 ≤ c && c ≤ 70)

/-- `nextc` — liolib.c:402-412, with `c` the look-ahead. -/
def nextc (s : S) (c : Nat) (rest : List Nat) : Bool × S :=
  if s.buff.length ≥ MAXLEN then (false, { s with bad := true })
  else (true, { s with buff := s.buff ++ [c], file := rest })

/-- `test2` — liolib.c:418-422. -/
def test2 (s : S) (a b : Nat) : Bool × S :=
  match s.file with
  | c :: rest => if c = a ∨ c = b then nextc s c rest else (false, s)
  | [] => (false, s)

/-- `readdigits` — liolib.c:428-433, with the count so far; `k` bounds the rounds, see `digits`. -/
def digitsLoop (p : Nat → Bool) : Nat → S → Nat → Nat × S
  | 0, s, count => (count, s)
  | k + 1, s, count =>
    match s.file with
    | c :: rest =>
      if p c then
        let (ok, s) := nextc s c rest
        if ok then digitsLoop p k s (count + 1) else (count, s)
      else (count, s)
    | [] => (count, s)

/-- `readdigits`; every round takes a byte of the file. -/
def digits (p : Nat → Bool) (s : S) : Nat × S := digitsLoop p s.file.length s 0

/-- `read_number` up to the conversion — liolib.c:441-465. -/
def readNumber (file : List Nat) : S :=
  let s : S := ⟨[], false, file.dropWhile isspace⟩
  let s := (test2 s 45 43).2
  let (zero, s) := test2 s 48 48
  let (hex, count, s) :=
    if zero then
      let (x, s) := test2 s 120 88
      if x then (true, 0, s) else (false, 1, s)
    else (false, 0, s)
  let p := if hex then isxdigit else isdigit
  let (n, s) := digits p s
  let count := count + n
  let (dot, s) := test2 s 46 46
  let (count, s) :=
    if dot then
      let (n, s) := digits p s
      (count + n, s)
    else (count, s)
  if count > 0 then
    let (e, s) := if hex then test2 s 112 80 else test2 s 101 69
    if e then (digits isdigit (test2 s 45 43).2).2 else s
  else s

/-- What `lua_stringtonumber` is given — liolib.c:466: nothing, if the first byte was set to zero. -/
def text (s : S) : List Nat := if s.bad then [] else s.buff

end Verif.IoNum
