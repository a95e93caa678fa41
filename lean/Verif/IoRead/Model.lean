import Verif.Base

/-!
# Reading from files — src/liolib.c 475-577

A file is the list of the bytes that are still to be read; there are no read errors.  `B` is
`LUAL_BUFFERSIZE`.  Not modelled: the format `n`, and counts that are negative.
-/
namespace Verif.IoRead

/-- The last result of `l_getc`: a byte or `EOF`. -/
inductive C
  | byte (b : Nat)
  | eof
deriving DecidableEq, Repr

/-- The inner loop of `read_line` — liolib.c:491-492, with `k` places left in the block: the bytes
stored, the last result of `l_getc`, the rest of the file. -/
def inner : Nat → List Nat → List Nat → C → List Nat × C × List Nat
  | 0, file, acc, c => (acc, c, file)
  | _ + 1, [], acc, _ => (acc, .eof, [])
  | k + 1, b :: file, acc, _ => if b = 10 then (acc, .byte b, file) else inner k file (acc ++ [b]) (.byte b)

/-- The outer loop — liolib.c:487-495; the first number bounds the rounds (`ub` if they run out). -/
def outer (B : Nat) : Nat → List Nat → List Nat → C → Res (List Nat × C × List Nat)
  | 0, _, _, _ => .ub
  | f + 1, file, acc, c =>
    if c ≠ .eof ∧ c ≠ .byte 10 then
      let (acc, c, file) := inner B file acc c
      outer B f file acc c
    else .ok (acc, c, file)

/-- `read_line` — liolib.c:483-501: success, the string, the rest of the file. -/
def readLine (B : Nat) (chop : Bool) (file : List Nat) : Res (Bool × List Nat × List Nat) := do
  let (acc, c, file) ← outer B (file.length + 2) file [] (.byte 0)
  let s := if !chop && decide (c = .byte 10) then acc ++ [10] else acc
  .ok (decide (c = .byte 10) || decide (s.length > 0), s, file)

/-- `read_all` — liolib.c:504-514: blocks are read until one is not full. -/
def readAll (B : Nat) : Nat → List Nat → List Nat → Res (List Nat × List Nat)
  | 0, _, _ => .ub
  | f + 1, file, acc =>
    let nr := min B file.length
    if nr = B then readAll B f (file.drop B) (acc ++ file.take B)
    else .ok (acc ++ file.take B, file.drop B)

/-- `read_chars` — liolib.c:517-527. -/
def readChars (n : Nat) (file : List Nat) : Bool × List Nat × List Nat :=
  let nr := min n file.length
  (decide (nr > 0), file.take n, file.drop n)

/-- `test_eof` — liolib.c:475-480. -/
def testEof (file : List Nat) : Bool × List Nat × List Nat := (decide (file ≠ []), [], file)

/-- The formats: a number, `l`, `L`, `a`. -/
inductive Fmt
  | count (n : Nat)
  | line
  | lineNL
  | all
deriving DecidableEq, Repr

/-- One format — liolib.c:543-566. -/
def readOne (B : Nat) (fmt : Fmt) (file : List Nat) : Res (Bool × List Nat × List Nat) :=
  match fmt with
  | .count n => .ok (if n = 0 then testEof file else readChars n file)
  | .line => readLine B true file
  | .lineNL => readLine B false file
  | .all => do
    let (s, file) ← readAll B (file.length + 1) file []
    .ok (true, s, file)

/-- `g_read` with formats — liolib.c:530-577: the results, `none` for nil, and the rest of the file;
formats after one that failed are not tried. -/
def gread (B : Nat) : List Fmt → List Nat → Res (List (Option (List Nat)) × List Nat)
  | [], file => .ok ([], file)
  | fmt :: fmts, file => do
    let (ok, s, file) ← readOne B fmt file
    if ok then do
      let (rs, file) ← gread B fmts file
      .ok (some s :: rs, file)
    else .ok ([none], file)

end Verif.IoRead
