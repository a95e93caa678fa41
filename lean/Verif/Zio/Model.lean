import Verif.Base
import Verif.CInt

/-!
# Buffered input — src/lzio.c, src/lzio.h

The reader is the list of the pieces that it will return; a piece without bytes is a return of NULL
or of size 0, and so is every return after the last piece.
-/
namespace Verif.Zio

/-- `struct Zio` — lzio.h:55-61: `n` bytes are still unread; `cur` are the bytes of the piece from
`p` on. -/
structure Zio where
  n : Nat
  cur : List Nat
  pieces : List (List Nat)
deriving DecidableEq, Repr

/-- `luaZ_init` — lzio.c:38-44. -/
def init (pieces : List (List Nat)) : Zio := ⟨0, [], pieces⟩

/-- `luaZ_fill` — lzio.c:23-35; `none` is `EOZ`. -/
def fill (z : Zio) : Option Nat × Zio :=
  match z.pieces with
  | [] => (none, z)
  | [] :: ps => (none, { z with pieces := ps })
  | (c :: p) :: ps => (some c, ⟨(c :: p).length - 1, p, ps⟩)

/-- `zgetc` — lzio.h:20.  `n` is a `size_t`; it is decremented in either case.  A read past the end
of the piece is undefined. -/
def getc (z : Zio) : Res (Option Nat × Zio) :=
  let z' := { z with n := uw (z.n + (2 ^ 64 - 1)) }
  if z.n > 0 then
    match z.cur with
    | [] => .ub
    | c :: r => .ok (some c, { z' with cur := r })
  else .ok (fill z')

/-- `memcpy(b, p, m)` and the moves of `p` and `n` — lzio.c:60-62. -/
def copy (z : Zio) (m : Nat) : Res (List Nat × Zio) :=
  if m ≤ z.cur.length then .ok (z.cur.take m, { z with n := z.n - m, cur := z.cur.drop m }) else .ub

/-- The loop of `luaZ_read` — lzio.c:49-66; the result is what was stored at `b` and the number of
missing bytes.  Every round but the last copies at least a byte, so `k` rounds are enough for `k`
bytes; it is a proof obligation that the rounds do not run out (`ub`). -/
def readLoop : Nat → Nat → Zio → Res (List Nat × Nat × Zio)
  | _, 0, z => .ok ([], 0, z)
  | 0, _ + 1, _ => .ub
  | f + 1, k + 1, z =>
    let go (z : Zio) : Res (List Nat × Nat × Zio) := do
      let m := if k + 1 ≤ z.n then k + 1 else z.n
      let (s, z) ← copy z m
      let (s', j, z) ← readLoop f (k + 1 - m) z
      .ok (s ++ s', j, z)
    if z.n = 0 then
      match fill z with
      | (none, z) => .ok ([], k + 1, z)
      | (some c, z) => go { z with n := z.n + 1, cur := c :: z.cur }
    else go z

/-- `luaZ_read` — lzio.c:48-67. -/
def read (k : Nat) (z : Zio) : Res (List Nat × Nat × Zio) := readLoop k k z

/-- A use of the stream. -/
inductive Op where
  | getc
  | read (k : Nat)

/-- What a program that reads sees, up to and with the first end of the stream: the readers of the
language (`llex.c`, `lundump.c`) do not go on after it. -/
def run : List Op → Zio → Res (List (List Nat × Nat))
  | [], _ => .ok []
  | .getc :: os, z => do
    match ← getc z with
    | (none, _) => .ok [([], 1)]
    | (some c, z) => do
      let r ← run os z
      .ok (([c], 0) :: r)
  | .read k :: os, z => do
    let (s, j, z) ← read k z
    if j = 0 then do
      let r ← run os z
      .ok ((s, 0) :: r)
    else .ok [(s, j)]

end Verif.Zio
