import Verif.Base

/-!
# Text buffers — ravicomp/src/membuf.c and src/ravi_membuf.c

A block of memory is a list of bytes; a byte that was never written is `none`.  Sizes are naturals:
a buffer of more than 2^62 bytes is not considered.  An allocation that fails ends the program, so
it is not modelled.  A C string is the list of its bytes, none of which is 0.
-/
namespace Verif.MemBuf

/-- `TextBuffer` and `membuff_t`: the capacity is the length of the block. -/
structure Buf where
  mem : List (Option Nat)
  pos : Nat
deriving DecidableEq, Repr

/-- `raviX_buffer_init` — membuf.c:45-53; `membuff_init` — ravi_membuf.c:22-34. -/
def init (n : Nat) : Buf := ⟨List.replicate n (some 0), 0⟩

/-- `raviX_buffer_resize` — membuf.c:54-65; `membuff_resize` — ravi_membuf.c:36-45.  What `realloc`
adds is not set. -/
def resize (b : Buf) (n : Nat) : Buf :=
  if n ≤ b.mem.length then b else { b with mem := b.mem ++ List.replicate (n - b.mem.length) none }

/-- A store of bytes; outside of the block it is undefined. -/
def store (m : List (Option Nat)) (i : Nat) (s : List Nat) : Res (List (Option Nat)) :=
  if i + s.length ≤ m.length then .ok (m.take i ++ s.map some ++ m.drop (i + s.length)) else .ub

/-- `raviX_string_copy` — membuf.c:37-43; `ravi_string_copy` — ravi_membuf.c:16-20: `strncpy` writes
`n` bytes, zeros after the end of the string. -/
def stringCopy (m : List (Option Nat)) (i : Nat) (s : List Nat) (n : Nat) :
    Res (List (Option Nat)) :=
  if n = 0 then .ok m
  else do
    let m ← store m i ((s ++ List.replicate n 0).take n)
    store m (i + (n - 1)) [0]

/-- `raviX_buffer_add_string` — membuf.c:75-87; `membuff_add_string` — ravi_membuf.c:47-54. -/
def addString (b : Buf) (s : List Nat) : Res Buf := do
  let b := resize b (b.pos + s.length + 1)
  if b.mem.length - b.pos > s.length then
    let m ← stringCopy b.mem b.pos s (b.mem.length - b.pos)
    .ok ⟨m, b.pos + s.length⟩
  else .err "assertion"

/-- `raviX_buffer_reserve` — membuf.c:66-73. -/
def reserve (b : Buf) (n : Nat) : Res Buf :=
  if b.mem.length < b.pos + n then
    let b := resize b (((b.pos + n) * 3 + 30) / 2 / 16 * 16)
    if b.mem.length > b.pos + n then .ok b else .err "assertion"
  else .ok b

/-- `vsnprintf(buf + pos, n, ...)` for `n > 0`: `s` is the whole of the text. -/
def vsnprintf (m : List (Option Nat)) (i n : Nat) (s : List Nat) : Res (List (Option Nat)) :=
  store m i (s.take (n - 1) ++ [0])

/-- The loop of `raviX_buffer_add_fstring` — membuf.c:94-109; `k` counts the rounds left, `est` is
`estimated_size`.  The text has at most 2^31 - 1 bytes, or else `vsnprintf` returns a negative
number (the assertion of line 103); `n + 1` is an `int`. -/
def fmtLoop : Nat → Nat → Buf → List Nat → Res Buf
  | 0, _, b, _ => .ok b
  | k + 1, est, b, s => do
    let b ← reserve b est
    let m ← vsnprintf b.mem b.pos est s
    if s.length > 2147483647 then .err "assertion"
    else if s.length ≥ est then
      if s.length = 2147483647 then .ub else fmtLoop k (s.length + 1) ⟨m, b.pos⟩ s
    else .ok ⟨m, b.pos + s.length⟩

/-- `raviX_buffer_add_fstring` — membuf.c:89-110; `s` is the text that the format makes. -/
def addFstring (b : Buf) (s : List Nat) : Res Buf := fmtLoop 2 128 b s

/-- `raviX_buffer_add_double` — membuf.c:136-142; `s` is what `d2s_buffered_n` writes. -/
def addDouble (b : Buf) (s : List Nat) : Res Buf := do
  let b ← reserve b 32
  let m ← store b.mem b.pos s
  let m ← store m (b.pos + s.length) [0]
  .ok ⟨m, b.pos + s.length⟩

/-- `membuff_add_fstring` and `membuff_add_vfstring` — ravi_membuf.c:55-70: the text goes through an
array of 1024 bytes. -/
def mbAddFstring (b : Buf) (s : List Nat) : Res Buf :=
  if s.length > 2147483647 then .err "abort" else addString b (s.take 1023)

/-- A call on a buffer of the compiler library; the others (`add_bool`, `add_int`, `add_longlong`,
`add_char`) call `add_string` — membuf.c:112-135. -/
inductive Op where
  | str (s : List Nat)
  | fmt (s : List Nat)
  | dbl (s : List Nat)

/-- The call. -/
def Op.run (b : Buf) : Op → Res Buf
  | .str s => addString b s
  | .fmt s => addFstring b s
  | .dbl s => addDouble b s

/-- The calls one after another. -/
def runAll (b : Buf) : List Op → Res Buf
  | [] => .ok b
  | o :: os => do runAll (← o.run b) os

/-- A call on a buffer of src/ravi_membuf.c. -/
def Op.mbRun (b : Buf) : Op → Res Buf
  | .str s => addString b s
  | .fmt s => mbAddFstring b s
  | .dbl _ => .ok b

/-- The calls one after another. -/
def mbRunAll (b : Buf) : List Op → Res Buf
  | [] => .ok b
  | o :: os => do mbRunAll (← o.mbRun b) os

end Verif.MemBuf
