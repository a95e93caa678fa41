import Verif.Base
import Verif.CInt

/-!
# The string buffers of the auxiliary library — lauxlib.c:447-582

Sizes are `size_t` (64 bits); subtraction wraps.
-/
namespace Verif.Buf

/-- Stack slots, as far as buffers look at them. -/
inductive Slot where
  /-- a string (or a number already converted by `lua_tolstring`) -/
  | str (s : List UInt8)
  /-- the userdata holding the heap block of the buffer -/
  | box
  | other (id : Nat)
  deriving DecidableEq, Repr

/-- `luaL_Buffer` — lauxlib.h:170-176, with the stack of its state (top first). `mem` is the
block `B->b` points to; `onstack` is `buffonstack(B)` (lauxlib.c:498). -/
structure Buf where
  stk : List Slot
  mem : List UInt8
  size : Nat
  n : Nat
  onstack : Bool
  deriving DecidableEq, Repr

/-- `a - b` in `size_t`. -/
def usub (a b : Nat) : Nat := uw (a + (2 ^ 64 - b % 2 ^ 64))

/-- `realloc`: contents up to the smaller size are kept; new bytes are unspecified (here 0). -/
def realloc (mem : List UInt8) (newsize : Nat) : List UInt8 :=
  mem.take newsize ++ List.replicate (newsize - mem.length) 0

/-- `luaL_buffinit` — lauxlib.c:570-575, with `LUAL_BUFFERSIZE = B0`. -/
def buffinit (B0 : Nat) (stk : List Slot) : Buf := ⟨stk, List.replicate B0 0, B0, 0, false⟩

/-- `resizebox(L, -1, newsize)` — lauxlib.c:461-473: the slot on top must be the box.
`alloc` says which sizes the allocator can provide. -/
def resizebox (alloc : Nat → Bool) (b : Buf) (newsize : Nat) : Res Buf :=
  match b.stk with
  | .box :: _ =>
    if alloc newsize then .ok { b with mem := realloc b.mem newsize, size := newsize }
    else .err "not enough memory for buffer allocation"
  | _ => .ub

/-- `newbox` — lauxlib.c:482-492 followed by the copy of the old content (line 520). -/
def newbox (alloc : Nat → Bool) (b : Buf) (newsize : Nat) : Res Buf :=
  if alloc newsize then
    if b.n ≤ newsize ∧ b.n ≤ b.mem.length then
      .ok { b with stk := .box :: b.stk, onstack := true, size := newsize,
                   mem := b.mem.take b.n ++ List.replicate (newsize - b.n) 0 }
    else .ub
  else .err "not enough memory for buffer allocation"

/-- `luaL_prepbuffsize` — lauxlib.c:504-526. -/
def prep (alloc : Nat → Bool) (b : Buf) (sz : Nat) : Res Buf :=
  if usub b.size b.n < sz then
    let newsize0 := uw (b.size * 2)
    let newsize := if usub newsize0 b.n < sz then uw (b.n + sz) else newsize0
    if newsize < b.n ∨ usub newsize b.n < sz then .err "buffer too large"
    else if b.onstack then resizebox alloc b newsize
    else newbox alloc b newsize
  else .ok b

/-- A write of `s` at `&B->b[B->n]`; outside the block it is undefined. -/
def write (b : Buf) (s : List UInt8) : Res Buf :=
  if b.n + s.length ≤ b.mem.length then
    .ok { b with mem := b.mem.take b.n ++ s ++ b.mem.drop (b.n + s.length) }
  else .ub

/-- `luaL_addsize` — lauxlib.h:183. -/
def addsize (b : Buf) (k : Nat) : Buf := { b with n := uw (b.n + k) }

/-- `luaL_addlstring` — lauxlib.c:529-535. -/
def addlstring (alloc : Nat → Bool) (b : Buf) (s : List UInt8) : Res Buf :=
  if s.length > 0 then do
    let b1 ← prep alloc b s.length
    let b2 ← write b1 s
    pure (addsize b2 s.length)
  else pure b

/-- The first half of `luaL_addchar` — lauxlib.h:180. -/
def room (alloc : Nat → Bool) (b : Buf) : Res Buf :=
  if b.n < b.size then pure b else prep alloc b 1

/-- `luaL_addchar` — lauxlib.h:179-181. -/
def addchar (alloc : Nat → Bool) (b : Buf) (c : UInt8) : Res Buf := do
  let b1 ← room alloc b
  let b2 ← write b1 [c]
  pure (addsize b2 1)

/-- `luaL_prepbuffsize(B, sz)`, `w` stored in the returned area, `luaL_addsize(B, |w|)`: the
documented direct use of a buffer. -/
def fill (alloc : Nat → Bool) (b : Buf) (sz : Nat) (w : List UInt8) : Res Buf := do
  let b1 ← prep alloc b sz
  let b2 ← write b1 w
  pure (addsize b2 w.length)

/-- `lua_insert(L, -2)`: exchange the two slots on top. -/
def insert2 : List Slot → Res (List Slot)
  | a :: b :: r => .ok (b :: a :: r)
  | _ => .ub

/-- `lua_remove(L, -2)` or `lua_remove(L, -1)`. -/
def removeAt (second : Bool) : List Slot → Res (List Slot)
  | a :: b :: r => if second then .ok (a :: r) else .ok (b :: r)
  | [_] => if second then .ub else .ok []
  | [] => .ub

/-- Put the value below the box, if there is one — lauxlib.c:563-564. -/
def below (b : Buf) : Res (List Slot) := if b.onstack then insert2 b.stk else pure b.stk

/-- `luaL_addvalue` — lauxlib.c:559-567. -/
def addvalue (alloc : Nat → Bool) (b : Buf) : Res Buf :=
  match b.stk with
  | .str s :: _ => do
    let stk ← below b
    let b1 ← addlstring alloc { b with stk := stk } s
    let stk1 ← removeAt b1.onstack b1.stk
    pure { b1 with stk := stk1 }
  | _ => .ub

/-- `luaL_pushresult` — lauxlib.c:543-550; the final stack. The size limit of strings is
not modelled. -/
def pushresult (b : Buf) : Res (List Slot) :=
  if b.n ≤ b.mem.length then
    let stk := .str (b.mem.take b.n) :: b.stk
    if b.onstack then
      match b.stk with
      | .box :: _ => removeAt true stk
      | _ => .ub
    else pure stk
  else .ub

/-- What a client does to a buffer. -/
inductive Op where
  | lstring (s : List UInt8)
  | char (c : UInt8)
  /-- a string is pushed on the stack and added -/
  | value (s : List UInt8)
  | fill (sz : Nat) (w : List UInt8)

/-- One operation. -/
def step (alloc : Nat → Bool) (b : Buf) : Op → Res Buf
  | .lstring s => addlstring alloc b s
  | .char c => addchar alloc b c
  | .value s => addvalue alloc { b with stk := .str s :: b.stk }
  | .fill sz w => Verif.Buf.fill alloc b sz w

/-- A sequence of operations. -/
def run (alloc : Nat → Bool) : Buf → List Op → Res Buf
  | b, [] => pure b
  | b, op :: ops => do
    let b1 ← step alloc b op
    run alloc b1 ops

/-- The bytes an operation adds. -/
def Op.bytes : Op → List UInt8
  | .lstring s => s
  | .char c => [c]
  | .value s => s
  | .fill _ w => w

/-- The space an operation asks for. -/
def Op.space : Op → Nat
  | .lstring s => s.length
  | .char _ => 1
  | .value s => s.length
  | .fill sz _ => sz

/-- A client may only fill what it asked for, and lengths are `size_t`. -/
def Op.Ok (op : Op) : Prop := op.bytes.length ≤ op.space ∧ op.space < 2 ^ 64

end Verif.Buf
