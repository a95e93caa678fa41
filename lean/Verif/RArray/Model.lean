import Verif.Arith.Model
/-!
Model of Ravi's typed arrays (`integer[]`, `number[]`) and slices: `/repo/src/ltable.c` 253-275,
506-529, 538-548, 803-985, `/repo/src/ltable.h` 140-206, `/repo/src/lobject.h` 812-835,
`/repo/src/lapi.c` 695-700 / 760-780 / 887-921.

The element type `E` with its zero `z` stands for `lua_Integer` or `lua_Number`: the two halves of the
code are textually identical.  Memory is a set of blocks; a block has a size (in elements) and
contents, a `none` element is uninitialised.  Access outside a block, to a freed block, or reading an
uninitialised element is the outcome `ub`.

Simplifications: allocation succeeds; loops and `memset`s that fill a range are one range write;
conversion of the stored value to the element type is the business of the caller (see `Verif/Conv`).
-/
namespace Verif.RArray
open Verif.Arith (LInt)

/-- `struct RaviArray`, lobject.h 820-834.  `blk`/`off` are the pointer `data` (block and element offset). -/
structure Arr where
  fixed : Bool
  slice : Bool
  alloc : Bool
  len : Nat
  size : Nat
  blk : Nat
  off : Nat
  parent : Option Nat

structure Block (E : Type) where
  size : Nat
  data : Nat → Option E

/-- heap: blocks and array objects, with the next fresh name of each -/
structure Heap (E : Type) where
  blocks : Nat → Option (Block E)
  nblk : Nat
  objs : Nat → Option Arr
  nobj : Nat

def empty {E : Type} : Heap E := ⟨fun _ => none, 0, fun _ => none, 0⟩

variable {E : Type}

def upd {β : Type} (f : Nat → β) (i : Nat) (b : β) : Nat → β := fun j => if j = i then b else f j

/-- `data[i]` read -/
def load (h : Heap E) (b i : Nat) : Res E :=
  match h.blocks b with
  | none => .ub
  | some k => if i < k.size then match k.data i with
      | some e => .ok e
      | none => .ub
    else .ub

/-- writing `v` to `data[i] .. data[i+n-1]` -/
def fill (h : Heap E) (b i n : Nat) (v : E) : Res (Heap E) :=
  match h.blocks b with
  | none => .ub
  | some k => if i + n ≤ k.size then
      .ok { h with blocks := upd h.blocks b (some ⟨k.size, fun j => if i ≤ j ∧ j < i + n then some v else k.data j⟩) }
    else .ub

/-- `malloc` of `n` elements -/
def alloc (h : Heap E) (n : Nat) : Heap E × Nat :=
  ({ h with blocks := upd h.blocks h.nblk (some ⟨n, fun _ => none⟩), nblk := h.nblk + 1 }, h.nblk)

/-- copy of the first `n` elements of block `b` to block `b'` (`memcpy`, or the copying done by `realloc`) -/
def copy (h : Heap E) (b b' n : Nat) : Res (Heap E) :=
  match h.blocks b, h.blocks b' with
  | some k, some k' => if n ≤ k.size ∧ n ≤ k'.size then
      .ok { h with blocks := upd h.blocks b' (some ⟨k'.size, fun j => if j < n then k.data j else k'.data j⟩) }
    else .ub
  | _, _ => .ub

def freeBlk (h : Heap E) (b : Nat) : Res (Heap E) :=
  match h.blocks b with
  | none => .ub
  | some _ => .ok { h with blocks := upd h.blocks b none }

/-- updating the header of object `x` -/
def setObj (h : Heap E) (x : Nat) (a : Arr) : Heap E := { h with objs := upd h.objs x (some a) }

/-- the new capacity, ltable.c 811-827: `none` = cannot be resized -/
def newSize (a : Arr) (new_size : Nat) : Option Nat :=
  if a.fixed ∨ a.slice then none
  else
    let next_size := a.size + 10                       -- uint64_t
    let size := if new_size < next_size then
        let s := next_size % 2 ^ 32
        if s ≠ next_size then new_size else s
      else new_size
    if size ≤ a.size then none else some size

/-- `ravi_resize_array`, ltable.c 804-857; the result `none` is the return value 0. -/
def resizeArray (z : E) (h : Heap E) (x : Nat) (a : Arr) (new_size : Nat) (init : Bool) :
    Res (Option (Heap E × Arr)) :=
  match newSize a new_size with
  | none => .ok none
  | some size => do
    let (h, b) := alloc h size
    let h ← copy h a.blk b a.size                      -- realloc (old block is smaller) or memcpy from inline storage
    let h ← if a.alloc then freeBlk h a.blk else .ok h -- realloc releases the old block
    let h ← if init then fill h b a.len (size - a.size) z else .ok h
    let a := { a with size := size, alloc := true, blk := b }
    return some (setObj h x a, a)

/-- `raviH_new(L, tm, 0)`, ltable.c 506-529: inline storage of 3 elements, `data[0] = 0`, `len = 1`. -/
def new (z : E) (h : Heap E) : Res (Heap E × Nat × Arr) := do
  let (h, b) := alloc h 3
  let h ← fill h b 0 1 z
  let a : Arr := ⟨false, false, false, 1, 3, b, 0, none⟩
  return ({ h with objs := upd h.objs h.nobj (some a), nobj := h.nobj + 1 }, h.nobj, a)

/-- `raviH_new_integer_array` / `raviH_new_number_array`, ltable.c 905-943; `len` is an `unsigned int`. -/
def newFixed (z : E) (h : Heap E) (len : Nat) (v : E) : Res (Heap E × Nat) := do
  let (h, x, a) ← new z h
  let new_len := (len + 1) % 2 ^ 32
  if new_len < len then .err "array length out of range"
  else
    match ← resizeArray z h x a new_len false with
    | none => .err "array length out of range"
    | some (h, a) =>
      let h ← fill h a.blk a.off 1 z
      let h ← fill h a.blk (a.off + 1) (new_len - 1) v
      return (setObj h x { a with len := new_len, fixed := true }, x)

/-- `ravi_create_slice`, lapi.c 887-921, with `raviH_new_slice`, ltable.c 959-985.
`start` and `len` are `unsigned int`s. -/
def newSlice (h : Heap E) (p start len : Nat) : Res (Heap E × Nat) :=
  match h.objs p with
  | none => .ub
  | some orig =>
    let slice_len := (start + len) % 2 ^ 32
    if start < 1 ∨ slice_len ≤ start ∨ orig.len < slice_len then .err "cannot create a slice of given bounds"
    else if orig.fixed = false then .err "cannot create slice from dynamic integer[] or number[] array"
    else
      let n := (len + 1) % 2 ^ 32
      let a : Arr := ⟨true, true, false, n, n, orig.blk, orig.off + (start - 1), some p⟩
      .ok ({ h with objs := upd h.objs h.nobj (some a), nobj := h.nobj + 1 }, h.nobj)

/-- `(unsigned int)key` -/
def ukey (i : LInt) : Nat := i.toNat % 2 ^ 32

/-- `raviH_get_int_inline` / `raviH_get_float_inline`, ltable.h 165-184 -/
def get (h : Heap E) (a : Arr) (i : LInt) : Res E :=
  if ukey i < a.len then load h a.blk (a.off + ukey i) else .err "array out of bounds"

/-- `raviH_set_int` / `raviH_set_float`, ltable.c 859-903, behind the inline fast path ltable.h 187-206. -/
def set (z : E) (h : Heap E) (x : Nat) (a : Arr) (i : LInt) (v : E) : Res (Heap E) :=
  let u := ukey i
  if u < a.len then fill h a.blk (a.off + u) 1 v
  else if u = a.len then
    if u < a.size then do
      let a := { a with len := a.len + 1 }
      let h ← fill h a.blk (a.off + u) 1 v
      return setObj h x a
    else do
      match ← resizeArray z h x a 0 true with
      | some (h, a) =>
        let a := { a with len := a.len + 1 }
        let h ← fill h a.blk (a.off + u) 1 v
        return setObj h x a
      | none => .err "array cannot be resized"
  else .err "array out of bounds"

/-- `lua_geti` / `lua_rawgeti` / `lua_rawget` on arrays, lapi.c 695-706, 725-747, 766-779: the comparison
`n <= raviH_getn(h)` is on signed 64-bit integers; nil beyond the end. -/
def rawgeti (h : Heap E) (a : Arr) (i : LInt) : Res (Option E) :=
  if i.toInt ≤ ((a.len + (2 ^ 32 - 1)) % 2 ^ 32 : Nat) then do let e ← get h a i; return some e
  else return none

/-- `raviH_next`, ltable.c 249-275 (`none` key = nil): the new key and value, `none` at the end.
`i = i + 1` is signed addition. -/
def next (h : Heap E) (a : Arr) (k : Option LInt) : Res (Option (LInt × E)) := do
  let i ← match k with
    | none => .ok (1 : LInt)
    | some i => Arith.cAddS i 1
  if (a.len : Int) ≤ i.toInt then return none
  else do
    let e ← get h a i
    return some (i, e)

/-- `raviH_free`, ltable.c 538-548; the inline block is part of the object. -/
def free (h : Heap E) (x : Nat) (a : Arr) : Res (Heap E) := do
  let h ← if a.slice then .ok h else freeBlk h a.blk
  return { h with objs := upd h.objs x none }

/-! ### operations on a heap of arrays -/

inductive Op (E : Type) where
  | newDyn                              -- `integer[]`/`number[]` constructor `{}`
  | newFixed (n : Nat) (v : E)          -- `table.intarray(n, v)`
  | newSlice (p start len : Nat)        -- `table.slice(a, start, len)`
  | get (x : Nat) (i : LInt)
  | rawgeti (x : Nat) (i : LInt)
  | set (x : Nat) (i : LInt) (v : E)
  | len (x : Nat)
  | next (x : Nat) (k : Option LInt)
  | free (x : Nat)                      -- the collector frees an unreachable array

inductive Out (E : Type) where
  | unit
  | nil
  | val (e : E)
  | num (n : Nat)
  | obj (x : Nat)
  | kv (k : LInt) (e : E)
deriving DecidableEq

def withObj {β : Type} (h : Heap E) (x : Nat) (f : Arr → Res β) : Res β :=
  match h.objs x with
  | none => .ub                         -- use of a freed object
  | some a => f a

def step (z : E) (h : Heap E) : Op E → Res (Heap E × Out E)
  | .newDyn => do let (h, x, _) ← new z h; return (h, .obj x)
  | .newFixed n v => do let (h, x) ← newFixed z h n v; return (h, .obj x)
  | .newSlice p s l => do let (h, x) ← newSlice h p s l; return (h, .obj x)
  | .get x i => withObj h x fun a => do let e ← get h a i; return (h, .val e)
  | .rawgeti x i => withObj h x fun a => do
    match ← rawgeti h a i with
    | some e => return (h, .val e)
    | none => return (h, .nil)
  | .set x i v => withObj h x fun a => do let h ← set z h x a i v; return (h, .unit)
  | .len x => withObj h x fun a => .ok (h, .num ((a.len + (2 ^ 32 - 1)) % 2 ^ 32))   -- `raviH_getn`
  | .next x k => withObj h x fun a => do
    match ← next h a k with
    | some (k, e) => return (h, .kv k e)
    | none => return (h, .nil)
  | .free x => withObj h x fun a => do let h ← free h x a; return (h, .unit)

end Verif.RArray
