import Verif.Base

/-!
# Arrays of the compiler library — ravicomp/src/allocate.c 58-94, allocate.h 72-94

The content of a block of memory is a list of places: `some x` after a write, `none` as the allocator
left it.  `zero` is the element whose bytes are all zero.  Simplified: sizes do not overflow and
`realloc` does not fail (the code aborts then).
-/
namespace Verif.CArray

/-- An array: `capacity`, `count`, `data` (empty for a null pointer) — allocate.h:72-77. -/
structure Arr (α : Type) where
  capacity : Nat
  count : Nat
  data : List (Option α)
deriving DecidableEq, Repr

/-- `realloc` of the C library: the places in front are kept, the others are as they come. -/
def crealloc {α : Type} (d : List (Option α)) (n : Nat) : List (Option α) :=
  d.take n ++ List.replicate (n - d.length) none

/-- `raviX_realloc_array` — allocate.c:58-75; `asserts` says whether `assert` is compiled in (without
`NDEBUG`).  With `old_n > new_n` and no assertions the length given to `memset` wraps: `ub`. -/
def reallocArray {α : Type} (asserts : Bool) (zero : α) (d : List (Option α)) (oldn newn : Nat) :
    Res (List (Option α)) :=
  if newn = 0 then .ok []
  else if asserts && decide (¬ newn > oldn) then .err "assertion"
  else if newn < oldn then .ub
  else .ok ((crealloc d newn).take oldn ++ List.replicate (newn - oldn) (some zero))

/-- `array_push` — allocate.h:78-87: the capacity is increased before the call, so the call is given
the new capacity as the old one.  A write outside the block is `ub`. -/
def push {α : Type} (asserts : Bool) (zero : α) (a : Arr α) (x : α) : Res (Arr α) := do
  let a ← if a.count = a.capacity then do
      let capacity := a.capacity + 10
      let d ← reallocArray asserts zero a.data capacity capacity
      .ok (⟨capacity, a.count, d⟩ : Arr α)
    else .ok a
  if a.count < a.data.length then .ok ⟨a.capacity, a.count + 1, a.data.set a.count (some x)⟩ else .ub

/-- `array_clearmem` — allocate.h:88-94. -/
def clear {α : Type} (asserts : Bool) (zero : α) (a : Arr α) : Res (Arr α) := do
  let _ ← reallocArray asserts zero a.data a.capacity 0
  .ok ⟨0, 0, []⟩

/-- A copy of `n` places from `src` to `dst` inside the list, as by `memmove`. -/
def memmove {α : Type} (d : List α) (dst src n : Nat) : List α :=
  d.take dst ++ (d.drop src).take n ++ d.drop (dst + n)

/-- `raviX_del_array_element` — allocate.c:81-94, on the `size` places in front: the elements from
`i + n` on are moved to `i`, the places at the end are zeroed; the new size is returned. -/
def delElems {α : Type} (zero : α) (d : List α) (size i n : Nat) : Res (List α × Nat) :=
  if ¬ i + n ≤ size then .err "assertion"
  else if d.length < size then .ub
  else
    let d := memmove d i (i + n) (size - n - i)
    let nsize := size - n
    .ok (d.take nsize ++ List.replicate (size - nsize) zero ++ d.drop size, nsize)

end Verif.CArray
