import Verif.Base
import Verif.CInt

/-!
# `math.random` — lmathlib.c:549-606

`lua_Unsigned` values are naturals below 2^64.  The generator (`nextrand`, xoshiro256**) is
abstracted to the list of values it yields: the model returns `none` when the list is used up
before a value is accepted.
-/
namespace Verif.Random

/-- The computation of `lim` — lmathlib.c:554-562 (64-bit integers, so the last step is there). -/
def limit (n : Nat) : Nat :=
  let lim := n
  let lim := lim ||| (lim >>> 1)
  let lim := lim ||| (lim >>> 2)
  let lim := lim ||| (lim >>> 4)
  let lim := lim ||| (lim >>> 8)
  let lim := lim ||| (lim >>> 16)
  lim ||| (lim >>> 32)

/-- The loop — lmathlib.c:566-567. -/
def reject (lim n ran : Nat) : List Nat → Option Nat
  | [] => if ran &&& lim > n then none else some (ran &&& lim)
  | r :: rs => if ran &&& lim > n then reject lim n r rs else some (ran &&& lim)

/-- `project` — lmathlib.c:549-570. -/
def project (ran n : Nat) (next : List Nat) : Option Nat :=
  if n &&& uw (n + 1) = 0 then some (ran &&& n)
  else reject (limit n) n ran next

/-- `math_random` with two arguments (with one, `low = 1`) — lmathlib.c:586-605. -/
def random (rv : Nat) (next : List Nat) (low up : Int) : Option (Res Int) :=
  if low ≤ up then
    match project rv (uw (toU up + (18446744073709551616 - toU low))) next with
    | none => none
    | some p => some (.ok (toS (uw (p + toU low))))
  else some (.err "interval is empty")

/-- `math_random` with one argument — lmathlib.c:581-590. -/
def random1 (rv : Nat) (next : List Nat) (up : Int) : Option (Res Int) :=
  if up = 0 then some (.ok (toS rv)) else random rv next 1 up

end Verif.Random
