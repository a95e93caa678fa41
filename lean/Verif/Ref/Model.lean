import Verif.Base

/-!
# The reference system of the auxiliary library — lauxlib.c:585-626

The table is a function from integer keys to values (its other keys are never touched).
Raw access is taken as a map; `lua_rawlen` is any border of it, which is what C06 proves of
the real table implementation.
-/
namespace Verif.Ref

/-- Lua values, as far as `luaL_ref` looks at them. -/
inductive Val where
  | nil
  | int (i : Int)
  | other (id : Nat)
  deriving DecidableEq, Repr

/-- The integer-keyed part of a table. -/
abbrev Tab := Int → Val

/-- `lua_rawseti`. -/
def set (t : Tab) (k : Int) (v : Val) : Tab := fun j => if j = k then v else t j

/-- `lua_tointeger` — 0 for a value that is not an integer. Simplified: floats and numeric
strings are not convertible; `luaL_ref` never stores them at its free-list index. -/
def toInt : Val → Int
  | .int i => i
  | _ => 0

/-- Conversion to C `int` (32-bit two's complement). -/
def cast32 (x : Int) : Int := (x + 2147483648) % 4294967296 - 2147483648

/-- `b` is a border: a possible result of `lua_rawlen`. -/
def Border (t : Tab) (b : Int) : Prop :=
  0 ≤ b ∧ (b = 0 ∨ t b ≠ .nil) ∧ t (b + 1) = .nil

/-- `LUA_REFNIL` — lauxlib.h:90. -/
def REFNIL : Int := -1
/-- `freelist` — lauxlib.c:592. -/
def freelist : Int := 0

/-- `luaL_ref` — lauxlib.c:595-613. `b` is what `lua_rawlen` returns, if called. -/
def ref (t : Tab) (v : Val) (b : Int) : Tab × Int :=
  if v = .nil then (t, REFNIL)
  else
    let r := cast32 (toInt (t freelist))
    if r ≠ 0 then
      let t1 := set t freelist (t r)
      (set t1 r v, r)
    else
      let r := cast32 (cast32 b + 1)
      (set t r v, r)

/-- `luaL_unref` — lauxlib.c:616-624. -/
def unref (t : Tab) (r : Int) : Tab :=
  if r ≥ 0 then
    let t1 := set t r (t freelist)
    set t1 freelist (.int r)
  else t

/-- A table as it is before its first use: entries 1..k are in use by others, nothing above,
nothing at the free-list index. -/
def Fresh (t : Tab) (k : Nat) : Prop :=
  t 0 = .nil ∧ (∀ i : Int, 1 ≤ i → i ≤ k → t i ≠ .nil) ∧ (∀ i : Int, (k : Int) < i → t i = .nil)

/-- Histories: `Hist k t0 n t live` says that from the fresh table `t0`, a history with `n` calls
of `luaL_ref` leads to table `t` where `live` lists the references not yet released, with
the objects they were created for. Each live reference is released at most once;
negative references may be released at will. -/
inductive Hist (t0 : Tab) : Nat → Tab → List (Int × Val) → Prop where
  | start : Hist t0 0 t0 []
  | ref {n t live} (v : Val) (b : Int) : Hist t0 n t live → Border t b → v ≠ .nil →
      Hist t0 (n + 1) (ref t v b).1 (((ref t v b).2, v) :: live)
  | refnil {n t live} (b : Int) : Hist t0 n t live → Hist t0 n (Ref.ref t .nil b).1 live
  | unref {n t live} (p : Int × Val) : Hist t0 n t live → p ∈ live →
      Hist t0 n (unref t p.1) (live.erase p)
  | unrefneg {n t live} (r : Int) : Hist t0 n t live → r < 0 → Hist t0 n (Ref.unref t r) live

end Verif.Ref
