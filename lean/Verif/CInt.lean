import Verif.Base
/-!
Integers of the C code: `lua_Integer` (64-bit two's complement) as `Int` in a range, `size_t`/`lua_Unsigned` as `Nat` below `2^64`.
Signed arithmetic whose result is out of range is undefined behaviour; unsigned arithmetic wraps.
-/
namespace Verif

/-- `LUA_MININTEGER`, /repo/include/luaconf.h -/
def minI : Int := -9223372036854775808
/-- `LUA_MAXINTEGER`, /repo/include/luaconf.h -/
def maxI : Int := 9223372036854775807

/-- representable as `lua_Integer` -/
def InI (x : Int) : Prop := -9223372036854775808 ≤ x ∧ x ≤ 9223372036854775807

instance (x : Int) : Decidable (InI x) := by unfold InI; infer_instance

/-- result of a signed 64-bit operation -/
def sres (x : Int) : Res Int := if InI x then .ok x else .ub

theorem sres_ok {x : Int} (h : InI x) : sres x = .ok x := if_pos h

/-- conversion to a 64-bit unsigned type -/
def toU (x : Int) : Nat := (x % 18446744073709551616).toNat

/-- unsigned 64-bit result -/
def uw (n : Nat) : Nat := n % 18446744073709551616

/-- conversion of an unsigned 64-bit value to a signed type (two's complement) -/
def toS (n : Nat) : Int := if n % 18446744073709551616 < 9223372036854775808 then (n % 18446744073709551616 : Nat) else (n % 18446744073709551616 : Nat) - 18446744073709551616

end Verif
