import Verif.Base

/-!
# The `bit` library (Lua BitOp) — src/bit.c

Arguments are the integers that `luaL_checkinteger` accepts (its conversions are modelled in
`Verif.Num` and `Verif.Float`); a missing or bad argument is an error before anything else happens
and is not modelled.
-/
namespace Verif.BitOp

/-- `UBits`, `SBits` — bit.c:37-38. -/
abbrev UBits := BitVec 32

/-- `barg` — bit.c:41-44: the conversion of a `lua_Integer` to `uint32_t`. -/
def barg (x : Int) : UBits := BitVec.ofInt 32 x

/-- `BRET` — bit.c:47: the conversion to `int32_t`, and from there to `lua_Integer`. -/
def bret (b : UBits) : Int := b.toInt

/-- `bit_tobit` — bit.c:49. -/
def tobit (x : Int) : Int := bret (barg x)

/-- `bit_bnot` — bit.c:50. -/
def bnot (x : Int) : Int := bret (~~~ barg x)

/-- `BIT_OP` — bit.c:52-54: the first argument, then the others from the last to the second. -/
def bitOp (f : UBits → UBits → UBits) (x : Int) (xs : List Int) : Int :=
  bret (xs.reverse.foldl (fun b y => f b (barg y)) (barg x))

/-- bit.c:55-57. -/
def band : Int → List Int → Int := bitOp (· &&& ·)
def bor : Int → List Int → Int := bitOp (· ||| ·)
def bxor : Int → List Int → Int := bitOp (· ^^^ ·)

/-- `b << n` on `uint32_t`; undefined for a count of 32 or more (bit.c:59). -/
def bshl (b : UBits) (n : Nat) : Res UBits := if n < 32 then .ok (b <<< n) else .ub

/-- `b >> n` on `uint32_t`; undefined for a count of 32 or more (bit.c:60). -/
def bshr (b : UBits) (n : Nat) : Res UBits := if n < 32 then .ok (b >>> n) else .ub

/-- `(SBits)b >> n`: an arithmetic shift, as the self-test at bit.c:111-125 requires (bit.c:61). -/
def bsar (b : UBits) (n : Nat) : Res UBits := if n < 32 then .ok (b.sshiftRight n) else .ub

/-- bit.c:62. -/
def brol (b : UBits) (n : Nat) : Res UBits := do
  let l ← bshl b n
  let r ← bshr b (32 - n)
  .ok (l ||| r)

/-- bit.c:63. -/
def bror (b : UBits) (n : Nat) : Res UBits := do
  let l ← bshl b (32 - n)
  let r ← bshr b n
  .ok (l ||| r)

/-- `BIT_SH` — bit.c:64-66. -/
def bitSh (f : UBits → Nat → Res UBits) (x n : Int) : Res Int := do
  let b ← f (barg x) (barg n &&& 31).toNat
  .ok (bret b)

/-- bit.c:67-71. -/
def lshift : Int → Int → Res Int := bitSh bshl
def rshift : Int → Int → Res Int := bitSh bshr
def arshift : Int → Int → Res Int := bitSh bsar
def rol : Int → Int → Res Int := bitSh brol
def ror : Int → Int → Res Int := bitSh bror

/-- `bit_bswap` — bit.c:73-78. -/
def bswap (x : Int) : Int :=
  let b := barg x
  bret ((b >>> 24) ||| ((b >>> 8) &&& 0xff00#32) ||| ((b &&& 0xff00#32) <<< 8) ||| (b <<< 24))

/-- `"0123456789abcdef"` and `"0123456789ABCDEF"` — bit.c:84, 87. -/
def hexdigit (up : Bool) (d : Nat) : Char :=
  Char.ofNat (if d < 10 then 48 + d else if up then 55 + d else 87 + d)

/-- The loop of `bit_tohex` — bit.c:89: `i` places are still to be filled, from the right. -/
def fill (up : Bool) : Nat → UBits → List Char → List Char
  | 0, _, acc => acc
  | i + 1, b, acc => fill up i (b >>> 4) (hexdigit up (b &&& 15).toNat :: acc)

/-- `bit_tohex` — bit.c:80-92; `none`: there is no second argument. -/
def tohex (x : Int) (n : Option Int) : Res (List Char) := do
  let b := barg x
  let n : Int := match n with | none => 8 | some n => bret (barg n)
  let up := n < 0
  -- `-n` on `int32_t`
  let n ← if n < 0 then (if n = -2147483648 then Res.ub else .ok (-n)) else .ok n
  let n : Int := if n > 8 then 8 else n
  .ok (fill up n.toNat b [])

end Verif.BitOp
