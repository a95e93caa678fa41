import Verif.Base
import Verif.CInt

/-!
# The `bit32` library — lbitlib.c

`lua_Unsigned` values are naturals below 2^64; arguments are the 64-bit integers accepted by
`luaL_checkinteger` (its conversions are modelled in `Verif.Num`/`Verif.Float`).
-/
namespace Verif.Bit32

/-- `~x` on `lua_Unsigned`. -/
def unot (x : Nat) : Nat := 2 ^ 64 - (x + 1)

/-- `x << i` on `lua_Unsigned`; undefined for a count of 64 or more. -/
def shl (x i : Nat) : Res Nat := if i < 64 then .ok ((x <<< i) % 2 ^ 64) else .ub

/-- `x >> i` on `lua_Unsigned`; undefined for a count of 64 or more. -/
def shr (x i : Nat) : Res Nat := if i < 64 then .ok (x >>> i) else .ub

/-- `ALLONES` — lbitlib.c:37. -/
def ALLONES : Nat := unot ((((unot 0 <<< 31) % 2 ^ 64) <<< 1) % 2 ^ 64)

/-- `trim` — lbitlib.c:41. -/
def trim (x : Nat) : Nat := x &&& ALLONES

/-- `mask` — lbitlib.c:45. -/
def mask (n : Nat) : Res Nat := do
  let a ← shl ALLONES 1
  let b ← shl a (n - 1)
  pure (unot b)

/-- `andaux` — lbitlib.c:49-55. -/
def band (xs : List Int) : Nat := trim (xs.foldl (fun r x => r &&& toU x) (unot 0))

/-- `b_test` — lbitlib.c:65-69. -/
def btest (xs : List Int) : Bool := band xs != 0

/-- `b_or` — lbitlib.c:72-79. -/
def bor (xs : List Int) : Nat := trim (xs.foldl (fun r x => r ||| toU x) 0)

/-- `b_xor` — lbitlib.c:82-89. -/
def bxor (xs : List Int) : Nat := trim (xs.foldl (fun r x => r ^^^ toU x) 0)

/-- `b_not` — lbitlib.c:92-96. -/
def bnot (x : Int) : Nat := trim (unot (toU x))

/-- `b_shift` — lbitlib.c:99-113. -/
def shift (r : Nat) (i : Int) : Res Nat :=
  if i < 0 then do
    let i ← sres (-i)
    let r := trim r
    if i ≥ 32 then pure 0 else shr r i.toNat
  else if i ≥ 32 then pure (trim 0)
  else do
    let r ← shl r i.toNat
    pure (trim r)

/-- `b_lshift` — lbitlib.c:116-118. -/
def lshift (x i : Int) : Res Nat := shift (toU x) i

/-- `b_rshift` — lbitlib.c:121-123. -/
def rshift (x i : Int) : Res Nat := do
  let i ← sres (-i)
  shift (toU x) i

/-- `b_arshift` — lbitlib.c:126-138. -/
def arshift (x i : Int) : Res Nat :=
  let r := toU x
  if i < 0 ∨ r &&& (1 <<< 31) = 0 then do
    let i ← sres (-i)
    shift r i
  else if i ≥ 32 then pure ALLONES
  else do
    let a ← shr r i.toNat
    let b ← shr (trim (unot 0)) i.toNat
    pure (trim (a ||| unot b))

/-- `b_rot` — lbitlib.c:141-149.  `d & 31` on a two's complement integer is its remainder. -/
def rot (x d : Int) : Res Nat :=
  let i := (d % 32).toNat
  let r := trim (toU x)
  if i ≠ 0 then do
    let a ← shl r i
    let b ← shr r (32 - i)
    pure (trim (a ||| b))
  else pure (trim r)

/-- `b_lrot` — lbitlib.c:152-154. -/
def lrotate (x d : Int) : Res Nat := rot x d

/-- `b_rrot` — lbitlib.c:157-159. -/
def rrotate (x d : Int) : Res Nat := do
  let d ← sres (-d)
  rot x d

/-- `fieldargs` — lbitlib.c:168-177. -/
def fieldargs (f w : Int) : Res (Nat × Nat) :=
  if 0 ≤ f then
    if 0 < w then do
      let s ← sres (f + w)
      if s > 32 then .err "trying to access non-existent bits"
      else pure (f.toNat, w.toNat)
    else .err "width must be positive"
  else .err "field cannot be negative"

/-- `b_extract` — lbitlib.c:180-187. -/
def extract (x f w : Int) : Res Nat := do
  let r := trim (toU x)
  let (f, w) ← fieldargs f w
  let a ← shr r f
  let m ← mask w
  pure (a &&& m)

/-- `b_replace` — lbitlib.c:190-199. -/
def replace (x v f w : Int) : Res Nat := do
  let r := trim (toU x)
  let v := trim (toU v)
  let (f, w) ← fieldargs f w
  let m ← mask w
  let mf ← shl m f
  let vf ← shl (v &&& m) f
  pure ((r &&& unot mf) ||| vf)

end Verif.Bit32
