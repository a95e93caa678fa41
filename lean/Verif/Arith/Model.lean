import Verif.Base
/-!
Integer arithmetic of the VM: `/repo/src/lvm.c` lines 889-949, `/repo/src/lobject.c` lines 36-100.
`lua_Integer` is `BitVec 64` read in two's complement.
-/
namespace Verif.Arith

/-- `lua_Integer` (`include/luaconf.h`: `long long`), two's complement. -/
abbrev LInt := BitVec 64

/-- smallest integer -/
def minInt : LInt := BitVec.intMin 64

/-- C `m / n` on `lua_Integer`: truncating; undefined for `n = 0` and for `minint / -1` (C11 6.5.5). -/
def cDiv (m n : LInt) : Res LInt :=
  if n = 0 ∨ (m = minInt ∧ n = -1) then .ub else .ok (m.sdiv n)

/-- C `m % n` on `lua_Integer`: sign of the dividend; undefined in the same cases as `/`. -/
def cMod (m n : LInt) : Res LInt :=
  if n = 0 ∨ (m = minInt ∧ n = -1) then .ub else .ok (m.srem n)

/-- C unary minus on `lua_Integer`: overflow (minint) is undefined. -/
def cNeg (m : LInt) : Res LInt := if m = minInt then .ub else .ok (-m)

/-- C `a + b` on signed `lua_Integer`: overflow is undefined. -/
def cAddS (a b : LInt) : Res LInt :=
  if BitVec.saddOverflow a b then .ub else .ok (a + b)

/-- C `a - b` on signed `lua_Integer`: overflow is undefined. -/
def cSubS (a b : LInt) : Res LInt :=
  if BitVec.ssubOverflow a b then .ub else .ok (a - b)

/-- C `x << k` / `x >> k` on `lua_Unsigned` (64 bits): undefined when `k < 0` or `k >= 64`. -/
def cShlU (x : LInt) (k : LInt) : Res LInt :=
  if k.toInt < 0 ∨ 64 ≤ k.toInt then .ub else .ok (x <<< k.toNat)

def cShrU (x : LInt) (k : LInt) : Res LInt :=
  if k.toInt < 0 ∨ 64 ≤ k.toInt then .ub else .ok (x >>> k.toNat)

/-- `luaV_idiv`, lvm.c 889-901. -/
def idiv (m n : LInt) : Res LInt :=
  if n + 1 ≤ 1 then                        -- l_castS2U(n) + 1u <= 1u (unsigned)
    if n = 0 then .err "attempt to divide by zero"
    else .ok (0 - m)                       -- intop(-, 0, m)
  else do
    let q ← cDiv m n
    let r ← cMod m n
    if (m ^^^ n).toInt < 0 ∧ r ≠ 0 then    -- (m ^ n) < 0 && m % n != 0
      cSubS q 1                            -- q -= 1
    else return q

/-- `luaV_mod`, lvm.c 909-921. -/
def mod (m n : LInt) : Res LInt :=
  if n + 1 ≤ 1 then
    if n = 0 then .err "attempt to perform 'n%%0'"
    else .ok 0
  else do
    let r ← cMod m n
    if r ≠ 0 ∧ (r ^^^ n).toInt < 0 then
      cAddS r n                            -- r += n
    else return r

/-- `luaV_shiftl`, lvm.c 940-949 (`NBITS` = 64). -/
def shiftl (x y : LInt) : Res LInt :=
  if y.toInt < 0 then
    if y.toInt ≤ -64 then .ok 0
    else do
      let k ← cNeg y
      cShrU x k
  else
    if 64 ≤ y.toInt then .ok 0
    else cShlU x y

/-- Operators of `lua_arith` that act on integers (`include/lua.h` LUA_OP*). -/
inductive IntOp where
  | add | sub | mul | mod | idiv | band | bor | bxor | shl | shr | unm | bnot
deriving Repr, DecidableEq

/-- `intarith`, lobject.c 83-100.  Note `LUA_OPSHR` computes the signed `-v2` first. -/
def intarith (op : IntOp) (v1 v2 : LInt) : Res LInt :=
  match op with
  | .add => .ok (v1 + v2)
  | .sub => .ok (v1 - v2)
  | .mul => .ok (v1 * v2)
  | .mod => mod v1 v2
  | .idiv => idiv v1 v2
  | .band => .ok (v1 &&& v2)
  | .bor => .ok (v1 ||| v2)
  | .bxor => .ok (v1 ^^^ v2)
  | .shl => shiftl v1 v2
  | .shr => do let k ← cNeg v2; shiftl v1 k
  | .unm => .ok (0 - v1)
  | .bnot => .ok ((~~~ (0 : LInt)) ^^^ v1)

/-! ### floating bytes and logarithms (`lobject.c` 41-80) -/

/-- `while (x >= (8 << 4)) { x = (x + 0xf) >> 4; e += 4; }` (lobject.c 44-47), 32-bit `x`.
`x + 0xf` cannot wrap in the code's use; the model keeps the 32-bit wrap-around. -/
def fbCoarse (x : Nat) (e : Nat) : Nat × Nat :=
  if h : 128 ≤ x then
    fbCoarse (((x + 15) % 2 ^ 32) / 16) (e + 4)
  else (x, e)
termination_by x
decreasing_by
  have : (x + 15) % 2 ^ 32 ≤ x + 15 := Nat.mod_le _ _
  omega

/-- `while (x >= (8 << 1)) { x = (x + 1) >> 1; e++; }` (lobject.c 48-51). -/
def fbFine (x : Nat) (e : Nat) : Nat × Nat :=
  if h : 16 ≤ x then
    fbFine (((x + 1) % 2 ^ 32) / 2) (e + 1)
  else (x, e)
termination_by x
decreasing_by
  have : (x + 1) % 2 ^ 32 ≤ x + 1 := Nat.mod_le _ _
  omega

/-- `luaO_int2fb`, lobject.c 41-53; argument is an `unsigned int`. `|` is kept as bitwise or. -/
def int2fb (x : Nat) : Nat :=
  if x < 8 then x
  else
    let (x1, e1) := fbCoarse x 0
    let (x2, e2) := fbFine x1 e1
    ((e2 + 1) <<< 3) ||| (x2 - 8)

/-- `luaO_fb2int`, lobject.c 57-59.  `int` overflow of the final shift is not represented here
(values are unbounded); `fb2int_fits` states when the result fits an `int`. -/
def fb2int (x : Nat) : Nat :=
  if x < 8 then x else ((x &&& 7) + 8) <<< ((x >>> 3) - 1)

/-- The table `log_2` of `luaO_ceillog2`, lobject.c 66-75 (same literal values, row by row). -/
def log2Table : List Nat := [
    0,1,2,2,3,3,3,3,4,4,4,4,4,4,4,4,5,5,5,5,5,5,5,5,5,5,5,5,5,5,5,5,
    6,6,6,6,6,6,6,6,6,6,6,6,6,6,6,6,6,6,6,6,6,6,6,6,6,6,6,6,6,6,6,6,
    7,7,7,7,7,7,7,7,7,7,7,7,7,7,7,7,7,7,7,7,7,7,7,7,7,7,7,7,7,7,7,7,
    7,7,7,7,7,7,7,7,7,7,7,7,7,7,7,7,7,7,7,7,7,7,7,7,7,7,7,7,7,7,7,7,
    8,8,8,8,8,8,8,8,8,8,8,8,8,8,8,8,8,8,8,8,8,8,8,8,8,8,8,8,8,8,8,8,
    8,8,8,8,8,8,8,8,8,8,8,8,8,8,8,8,8,8,8,8,8,8,8,8,8,8,8,8,8,8,8,8,
    8,8,8,8,8,8,8,8,8,8,8,8,8,8,8,8,8,8,8,8,8,8,8,8,8,8,8,8,8,8,8,8,
    8,8,8,8,8,8,8,8,8,8,8,8,8,8,8,8,8,8,8,8,8,8,8,8,8,8,8,8,8,8,8,8 ]

/-- loop of `luaO_ceillog2`: `while (x >= 256) { l += 8; x >>= 8; } return l + log_2[x]`
(lobject.c 78-79).  `none` would be an out-of-bounds table access. -/
def ceillog2Loop (x l : Nat) : Option Nat :=
  if h : 256 ≤ x then ceillog2Loop (x / 256) (l + 8)
  else (log2Table[x]?).map (l + ·)
termination_by x
decreasing_by omega

/-- `luaO_ceillog2`, lobject.c 65-80: `x--` on `unsigned int` (32-bit wrap-around for x = 0). -/
def ceillog2 (x : Nat) : Option Nat := ceillog2Loop ((x + (2 ^ 32 - 1)) % 2 ^ 32) 0

end Verif.Arith
