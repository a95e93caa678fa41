import Verif.Float.Model
/-!
Constant folding in the two compilers: `constfolding` of the bytecode compiler (`src/lcode.c`
1257-1295, called at 1632 and 1749) with the arithmetic of `src/lobject.c` 83-152, and
`ravicomp/src/ast_simplify.c` 173-367 and 435-482; and the arithmetic instructions of the virtual
machine (`src/lvm.c` 1511-1678) they stand for.

Multiplication, division, `pow` and `fmod` on doubles are parameters (both compilers and the virtual
machine call the same C operators and library functions on them).
-/
namespace Verif.Fold
open Verif.Arith (LInt cAddS cSubS cNeg cDiv cMod idiv mod shiftl intarith IntOp)
open Verif.Float (Dbl Num toIntegerNS ofInt)

/-- double operations that are not computed in the model -/
structure FOps where
  mul : Dbl → Dbl → Dbl
  div : Dbl → Dbl → Dbl
  pow : Dbl → Dbl → Dbl
  fmod : Dbl → Dbl → Dbl

/-- binary operators, in the order of `BINOPR_ADD` .. `BINOPR_SHR` (ravi_compiler.h 272-283) and of
`OPR_ADD` .. `OPR_SHR` (lcode.h) -/
inductive BOp where
  | add | sub | mul | mod | pow | div | idiv | band | bor | bxor | shl | shr
deriving DecidableEq, Repr

/-- unary operators that are folded -/
inductive UOp where
  | unm | bnot
deriving DecidableEq, Repr

/-- the operator numbers of `luaO_arith` (`LUA_OPADD` ..) and of `luaO_rawarith` in ast_simplify.c -/
inductive Op where
  | b (o : BOp)
  | u (o : UOp)
deriving DecidableEq, Repr

/-- `luai_numidiv`, llimits.h 313-315; ast_simplify.c 72-74 -/
def numidiv (F : FOps) (a b : Dbl) : Dbl := Verif.Float.floor (F.div a b)

/-- `luai_nummod`, llimits.h 329-332; ast_simplify.c 88-95 -/
def nummod (F : FOps) (a b : Dbl) : Dbl :=
  let m := F.fmod a b
  if Verif.Float.lt (F.mul m b) (.fin false 0) then Verif.Float.add m b else m

/-- `tonumberns`, lvm.h 58-60; ast_simplify.c 153 -/
def toNum : Num → Dbl
  | .flt f => f
  | .int i => ofInt i.toInt

/-! ### the virtual machine -/

/-- `intop(op, ib, ic)` or the function called, for two integers (lvm.c 1511-1642) -/
def vmInt (o : BOp) (a b : LInt) : Res LInt :=
  match o with
  | .add => .ok (a + b)
  | .sub => .ok (a - b)
  | .mul => .ok (a * b)
  | .mod => mod a b
  | .idiv => idiv a b
  | .band => .ok (a &&& b)
  | .bor => .ok (a ||| b)
  | .bxor => .ok (a ^^^ b)
  | .shl => shiftl a b
  | .shr => do let k ← cNeg b; shiftl a k
  | .pow | .div => .ub

/-- `luai_num…` for two floats (lvm.c 1511-1652) -/
def vmFlt (F : FOps) (o : BOp) (a b : Dbl) : Dbl :=
  match o with
  | .add => Verif.Float.add a b
  | .sub => Verif.Float.sub a b
  | .mul => F.mul a b
  | .mod => nummod F a b
  | .pow => F.pow a b
  | .div => F.div a b
  | .idiv => numidiv F a b
  | _ => .nan

/-- the bitwise instructions -/
def BOp.bitwise : BOp → Bool
  | .band | .bor | .bxor | .shl | .shr => true
  | _ => false

/-- `OP_ADD` .. `OP_SHR` on two numbers, lvm.c 1511-1652; `none`: the instruction goes to
`luaT_trybinTM` -/
def vmBin (F : FOps) (o : BOp) (x y : Num) : Res (Option Num) :=
  match o with
  | .band | .bor | .bxor | .shl | .shr => do
    match ← toIntegerNS x .eq with
    | none => return none
    | some i =>
      match ← toIntegerNS y .eq with
      | none => return none
      | some j => do
        let r ← vmInt o i j
        return some (.int r)
  | .div | .pow => .ok (some (.flt (vmFlt F o (toNum x) (toNum y))))
  | .add | .sub | .mul | .mod | .idiv =>
    match x, y with
    | .int i, .int j => do
      let r ← vmInt o i j
      return some (.int r)
    | x, y => .ok (some (.flt (vmFlt F o (toNum x) (toNum y))))

/-- `OP_UNM`, `OP_BNOT` on a number, lvm.c 1653-1678 -/
def vmUn (o : UOp) (x : Num) : Res (Option Num) :=
  match o with
  | .unm => match x with
    | .int i => .ok (some (.int (0 - i)))
    | .flt f => .ok (some (.flt (Verif.Float.neg f)))
  | .bnot => do
    match ← toIntegerNS x .eq with
    | none => return none
    | some i => return some (.int ((~~~ (0 : LInt)) ^^^ i))

/-! ### the bytecode compiler -/

/-- the operator of `Arith.intarith` (the model of lobject.c 83-100) -/
def Op.int : Op → Option IntOp
  | .b .add => some .add
  | .b .sub => some .sub
  | .b .mul => some .mul
  | .b .mod => some .mod
  | .b .idiv => some .idiv
  | .b .band => some .band
  | .b .bor => some .bor
  | .b .bxor => some .bxor
  | .b .shl => some .shl
  | .b .shr => some .shr
  | .u .unm => some .unm
  | .u .bnot => some .bnot
  | .b .pow | .b .div => none

/-- `intarith`, lobject.c 83-100 -/
def oIntarith (o : Op) (a b : LInt) : Res LInt :=
  match o.int with
  | some i => intarith i a b
  | none => .ub

/-- `numarith`, lobject.c 103-116 -/
def oNumarith (F : FOps) (o : Op) (a b : Dbl) : Res Dbl :=
  match o with
  | .b .add => .ok (Verif.Float.add a b)
  | .b .sub => .ok (Verif.Float.sub a b)
  | .b .mul => .ok (F.mul a b)
  | .b .div => .ok (F.div a b)
  | .b .pow => .ok (F.pow a b)
  | .b .idiv => .ok (numidiv F a b)
  | .u .unm => .ok (Verif.Float.neg a)
  | .b .mod => .ok (nummod F a b)
  | _ => .ub

/-- `luaO_rawarith` on two numbers, lobject.c 119-152 (`ia`, `na` are `intarith` and `numarith`);
ast_simplify.c 327-366 is the same code -/
def rawarith (ia : Op → LInt → LInt → Res LInt) (na : Op → Dbl → Dbl → Res Dbl) (o : Op)
    (x y : Num) : Res (Option Num) :=
  match o with
  | .b .band | .b .bor | .b .bxor | .b .shl | .b .shr | .u .bnot => do
    match ← toIntegerNS x .eq with
    | none => return none
    | some i =>
      match ← toIntegerNS y .eq with
      | none => return none
      | some j => do
        let r ← ia o i j
        return some (.int r)
  | .b .div | .b .pow => do
    let r ← na o (toNum x) (toNum y)
    return some (.flt r)
  | _ =>
    match x, y with
    | .int i, .int j => do
      let r ← ia o i j
      return some (.int r)
    | x, y => do
      let r ← na o (toNum x) (toNum y)
      return some (.flt r)

/-- `validop`, lcode.c 1257-1268 -/
def validop (o : Op) (x y : Num) : Res Bool :=
  match o with
  | .b .band | .b .bor | .b .bxor | .b .shl | .b .shr | .u .bnot => do
    match ← toIntegerNS x .eq with
    | none => return false
    | some _ =>
      match ← toIntegerNS y .eq with
      | none => return false
      | some _ => return true
  | .b .div | .b .idiv | .b .mod => .ok (!Verif.Float.eq (toNum y) (.fin false 0))
  | _ => .ok true

/-- `constfolding` on two numerals, lcode.c 1275-1295; `none`: not folded.  (`luaO_arith` goes to the
metamethods when the raw operation is not possible; `validop` makes sure it is, and the model says
`ub`.) -/
def constfolding (F : FOps) (o : Op) (x y : Num) : Res (Option Num) := do
  if ← validop o x y then
    match ← rawarith oIntarith (oNumarith F) o x y with
    | some (.int i) => return some (.int i)
    | some (.flt n) =>
      if !Verif.Float.eq n n || Verif.Float.eq n (.fin false 0) then return none
      else return some (.flt n)
    | none => .ub
  else return none

/-! ### the compiler library -/

/-- C `a * b` on signed `lua_Integer`: overflow is undefined -/
def cMulS (a b : LInt) : Res LInt :=
  if BitVec.smulOverflow a b then .ub else .ok (a * b)

/-- C `x << k` on signed `lua_Integer`: undefined for `k` out of range, negative `x` and results that
do not fit (C11 6.5.7) -/
def cShlS (x k : LInt) : Res LInt :=
  if k.toInt < 0 ∨ 64 ≤ k.toInt ∨ x.toInt < 0 ∨ 2 ^ 63 ≤ x.toInt * 2 ^ k.toNat then .ub
  else .ok (x <<< k.toNat)

/-- C `x >> k` on signed `lua_Integer`; for negative `x` the result is implementation-defined, and
copies the sign bit on every compiler in use -/
def cShrS (x k : LInt) : Res LInt :=
  if k.toInt < 0 ∨ 64 ≤ k.toInt then .ub else .ok (x.sshiftRight k.toNat)

/-- `luaV_idiv`, ast_simplify.c 177-190 -/
def sIdiv (m n : LInt) : Res LInt :=
  if n + 1 ≤ 1 then
    if n = 0 then .err "attempt to divide by zero"
    else cSubS 0 m
  else do
    let q ← cDiv m n
    let r ← cMod m n
    if (m ^^^ n).toInt < 0 ∧ r ≠ 0 then cSubS q 1 else return q

/-- `luaV_mod`, ast_simplify.c 196-209 -/
def sMod (m n : LInt) : Res LInt :=
  if n + 1 ≤ 1 then
    if n = 0 then .err "attempt to perform 'n%%0'"
    else .ok 0
  else do
    let r ← cMod m n
    if r ≠ 0 ∧ (r ^^^ n).toInt < 0 then cAddS r n else return r

/-- `luaV_shiftl`, ast_simplify.c 223-236 -/
def sShiftl (x y : LInt) : Res LInt :=
  if y.toInt < 0 then
    if y.toInt ≤ -64 then .ok 0
    else do
      let k ← cNeg y
      cShrS x k
  else
    if 64 ≤ y.toInt then .ok 0
    else cShlS x y

/-- `intarith`, ast_simplify.c 238-269 -/
def sIntarith (o : Op) (a b : LInt) : Res LInt :=
  match o with
  | .b .add => cAddS a b
  | .b .sub => cSubS a b
  | .b .mul => cMulS a b
  | .b .mod => sMod a b
  | .b .idiv => sIdiv a b
  | .b .band => .ok (a &&& b)
  | .b .bor => .ok (a ||| b)
  | .b .bxor => .ok (a ^^^ b)
  | .b .shl => sShiftl a b
  | .b .shr => do let k ← cNeg b; sShiftl a k
  | .u .unm => cSubS 0 a
  | .u .bnot => .ok ((~~~ (0 : LInt)) ^^^ a)
  | .b .pow | .b .div => .ub

/-- `numarith`, ast_simplify.c 271-294 -/
def sNumarith (F : FOps) (o : Op) (a b : Dbl) : Res Dbl :=
  match o with
  | .b .add => .ok (Verif.Float.add a b)
  | .b .sub => .ok (Verif.Float.sub a b)
  | .b .mul => .ok (F.mul a b)
  | .b .div => .ok (F.div a b)
  | .b .pow => .ok (F.pow a b)
  | .b .idiv => .ok (numidiv F a b)
  | .u .unm => .ok (Verif.Float.neg a)
  | .b .mod => .ok (nummod F a b)
  | _ => .ub

/-- `luaO_rawarith`, ast_simplify.c 327-366 -/
def sRawarith (F : FOps) (o : Op) (x y : Num) : Res (Option Num) :=
  rawarith sIntarith (sNumarith F) o x y

/-! ### expressions -/

/-- Arithmetic expressions: numerals, operators, and anything else (`leaf i`). -/
inductive E where
  | num (n : Num)
  | leaf (i : Nat)
  | bin (o : BOp) (a b : E)
  | un (o : UOp) (a : E)
deriving DecidableEq

/-- folding at a node, over operands that are already folded: `luaK_posfix` / `luaK_prefix`
(lcode.c 1743-1752, 1630-1637), with `constfolding` as `f` -/
def foldBin (f : Op → Num → Num → Res (Option Num)) (o : BOp) (a b : E) : Res E :=
  match a, b with
  | .num x, .num y => do
    match ← f (.b o) x y with
    | some r => return .num r
    | none => return .bin o a b
  | a, b => .ok (.bin o a b)

/-- what the bytecode compiler makes of an expression; the fake second operand of a unary operator
is the integer 0 (lcode.c 1624-1629) -/
def fold (F : FOps) : E → Res E
  | .num n => .ok (.num n)
  | .leaf i => .ok (.leaf i)
  | .bin o a b => do
    let a ← fold F a
    let b ← fold F b
    foldBin (constfolding F) o a b
  | .un o a => do
    let a ← fold F a
    match a with
    | .num x => do
      match ← constfolding F (.u o) x (.int 0) with
      | some r => return .num r
      | none => return .un o a
    | a => return .un o a

/-- `process_expression` on arithmetic, ast_simplify.c 435-482; a unary operator gets its operand
twice -/
def simplify (F : FOps) : E → Res E
  | .num n => .ok (.num n)
  | .leaf i => .ok (.leaf i)
  | .bin o a b => do
    let a ← simplify F a
    let b ← simplify F b
    foldBin (sRawarith F) o a b
  | .un o a => do
    let a ← simplify F a
    match a with
    | .num x => do
      match ← sRawarith F (.u o) x x with
      | some r => return .num r
      | none => return .un o a
    | a => return .un o a

/-- A Lua value, as far as arithmetic is concerned: a number or something else. -/
inductive Val where
  | num (n : Num)
  | obj (o : Nat)
deriving DecidableEq

/-- What the program around the expression does: the value (or error) of each leaf, and
`luaT_trybinTM`. -/
structure Env where
  leaf : Nat → Res Val
  tm : Op → Val → Val → Res Val

/-- an arithmetic instruction on any values: numbers as above, everything else to `luaT_trybinTM`
(unary instructions pass their operand twice, lvm.c 1664, 1675) -/
def vmOp (F : FOps) (env : Env) (o : BOp) (x y : Val) : Res Val :=
  match x, y with
  | .num m, .num n => do
    match ← vmBin F o m n with
    | some r => return .num r
    | none => env.tm (.b o) x y
  | x, y => env.tm (.b o) x y

/-- unary instructions -/
def vmOp1 (env : Env) (o : UOp) (x : Val) : Res Val :=
  match x with
  | .num m => do
    match ← vmUn o m with
    | some r => return .num r
    | none => env.tm (.u o) x x
  | x => env.tm (.u o) x x

/-- what running an expression yields: operands from left to right, then the instruction -/
def eval (F : FOps) (env : Env) : E → Res Val
  | .num n => .ok (.num n)
  | .leaf i => env.leaf i
  | .bin o a b => do
    let x ← eval F env a
    let y ← eval F env b
    vmOp F env o x y
  | .un o a => do
    let x ← eval F env a
    vmOp1 env o x

end Verif.Fold
