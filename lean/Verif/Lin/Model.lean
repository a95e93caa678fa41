import Verif.Base

/-!
# The linearizer of the compiler library: expressions and assignments

`ravicomp/src/linearizer.c` turns the checked syntax tree of a function into basic blocks of
three-address instructions over *pseudos* (places where a value is), and `ravicomp/src/codegen.c`
turns every instruction into C.  Modelled: literals, local variables (in a Lua register, or - if
declared `integer` or `number` and not captured - in a C variable), indexing, the arithmetic,
bitwise and relational operators, `and`, `or`, `not`, unary minus, and assignments
`v1, …, vn = e1, …, em` to local variables and indexed places.

Not modelled: calls (and so pseudos of type RANGE), upvalues, globals, concatenation, `#`, `~`,
casts, table constructors and typed arrays; `load` stands for all of the `op_get` family.
Handlers of metamethods change the world `S`, but not the local variables of the function.
-/
namespace Verif.Lin

abbrev I64 := BitVec 64

/-- The type codes of `ravicomp` that the modelled functions distinguish: RAVI_TANY,
RAVI_TNUMINT, RAVI_TNUMFLT, RAVI_TBOOLEAN, and all others (`ravicomp/include/ravi_compiler.h`;
`parser.h`, `ravitype_t`). -/
inductive Ty | any | int | flt | bool | other
deriving DecidableEq, Repr

/-- A Lua value; `obj` stands for strings, tables, functions and so on (`src/lobject.h` 117-140). -/
inductive Val (F O : Type) where
  | nil
  | bool (b : Bool)
  | int (i : I64)
  | flt (f : F)
  | obj (o : O)
deriving DecidableEq, Repr

/-- Arithmetic and bitwise operators (`BINOPR_ADD` … `BINOPR_SHR`, `ravicomp/src/parser.h`). -/
inductive Op | add | sub | mul | div | idiv | mod | pow | band | bor | bxor | shl | shr
deriving DecidableEq, Repr

/-- Relational operators. -/
inductive Cmp | eq | ne | lt | le | gt | ge
deriving DecidableEq, Repr

/-- The three relations that instructions exist for (`op_eq`, `op_lt`, `op_le`). -/
inductive Cb | eq | lt | le
deriving DecidableEq, Repr

/-- Is the operator bitwise? -/
def Op.bit : Op → Bool
  | .band | .bor | .bxor | .shl | .shr => true
  | _ => false

/-- Is the value a number? -/
def Val.isNum {F O : Type} : Val F O → Bool
  | .int _ | .flt _ => true
  | _ => false

/-- What the generated code relies on: floating point, objects, the rest of the world, and the
functions of the virtual machine that it calls.  `none` is a Lua error.  The last four fields are
facts about these functions. -/
structure Par where
  F : Type
  O : Type
  /-- the heap, the globals, … -/
  S : Type
  fadd : F → F → F
  fsub : F → F → F
  fmul : F → F → F
  fdiv : F → F → F
  fneg : F → F
  feq : F → F → Bool
  flt : F → F → Bool
  fle : F → F → Bool
  /-- `(lua_Number) i` -/
  ofInt : I64 → F
  /-- `luaV_flttointeger` with `F2Ieq`: the integer equal to the float, if there is one -/
  toInt : F → Option I64
  /-- the bytes of a float, read as an integer through the union `Value` -/
  bits : F → I64
  /-- the bytes of an integer, read as a float through the union `Value` -/
  unbits : I64 → F
  /-- `luaV_shiftl` -/
  shiftl : I64 → I64 → I64
  /-- `luaO_arith` where this file does not define the result, including metamethods -/
  arith : Op → Val F O → Val F O → S → Option (Val F O × S)
  /-- unary minus on what is not a number: the metamethod -/
  unm : Val F O → S → Option (Val F O × S)
  /-- `luaV_equalobj`, `luaV_lessthan`, `luaV_lessequal` where this file does not define the result -/
  cmp : Cb → Val F O → Val F O → S → Option (Bool × S)
  /-- `luaV_gettable` -/
  get : Val F O → Val F O → S → Option (Val F O × S)
  /-- `luaV_settable` -/
  put : Val F O → Val F O → Val F O → S → Option S
  fadd_comm : ∀ x y, fadd x y = fadd y x
  fmul_comm : ∀ x y, fmul x y = fmul y x
  /-- bitwise operations of numbers give integers, as do `//` and `%` of integers -/
  arith_int : ∀ o a b s v s', arith o a b s = some (v, s') → a.isNum = true → b.isNum = true →
    (o.bit = true ∨ ((o = .idiv ∨ o = .mod) ∧ (∃ x, a = .int x) ∧ ∃ y, b = .int y)) →
    ∃ i, v = .int i
  /-- `^` of numbers gives floats, as does `%` of an integer and a float -/
  arith_flt : ∀ o a b s v s', arith o a b s = some (v, s') → a.isNum = true → b.isNum = true →
    (o = .pow ∨ (o = .mod ∧ (((∃ x, a = .int x) ∧ ∃ y, b = .flt y) ∨
      ((∃ x, a = .flt x) ∧ ∃ y, b = .int y)))) → ∃ f, v = .flt f

abbrev Par.V (P : Par) : Type := Val P.F P.O

/-- A Lua error at run time. -/
def raise {α : Type} : Res α := .err "error"

/-- The code generator gives up: `handle_error_bad_pseudo` (`codegen.c` 870-886). -/
def reject {α : Type} : Res α := .err "unexpected pseudo"

/-- An assertion of the linearizer fails. -/
def assertion {α : Type} : Res α := .err "assert"

def ofOpt {α : Type} : Option α → Res α
  | some a => .ok a
  | none => raise

/-! ## The language -/

variable (P : Par)

/-- The float that a number stands for (`tonumberns`, `src/lvm.h`). -/
def tonum : P.V → Option P.F
  | .int i => some (P.ofInt i)
  | .flt f => some f
  | _ => none

/-- Conversion to an integer without strings (`tointegerns`, `src/lvm.h`). -/
def tointns : P.V → Option I64
  | .int i => some i
  | .flt f => P.toInt f
  | _ => none

/-- The arithmetic operators of the language (manual 3.4.1, 3.4.2; `src/lobject.c` 66-147):
integers wrap around, `/` is always a float division. -/
def arSem (o : Op) (a b : P.V) (s : P.S) : Res (P.V × P.S) :=
  let fl (g : P.F → P.F → P.F) : Res (P.V × P.S) :=
    match tonum P a, tonum P b with
    | some x, some y => .ok (.flt (g x y), s)
    | _, _ => ofOpt (P.arith o a b s)
  match o, a, b with
  | .add, .int x, .int y => .ok (.int (x + y), s)
  | .sub, .int x, .int y => .ok (.int (x - y), s)
  | .mul, .int x, .int y => .ok (.int (x * y), s)
  | .band, .int x, .int y => .ok (.int (x &&& y), s)
  | .bor, .int x, .int y => .ok (.int (x ||| y), s)
  | .bxor, .int x, .int y => .ok (.int (x ^^^ y), s)
  | .shl, .int x, .int y => .ok (.int (P.shiftl x y), s)
  | .shr, .int x, .int y => .ok (.int (P.shiftl x (0 - y)), s)
  | .add, _, _ => fl P.fadd
  | .sub, _, _ => fl P.fsub
  | .mul, _, _ => fl P.fmul
  | .div, _, _ => fl P.fdiv
  | o, _, _ => ofOpt (P.arith o a b s)

/-- The basic relations (manual 3.4.4; `src/lvm.c`, `luaV_equalobj`, `luaV_lessthan`,
`luaV_lessequal`). -/
def cbSem (c : Cb) (a b : P.V) (s : P.S) : Res (Bool × P.S) :=
  match c, a, b with
  | .eq, .int x, .int y => .ok (decide (x = y), s)
  | .lt, .int x, .int y => .ok (x.slt y, s)
  | .le, .int x, .int y => .ok (x.sle y, s)
  | .eq, .flt x, .flt y => .ok (P.feq x y, s)
  | .lt, .flt x, .flt y => .ok (P.flt x y, s)
  | .le, .flt x, .flt y => .ok (P.fle x y, s)
  | c, a, b => ofOpt (P.cmp c a b s)

/-- All relations: `a > b` is `b < a`, `a ~= b` is `not (a == b)`. -/
def cmSem (c : Cmp) (a b : P.V) (s : P.S) : Res (P.V × P.S) :=
  match c with
  | .eq => do let (r, s) ← cbSem P .eq a b s; .ok (.bool r, s)
  | .ne => do let (r, s) ← cbSem P .eq a b s; .ok (.bool !r, s)
  | .lt => do let (r, s) ← cbSem P .lt a b s; .ok (.bool r, s)
  | .le => do let (r, s) ← cbSem P .le a b s; .ok (.bool r, s)
  | .gt => do let (r, s) ← cbSem P .lt b a s; .ok (.bool r, s)
  | .ge => do let (r, s) ← cbSem P .le b a s; .ok (.bool r, s)

/-- Binary operators other than `and`, `or`, `..`. -/
inductive Bin | ar (o : Op) | cm (c : Cmp)
deriving DecidableEq, Repr

def binSem : Bin → P.V → P.V → P.S → Res (P.V × P.S)
  | .ar o => arSem P o
  | .cm c => cmSem P c

def negSem (a : P.V) (s : P.S) : Res (P.V × P.S) :=
  match a with
  | .int x => .ok (.int (0 - x), s)
  | .flt x => .ok (.flt (P.fneg x), s)
  | a => ofOpt (P.unm a s)

/-- `l_isfalse` (`src/lobject.h`) -/
def isFalse {F O : Type} : Val F O → Bool
  | .nil | .bool false => true
  | _ => false

/-- Expressions. -/
inductive Exp (F O : Type) where
  | lit (v : Val F O)
  | loc (x : Nat)
  | idx (e k : Exp F O)
  | bin (o : Bin) (a b : Exp F O)
  | and (a b : Exp F O)
  | or (a b : Exp F O)
  | not (a : Exp F O)
  | neg (a : Exp F O)
deriving DecidableEq, Repr

/-- What an expression means: operands are evaluated from left to right, as the virtual machine
does. -/
def eval (ρ : Nat → P.V) : Exp P.F P.O → P.S → Res (P.V × P.S)
  | .lit v, s => .ok (v, s)
  | .loc x, s => .ok (ρ x, s)
  | .idx e k, s => do
    let (c, s) ← eval ρ e s
    let (k, s) ← eval ρ k s
    ofOpt (P.get c k s)
  | .bin o a b, s => do
    let (x, s) ← eval ρ a s
    let (y, s) ← eval ρ b s
    binSem P o x y s
  | .and a b, s => do
    let (x, s) ← eval ρ a s
    if isFalse x then .ok (x, s) else eval ρ b s
  | .or a b, s => do
    let (x, s) ← eval ρ a s
    if isFalse x then eval ρ b s else .ok (x, s)
  | .not a, s => do
    let (x, s) ← eval ρ a s
    .ok (.bool (isFalse x), s)
  | .neg a, s => do
    let (x, s) ← eval ρ a s
    negSem P x s

/-! ## Pseudos, instructions and what the generated C does -/

/-- Places of values (`linearizer.h`, `enum PseudoType`).  `sym`: a Lua register of a local
variable, with the declared type.  `ti`, `tf`: C variables; the flag is `temp_for_local`.
`tb`: a C integer variable used as a boolean, taken from the same pool as `ti`.  `ta`: a Lua
register above those of the variables.  `kc`: a constant, `nil`, `true` or `false`. -/
inductive Ps (F O : Type) where
  | sym (r : Nat) (t : Ty)
  | ti (r : Nat) (l : Bool)
  | tf (r : Nat) (l : Bool)
  | tb (r : Nat)
  | ta (r : Nat)
  | kc (v : Val F O)
deriving DecidableEq, Repr

/-- A pseudo, or a pending indexed access (PSEUDO_INDEXED), which becomes a load or a store only
when it is used. -/
inductive Pn (F O : Type) where
  | p (q : Ps F O)
  | idx (c k : Ps F O)
deriving DecidableEq, Repr

/-- Variants of an operation: generic, or specialised by the static types of the operands
(`linearizer.h` 53-96). -/
inductive Sp | gen | ff | fi | if' | ii
deriving DecidableEq, Repr

inductive TOp | ar (o : Op) (sp : Sp) | cm (c : Cb) (sp : Sp)
deriving DecidableEq, Repr

/-- Instructions.  `mov` stands for `op_mov`, `op_movi`, `op_movf`, which the code generator
treats alike (`codegen.c` 3119-3123); `unm` for `op_unm`, `op_unmi`, `op_unmf`; `get` and `put`
for the load and store instructions on tables; the targets of jumps are blocks. -/
inductive Ins (F O : Type) where
  | bin (o : TOp) (a b d : Ps F O)
  | mov (a d : Ps F O)
  | movfi (a d : Ps F O)
  | movif (a d : Ps F O)
  | toint (p : Ps F O)
  | toflt (p : Ps F O)
  | not (a d : Ps F O)
  | unm (t : Ty) (a d : Ps F O)
  | get (c k d : Ps F O)
  | put (c k v : Ps F O)
  | init (d : Ps F O)
  | br (b : Nat)
  | cbr (c : Ps F O) (t f : Nat)
deriving DecidableEq, Repr

/-- The state of a running function: registers of variables, temporary registers, integer and
float C variables, and the world. -/
structure Mach where
  L : Nat → P.V
  T : Nat → P.V
  I : Nat → I64
  F : Nat → P.F
  s : P.S

def set {α : Type} (f : Nat → α) (r : Nat) (v : α) : Nat → α := fun x => if x = r then v else f x

/-- `emit_reg_accessor` (`codegen.c` 1004-1064): the operand as a `TValue`. -/
def rd (M : Mach P) : Ps P.F P.O → P.V
  | .sym r _ => M.L r
  | .ti r _ => .int (M.I r)
  | .tf r _ => .flt (M.F r)
  | .tb r => .bool (M.I r != 0)
  | .ta r => M.T r
  | .kc v => v

/-- `ivalue` without a check of the tag: whatever bytes the union holds.  Reading the bytes of
anything but a number is left undefined. -/
def rawI : P.V → Res I64
  | .int i => .ok i
  | .flt f => .ok (P.bits f)
  | _ => .ub

/-- `fltvalue` without a check of the tag. -/
def rawF : P.V → Res P.F
  | .flt f => .ok f
  | .int i => .ok (P.unbits i)
  | _ => .ub

/-- `emit_varname_or_constant` (`codegen.c` 1070-1106) where an integer is expected.  (A float
variable or constant there would be converted by C; the linearizer never asks for that, and the
model rejects it.) -/
def rdI (M : Mach P) : Ps P.F P.O → Res I64
  | .ti r _ => .ok (M.I r)
  | .tb r => .ok (M.I r)
  | .kc (.int i) => .ok i
  | .sym r .int => rawI P (M.L r)
  | _ => reject

/-- The same where a float is expected. -/
def rdF (M : Mach P) : Ps P.F P.O → Res P.F
  | .tf r _ => .ok (M.F r)
  | .kc (.flt f) => .ok f
  | .sym r .flt => rawF P (M.L r)
  | _ => reject

/-- Store a tagged value into a register on the Lua stack. -/
def wrT (M : Mach P) (d : Ps P.F P.O) (v : P.V) : Res (Mach P) :=
  match d with
  | .ta r => .ok { M with T := set M.T r v }
  | .sym r _ => .ok { M with L := set M.L r v }
  | _ => reject

/-- The result of `luaO_arith` goes to a register, or - tag ignored - to a C variable
(`emit_op_binary`, `codegen.c` 2342-2367). -/
def wrA (M : Mach P) (d : Ps P.F P.O) (v : P.V) : Res (Mach P) :=
  match d with
  | .ti r _ => do let i ← rawI P v; .ok { M with I := set M.I r i }
  | .tf r _ => do let f ← rawF P v; .ok { M with F := set M.F r f }
  | d => wrT P M d v

/-- Store an integer result (`emit_bin_ii`, `codegen.c` 1711-1725, 1766-1772; a float variable
gets it converted by C). -/
def wrI (M : Mach P) (d : Ps P.F P.O) (i : I64) : Res (Mach P) :=
  match d with
  | .ti r _ | .tb r => .ok { M with I := set M.I r i }
  | .tf r _ => .ok { M with F := set M.F r (P.ofInt i) }
  | d => wrT P M d (.int i)

/-- Store a float result. -/
def wrF (M : Mach P) (d : Ps P.F P.O) (f : P.F) : Res (Mach P) :=
  match d with
  | .tf r _ => .ok { M with F := set M.F r f }
  | .ti _ _ | .tb _ => reject
  | d => wrT P M d (.flt f)

/-- Store a truth value (`emit_comp_ii` 1669-1678, `emit_generic_comp` 2189-2201). -/
def wrB (M : Mach P) (d : Ps P.F P.O) (b : Bool) : Res (Mach P) :=
  match d with
  | .tb r => .ok { M with I := set M.I r (if b then 1 else 0) }
  | d => wrT P M d (.bool b)

/-- The operators of C on `lua_Integer`, which is signed: overflow is undefined, as is division
by zero; the generated code has no casts to the unsigned type (`codegen.c` 1727-1768, 1774-1804,
2235-2238). -/
def cOp (o : Op) (x y : I64) : Res I64 :=
  match o with
  | .add => if x.saddOverflow y then .ub else .ok (x + y)
  | .sub => if x.ssubOverflow y then .ub else .ok (x - y)
  | .mul => if x.smulOverflow y then .ub else .ok (x * y)
  | .div => if y = 0 ∨ x.sdivOverflow y then .ub else .ok (x.sdiv y)
  | .band => .ok (x &&& y)
  | .bor => .ok (x ||| y)
  | .bxor => .ok (x ^^^ y)
  | .shl => .ok (P.shiftl x y)
  | .shr => if y.negOverflow then .ub else .ok (P.shiftl x (-y))
  | _ => reject

/-- The operators of C on `lua_Number`. -/
def fOp (o : Op) (x y : P.F) : Res P.F :=
  match o with
  | .add => .ok (P.fadd x y)
  | .sub => .ok (P.fsub x y)
  | .mul => .ok (P.fmul x y)
  | .div => .ok (P.fdiv x y)
  | _ => reject

/-- `emit_op_arith` (`codegen.c` 2206-2258) for `+`, `-`, `*`: as `arSem`, except that the sum of
two integers is computed with the signed type; and `luaO_arith` (2308-2367) for the others. -/
def genAr (o : Op) (a b : P.V) (s : P.S) : Res (P.V × P.S) :=
  match o, a, b with
  | .add, .int x, .int y => do let i ← cOp P .add x y; .ok (.int i, s)
  | .sub, .int x, .int y => do let i ← cOp P .sub x y; .ok (.int i, s)
  | .mul, .int x, .int y => do let i ← cOp P .mul x y; .ok (.int i, s)
  | o, a, b => arSem P o a b s

def cmpI (c : Cb) (x y : I64) : Bool :=
  match c with
  | .eq => decide (x = y)
  | .lt => x.slt y
  | .le => x.sle y

def cmpF (c : Cb) (x y : P.F) : Bool :=
  match c with
  | .eq => P.feq x y
  | .lt => P.flt x y
  | .le => P.fle x y

/-- Binary instructions: `emit_op_arith`, `emit_op_binary`, `emit_bin_ii`, `emit_bin_fi`,
`emit_bin_if`, `emit_bitop_ii`, `emit_comp_ii`, `emit_generic_comp` (`codegen.c` 1667-1890,
2164-2258, 2308-2367). -/
def exBin (M : Mach P) (o : TOp) (a b d : Ps P.F P.O) : Res (Mach P) :=
  match o with
  | .ar o .gen => do
    let (v, s) ← genAr P o (rd P M a) (rd P M b) M.s
    match o with
    | .add | .sub | .mul => wrT P { M with s := s } d v
    | _ => wrA P { M with s := s } d v
  | .ar o .ii => do
    let x ← rdI P M a
    let y ← rdI P M b
    let r ← cOp P o x y
    wrI P M d r
  | .ar o .ff => do
    let x ← rdF P M a
    let y ← rdF P M b
    let r ← fOp P o x y
    wrF P M d r
  | .ar o .fi => do
    let x ← rdF P M a
    let y ← rdI P M b
    let r ← fOp P o x (P.ofInt y)
    wrF P M d r
  | .ar o .if' => do
    let x ← rdI P M a
    let y ← rdF P M b
    let r ← fOp P o (P.ofInt x) y
    wrF P M d r
  | .cm c .ii => do
    let x ← rdI P M a
    let y ← rdI P M b
    wrB P M d (cmpI c x y)
  | .cm c .ff => do
    let x ← rdF P M a
    let y ← rdF P M b
    wrB P M d (cmpF P c x y)
  | .cm c _ => do
    let (r, s) ← cbSem P c (rd P M a) (rd P M b) M.s
    wrB P { M with s := s } d r

/-- `emit_move` (`codegen.c` 1150-1300). -/
def exMov (M : Mach P) (a d : Ps P.F P.O) : Res (Mach P) :=
  match d with
  | .tf r _ =>
    match a with
    | .kc (.flt f) => .ok { M with F := set M.F r f }
    | .kc (.int i) => .ok { M with F := set M.F r (P.ofInt i) }
    | .tf q _ => .ok { M with F := set M.F r (M.F q) }
    | .ta q => do let f ← rawF P (M.T q); .ok { M with F := set M.F r f }
    | .sym q _ => do let f ← rawF P (M.L q); .ok { M with F := set M.F r f }
    | _ => reject
  | .ti r _ | .tb r =>
    match a with
    | .kc (.int i) => .ok { M with I := set M.I r i }
    | .ti q _ | .tb q => .ok { M with I := set M.I r (M.I q) }
    | .ta q => do let i ← rawI P (M.T q); .ok { M with I := set M.I r i }
    | .sym q _ => do let i ← rawI P (M.L q); .ok { M with I := set M.I r i }
    | _ => reject
  | d => wrT P M d (rd P M a)

/-- One instruction that is not a jump. -/
def exIns (M : Mach P) : Ins P.F P.O → Res (Mach P)
  | .bin o a b d => exBin P M o a b d
  | .mov a d => exMov P M a d
  | .movfi a d =>            -- `emit_op_movfi` (`codegen.c` 2436-2464)
    match tointns P (rd P M a) with
    | none => raise
    | some i =>
      match d with
      | .ti r _ => .ok { M with I := set M.I r i }
      | d => wrT P M d (.int i)
  | .movif a d =>            -- `emit_op_movif` (2466-2494)
    match tonum P (rd P M a) with
    | none => raise
    | some f =>
      match d with
      | .tf r _ => .ok { M with F := set M.F r f }
      | d => wrT P M d (.flt f)
  | .toint p =>              -- `emit_op_totype` for `op_toint` (2025-2036): only a check
    match tointns P (rd P M p) with
    | none => raise
    | some _ => .ok M
  | .toflt p =>              -- `emit_op_toflt` (2038-2051): the place itself is converted
    match tonum P (rd P M p) with
    | none => raise
    | some f =>
      match p with
      | .ta r => .ok { M with T := set M.T r (.flt f) }
      | .sym r _ => .ok { M with L := set M.L r (.flt f) }
      | _ => .ok M
  | .not a d =>              -- `emit_op_not` (2260-2289)
    wrB P M d (isFalse (rd P M a))
  | .unm t a d =>            -- `emit_op_unm` (2411-2434), `emit_op_unmi_unmf` (2369-2409)
    match t with
    | .int =>
      match d with
      | .ti r _ => do
        let x ← rawI P (rd P M a)
        if x.negOverflow then .ub else .ok { M with I := set M.I r (-x) }
      | d => do let x ← rawI P (rd P M a); wrT P M d (.int x)
    | .flt =>
      match d with
      | .tf r _ => do let x ← rawF P (rd P M a); .ok { M with F := set M.F r (P.fneg x) }
      | d => do let x ← rawF P (rd P M a); wrT P M d (.flt x)
    | _ => do
      let (v, s) ← negSem P (rd P M a) M.s
      wrT P { M with s := s } d v
  | .get c k d => do         -- `emit_op_load_table` (1437-1464)
    let (v, s) ← ofOpt (P.get (rd P M c) (rd P M k) M.s)
    wrT P { M with s := s } d v
  | .put c k v => do         -- `emit_op_store_table` (1483-1522)
    let s ← ofOpt (P.put (rd P M c) (rd P M k) (rd P M v) M.s)
    .ok { M with s := s }
  | .init d =>               -- `emit_op_init` (2496-2518)
    match d with
    | .tf r _ => .ok { M with F := set M.F r (P.ofInt 0) }
    | .ti r _ | .tb r => .ok { M with I := set M.I r 0 }
    | d => wrT P M d .nil
  | .br _ | .cbr _ _ _ => .ok M

/-- `emit_op_cbr` (`codegen.c` 1309-1336): which way a conditional jump goes. -/
def exCbr (M : Mach P) : Ps P.F P.O → Res Bool
  | .kc v => .ok (!isFalse v)
  | .tb r => .ok (M.I r != 0)
  | .ta r => .ok (!isFalse (M.T r))
  | .sym r _ => .ok (!isFalse (M.L r))
  | _ => reject

/-- A point of a program and the state there. -/
structure Cfg where
  b : Nat
  pos : Nat
  M : Mach P

/-- The blocks of a program. -/
abbrev Prog := Nat → List (Ins P.F P.O)

/-- One step; `none`: there is no instruction at this point. -/
def step (g : Prog P) (c : Cfg P) : Option (Res (Cfg P)) :=
  match (g c.b)[c.pos]? with
  | none => none
  | some (.br b) => some (.ok ⟨b, 0, c.M⟩)
  | some (.cbr p t f) =>
    some (do let r ← exCbr P c.M p; .ok ⟨if r then t else f, 0, c.M⟩)
  | some i => some (do let M ← exIns P c.M i; .ok ⟨c.b, c.pos + 1, M⟩)

/-- `Run g c o`: from `c` the program gets to the point `o`, or stops with the error, or with the
undefined behaviour, that `o` is. -/
inductive Run (g : Prog P) : Cfg P → Res (Cfg P) → Prop where
  | here (c) : Run g c (.ok c)
  | step (c c' o) : step P g c = some (.ok c') → Run g c' o → Run g c o
  | err (c m) : step P g c = some (.err m) → Run g c (.err m)
  | ub (c) : step P g c = some .ub → Run g c .ub

/-! ## The linearizer -/

/-- A local variable: in a Lua register, with its declared type, or - `integer` and `number`, if
not captured and not a parameter - in a C variable (`start_scope`, `linearizer.c` 2980-3006). -/
inductive LV | sym (r : Nat) (t : Ty) | ireg (r : Nat) | freg (r : Nat)
deriving DecidableEq, Repr

def LV.ty : LV → Ty
  | .sym _ t => t
  | .ireg _ => .int
  | .freg _ => .flt

def LV.ps {F O : Type} : LV → Ps F O
  | .sym r t => .sym r t
  | .ireg r => .ti r true
  | .freg r => .tf r true

/-- `typecheck_binary_operator` for arithmetic (`typechecker.c` 156-195, 214-231). -/
def arTy (o : Op) (a b : Ty) : Ty :=
  let num (t : Ty) : Bool := t == .int || t == .flt
  match o with
  | .add | .sub | .mul =>
    if a = .int ∧ b = .int then .int else if num a && num b then .flt else .any
  | .div => if num a && num b then .flt else .any
  | .idiv => if a = .int ∧ b = .int then .int else .any
  | .mod =>
    if a = .int ∧ b = .int then .int
    else if a = .int ∧ b = .flt ∨ a = .flt ∧ b = .int then .flt else .any
  | .pow => if num a && num b then .flt else .any
  | .band | .bor | .bxor | .shl | .shr => if num a && num b then .int else .any

/-- `typecheck_binary_operator` for relations (`typechecker.c` 196-213). -/
def cmTy (a b : Ty) : Ty :=
  let nb (t : Ty) : Bool := t == .int || t == .flt || t == .bool
  if nb a && nb b then .bool else .any

/-- The static types that the type checker gives expressions (`typechecker.c` 63-240). -/
def typ {F O : Type} (Γ : Nat → LV) : Exp F O → Ty
  | .lit (.int _) => .int
  | .lit (.flt _) => .flt
  | .lit (.bool _) => .bool
  | .lit _ => .other
  | .loc x => (Γ x).ty
  | .bin (.ar o) a b => arTy o (typ Γ a) (typ Γ b)
  | .bin (.cm _) a b => cmTy (typ Γ a) (typ Γ b)
  | .neg a => match typ Γ a with | .int => .int | .flt => .flt | _ => .any
  | _ => .any

/-- The linearizer: registers in use of the three pools (`proc->temp_int_pseudos`,
`temp_flt_pseudos`, `temp_pseudos`), blocks, number of blocks, current block. -/
structure St (F O : Type) where
  i : List Nat
  f : List Nat
  a : List Nat
  blocks : Nat → List (Ins F O)
  nb : Nat
  cur : Nat

/-- `top_reg` plus one (`linearizer.c` 111-127). -/
def top (u : List Nat) : Nat := u.foldr (fun r m => max (r + 1) m) 0

/-- `pseudo_gen_alloc` with `top` (`linearizer.c` 145-176): the register above all that are in
use.  The set has 256 bits and nothing checks the bound; setting bit 256 writes outside it. -/
def alloc (u : List Nat) : Res (Nat × List Nat) :=
  if top u < 256 then .ok (top u, top u :: u) else .ub

/-- `pseudo_gen_free` (132-138). -/
def free (u : List Nat) (r : Nat) : List Nat := u.filter (· ≠ r)

section
variable {F O : Type}

/-- `allocate_temp_pseudo` (518-547). -/
def allocT (st : St F O) (t : Ty) : Res (Ps F O × St F O) :=
  match t with
  | .int => do let (r, u) ← alloc st.i; .ok (.ti r false, { st with i := u })
  | .bool => do let (r, u) ← alloc st.i; .ok (.tb r, { st with i := u })
  | .flt => do let (r, u) ← alloc st.f; .ok (.tf r false, { st with f := u })
  | _ => do let (r, u) ← alloc st.a; .ok (.ta r, { st with a := u })

/-- `free_temp_pseudo` with `free_local` false (599-641): variables keep their registers. -/
def freeP (st : St F O) : Ps F O → St F O
  | .ti r false => { st with i := free st.i r }
  | .tb r => { st with i := free st.i r }
  | .tf r false => { st with f := free st.f r }
  | .ta r => { st with a := free st.a r }
  | _ => st

/-- The same for a pending access: key, then container (617-620). -/
def freeN (st : St F O) : Pn F O → St F O
  | .p q => freeP st q
  | .idx c k => freeP (freeP st k) c

/-- `add_instruction` (431-436). -/
def emit (st : St F O) (x : Ins F O) : St F O :=
  { st with blocks := set st.blocks st.cur (st.blocks st.cur ++ [x]) }

/-- `indexed_load` (1314-1371), for containers that are not typed arrays. -/
def load (st : St F O) (c k : Ps F O) : Res (Ps F O × St F O) := do
  let (t, st) ← allocT (freeP (freeP st c) k) .any
  .ok (t, emit st (.get c k t))

/-- `add_instruction_operand` (390-399): a pending access is loaded now; the second result is what
the caller has to free. -/
def operand (st : St F O) : Pn F O → Res (Ps F O × St F O)
  | .p q => .ok (q, st)
  | .idx c k => load st c k

/-- The pseudo returned by `add_instruction_operand` for freeing, if any, is freed. -/
def tofree (st : St F O) (n : Pn F O) (q : Ps F O) : St F O :=
  match n with
  | .p _ => st
  | .idx _ _ => freeP st q

/-- Are the operands exchanged (`linearizer.c` 1097-1109)? -/
def swap (o : Bin) (t1 t2 : Ty) : Bool :=
  match o with
  | .ar .add | .ar .mul => t1 == .int && t2 == .flt
  | .cm .gt | .cm .ge => true
  | _ => false

/-- The instruction for an operator, from the static types of its operands, which are exchanged
already (`linearizer.c` 1026-1165; `linearizer.h` 53-96 for what the numbers added mean). -/
def sel (o : Bin) (t1 t2 : Ty) : TOp :=
  match o with
  | .ar o =>
    match o with
    | .add | .mul =>
      .ar o (if t1 = .flt ∧ t2 = .flt then .ff else if t1 = .flt ∧ t2 = .int then .fi
        else if t1 = .int ∧ t2 = .int then .ii else .gen)
    | .sub | .div =>
      .ar o (if t1 = .flt ∧ t2 = .flt then .ff else if t1 = .flt ∧ t2 = .int then .fi
        else if t1 = .int ∧ t2 = .flt then .if' else if t1 = .int ∧ t2 = .int then .ii else .gen)
    | .band | .bor | .bxor | .shl | .shr => .ar o (if t1 = .int ∧ t2 = .int then .ii else .gen)
    | o => .ar o .gen
  | .cm c =>
    .cm (match c with | .eq | .ne => .eq | .lt | .gt => .lt | .le | .ge => .le)
      (if t1 = .int ∧ t2 = .int then .ii else if t1 = .flt ∧ t2 = .flt then .ff else .gen)

/-- The second target that `~=` needs (`linearizer.c` 1026-1028); the result is not used for other
operators. -/
def allocNe (st : St F O) (o : Bin) (t : Ty) : Res (Ps F O × St F O) :=
  if o = .cm .ne then allocT st t else .ok (.kc .nil, st)

/-- `linearize_expression` (1980-2026) with the functions it calls: literals (743-768), symbols
(1268-1287), suffixes (1601-1632), operators (770-891, 961-1013, 1015-1176).  Two blocks are
created for `and` and `or`; the current block is never terminated where `start_block` and
`instruct_br` ask (2060-2067), as its last instruction is a `mov`, except after `cbr` and `br`. -/
def lin (Γ : Nat → LV) : Exp F O → St F O → Res (Pn F O × St F O)
  | .lit v, st => .ok (.p (.kc v), st)
  | .loc x, st => .ok (.p (Γ x).ps, st)
  | .idx e k, st => do
    let (n, st) ← lin Γ e st
    let (c, st) ← operand st n
    let (m, st) ← lin Γ k st
    let (k, st) ← operand st m
    .ok (.idx c k, st)
  | .bin o a b, st => do
    let ty := typ Γ (.bin o a b)
    let (nt, st) ← allocNe st o ty
    let (t, st) ← allocT st ty
    let (n1, st) ← lin Γ a st
    let (n2, st) ← lin Γ b st
    let sw := swap o (typ Γ a) (typ Γ b)
    let (m1, t1) := if sw then (n2, typ Γ b) else (n1, typ Γ a)
    let (m2, t2) := if sw then (n1, typ Γ a) else (n2, typ Γ b)
    let (q1, st) ← operand st m1
    let (q2, st) ← operand st m2
    let st := emit st (.bin (sel o t1 t2) q1 q2 t)
    let st := tofree (tofree st m1 q1) m2 q2
    let st := freeN (freeN st m1) m2
    if o = .cm .ne then
      .ok (.p nt, emit (freeP st t) (.not t nt))
    else .ok (.p t, st)
  | .and a b, st => do
    let l1 := st.nb
    let l2 := st.nb + 1
    let st := { st with nb := st.nb + 2 }
    let (t, st) ← allocT st .any
    let (n, st) ← lin Γ a st
    let (q, st) ← operand st n
    let st := freeN (tofree (emit st (.mov q t)) n q) n
    let st := emit st (.cbr t l1 l2)
    let st := { st with cur := l1 }
    let (n, st) ← lin Γ b st
    let (q, st) ← operand st n
    let st := freeN (tofree (emit st (.mov q t)) n q) n
    let st := emit st (.br l2)
    .ok (.p t, { st with cur := l2 })
  | .or a b, st => do
    let l1 := st.nb
    let l2 := st.nb + 1
    let st := { st with nb := st.nb + 2 }
    let (t, st) ← allocT st .any
    let (n, st) ← lin Γ a st
    let (q, st) ← operand st n
    let st := freeN (tofree (emit st (.mov q t)) n q) n
    let st := emit st (.cbr t l2 l1)
    let st := { st with cur := l1 }
    let (n, st) ← lin Γ b st
    let (q, st) ← operand st n
    let st := freeN (tofree (emit st (.mov q t)) n q) n
    let st := emit st (.br l2)
    .ok (.p t, { st with cur := l2 })
  | .not a, st => do
    let (t, st) ← allocT st .any
    let (n, st) ← lin Γ a st
    let (q, st) ← operand st n
    let st := tofree (emit (freeN st n) (.not q t)) n q
    .ok (.p t, st)
  | .neg a, st => do
    let (t, st) ← allocT st (typ Γ a)
    let (n, st) ← lin Γ a st
    let (q, st) ← operand st n
    let st := tofree (emit (freeN st n) (.unm (typ Γ a) q t)) n q
    .ok (.p t, st)

/-! ### Assignments -/

/-- What is assigned to: a local variable or an indexed place. -/
inductive Tgt (F O : Type) where
  | loc (x : Nat)
  | idx (e k : Exp F O)
deriving DecidableEq, Repr

def Tgt.ty (Γ : Nat → LV) : Tgt F O → Ty
  | .loc x => (Γ x).ty
  | .idx _ _ => .any

/-- The left sides of an assignment, from left to right (`linearize_expression_statement`,
1907-1935); indexed places stay pending. -/
def linTgts (Γ : Nat → LV) : List (Tgt F O) → St F O → Res (List (Pn F O) × St F O)
  | [], st => .ok ([], st)
  | .loc x :: ts, st => do
    let (r, st) ← linTgts Γ ts st
    .ok (.p (Γ x).ps :: r, st)
  | .idx e k :: ts, st => do
    let (n, st) ← lin Γ (.idx e k) st
    let (r, st) ← linTgts Γ ts st
    .ok (n :: r, st)

/-- `copy_to_temp_if_necessary` (1767-1775), with `get_type` (1752-1765): only variables in Lua
registers are copied. -/
def copyT (st : St F O) : Ps F O → Res (Ps F O × St F O)
  | .sym r t => do
    let (q, st) ← allocT st (match t with | .int => .int | .flt => .flt | _ => .any)
    .ok (q, emit st (.mov (.sym r t) q))
  | q => .ok (q, st)

/-- The right sides (`linearize_assignment`, 1794-1818). -/
def linVals (Γ : Nat → LV) : List (Exp F O) → St F O → Res (List (Ps F O × Ty) × St F O)
  | [], st => .ok ([], st)
  | e :: es, st => do
    let (n, st) ← lin Γ e st
    let (q, st) ← operand st n
    let (q, st) ← copyT st q
    let (r, st) ← linVals Γ es st
    .ok ((q, typ Γ e) :: r, st)

/-- `linearize_store_var` (1730-1750) for targets of type any, integer and number: a value whose
static type does not fit is checked first; then it is moved. -/
def store (st : St F O) (t : Pn F O) (tt : Ty) (v : Ps F O) (vt : Ty) : St F O :=
  match t with
  | .idx c k => emit st (.put c k v)
  | .p d =>
    match tt with
    | .int =>
      if vt = .int then emit st (.mov v d)
      else if vt = .flt then emit st (.movfi v d)
      else emit (emit st (.toint v)) (.mov v d)
    | .flt =>
      if vt = .flt then emit st (.mov v d)
      else if vt = .int then emit st (.movif v d)
      else emit (emit st (.toflt v)) (.mov v d)
    | _ => emit st (.mov v d)

/-- The stores, from left to right (1826-1866); targets without a value are initialised, which an
indexed place cannot be: `add_instruction_target` (401-405) asserts that it is not one. -/
def linStores : List (Pn F O × Ty) → List (Ps F O × Ty) → St F O → Res (St F O)
  | [], _, st => .ok st
  | (t, tt) :: ts, (v, vt) :: vs, st => linStores ts vs (freeP (store st t tt v vt) v)
  | (.idx _ _, _) :: _, [], _ => assertion
  | (.p d, _) :: ts, [], st => linStores ts [] (emit st (.init d))

/-- `linearize_expression_statement` and `linearize_assignment` (1789-1880, 1907-1935). -/
def linAssign (Γ : Nat → LV) (ts : List (Tgt F O)) (es : List (Exp F O)) (st : St F O) :
    Res (St F O) := do
  let (ns, st) ← linTgts Γ ts st
  let (vs, st) ← linVals Γ es st
  let st ← linStores (ns.zip (ts.map (Tgt.ty Γ))) vs st
  let st := (vs.map Prod.fst).reverse.foldl freeP st
  .ok (ns.reverse.foldl freeN st)

end

/-! ## What an assignment means -/

/-- A place that has been evaluated. -/
inductive Place | loc (x : Nat) | idx (c k : P.V)

def evalTgts (ρ : Nat → P.V) : List (Tgt P.F P.O) → P.S → Res (List (Place P) × P.S)
  | [], s => .ok ([], s)
  | .loc x :: ts, s => do
    let (r, s) ← evalTgts ρ ts s
    .ok (.loc x :: r, s)
  | .idx e k :: ts, s => do
    let (c, s) ← eval P ρ e s
    let (k, s) ← eval P ρ k s
    let (r, s) ← evalTgts ρ ts s
    .ok (.idx c k :: r, s)

def evalVals (ρ : Nat → P.V) : List (Exp P.F P.O) → P.S → Res (List P.V × P.S)
  | [], s => .ok ([], s)
  | e :: es, s => do
    let (v, s) ← eval P ρ e s
    let (r, s) ← evalVals ρ es s
    .ok (v :: r, s)

/-- The value that a variable of a declared type takes when it is assigned `v`: an integer
variable takes only what is an integer, a number variable only what is a number
(Ravi reference manual, "static typing"; `src/lvm.c`, OP_RAVI_TOINT, OP_RAVI_TOFLT). -/
def conv (t : Ty) (v : P.V) : Res P.V :=
  match t with
  | .int => match tointns P v with | some i => .ok (.int i) | none => raise
  | .flt => match tonum P v with | some f => .ok (.flt f) | none => raise
  | _ => .ok v

/-- What a variable of a declared type holds if nothing is assigned to it. -/
def dflt : Ty → P.V
  | .int => .int 0
  | .flt => .flt (P.ofInt 0)
  | _ => .nil

/-- Everything has been evaluated: the values go to the places. -/
def assignAll (ty : Nat → Ty) : List (Place P) → List P.V → (Nat → P.V) → P.S →
    Res ((Nat → P.V) × P.S)
  | [], _, ρ, s => .ok (ρ, s)
  | .loc x :: ps, v :: vs, ρ, s => do
    let v ← conv P (ty x) v
    assignAll ty ps vs (set ρ x v) s
  | .idx c k :: ps, v :: vs, ρ, s => do
    let s ← ofOpt (P.put c k v s)
    assignAll ty ps vs ρ s
  | .loc x :: ps, [], ρ, s => assignAll ty ps [] (set ρ x (dflt P (ty x))) s
  | .idx c k :: ps, [], ρ, s => do
    let s ← ofOpt (P.put c k .nil s)
    assignAll ty ps [] ρ s

/-- A multiple assignment (manual 3.3.3): all expressions are evaluated before anything is
assigned. -/
def evalAssign (ty : Nat → Ty) (ts : List (Tgt P.F P.O)) (es : List (Exp P.F P.O))
    (ρ : Nat → P.V) (s : P.S) : Res ((Nat → P.V) × P.S) := do
  let (ps, s) ← evalTgts P ρ ts s
  let (vs, s) ← evalVals P ρ es s
  assignAll P ty ps vs ρ s

end Verif.Lin
