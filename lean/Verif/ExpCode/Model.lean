import Verif.Fold.Model
import Verif.Typed.Model
/-!
Code generation for expressions: `src/lcode.c` 37-1760 and `subexpr` of `src/lparser.c` 1772-1815, for
functions whose local variables have no type annotation; and the instructions it emits (`src/lvm.c`
1410-1770).

Simplifications:
* Instructions are terms, not words (the encoding is the subject of C30).
* A jump list is a list of positions.  In the code it is threaded through the offset fields of the
  jumps; C55 proves that `luaK_concat` and `patchlistaux` work on it as on a list.  Jump offsets and
  constant indices have no limit here (`OP_LOADKX`, "control structure too long").
* The type-specialised instructions that are chosen for operands of known numeric types (`1/0`,
  `#"x" + 1`) are represented by the general instruction (C38 is about them).
* `VUPVAL` and `VLOCAL` are leaves; assignments to locals through upvalues of inner functions while the
  expression runs are left out.
* A call whose last argument is again a call (`f(x, g(y))`) is one instruction here, for the sequence of
  `OP_CALL`s that the code has: the inner ones give all their results, which are the last arguments
  of the next one.  A call that is not the last argument is turned into `VNONRELOC` at once
  (`luaK_setoneret`, which the code calls when the descriptor is used).  `...` is left out.
* The constant table is searched directly; in the code a scanner table caches the positions.
-/
namespace Verif.ExpCode
open Verif.Arith (LInt)
open Verif.Float (Dbl Num)
open Verif.Fold (FOps BOp UOp vmBin vmUn constfolding)
open Verif.Typed (TM tNIL tFALSE tTRUE tINT tFLT tIARR tFARR tTAB tSTR tFUN tFALSISH tTRUISH tBOOL
  tNUM tANY sub)

/-- Lua values; `obj` are tables, functions and so on. -/
inductive Val where
  | nil
  | bool (b : Bool)
  | num (n : Num)
  | str (s : List UInt8)
  | obj (i : Nat)
deriving DecidableEq

/-- not `l_isfalse`, lobject.h 234 -/
def Val.truthy : Val → Bool
  | .nil | .bool false => false
  | _ => true

/-- the comparison instructions -/
inductive Rel where
  | eq | lt | le
deriving DecidableEq

/-- What the rest of the system does, over an arbitrary state `W`: metamethods, comparison, allocation,
the upvalues of the running function, calls (`call` takes the function and its arguments and gives the results,
`junk` is what a call leaves in the registers above the results), and the numbers of `for` loops (`forprep` makes index, limit and step of the three
values of the loop, `forloop` gives the next index; C08, C50 and C51 are about them). -/
structure Ops (W : Type) where
  F : FOps
  bin : BOp → Val → Val → W → Res (Val × W)
  un : UOp → Val → W → Res (Val × W)
  len : Val → W → Res (Val × W)
  cat : Val → Val → W → Res (Val × W)
  index : Val → Val → W → Res (Val × W)
  setindex : Val → Val → Val → W → Res W
  setup : Nat → Val → W → W
  forprep : Val → Val → Val → Res (Val × Val × Val)
  forloop : Val → Val → Val → Option Val
  rel : Rel → Val → Val → W → Res (Bool × W)
  up : Nat → W → Val
  tnew : W → Val × W
  func : Nat → W → Val × W
  call : Val → List Val → W → Res (List Val × W)
  junk : Nat → W → Val

variable {W : Type}

/-- an arithmetic instruction on two values: on numbers as in `Fold`, otherwise `luaT_trybinTM` -/
def Ops.binV (P : Ops W) (o : BOp) (x y : Val) (w : W) : Res (Val × W) :=
  match x, y with
  | .num m, .num n => do
    match ← vmBin P.F o m n with
    | some r => return (.num r, w)
    | none => P.bin o x y w
  | x, y => P.bin o x y w

/-- `OP_UNM`, `OP_BNOT` -/
def Ops.unV (P : Ops W) (o : UOp) (x : Val) (w : W) : Res (Val × W) :=
  match x with
  | .num m => do
    match ← vmUn o m with
    | some r => return (.num r, w)
    | none => P.un o x w
  | x => P.un o x w

/-- an operand `RK(x)`, lopcodes.h 93-106 -/
inductive RK where
  | reg (r : Nat)
  | const (i : Nat)
deriving DecidableEq

/-- what the instructions that set one register put there -/
inductive Src where
  | move (b : Nat)
  | loadk (k : Nat)
  | getupval (u : Nat)
  | newtable
  | closure (i : Nat)
  | bin (o : BOp) (x y : RK)
  | un (o : UOp) (b : Nat)
  | len (b : Nat)
  | not (b : Nat)
  | gettable (t : Nat) (k : RK)
  | gettabup (u : Nat) (k : RK)
  | concat (b c : Nat)
deriving DecidableEq

/-- the instructions that store into tables and upvalues -/
inductive Eff where
  | settable (t : Nat) (k v : RK)
  | settabup (u : Nat) (k v : RK)
  | setupval (u b : Nat)
deriving DecidableEq

/-- Instructions.  A `VRELOCABLE` one has register 0 in argument A until `discharge2reg` sets it;
`testset none` is a `TESTSET` with `NO_REG`; `jmp none` is a jump whose destination is not decided.
`FORPREP`, `FORLOOP` and `TFORLOOP`, which contain a jump, are two instructions here: `forprep`, `forloop` or `tforloop` and a jump.
`call a n l want` is a call of the function in `a` with `n` arguments, followed by calls of the functions in the
registers `l` that take the results as their last arguments; the last call of them gives `want` results.  `retcall`
returns the registers from `first` on up to the last of these results (`OP_TAILCALL` or `OP_CALL`, and `OP_RETURN`).
`self a b c` is `OP_SELF`. -/
inductive Instr where
  | set (a : Nat) (x : Src)
  | loadbool (a : Nat) (b : Bool) (skip : Bool)
  | loadnil (a : Nat) (n : Nat)
  | rel (o : Rel) (a : Bool) (x y : RK)
  | test (a : Nat) (c : Bool)
  | testset (a : Option Nat) (b : Nat) (c : Bool)
  | jmp (t : Option Nat)
  | eff (x : Eff)
  | forprep (a : Nat)
  | forloop (a : Nat)
  | tforcall (a n : Nat)
  | tforloop (a : Nat)
  | ret (a n : Nat)
  | self (a b : Nat) (c : RK)
  | call (a n : Nat) (l : List Nat) (want : Nat)
  | retcall (first a n : Nat) (l : List Nat)
deriving DecidableEq

/-- `testTMode`, lopcodes.h 340: tests, always followed by a jump -/
def Instr.isTest : Instr → Bool
  | .rel .. | .test .. | .testset .. | .forloop _ | .tforloop _ => true
  | _ => false

/-- the part of `FuncState` (lparser.h 218-239) the code generator works on; `pc` is the length of
`code` -/
structure FS where
  code : List Instr
  jpc : List Nat
  lasttarget : Nat
  freereg : Nat
  nactvar : Nat
  k : List Val

def FS.pc (s : FS) : Nat := s.code.length

/-- `expkind`, lparser.h 25-55 -/
inductive Kind where
  | nil | tru | fls
  | k (i : Nat)
  | kflt (x : Dbl)
  | kint (i : LInt)
  | nonreloc (r : Nat)
  | loc (r : Nat)
  | up (u : Nat)
  | indexed (t : Nat) (idx : RK)
  | indexup (u : Nat) (idx : RK)
  | jmp (j : Nat)
  | reloc (pc : Nat)
deriving DecidableEq

/-- `expdesc`, lparser.h 59-80 -/
structure D where
  kind : Kind
  t : List Nat := []
  f : List Nat := []
  tm : TM

/-- `hasjumps`, lcode.c 41 -/
def D.hasjumps (d : D) : Bool := !d.t.isEmpty || !d.f.isEmpty

/-- `tonumeral`, lcode.c 48-60 -/
def D.numeral (d : D) : Option Num :=
  if d.hasjumps then none
  else match d.kind with
    | .kint i => some (.int i)
    | .kflt x => some (.flt x)
    | _ => none

/-! ### jumps -/

/-- `patchtestreg`, lcode.c 202-217 with `getjumpcontrol` 186-192 -/
def patchtestreg (c : List Instr) (j : Nat) (reg : Option Nat) : List Instr × Bool :=
  match j with
  | 0 => (c, false)
  | p + 1 =>
    match c[p]? with
    | some (.testset _ b cc) =>
      (c.set p (match reg with
        | some r => if r = b then .test b cc else .testset (some r) b cc
        | none => .test b cc), true)
    | _ => (c, false)

/-- one round of `patchlistaux` with `fixjump`, lcode.c 110-117, 236-242 -/
def patch1 (vtarget : Nat) (reg : Option Nat) (dtarget : Nat) (c : List Instr) (j : Nat) : List Instr :=
  let r := patchtestreg c j reg
  r.1.set j (.jmp (some (if r.2 then vtarget else dtarget)))

/-- `patchlistaux`, lcode.c 234-244 -/
def patchlistaux (c : List Instr) (l : List Nat) (vtarget : Nat) (reg : Option Nat) (dtarget : Nat) :
    List Instr := l.foldl (patch1 vtarget reg dtarget) c

/-- `dischargejpc`, lcode.c 252-255 -/
def dischargejpc (s : FS) : FS :=
  { s with code := patchlistaux s.code s.jpc s.pc none s.pc, jpc := [] }

/-- `luaK_code`, lcode.c 304-318; the position of the instruction is `s.pc` -/
def emit (s : FS) (i : Instr) : FS :=
  let s := dischargejpc s
  { s with code := s.code ++ [i] }

/-- `luaK_getlabel`, lcode.c 175-178 -/
def getlabel (s : FS) : FS := { s with lasttarget := s.pc }

/-- `luaK_patchtohere`, lcode.c 262-265 -/
def patchtohere (s : FS) (l : List Nat) : FS :=
  let s := getlabel s
  { s with jpc := s.jpc ++ l }

/-- `luaK_jump`, lcode.c 143-150 -/
def jump (s : FS) : FS × List Nat :=
  ({ s with code := s.code ++ [.jmp none], jpc := [] }, s.pc :: s.jpc)

/-- `condjump`, lcode.c 165-168 -/
def condjump (s : FS) (i : Instr) : FS × List Nat := jump (emit s i)

/-- `removevalues`, lcode.c 223-226 -/
def removevalues (s : FS) (l : List Nat) : FS :=
  { s with code := l.foldl (fun c j => (patchtestreg c j none).1) s.code }

/-- `need_value`, lcode.c 745-751 -/
def needValue (c : List Instr) (l : List Nat) : Bool :=
  l.any fun j => match j with
    | 0 => true
    | p + 1 => match c[p]? with
      | some (.testset ..) => false
      | _ => true

/-! ### registers and constants -/

/-- `luaK_reserveregs` and `luaK_checkstack`, lcode.c 373-391; `MAXREGS` is 125 -/
def reserve (s : FS) (n : Nat) : Res FS :=
  if 125 ≤ s.freereg + n then .err "function or expression needs too many registers"
  else .ok { s with freereg := s.freereg + n }

/-- `freereg`, lcode.c 398-403 -/
def freeReg (s : FS) (r : Nat) : FS :=
  if s.nactvar ≤ r then { s with freereg := s.freereg - 1 } else s

/-- `freeexp`, lcode.c 409-412 -/
def freeexp (s : FS) (d : D) : FS :=
  match d.kind with
  | .nonreloc r => freeReg s r
  | _ => s

/-- the register of an expression, or -1 -/
def D.regOr (d : D) : Int :=
  match d.kind with
  | .nonreloc r => r
  | _ => -1

/-- `freeexps`, lcode.c 419-430 -/
def freeexps (s : FS) (d1 d2 : D) : FS :=
  if d1.regOr > d2.regOr then freeexp (freeexp s d1) d2 else freeexp (freeexp s d2) d1

/-- `addk`, lcode.c 440-465 -/
def addK (s : FS) (v : Val) : FS × Nat :=
  match s.k.idxOf? v with
  | some i => (s, i)
  | none => ({ s with k := s.k ++ [v] }, s.k.length)

/-- `luaK_nil` for one register, lcode.c 69-91 -/
def codeNil (s : FS) (r : Nat) : FS :=
  match decide (s.lasttarget < s.pc), s.code.getLast? with
  | true, some (.loadnil a n) =>
    if (a ≤ r ∧ r ≤ a + n + 1) ∨ (r ≤ a ∧ a ≤ r + 1) then
      let from' := if a < r then a else r
      let l := if a + n > r then a + n else r
      { s with code := s.code.dropLast ++ [.loadnil from' (l - from')] }
    else emit s (.loadnil r 0)
  | _, _ => emit s (.loadnil r 0)

/-! ### discharging -/

/-- type map of `t[k]`, lcode.c 624-631 -/
def indexTm (t : TM) : TM :=
  if sub t (tIARR ||| tFARR) then
    (if t &&& tIARR != 0 then tINT else 0) ||| (if t &&& tFARR != 0 then tFLT else 0)
  else tANY

/-- `freereg` on an operand -/
def freeRK (s : FS) : RK → FS
  | .reg r => freeReg s r
  | .const _ => s

/-- `luaK_dischargevars`, lcode.c 583-643 -/
def dischargevars (s : FS) (d : D) : FS × D :=
  match d.kind with
  | .loc r => (s, { d with kind := .nonreloc r })
  | .up u => (emit s (.set 0 (.getupval u)), { d with kind := .reloc s.pc })
  | .indexed t x =>
    let s := freeReg (freeRK s x) t
    (emit s (.set 0 (.gettable t x)), { d with kind := .reloc s.pc, tm := indexTm d.tm })
  | .indexup u x =>
    let s := freeRK s x
    (emit s (.set 0 (.gettabup u x)), { d with kind := .reloc s.pc, tm := indexTm d.tm })
  | _ => (s, d)

/-- `SETARG_A` on a relocatable instruction -/
def Instr.setDest (i : Instr) (r : Nat) : Instr :=
  match i with
  | .set _ x => .set r x
  | i => i

/-- `discharge2reg`, lcode.c 650-721, for registers without a declared type -/
def discharge2reg (s : FS) (d : D) (reg : Nat) : FS × D :=
  let (s, d) := dischargevars s d
  match d.kind with
  | .nil => (codeNil s reg, { d with kind := .nonreloc reg })
  | .tru => (emit s (.loadbool reg true false), { d with kind := .nonreloc reg })
  | .fls => (emit s (.loadbool reg false false), { d with kind := .nonreloc reg })
  | .k i => (emit s (.set reg (.loadk i)), { d with kind := .nonreloc reg })
  | .kflt x =>
    let (s, i) := addK s (.num (.flt x))
    (emit s (.set reg (.loadk i)), { d with kind := .nonreloc reg })
  | .kint x =>
    let (s, i) := addK s (.num (.int x))
    (emit s (.set reg (.loadk i)), { d with kind := .nonreloc reg })
  | .reloc pc =>
    ({ s with code := s.code.modify pc (·.setDest reg) }, { d with kind := .nonreloc reg })
  | .nonreloc r =>
    (if reg = r then s else emit s (.set reg (.move r)), { d with kind := .nonreloc reg })
  | _ => (s, d)

/-- `discharge2anyreg`, lcode.c 727-732; the register -/
def discharge2anyreg (s : FS) (d : D) : Res (FS × D × Nat) :=
  match d.kind with
  | .nonreloc r => .ok (s, d, r)
  | _ => do
    let s ← reserve s 1
    let r := s.freereg - 1
    let (s, d) := discharge2reg s d r
    return (s, d, r)

/-- the jump-free end of `exp2reg`, lcode.c 765-777: loads of `true` and `false` for jumps that carry no
value (`fj`: the jump over them), and the patching of both lists -/
def exp2regJumps (s : FS) (isJmp : Bool) (t f : List Nat) (reg : Nat) : FS :=
  if needValue s.code t || needValue s.code f then
    let (s, fj) := if isJmp then (s, []) else jump s
    let pf := s.pc
    let s := emit (getlabel s) (.loadbool reg false true)
    let pt := s.pc
    let s := emit (getlabel s) (.loadbool reg true false)
    let s := patchtohere s fj
    let s := getlabel s
    { s with code := patchlistaux (patchlistaux s.code f s.pc (some reg) pf) t s.pc (some reg) pt }
  else
    let s := getlabel s
    { s with code := patchlistaux (patchlistaux s.code f s.pc (some reg) s.pc) t s.pc (some reg) s.pc }

/-- `exp2reg`, lcode.c 761-782 -/
def exp2reg (s : FS) (d : D) (reg : Nat) : FS × D :=
  let (s, d) := discharge2reg s d reg
  let t := match d.kind with | .jmp j => d.t ++ [j] | _ => d.t
  let isJmp := match d.kind with | .jmp _ => true | _ => false
  let s := if !t.isEmpty || !d.f.isEmpty then exp2regJumps s isJmp t d.f reg else s
  (s, { d with kind := .nonreloc reg, t := [], f := [] })

/-- `luaK_exp2nextreg`, lcode.c 789-794; the register -/
def exp2nextreg (s : FS) (d : D) : Res (FS × D × Nat) := do
  let (s, d) := dischargevars s d
  let s ← reserve (freeexp s d) 1
  let r := s.freereg - 1
  let (s, d) := exp2reg s d r
  return (s, d, r)

/-- `luaK_exp2anyreg`, lcode.c 801-813 -/
def exp2anyreg (s : FS) (d : D) : Res (FS × D × Nat) :=
  let (s, d) := dischargevars s d
  match d.kind with
  | .nonreloc r =>
    if !d.hasjumps then .ok (s, d, r)
    else if s.nactvar ≤ r then
      let (s, d) := exp2reg s d r
      .ok (s, d, r)
    else exp2nextreg s d
  | _ => exp2nextreg s d

/-- `luaK_exp2val`, lcode.c 830-835 -/
def exp2val (s : FS) (d : D) : Res (FS × D) :=
  if d.hasjumps then do
    let (s, d, _) ← exp2anyreg s d
    return (s, d)
  else .ok (dischargevars s d)

/-- the constant an expression is, with its place in the constant table, lcode.c 847-857 -/
def constOf (s : FS) (d : D) : Option (FS × Nat) :=
  match d.kind with
  | .tru => some (addK s (.bool true))
  | .fls => some (addK s (.bool false))
  | .nil => some (addK s .nil)
  | .kint i => some (addK s (.num (.int i)))
  | .kflt x => some (addK s (.num (.flt x)))
  | .k i => some (s, i)
  | _ => none

/-- `luaK_exp2RK`, lcode.c 844-862; `MAXINDEXRK` is 127 -/
def exp2RK (s : FS) (d : D) : Res (FS × D × RK) := do
  let (s, d) ← exp2val s d
  match constOf s d with
  | some (s, i) =>
    let d := { d with kind := .k i }
    if i ≤ 127 then return (s, d, .const i)
    else do
      let (s, d, r) ← exp2anyreg s d
      return (s, d, .reg r)
  | none => do
    let (s, d, r) ← exp2anyreg s d
    return (s, d, .reg r)

/-! ### conditions -/

/-- `negatecondition`, lcode.c 1107-1113 -/
def negatecondition (s : FS) (j : Nat) : FS :=
  { s with code := s.code.modify (j - 1) fun i => match i with
      | .rel o a x y => .rel o (!a) x y
      | i => i }

/-- `jumponcond`, lcode.c 1122-1136 -/
def jumponcond (s : FS) (d : D) (cond : Bool) : Res (FS × D × List Nat) :=
  let removeNot : Option Nat := match d.kind with
    | .reloc pc => match s.code[pc]? with
      | some (.set _ (.not b)) => some b
      | _ => none
    | _ => none
  match removeNot with
  | some b =>
    let (s, j) := condjump { s with code := s.code.dropLast } (.test b (!cond))
    .ok (s, d, j)
  | none => do
    let (s, d, r) ← discharge2anyreg s d
    let s := freeexp s d
    let (s, j) := condjump s (.testset none r cond)
    return (s, d, j)

/-- the jump of `luaK_goiftrue`, lcode.c 1140-1163.  `fixed` replaces line 1154 by `if (1)`: the code
skips the test if the type map says that the expression cannot be false. -/
def goiftrueJump (fixed : Bool) (s : FS) (d : D) : Res (FS × D × List Nat) :=
  match d.kind with
  | .jmp j => .ok (negatecondition s j, d, [j])
  | .k _ | .kflt _ | .kint _ | .tru => .ok (s, d, [])
  | _ =>
    if fixed || d.tm &&& tFALSISH != 0 then jumponcond s d false
    else .ok (s, d, [])

/-- `luaK_goiftrue`, lcode.c 1140-1167 -/
def goiftrue (fixed : Bool) (s : FS) (d : D) : Res (FS × D) := do
  let (s, d) := dischargevars s d
  let (s, d, j) ← goiftrueJump fixed s d
  return (patchtohere s d.t, { d with f := d.f ++ j, t := [] })

/-- the jump of `luaK_goiffalse`, lcode.c 1172-1193 -/
def goiffalseJump (fixed : Bool) (s : FS) (d : D) : Res (FS × D × List Nat) :=
  match d.kind with
  | .jmp j => .ok (s, d, [j])
  | .nil | .fls => .ok (s, d, [])
  | _ =>
    if fixed || d.tm &&& tTRUISH != 0 then jumponcond s d true
    else .ok (s, d, [])

/-- `luaK_goiffalse`, lcode.c 1172-1197 -/
def goiffalse (fixed : Bool) (s : FS) (d : D) : Res (FS × D) := do
  let (s, d) := dischargevars s d
  let (s, d, j) ← goiffalseJump fixed s d
  return (patchtohere s d.f, { d with t := d.t ++ j, f := [] })

/-- type map of `not e`, lcode.c 1228-1229 -/
def notTm (t : TM) : TM :=
  (if t &&& tTRUISH != 0 then tFALSE else 0) ||| (if t &&& tFALSISH != 0 then tTRUE else 0)

/-- the operand of `not`, lcode.c 1204-1228 -/
def codenotKind (s : FS) (d : D) : Res (FS × Kind) :=
  match d.kind with
  | .nil | .fls => .ok (s, .tru)
  | .k _ | .kflt _ | .kint _ | .tru => .ok (s, .fls)
  | .jmp j => .ok (negatecondition s j, .jmp j)
  | _ => do
    let (s, d, r) ← discharge2anyreg s d
    let s := freeexp s d
    return (emit s (.set 0 (.not r)), .reloc s.pc)

/-- `codenot`, lcode.c 1203-1234 -/
def codenot (s : FS) (d : D) : Res (FS × D) := do
  let (s, d) := dischargevars s d
  let (s, k) ← codenotKind s d
  return (removevalues (removevalues s d.t) d.f, { kind := k, t := d.f, f := d.t, tm := notTm d.tm })

/-! ### operators -/

/-- type map of the result of an arithmetic operator, lcode.c 1367-1425 -/
def binTm (o : BOp) (a b : TM) : TM :=
  match o with
  | .band | .bor | .bxor | .shl | .shr => if sub a tNUM && sub b tNUM then tINT else tANY
  | .add | .sub | .mul | .idiv | .mod | .div | .pow =>
    let ii := match o with | .div | .pow => tFLT | _ => tINT
    if a = tFLT ∧ (b = tFLT ∨ b = tINT) then tFLT
    else if a = tINT ∧ b = tFLT then tFLT
    else if a = tINT ∧ b = tINT then ii
    else if sub a tNUM && sub b tNUM then
      (if a &&& b &&& tINT != 0 then tFLT ||| ii else tFLT)
    else tANY

/-- type map of the result of `-e` and `~e`, lcode.c 1307-1343 -/
def unTm (o : UOp) (t : TM) : TM :=
  match o with
  | .unm => if sub t tNUM then t else tANY
  | .bnot => if t = tINT then tINT else if t = tFLT then tINT else tANY

/-- a numeral as descriptor, lcode.c 1281-1293 -/
def numD (n : Num) : D :=
  match n with
  | .int i => { kind := .kint i, tm := tINT }
  | .flt x => { kind := .kflt x, tm := tFLT }

/-- `codebinexpval`, lcode.c 1357-1450 -/
def codebin (s : FS) (o : BOp) (d1 d2 : D) : Res (FS × D) := do
  let (s, d2, rk2) ← exp2RK s d2
  let (s, d1, rk1) ← exp2RK s d1
  let s := freeexps s d1 d2
  return (emit s (.set 0 (.bin o rk1 rk2)), { kind := .reloc s.pc, t := d1.t, f := d1.f, tm := binTm o d1.tm d2.tm })

/-- `constfolding` on two descriptors, lcode.c 1275-1295 -/
def foldD (F : FOps) (o : Fold.Op) (d1 d2 : D) : Res (Option Num) :=
  match d1.numeral, d2.numeral with
  | some x, some y => constfolding F o x y
  | _, _ => .ok none

/-- comparison operators -/
inductive Cmp where
  | eq | ne | lt | le | gt | ge
deriving DecidableEq

/-- the instruction for a comparison, lcode.c 1489-1508 -/
def Cmp.instr (o : Cmp) (x y : RK) : Instr :=
  match o with
  | .ne => .rel .eq false x y
  | .gt => .rel .lt true y x
  | .ge => .rel .le true y x
  | .eq => .rel .eq true x y
  | .lt => .rel .lt true x y
  | .le => .rel .le true x y

/-- expressions, after parsing (`subexpr` gives operators their operands).  `anil`, `acons` and `aopen` are
argument lists: `aopen f as` is a last argument that is a call, and stands for all its results
(`acons (call f as) anil` is the same call in parentheses).  `mcall o k as` is `o:k(as)`, and `amopen` is to it as `aopen`
is to `call`. -/
inductive E where
  | nil | tru | fls
  | int (i : LInt)
  | flt (x : Dbl)
  | str (s : List UInt8)
  | loc (r : Nat)
  | up (u : Nat)
  | tnew
  | func (i : Nat)
  | paren (a : E)
  | bin (o : BOp) (a b : E)
  | cmp (o : Cmp) (a b : E)
  | and (a b : E)
  | or (a b : E)
  | not (a : E)
  | un (o : UOp) (a : E)
  | len (a : E)
  | cat (a b : E)
  | index (a b : E)
  | call (f as : E)
  | mcall (o : E) (k : List UInt8) (as : E)
  | anil
  | acons (a r : E)
  | aopen (f as : E)
  | amopen (o : E) (k : List UInt8) (as : E)
deriving DecidableEq

/-- the expressions in an argument list -/
def E.args : E → List E
  | .acons a r => a :: r.args
  | .aopen f as => f :: as.args
  | .amopen o _ as => o :: as.args
  | _ => []

/-- induction on expressions, with the arguments of calls -/
@[induction_eliminator]
theorem E.ind {A : E → Prop} (nil : A .nil) (tru : A .tru) (fls : A .fls) (int : ∀ i, A (.int i))
    (flt : ∀ x, A (.flt x)) (str : ∀ s, A (.str s)) (loc : ∀ r, A (.loc r)) (up : ∀ u, A (.up u))
    (tnew : A .tnew) (func : ∀ i, A (.func i)) (paren : ∀ a, A a → A (.paren a))
    (bin : ∀ o a b, A a → A b → A (.bin o a b)) (cmp : ∀ o a b, A a → A b → A (.cmp o a b))
    (and : ∀ a b, A a → A b → A (.and a b)) (or : ∀ a b, A a → A b → A (.or a b))
    (not : ∀ a, A a → A (.not a)) (un : ∀ o a, A a → A (.un o a)) (len : ∀ a, A a → A (.len a))
    (cat : ∀ a b, A a → A b → A (.cat a b)) (index : ∀ a b, A a → A b → A (.index a b))
    (call : ∀ f as, A f → (∀ a ∈ as.args, A a) → A (.call f as))
    (mcall : ∀ o k as, A o → (∀ a ∈ as.args, A a) → A (.mcall o k as)) (anil : A .anil)
    (acons : ∀ a r, A (.acons a r)) (aopen : ∀ f as, A (.aopen f as)) (amopen : ∀ o k as, A (.amopen o k as)) (e : E) : A e := by
  have key : ∀ e : E, A e ∧ ∀ a ∈ e.args, A a := by
    intro e
    induction e using E.rec with
    | nil => exact ⟨nil, by simp [E.args]⟩
    | tru => exact ⟨tru, by simp [E.args]⟩
    | fls => exact ⟨fls, by simp [E.args]⟩
    | int i => exact ⟨int i, by simp [E.args]⟩
    | flt x => exact ⟨flt x, by simp [E.args]⟩
    | str s => exact ⟨str s, by simp [E.args]⟩
    | loc r => exact ⟨loc r, by simp [E.args]⟩
    | up u => exact ⟨up u, by simp [E.args]⟩
    | tnew => exact ⟨tnew, by simp [E.args]⟩
    | func i => exact ⟨func i, by simp [E.args]⟩
    | paren a ih => exact ⟨paren a ih.1, by simp [E.args]⟩
    | bin o a b ia ib => exact ⟨bin o a b ia.1 ib.1, by simp [E.args]⟩
    | cmp o a b ia ib => exact ⟨cmp o a b ia.1 ib.1, by simp [E.args]⟩
    | and a b ia ib => exact ⟨and a b ia.1 ib.1, by simp [E.args]⟩
    | or a b ia ib => exact ⟨or a b ia.1 ib.1, by simp [E.args]⟩
    | not a ia => exact ⟨not a ia.1, by simp [E.args]⟩
    | un o a ia => exact ⟨un o a ia.1, by simp [E.args]⟩
    | len a ia => exact ⟨len a ia.1, by simp [E.args]⟩
    | cat a b ia ib => exact ⟨cat a b ia.1 ib.1, by simp [E.args]⟩
    | index a b ia ib => exact ⟨index a b ia.1 ib.1, by simp [E.args]⟩
    | call f as ia ib => exact ⟨call f as ia.1 ib.2, by simp [E.args]⟩
    | mcall o k as ia ib => exact ⟨mcall o k as ia.1 ib.2, by simp [E.args]⟩
    | anil => exact ⟨anil, by simp [E.args]⟩
    | acons a r ia ib => exact ⟨acons a r, by simpa [E.args] using ⟨ia.1, ib.2⟩⟩
    | aopen f as ia ib => exact ⟨aopen f as, by simpa [E.args] using ⟨ia.1, ib.2⟩⟩
    | amopen o k as ia ib => exact ⟨amopen o k as, by simpa [E.args] using ⟨ia.1, ib.2⟩⟩
  exact (key e).1

/-- induction on argument lists -/
theorem E.indArgs {B : E → Prop} (anil : B .anil) (acons : ∀ a r, B r → B (.acons a r))
    (aopen : ∀ f as, B as → B (.aopen f as)) (amopen : ∀ o k as, B as → B (.amopen o k as))
    (other : ∀ e, e ≠ .anil → (∀ a r, e ≠ .acons a r) → (∀ f as, e ≠ .aopen f as) → (∀ o k as, e ≠ .amopen o k as) → B e) (e : E) : B e := by
  induction e using E.rec with
  | anil => exact anil
  | acons a r ia ib => exact acons a r ib
  | aopen f as ia ib => exact aopen f as ib
  | amopen o k as ia ib => exact amopen o k as ib
  | _ => exact other _ (fun h => nomatch h) (fun _ _ h => nomatch h) (fun _ _ h => nomatch h) (fun _ _ _ h => nomatch h)

/-- first operand of an arithmetic operator, lcode.c 1667-1675 -/
def infixArith (s : FS) (d : D) : Res (FS × D) :=
  match d.numeral with
  | some _ => .ok (s, d)
  | none => do
    let (s, d, _) ← exp2RK s d
    return (s, d)

/-- `luaK_posfix` for arithmetic, lcode.c 1744-1750 -/
def posfixArith (F : FOps) (s : FS) (o : BOp) (d1 d2 : D) : Res (FS × D) := do
  match ← foldD F (.b o) d1 d2 with
  | some r => return (s, numD r)
  | none => codebin s o d1 d2

/-- `codeunexpval` for `-` and `~`, lcode.c 1303-1346 -/
def codeun (s : FS) (o : UOp) (d : D) : Res (FS × D) := do
  let (s, d, r) ← exp2anyreg s d
  let s := freeexp s d
  return (emit s (.set 0 (.un o r)), { d with kind := .reloc s.pc, tm := unTm o d.tm })

/-- `luaK_prefix` for `-` and `~`, lcode.c 1630-1637 -/
def prefixUn (F : FOps) (s : FS) (o : UOp) (d : D) : Res (FS × D) := do
  match ← foldD F (.u o) d { kind := .kint 0, tm := tANY } with
  | some r => return (s, numD r)
  | none => codeun s o d

/-- `codeunexpval` for `#`, lcode.c 1314-1331; the case of an expression that is known to be a table or
array (which adds `OP_RAVI_TOINT`) is left out -/
def codelen (s : FS) (d : D) : Res (FS × D) := do
  let (s, d, r) ← exp2anyreg s d
  let s := freeexp s d
  let s' := emit s (.set 0 (.len r))
  if sub d.tm (tIARR ||| tFARR ||| tSTR) then
    return (s', { d with kind := .reloc s.pc, tm := tINT })
  else if sub d.tm (tIARR ||| tFARR ||| tSTR ||| tTAB) then .err "not modelled"
  else return (s', { d with kind := .reloc s.pc, tm := tANY })

/-- `codecomp`, lcode.c 1481-1511; the register or constant of the first operand -/
def codecomp (s : FS) (o : Cmp) (d1 : D) (rk1 : RK) (d2 : D) : Res (FS × D) := do
  let (s, d2, rk2) ← exp2RK s d2
  let s := freeexps s d1 d2
  let (s', _) := condjump s (o.instr rk1 rk2)
  return (s', { d1 with kind := .jmp (s.pc + 1), tm := tBOOL })

/-- type map of `a and b`, lcode.c 1698-1702 -/
def andTm (a b : TM) : TM := if a &&& tTRUISH != 0 then b ||| (a &&& tFALSISH) else a &&& tFALSISH

/-- type map of `a or b`, lcode.c 1714-1718 -/
def orTm (a b : TM) : TM := if a &&& tFALSISH != 0 then b ||| (a &&& tTRUISH) else a &&& tTRUISH

/-- type map of `a .. b`, lcode.c 1437-1443 -/
def catTm (a b : TM) : TM := if sub a (tSTR ||| tINT ||| tFLT) && sub b (tSTR ||| tINT ||| tFLT) then tSTR else tANY

/-- `SETARG_B` on a `CONCAT`, lcode.c 1728 -/
def Instr.setB (i : Instr) (r : Nat) : Instr :=
  match i with
  | .set a (.concat _ c) => .set a (.concat r c)
  | i => i

/-- `luaK_posfix` for `..`, lcode.c 1722-1744, with `codebinexpval` 1357-1363, 1435-1444; `r1` is the
register of the first operand -/
def posfixCat (s : FS) (d1 : D) (r1 : Nat) (d2 : D) : Res (FS × D) := do
  let (s, d2) ← exp2val s d2
  let merge : Option (Nat × Nat) := match d2.kind with
    | .reloc pc => match s.code[pc]? with
      | some (.set _ (.concat _ c)) => some (pc, c)
      | _ => none
    | _ => none
  match merge with
  | some (pc, c) =>
    let s := freeexp s d1
    return ({ s with code := s.code.modify pc (·.setB r1) },
      { d1 with kind := .reloc pc, tm := if d2.tm = tSTR ∧ sub d1.tm (tSTR ||| tINT ||| tFLT) then tSTR else tANY })
  | none => do
    let (s, d2, r2) ← exp2nextreg s d2
    let s := freeexps s d1 d2
    return (emit s (.set 0 (.concat r1 r2)), { d1 with kind := .reloc s.pc, tm := catTm d1.tm d2.tm })

/-- `luaK_exp2anyregup`, lcode.c 820-823 -/
def exp2anyregup (s : FS) (d : D) : Res (FS × D) :=
  match d.kind, d.hasjumps with
  | .up _, false => .ok (s, d)
  | _, _ => do
    let (s, d, _) ← exp2anyreg s d
    return (s, d)

/-- `luaK_indexed`, lcode.c 1241-1249 -/
def indexed (s : FS) (d1 d2 : D) : Res (FS × D) := do
  let (s, _, rk) ← exp2RK s d2
  match d1.kind with
  | .up u => return (s, { d1 with kind := .indexup u rk })
  | .nonreloc r => return (s, { d1 with kind := .indexed r rk })
  | _ => .ub

/-- calls that pass on all their results, the innermost first: its register and the number of its arguments,
and the registers of the others -/
abbrev OpenCall := Nat × Nat × List Nat

/-- the call of the function in `base`, lparser.c 1558-1567 -/
def callOf (s : FS) (base : Nat) : Option OpenCall → OpenCall
  | none => (base, s.freereg - (base + 1), [])
  | some (a, n, l) => (a, n, l ++ [base])

/-- the end of `funcargs`, lparser.c 1567-1570, for one result -/
def endcall (s : FS) (base : Nat) (o : Option OpenCall) : FS × D :=
  let (a, n, l) := callOf s base o
  ({ emit s (.call a n l 1) with freereg := base + 1 }, { kind := .nonreloc base, tm := tANY })

/-- `luaK_self`, lcode.c 1074-1100, with the constant `i` as key; the register of the function.  (The two specialised
instructions for string keys do the same as `OP_SELF`.) -/
def selfOp (s : FS) (d : D) (i : Nat) : Res (FS × Nat) := do
  let (s, d, r) ← exp2anyreg s d
  let s := freeexp s d
  let base := s.freereg
  let s ← reserve s 2
  let (s, dk, rk) ← exp2RK s { kind := .k i, tm := tSTR }
  return (freeexp (emit s (.self base r rk)) dk, base)

mutual
/-- `subexpr` (lparser.c 1772-1815) on a parsed expression: `simpleexp`, `luaK_prefix`, `luaK_infix` and
`luaK_posfix` -/
def gen (F : FOps) (fixed : Bool) : E → FS → Res (FS × D)
  | .nil, s => .ok (s, { kind := .nil, tm := tNIL })
  | .tru, s => .ok (s, { kind := .tru, tm := tTRUE })
  | .fls, s => .ok (s, { kind := .fls, tm := tFALSE })
  | .int i, s => .ok (s, { kind := .kint i, tm := tINT })
  | .flt x, s => .ok (s, { kind := .kflt x, tm := tFLT })
  | .str b, s =>
    let (s, i) := addK s (.str b)
    .ok (s, { kind := .k i, tm := tSTR })
  | .loc r, s => .ok (s, { kind := .loc r, tm := tANY })
  | .up u, s => .ok (s, { kind := .up u, tm := tANY })
  | .tnew, s => do                       -- `constructor`, lparser.c 1188-1200, without fields
    let s' := emit s (.set 0 .newtable)
    let (s, d, _) ← exp2nextreg s' { kind := .reloc s.pc, tm := tTAB }
    return (s, d)
  | .func i, s => do                     -- `codeclosure`, lparser.c 967-986
    let s' := emit s (.set 0 (.closure i))
    let (s, d, _) ← exp2nextreg s' { kind := .reloc s.pc, tm := tFUN }
    return (s, d)
  | .paren a, s => do                    -- `primaryexp`, lparser.c 1583-1602
    let (s, d) ← gen F fixed a s
    return dischargevars s d
  | .bin o a b, s => do
    let (s, d1) ← gen F fixed a s
    let (s, d1) ← infixArith s d1
    let (s, d2) ← gen F fixed b s
    posfixArith F s o d1 d2
  | .cmp o a b, s => do
    let (s, d1) ← gen F fixed a s
    let (s, d1, rk1) ← exp2RK s d1
    let (s, d2) ← gen F fixed b s
    codecomp s o d1 rk1 d2
  | .and a b, s => do
    let (s, d1) ← gen F fixed a s
    let (s, d1) ← goiftrue fixed s d1
    let (s, d2) ← gen F fixed b s
    let (s, d2) := dischargevars s d2
    return (s, { d2 with f := d2.f ++ d1.f, tm := andTm d1.tm d2.tm })
  | .or a b, s => do
    let (s, d1) ← gen F fixed a s
    let (s, d1) ← goiffalse fixed s d1
    let (s, d2) ← gen F fixed b s
    let (s, d2) := dischargevars s d2
    return (s, { d2 with t := d2.t ++ d1.t, tm := orTm d1.tm d2.tm })
  | .not a, s => do
    let (s, d) ← gen F fixed a s
    codenot s d
  | .un o a, s => do
    let (s, d) ← gen F fixed a s
    prefixUn F s o d
  | .len a, s => do
    let (s, d) ← gen F fixed a s
    codelen s d
  | .cat a b, s => do
    let (s, d1) ← gen F fixed a s
    let (s, d1, r1) ← exp2nextreg s d1
    let (s, d2) ← gen F fixed b s
    posfixCat s d1 r1 d2
  | .index a b, s => do                  -- `suffixedexp`, lparser.c 1605-1640; `yindex` 1085-1092
    let (s, d1) ← gen F fixed a s
    let (s, d1) ← exp2anyregup s d1
    let (s, d2) ← gen F fixed b s
    let (s, d2) ← exp2val s d2
    indexed s d1 d2
  | .call f as, s => do                  -- `suffixedexp`, lparser.c 1632-1636; `funcargs` 1529-1571
    let (s, d) ← gen F fixed f s
    let (s, _, base) ← exp2nextreg s d
    let (s, o) ← genArgs F fixed as s
    return endcall s base o
  | .mcall e k as, s => do               -- lparser.c 1624-1631
    let (s, d) ← gen F fixed e s
    let (s, i) := addK s (.str k)        -- `checkname`
    let (s, base) ← selfOp s d i
    let (s, o) ← genArgs F fixed as s
    return endcall s base o
  | .anil, _ | .acons .., _ | .aopen .., _ | .amopen .., _ => .ub

/-- the arguments of `funcargs`, lparser.c 1529-1566, with `explist` 1393-1403; if the last one is a call, the
call, which has still to be made -/
def genArgs (F : FOps) (fixed : Bool) : E → FS → Res (FS × Option OpenCall)
  | .anil, s => .ok (s, none)
  | .acons a r, s => do
    let (s, d) ← gen F fixed a s
    let (s, _, _) ← exp2nextreg s d
    genArgs F fixed r s
  | .aopen f as, s => do
    let (s, d) ← gen F fixed f s
    let (s, _, base) ← exp2nextreg s d
    let (s, o) ← genArgs F fixed as s
    return ({ s with freereg := base + 1 }, some (callOf s base o))
  | .amopen e k as, s => do
    let (s, d) ← gen F fixed e s
    let (s, i) := addK s (.str k)
    let (s, base) ← selfOp s d i
    let (s, o) ← genArgs F fixed as s
    return ({ s with freereg := base + 1 }, some (callOf s base o))
  | _, _ => .ub
end

/-- `luaK_storevar` to a local variable, lcode.c 1029-1034 -/
def storelocal (s : FS) (d : D) (r : Nat) : FS := (exp2reg (freeexp s d) d r).1

/-- expressions into consecutive registers: `explist` (lparser.c 1393-1403), whose last expression
`adjust_assign` (lparser.c 761) also puts into the next register -/
def genList (F : FOps) (fixed : Bool) : List E → FS → Res FS
  | [], s => .ok s
  | e :: es, s => do
    let (s, d) ← gen F fixed e s
    let (s, _, _) ← exp2nextreg s d
    genList F fixed es s

/-- the number of expressions in a list, `explist`, lparser.c 1393-1403 -/
def E.exps : E → Nat
  | .acons _ r => r.exps + 1
  | .aopen .. | .amopen .. => 1
  | _ => 0

/-- `n` values from a list of expressions that ends with a call: `explist`, and `adjust_assign` (lparser.c 750-771) or
`localvar_adjust_assign` (715-748) -/
def genMulti (F : FOps) (fixed : Bool) (as : E) (n : Nat) (s : FS) : Res FS := do
  let (s, o) ← genArgs F fixed as s
  match o with
  | none => .ub
  | some (a, k, l) =>
    let want := n + 1 - as.exps
    let s ← reserve (emit s (.call a k l want)) (want - 1)
    return { s with freereg := s.freereg - (as.exps - n) }

/-- the state at the start of a function (`open_func`, lparser.c 990-1015) with `n` parameters, or where
`n` variables are active; `k` are the constants so far -/
def FS.start (n : Nat) (k : List Val) : FS :=
  { code := [], jpc := [], lasttarget := 0, freereg := n, nactvar := n, k := k }

/-! ### running the code -/

/-- Registers -/
abbrev Regs := Nat → Val

def Regs.set (R : Regs) (a : Nat) (v : Val) : Regs := fun x => if x = a then v else R x

/-- `RK(x)` -/
def RK.get (k : List Val) (R : Regs) : RK → Val
  | .reg r => R r
  | .const i => k.getD i .nil

/-- `OP_CONCAT`: the operands in `b` .. `b + n`, from the right (C46 is about `luaV_concat`) -/
def catRange (P : Ops W) (R : Regs) : Nat → Nat → W → Res (Val × W)
  | b, 0, w => .ok (R b, w)
  | b, n + 1, w => do
    let (v, w) ← catRange P R (b + 1) n w
    P.cat (R b) v w

/-- the value an instruction computes, lvm.c 1410-1700 -/
def Src.value (P : Ops W) (k : List Val) (x : Src) (R : Regs) (w : W) : Res (Val × W) :=
  match x with
  | .move b => .ok (R b, w)
  | .loadk i => .ok (k.getD i .nil, w)
  | .getupval u => .ok (P.up u w, w)
  | .newtable => .ok (P.tnew w)
  | .closure i => .ok (P.func i w)
  | .bin o x y => P.binV o (x.get k R) (y.get k R) w
  | .un o b => P.unV o (R b) w
  | .len b => P.len (R b) w
  | .not b => .ok (.bool (!(R b).truthy), w)
  | .gettable t x => P.index (R t) (x.get k R) w
  | .gettabup u x => P.index (P.up u w) (x.get k R) w
  | .concat b c => catRange P R b (c - b) w

/-- `OP_CALL` (lvm.c 1770-1800) of the function in `a` with the arguments up to `top`, all results wanted: they are
where the function was, and the new `top` is after them -/
def callAt (P : Ops W) (R : Regs) (a top : Nat) (w : W) : Res (Regs × Nat × W) :=
  match P.call (R a) ((List.range' (a + 1) (top - (a + 1))).map R) w with
  | .ok (vs, w) => .ok (fun r => if r < a then R r else vs.getD (r - a) (P.junk r w), a + vs.length, w)
  | .err m => .err m
  | .ub => .ub

/-- calls, one after the other, each with the results of the one before as last arguments -/
def callChain (P : Ops W) : Nat → List Nat → Regs → Nat → W → Res (Regs × Nat × W)
  | a, [], R, top, w => callAt P R a top w
  | a, b :: l, R, top, w =>
    match callAt P R a top w with
    | .ok (R, top, w) => callChain P b l R top w
    | .err m => .err m
    | .ub => .ub

/-- `moveresults` with `want` results (ldo.c 350-395; fast C functions, which leave other
results, are the subject of C47); the registers above are undefined -/
def results (P : Ops W) (R : Regs) (b top : Nat) (want : Nat) (w : W) : Regs := fun r =>
  if r < b then R r
  else if r < b + want then (if r < top then R r else .nil)
  else P.junk r w

/-- the stores, lvm.c 1440-1530 -/
def Eff.effect (P : Ops W) (k : List Val) (x : Eff) (R : Regs) (w : W) : Res W :=
  match x with
  | .settable t i v => P.setindex (R t) (i.get k R) (v.get k R) w
  | .settabup u i v => P.setindex (P.up u w) (i.get k R) (v.get k R) w
  | .setupval u b => .ok (P.setup u (R b) w)

/-- how the registers change, and where execution continues: `pc + 1 + n` (a test that holds continues
with the jump after it, one that does not skips the jump), lvm.c 1410-1770 -/
def Instr.exec (P : Ops W) (k : List Val) (i : Instr) (R : Regs) (w : W) : Res (Nat × Regs × W) :=
  match i with
  | .set a x =>
    match x.value P k R w with
    | .ok (v, w) => .ok (0, R.set a v, w)
    | .err m => .err m
    | .ub => .ub
  | .loadbool a b skip => .ok (if skip then 1 else 0, R.set a (.bool b), w)
  | .loadnil a n => .ok (0, fun r => if a ≤ r ∧ r ≤ a + n then .nil else R r, w)
  | .rel o a x y =>
    match P.rel o (x.get k R) (y.get k R) w with
    | .ok (r, w) => .ok (if r = a then 0 else 1, R, w)
    | .err m => .err m
    | .ub => .ub
  | .test a c => .ok (if (R a).truthy = c then 0 else 1, R, w)
  | .testset a b c =>
    if (R b).truthy = c then
      .ok (0, match a with | some r => R.set r (R b) | none => R, w)
    else .ok (1, R, w)
  | .eff x =>
    match x.effect P k R w with
    | .ok w => .ok (0, R, w)
    | .err m => .err m
    | .ub => .ub
  | .forprep a =>
    match P.forprep (R a) (R (a + 1)) (R (a + 2)) with
    | .ok (i, l, s) => .ok (0, ((R.set a i).set (a + 1) l).set (a + 2) s, w)
    | .err m => .err m
    | .ub => .ub
  | .forloop a =>
    match P.forloop (R a) (R (a + 1)) (R (a + 2)) with
    | some i => .ok (0, (R.set a i).set (a + 3) i, w)
    | none => .ok (1, R, w)
  | .tforcall a n =>
    match P.call (R a) [R (a + 1), R (a + 2)] w with
    | .ok (vs, w) => .ok (0, fun r => if r < a + 3 then R r else if r < a + 3 + n then vs.getD (r - (a + 3)) .nil else P.junk r w, w)
    | .err m => .err m
    | .ub => .ub
  | .tforloop a =>
    if R (a + 1) = .nil then .ok (1, R, w) else .ok (0, R.set a (R (a + 1)), w)
  | .self a b c =>                       -- lvm.c 1499-1510
    match P.index (R b) (c.get k R) w with
    | .ok (v, w) => .ok (0, (R.set (a + 1) (R b)).set a v, w)
    | .err m => .err m
    | .ub => .ub
  | .call a n l want =>
    match callChain P a l R (a + 1 + n) w with
    | .ok (R, top, w) => .ok (0, results P R (l.getLastD a) top want w, w)
    | .err m => .err m
    | .ub => .ub
  | .jmp _ => .ub
  | .ret .. => .ub
  | .retcall .. => .ub

/-- how a piece of code is left -/
inductive Out (W : Type) where
  /-- at its end -/
  | fall (R : Regs) (w : W)
  /-- by the jump at `j`, whose destination is not decided yet -/
  | exit (j : Nat) (R : Regs) (w : W)

/-- run the code from `pc` on; jumps go forward only (a jump backwards or out of the code is `ub`) -/
def run (P : Ops W) (k : List Val) (c : List Instr) (pc : Nat) (R : Regs) (w : W) : Res (Out W) :=
  if h : pc < c.length then
    match c[pc] with
    | .jmp none => .ok (.exit pc R w)
    | .jmp (some t) => if pc < t then run P k c t R w else .ub
    | i =>
      match i.exec P k R w with
      | .ok (n, R, w) => run P k c (pc + 1 + n) R w
      | .err m => .err m
      | .ub => .ub
  else if pc = c.length then .ok (.fall R w)
  else .ub
termination_by c.length - pc

/-! ### the meaning of expressions -/

mutual
/-- `a and b` etc. as the reference manual defines them: the value of an expression, with locals in `L` -/
def eval (P : Ops W) (L : Nat → Val) : E → W → Res (Val × W)
  | .nil, w => .ok (.nil, w)
  | .tru, w => .ok (.bool true, w)
  | .fls, w => .ok (.bool false, w)
  | .int i, w => .ok (.num (.int i), w)
  | .flt x, w => .ok (.num (.flt x), w)
  | .str b, w => .ok (.str b, w)
  | .loc r, w => .ok (L r, w)
  | .up u, w => .ok (P.up u w, w)
  | .tnew, w => .ok (P.tnew w)
  | .func i, w => .ok (P.func i w)
  | .paren a, w => eval P L a w
  | .bin o a b, w => do
    let (x, w) ← eval P L a w
    let (y, w) ← eval P L b w
    P.binV o x y w
  | .cmp o a b, w => do
    let (x, w) ← eval P L a w
    let (y, w) ← eval P L b w
    match o with
    | .eq => do let (r, w) ← P.rel .eq x y w; return (.bool r, w)
    | .ne => do let (r, w) ← P.rel .eq x y w; return (.bool (!r), w)
    | .lt => do let (r, w) ← P.rel .lt x y w; return (.bool r, w)
    | .le => do let (r, w) ← P.rel .le x y w; return (.bool r, w)
    | .gt => do let (r, w) ← P.rel .lt y x w; return (.bool r, w)
    | .ge => do let (r, w) ← P.rel .le y x w; return (.bool r, w)
  | .and a b, w => do
    let (x, w) ← eval P L a w
    if x.truthy then eval P L b w else return (x, w)
  | .or a b, w => do
    let (x, w) ← eval P L a w
    if x.truthy then return (x, w) else eval P L b w
  | .not a, w => do
    let (x, w) ← eval P L a w
    return (.bool (!x.truthy), w)
  | .un o a, w => do
    let (x, w) ← eval P L a w
    P.unV o x w
  | .len a, w => do
    let (x, w) ← eval P L a w
    P.len x w
  | .cat a b, w => do
    let (x, w) ← eval P L a w
    let (y, w) ← eval P L b w
    P.cat x y w
  | .index (.up u) b, w => do            -- an upvalue is read after the key
    let (y, w) ← eval P L b w
    P.index (P.up u w) y w
  | .index a b, w => do
    let (x, w) ← eval P L a w
    let (y, w) ← eval P L b w
    P.index x y w
  | .call f as, w => do                  -- one result, nil if there is none
    let (x, w) ← eval P L f w
    let (vs, w) ← evalArgs P L as w
    let (rs, w) ← P.call x vs w
    return (rs.headD .nil, w)
  | .mcall o k as, w => do               -- the object is evaluated once, and is the first argument
    let (x, w) ← eval P L o w
    let (f, w) ← P.index x (.str k) w
    let (vs, w) ← evalArgs P L as w
    let (rs, w) ← P.call f (x :: vs) w
    return (rs.headD .nil, w)
  | .anil, _ | .acons .., _ | .aopen .., _ | .amopen .., _ => .ub

/-- the values of arguments: a call at the end stands for all its results -/
def evalArgs (P : Ops W) (L : Nat → Val) : E → W → Res (List Val × W)
  | .anil, w => .ok ([], w)
  | .acons a r, w => do
    let (v, w) ← eval P L a w
    let (vs, w) ← evalArgs P L r w
    return (v :: vs, w)
  | .aopen f as, w => do
    let (x, w) ← eval P L f w
    let (vs, w) ← evalArgs P L as w
    P.call x vs w
  | .amopen o k as, w => do
    let (x, w) ← eval P L o w
    let (f, w) ← P.index x (.str k) w
    let (vs, w) ← evalArgs P L as w
    P.call f (x :: vs) w
  | _, _ => .ub
end

/-- the values of a list of expressions, from left to right -/
def evalList (P : Ops W) (L : Nat → Val) : List E → W → Res (List Val × W)
  | [], w => .ok ([], w)
  | e :: es, w => do
    let (v, w) ← eval P L e w
    let (vs, w) ← evalList P L es w
    return (v :: vs, w)

end Verif.ExpCode
