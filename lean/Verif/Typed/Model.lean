import Verif.Base

/-!
# Static types and typed variables — lobject.h:58-118, lcode.c:583-1720, lparser.c:625-745, 1411-1535, lvm.c:1207-1248, 2068-2606

The code generator keeps a type map for every expression and trusts it: it chooses opcodes that read a number or a
pointer out of a register without looking at the tag, and it leaves out conversions.  The model follows an
expression through the code generator (`st`, the descriptor `expdesc` at each point) and through the machine (`ev`,
what the emitted code does).  The code of an expression is forward-only; the pending jumps of a descriptor are
represented by `Flow`: control either reaches the end of the emitted code or has left it with a jump of the list
`t` or `f` (with the value a `TESTSET` copies, or none).  What programs outside the function do — calls,
metamethods, contents of tables, other closures that share the variables — is an arbitrary `World`.

Reading the number or pointer of a value of another type is undefined (`Res.ub`).
-/
namespace Verif.Typed

/-- `ravi_type_map` — lobject.h:73. -/
abbrev TM := BitVec 32

/-- lobject.h:58-100 -/
def tNIL : TM := 1#32
def tFALSE : TM := 2#32
def tTRUE : TM := 4#32
def tINT : TM := 8#32
def tFLT : TM := 16#32
def tIARR : TM := 32#32
def tFARR : TM := 64#32
def tTAB : TM := 128#32
def tSTR : TM := 256#32
def tFUN : TM := 512#32
def tUD : TM := 1024#32
def tFALSISH : TM := tNIL ||| tFALSE
def tTRUISH : TM := ~~~tFALSISH
def tBOOL : TM := tFALSE ||| tTRUE
def tNUM : TM := tINT ||| tFLT
def tSTRN : TM := tSTR ||| tNIL
def tFUNN : TM := tFUN ||| tNIL
def tUDN : TM := tUD ||| tNIL
def tANY : TM := ~~~(0#32)

/-- `(a & ~b) == 0` -/
def sub (a b : TM) : Bool := a &&& ~~~b == 0#32

/-- Values with the tags that matter here; floats by their bits. `cfn` are light and fast C functions. -/
inductive Val
  | nil | bool (b : Bool) | int (i : Int) | flt (n : Nat) | iarr (id : Nat) | farr (id : Nat) | tab (id : Nat)
  | str (s : String) | clos (id : Nat) | udata (id : Nat) | cfn (id : Nat) | other (id : Nat)
deriving DecidableEq, Repr

/-- The bit of a value's type — lobject.h:58-71. -/
def Val.ti : Val → Nat
  | .nil => 0 | .bool false => 1 | .bool true => 2 | .int _ => 3 | .flt _ => 4 | .iarr _ => 5 | .farr _ => 6
  | .tab _ => 7 | .str _ => 8 | .clos _ => 9 | .udata _ => 10 | .cfn _ => 11 | .other _ => 11

/-- Values that can have a metatable of their own — lvm.c:1228-1241. -/
def Val.indexable : Val → Bool
  | .iarr _ | .farr _ | .tab _ | .udata _ => true
  | _ => false

/-- The value belongs to the type map. A variable of a user type holds a userdata, table or array with that
metatable (raviV_check_usertype). -/
def has (t : TM) (v : Val) : Bool := t.getLsbD v.ti || (t.getLsbD 10 && v.indexable)

/-- `l_isfalse` -/
def Val.falsy : Val → Bool
  | .nil | .bool false => true
  | _ => false

/-- The annotations and type assertions: `integer`, `number`, `integer[]`, `number[]`, `table`, `string`, `closure`,
a user type — lparser.c:1258-1299, 1720-1737. -/
inductive Ann
  | int | num | iarr | farr | tab | str | clos | typ (name : String)
deriving DecidableEq, Repr

/-- The type map of an annotation. -/
def Ann.tm : Ann → TM
  | .int => tINT | .num => tFLT | .iarr => tIARR | .farr => tFARR | .tab => tTAB | .str => tSTRN | .clos => tFUNN
  | .typ _ => tUDN

/-- The declared type of a variable; without annotation `any`. -/
abbrev Decl := Option Ann

/-- `ravi_type_map` of a variable. -/
def declTm : Decl → TM
  | none => tANY
  | some a => a.tm

/-- Binary operators that produce values. -/
inductive Bin
  | add | sub | mul | div | idiv | mod | pow | band | bor | bxor | shl | shr | concat
deriving DecidableEq, Repr

/-- Comparisons. -/
inductive Cmp
  | eq | ne | lt | le | gt | ge
deriving DecidableEq, Repr

/-- Unary operators of `codeunexpval`. -/
inductive Un
  | neg | bnot | len
deriving DecidableEq, Repr

/-- Expressions. The operands of calls and the fields of constructors are left out: they have no influence on the
type of the whole. -/
inductive E
  | nil | tru | fls | int (i : Int) | flt (n : Nat) | str (s : String)
  | loc (n : Nat) | up (n : Nat)
  | call | dots | tnew | func
  | paren (a : E)
  | index (t k : E)
  | bin (o : Bin) (a b : E)
  | cmp (o : Cmp) (a b : E)
  | and (a b : E) | or (a b : E) | not (a : E)
  | un (o : Un) (a : E)
  | cast (c : Ann) (a : E)
deriving Repr

/-- `expkind` — lparser.h:24-52. `VINDEXED` records whether the table is an upvalue, the type map of the key and whether the key
is a short string constant; `VRELOCABLE` whether the instruction is `OP_NOT`; `VNONRELOC` the local variable whose
register it is, if any. -/
inductive Kind
  | nil | tru | fls | k (s : String) | kint (i : Int) | kflt (n : Nat)
  | loc (n : Nat) | up (n : Nat)
  | indexed (up : Bool) (ktm : TM) (short : Bool)
  | call | dots
  | reloc (isNot : Bool)
  | nonreloc (l : Option Nat)
  | jmp
deriving DecidableEq, Repr

/-- The field `pc`: none (-1), an `OP_NEWTABLE`, or one that has been changed to a typed array. -/
inductive Pc
  | none | fresh | patched
deriving DecidableEq, Repr

/-- `expdesc` — lparser.h:60-85; `jt`, `jf`: the jump lists are not empty. -/
structure D where
  k : Kind
  tm : TM
  ut : Option String := none
  pc : Pc := .none
  jt : Bool := false
  jf : Bool := false
deriving DecidableEq, Repr

/-- The variables in scope and the upvalues. -/
structure Env where
  loc : List Decl
  up : List Decl

/-- `hasjumps` — lcode.c:39. -/
def D.hasjumps (d : D) : Bool := d.jt || d.jf

/-- The type of an element — lcode.c:622-628. -/
def idxTm (t : TM) : TM :=
  if !sub t (tIARR ||| tFARR) then tANY
  else (if t &&& tIARR ≠ 0#32 then tINT else 0#32) ||| (if t &&& tFARR ≠ 0#32 then tFLT else 0#32)

/-- `luaK_dischargevars` — lcode.c:583-642. -/
def disch (d : D) : D :=
  match d.k with
  | .loc n => { d with k := .nonreloc (some n) }
  | .up _ => { d with k := .reloc false }
  | .indexed _ _ _ => { d with k := .reloc false, tm := idxTm d.tm }
  | .call => { d with k := .nonreloc none }
  | .dots => { d with k := .reloc false }
  | _ => d

/-- `luaK_exp2anyreg` — lcode.c:806-819. -/
def anyreg (d : D) : D :=
  let d := disch d
  match d.k with
  | .nonreloc _ => if d.hasjumps then { d with k := .nonreloc none, jt := false, jf := false } else d
  | _ => { d with k := .nonreloc none, jt := false, jf := false }

/-- `luaK_exp2val` — lcode.c:836-841. -/
def exp2val (d : D) : D := if d.hasjumps then anyreg d else disch d

/-- `luaK_exp2RK` — lcode.c:844-862; constants stay constants. -/
def exp2rk (d : D) : D :=
  let d := exp2val d
  match d.k with
  | .nil | .tru | .fls | .k _ | .kint _ | .kflt _ => d
  | _ => anyreg d

/-- The types of arithmetic operations — lcode.c:1353-1424. `ii` is the type for two integers. -/
def arithTm (ii t1 t2 : TM) : TM :=
  if t1 = tFLT ∧ (t2 = tFLT ∨ t2 = tINT) then tFLT
  else if t1 = tINT ∧ t2 = tFLT then tFLT
  else if t1 = tINT ∧ t2 = tINT then ii
  else if sub t1 tNUM ∧ sub t2 tNUM then (if t1 &&& t2 &&& tINT ≠ 0#32 then tFLT ||| ii else tFLT)
  else tANY

/-- `codebinexpval` — lcode.c:1345-1445. -/
def binTm : Bin → TM → TM → TM
  | .add, a, b | .sub, a, b | .mul, a, b | .idiv, a, b | .mod, a, b => arithTm tINT a b
  | .div, a, b | .pow, a, b => arithTm tFLT a b
  | .band, a, b | .bor, a, b | .bxor, a, b | .shl, a, b | .shr, a, b =>
    if a = tINT ∧ b = tINT then tINT else if sub a tNUM ∧ sub b tNUM then tINT else tANY
  | .concat, a, b => if sub a (tSTR ||| tINT ||| tFLT) ∧ sub b (tSTR ||| tINT ||| tFLT) then tSTR else tANY

/-- `codeunexpval` — lcode.c:1302-1342. -/
def unTm : Un → TM → TM
  | .bnot, t => if t = tINT then tINT else if t = tFLT then tINT else tANY
  | .len, t => if sub t (tIARR ||| tFARR ||| tSTR) then tINT
    else if sub t (tIARR ||| tFARR ||| tSTR ||| tTAB) then tINT else tANY
  | .neg, t => if sub t tNUM then t else tANY

/-- The conversion `#t` is followed by `TOINT` — lcode.c:1318-1330. -/
def lenConv (t : TM) : Bool := !sub t (tIARR ||| tFARR ||| tSTR) && sub t (tIARR ||| tFARR ||| tSTR ||| tTAB)

/-- `luaK_goiftrue` leaves a jump in the list `f` — lcode.c:1137-1165. -/
def gtJump (d : D) : Bool :=
  match (disch d).k with
  | .jmp => true
  | .k _ | .kflt _ | .kint _ | .tru => false
  | _ => (disch d).tm &&& tFALSISH ≠ 0#32

/-- `luaK_goiffalse` leaves a jump in the list `t` — lcode.c:1168-1198. -/
def gfJump (d : D) : Bool :=
  match (disch d).k with
  | .jmp => true
  | .nil | .fls => false
  | _ => (disch d).tm &&& tTRUISH ≠ 0#32

/-- `luaK_posfix` for `and` — lcode.c:1694-1705. -/
def andD (a b : D) : D :=
  let a' := disch a
  let b := disch b
  { b with
    tm := if a'.tm &&& tTRUISH ≠ 0#32 then b.tm ||| (a'.tm &&& tFALSISH) else a'.tm &&& tFALSISH
    jf := b.jf || a.jf || gtJump a }

/-- `luaK_posfix` for `or` — lcode.c:1706-1721. -/
def orD (a b : D) : D :=
  let a' := disch a
  let b := disch b
  { b with
    ut := if a'.tm &&& b.tm &&& tUD ≠ 0#32 ∧ a'.ut ≠ b.ut then none else b.ut
    tm := if a'.tm &&& tFALSISH ≠ 0#32 then b.tm ||| (a'.tm &&& tTRUISH) else a'.tm &&& tTRUISH
    jt := b.jt || a.jt || gfJump a }

/-- `codenot` — lcode.c:1204-1234. -/
def notD (d : D) : D :=
  let d := disch d
  { d with
    k := match d.k with
      | .nil | .fls => .tru
      | .k _ | .kflt _ | .kint _ | .tru => .fls
      | .jmp => .jmp
      | _ => .reloc true
    tm := (if d.tm &&& tTRUISH ≠ 0#32 then tFALSE else 0#32) ||| (if d.tm &&& tFALSISH ≠ 0#32 then tTRUE else 0#32)
    jt := d.jf, jf := d.jt }

/-- What a type assertion does — lcode.c:1535-1616: error, nothing, change `OP_NEWTABLE`, or a conversion. -/
inductive CastAct
  | bad | skip | patch | conv
deriving DecidableEq, Repr

/-- `code_type_assertion` — lcode.c:1535-1616. -/
def castAct (c : Ann) (d : D) : CastAct :=
  let d := disch d
  match d.k with
  | .kflt _ => if c = .num then .skip else .bad
  | .kint _ => if c = .int then .skip else .bad
  | .k _ => if c = .str ∧ d.tm = tSTR then .skip else .bad
  | .reloc _ | .nonreloc _ =>
    match c with
    | .int | .num | .tab => if d.tm = c.tm then .skip else .conv
    | .iarr | .farr =>
      if d.tm = c.tm then .skip
      else if d.tm = tTAB ∧ d.pc ≠ .none then (if d.pc = .fresh then .patch else .skip)
      else .conv
    | .str | .clos => if sub d.tm c.tm then .skip else .conv
    | .typ _ => .conv
  | _ => .bad

/-- The descriptor after a type assertion. -/
def castD (c : Ann) (d : D) : D :=
  let d' := disch d
  let d' := match d'.k with
    | .reloc _ => { d' with k := .nonreloc none }
    | _ => d'
  match castAct c d with
  | .bad | .skip => d'
  | .patch => { d' with tm := c.tm, pc := .patched }
  | .conv => { d' with tm := c.tm, ut := match c with | .typ n => some n | _ => d'.ut }

/-- A short string constant: `isshortstr` — lcode.c:574-582; the index of the constant is taken to fit. -/
def shortK : Kind → Bool
  | .k s => s.utf8ByteSize ≤ 40
  | _ => false

/-- The code generator on an expression: the descriptor, or a syntax error. -/
def st (G : Env) : E → Option D
  | .nil => some ⟨.nil, tNIL, none, .none, false, false⟩
  | .tru => some ⟨.tru, tTRUE, none, .none, false, false⟩
  | .fls => some ⟨.fls, tFALSE, none, .none, false, false⟩
  | .int i => some ⟨.kint i, tINT, none, .none, false, false⟩
  | .flt n => some ⟨.kflt n, tFLT, none, .none, false, false⟩
  | .str s => some ⟨.k s, tSTR, none, .none, false, false⟩
  | .loc n => (G.loc[n]?).map fun t => ⟨.loc n, declTm t, match t with | some (.typ u) => some u | _ => none, .none, false, false⟩
  | .up n => (G.up[n]?).map fun t => ⟨.up n, declTm t, match t with | some (.typ u) => some u | _ => none, .none, false, false⟩
  | .call => some ⟨.call, tANY, none, .none, false, false⟩
  | .dots => some ⟨.dots, tANY, none, .none, false, false⟩
  | .tnew => some ⟨.nonreloc none, tTAB, none, .fresh, false, false⟩
  | .func => some ⟨.reloc false, tFUN, none, .none, false, false⟩
  | .paren a => (st G a).map disch
  | .index t k =>
    match st G t, st G k with
    | some dt, some dk =>
      let isup := match dt.k with | .up _ => !dt.hasjumps | _ => false
      let dt := if isup then dt else anyreg dt
      let dk := exp2val dk
      some ⟨.indexed isup dk.tm (shortK dk.k), dt.tm, dt.ut, dt.pc, false, false⟩
    | _, _ => none
  | .bin o a b =>
    match st G a, st G b with
    | some da, some db => some { exp2rk da with k := .reloc false, tm := binTm o (exp2rk da).tm (exp2rk db).tm, jt := false, jf := false }
    | _, _ => none
  | .cmp _ a b =>
    match st G a, st G b with
    | some da, some _ => some { exp2rk da with k := .jmp, tm := tBOOL, jt := false, jf := false }
    | _, _ => none
  | .and a b =>
    match st G a, st G b with
    | some da, some db => some (andD da db)
    | _, _ => none
  | .or a b =>
    match st G a, st G b with
    | some da, some db => some (orD da db)
    | _, _ => none
  | .not a => (st G a).map notD
  | .un o a => (st G a).map fun d => { anyreg d with
      k := if o = .len ∧ lenConv (anyreg d).tm then .nonreloc none else .reloc false, tm := unTm o (anyreg d).tm }
  | .cast c a =>
    match st G a with
    | some d => if castAct c d = .bad then none else some (castD c d)
    | none => none

/-! ## The machine -/

/-- What the rest of the world does: the outcome of operations that may run other code (`none`: an error), what that
code stores into the variables it shares with this function, elements of arrays, results of calls, and the
arithmetic of numbers. `numbit` is the outcome of a metamethod for bitwise operations on numbers, if numbers have been given one. -/
structure World where
  orc : Nat → Option Val
  shared : Nat → List Val × List Val
  elI : Nat → Option Int
  elF : Nat → Option Nat
  res : Nat → Option (List Val)
  dots : List Val
  numbit : Nat → Option Val
  toInt : Nat → Option Int
  ofInt : Int → Nat
  iop : Bin → Int → Int → Option Int
  fop : Bin → Nat → Nat → Nat
  rel : Nat → Bool
  isType : String → Val → Bool

/-- Registers of the local variables, upvalues, and a counter of the questions to the world. -/
structure St where
  regs : List Val
  ups : List Val
  n : Nat
deriving DecidableEq, Repr

/-- Other code may store into variables it shares, but its stores keep to the declared types. -/
def mix : List Decl → List Val → List Val → List Val
  | d :: ds, v :: vs, h :: hs => (if has (declTm d) h then h else v) :: mix ds vs hs
  | _, vs, _ => vs

/-- Other code runs. -/
def other (G : Env) (W : World) (s : St) : St :=
  ⟨mix G.loc s.regs (W.shared s.n).1, mix G.up s.ups (W.shared s.n).2, s.n + 1⟩

/-- An operation whose outcome is up to the world. -/
def ask (G : Env) (W : World) (s : St) : Res (Val × St) :=
  match W.orc s.n with
  | some v => .ok (v, other G W s)
  | none => .err "error"

/-- An operand: a value in a temporary register or a constant, a local variable, an upvalue, a pending access `t[k]`, a
comparison. -/
inductive Opd
  | val (v : Val) | loc (n : Nat) | up (n : Nat) | idx (t k : Opd) | cond (b : Bool)
deriving DecidableEq, Repr

/-- Where control is after the code of an expression: at its end, or out by a jump of the list `t` (`true`) or `f`,
with the value of a `TESTSET` or without. -/
inductive Flow
  | thru (o : Opd)
  | out (b : Bool) (v : Option Val)
deriving DecidableEq, Repr

/-- Read a register. -/
def rd (s : St) : Opd → Res Val
  | .val v => .ok v
  | .cond b => .ok (.bool b)
  | .loc n => match s.regs[n]? with | some v => .ok v | none => .ub
  | .up n => match s.ups[n]? with | some v => .ok v | none => .ub
  | .idx _ _ => .ub

/-- `ivalue` -/
def ivalue : Val → Res Int
  | .int i => .ok i
  | _ => .ub

/-- `fltvalue` -/
def fltvalue : Val → Res Nat
  | .flt n => .ok n
  | _ => .ub

/-- `raviH_get_int_inline` — lvm.c, C12: the element or an error. -/
def getI (W : World) (s : St) : Res (Val × St) :=
  match W.elI s.n with | some i => .ok (.int i, { s with n := s.n + 1 }) | none => .err "array out of bounds"

/-- `raviH_get_float_inline`. -/
def getF (W : World) (s : St) : Res (Val × St) :=
  match W.elF s.n with | some i => .ok (.flt i, { s with n := s.n + 1 }) | none => .err "array out of bounds"

/-- `OP_GETTABLE`, `OP_GETTABUP`, `OP_RAVI_GETFIELD`, `OP_RAVI_GETTABUP_SK` — lvm.c:293-322, 357-369: arrays need an integer key. -/
def getGen (G : Env) (W : World) (t k : Val) (s : St) : Res (Val × St) :=
  match t, k with
  | .iarr _, .int _ => getI W s
  | .farr _, .int _ => getF W s
  | .iarr _, _ | .farr _, _ => .err "index"
  | _, _ => ask G W s

/-- The access of a `VINDEXED` — lcode.c:594-618 and lvm.c:2222-2307: `OP_RAVI_FARRAY_GET`, `OP_RAVI_IARRAY_GET`,
`OP_RAVI_GETI`, `OP_RAVI_TABLE_GETFIELD` trust the types. -/
def getOp (G : Env) (W : World) (isup : Bool) (ktm : TM) (short : Bool) (ttm : TM) (t k : Val) (s : St) : Res (Val × St) :=
  if isup then getGen G W t k s
  else if ktm = tINT then do
    let _ ← ivalue k
    if ttm = tFARR then (match t with | .farr _ => getF W s | _ => .ub)
    else if ttm = tIARR then (match t with | .iarr _ => getI W s | _ => .ub)
    else getGen G W t k s
  else if ktm = tSTR ∧ short ∧ ttm = tTAB then (match t with | .tab _ => ask G W s | _ => .ub)
  else getGen G W t k s

/-- `luaK_dischargevars` at run time. -/
def dischR (G : Env) (W : World) (d : D) (o : Opd) (s : St) : Res (Opd × St) :=
  match o with
  | .up n => do
    let v ← rd s (.up n)
    pure (.val v, s)
  | .idx t k =>
    match d.k with
    | .indexed isup ktm short => do
      let vt ← rd s t
      let vk ← rd s k
      let (v, s) ← getOp G W isup ktm short d.tm vt vk s
      pure (.val v, s)
    | _ => .ub
  | o => .ok (o, s)

/-- The value of the whole expression, jumps included, in a temporary register: `exp2reg` — lcode.c:769-791. -/
def settle (G : Env) (W : World) (d : D) (f : Flow) (s : St) : Res (Val × St) :=
  match f with
  | .thru o => do
    let (o, s) ← dischR G W d o s
    let v ← rd s o
    pure (v, s)
  | .out _ (some v) => .ok (v, s)
  | .out b none => .ok (.bool b, s)

/-- `luaK_exp2RK`, `luaK_exp2anyreg` at run time: an expression without jumps stays where it is. -/
def rkR (G : Env) (W : World) (d : D) (f : Flow) (s : St) : Res (Opd × St) :=
  if d.hasjumps then do
    let (v, s) ← settle G W d f s
    pure (.val v, s)
  else match f with
    | .thru o => dischR G W d o s
    | .out _ _ => .ub

/-- The opcode is specialised: both operands are read without looking at the tags — lcode.c:1353-1434. -/
def spec (o : Bin) (t1 t2 : TM) : Bool :=
  match o with
  | .add | .sub | .mul | .div => (t1 == tINT || t1 == tFLT) && (t2 == tINT || t2 == tFLT)
  | .band | .bor | .bxor | .shl | .shr => t1 == tINT && t2 == tINT
  | _ => false

/-- An integer result, or an error (division by zero). -/
def resI (x : Option Int) (s : St) : Res (Val × St) :=
  match x with | some i => .ok (.int i, s) | none => .err "attempt to perform 'n//0'"

/-- An operand of a specialised operation as float. -/
def rdF (W : World) (t : TM) (v : Val) : Res Nat :=
  if t = tFLT then fltvalue v else (ivalue v).map' W.ofInt

/-- Two numbers: the generic operations — lvm.c:1519-1660, luaO_arith. -/
def numOp (W : World) (o : Bin) (v1 v2 : Val) (s : St) : Res (Val × St) :=
  match o with
  | .div | .pow =>
    match v1, v2 with
    | .int i, .int j => .ok (.flt (W.fop o (W.ofInt i) (W.ofInt j)), s)
    | .int i, .flt b => .ok (.flt (W.fop o (W.ofInt i) b), s)
    | .flt a, .int j => .ok (.flt (W.fop o a (W.ofInt j)), s)
    | .flt a, .flt b => .ok (.flt (W.fop o a b), s)
    | _, _ => .ub
  | .band | .bor | .bxor | .shl | .shr =>
    let i1 := match v1 with | .int i => some i | .flt a => W.toInt a | _ => none
    let i2 := match v2 with | .int i => some i | .flt a => W.toInt a | _ => none
    match i1, i2 with
    | some i, some j => resI (W.iop o i j) s
    | _, _ => match W.numbit s.n with
      | some v => .ok (v, { s with n := s.n + 1 })
      | none => .err "number has no integer representation"
  | .concat => .ok (.str "", s)
  | _ =>
    match v1, v2 with
    | .int i, .int j => resI (W.iop o i j) s
    | .int i, .flt b => .ok (.flt (W.fop o (W.ofInt i) b), s)
    | .flt a, .int j => .ok (.flt (W.fop o a (W.ofInt j)), s)
    | .flt a, .flt b => .ok (.flt (W.fop o a b), s)
    | _, _ => .ub

/-- A number? -/
def Val.isNum : Val → Bool
  | .int _ | .flt _ => true
  | _ => false

/-- A number or string? -/
def Val.isStrNum : Val → Bool
  | .int _ | .flt _ | .str _ => true
  | _ => false

/-- A binary operation with the opcode chosen from the types. The contents of strings are not modelled. -/
def binR (G : Env) (W : World) (o : Bin) (t1 t2 : TM) (v1 v2 : Val) (s : St) : Res (Val × St) :=
  if spec o t1 t2 then
    if t1 = tINT ∧ t2 = tINT ∧ o ≠ .div then do
      let i ← ivalue v1
      let j ← ivalue v2
      resI (W.iop o i j) s
    else do
      let a ← rdF W t1 v1
      let b ← rdF W t2 v2
      pure (.flt (W.fop o a b), s)
  else if o = .concat then (if v1.isStrNum ∧ v2.isStrNum then .ok (.str "", s) else ask G W s)
  else if v1.isNum ∧ v2.isNum then numOp W o v1 v2 s
  else ask G W s

/-- Comparisons: `OP_RAVI_EQ_II` and so on when the types are known — lcode.c:1448-1530, lvm.c:2121-2180. -/
def cmpR (G : Env) (W : World) (t1 t2 : TM) (v1 v2 : Val) (s : St) : Res (Bool × St) :=
  if t1 = tINT ∧ t2 = tINT then do
    let _ ← ivalue v1
    let _ ← ivalue v2
    pure (W.rel s.n, { s with n := s.n + 1 })
  else if t1 = tFLT ∧ t2 = tFLT then do
    let _ ← fltvalue v1
    let _ ← fltvalue v2
    pure (W.rel s.n, { s with n := s.n + 1 })
  else match W.orc s.n with
    | some _ => .ok (W.rel s.n, other G W s)
    | none => .err "attempt to compare"

/-- Conversions: `OP_RAVI_TOINT`, `TOFLT`, `TOIARRAY`, `TOFARRAY`, `TOTAB`, `TOSTRING`, `TOCLOSURE`, `TOTYPE` — lvm.c:2558-2606; the typed moves
(lvm.c:2515-2557) convert in the same way. -/
def conv (W : World) (c : Ann) (v : Val) : Res Val :=
  match c with
  | .int => match v with
    | .int i => .ok (.int i)
    | .flt n => (match W.toInt n with | some i => .ok (.int i) | none => .err "TOINT: integer expected")
    | _ => .err "TOINT: integer expected"
  | .num => match v with
    | .flt n => .ok (.flt n)
    | .int i => .ok (.flt (W.ofInt i))
    | _ => .err "TOFLT: number expected"
  | .iarr => match v with | .iarr a => .ok (.iarr a) | _ => .err "integer[] expected"
  | .farr => match v with | .farr a => .ok (.farr a) | _ => .err "number[] expected"
  | .tab => match v with | .tab a => .ok (.tab a) | _ => .err "table expected"
  | .str => match v with | .nil => .ok .nil | .str a => .ok (.str a) | _ => .err "string expected"
  | .clos => match v with | .nil => .ok .nil | .clos a => .ok (.clos a) | _ => .err "closure expected"
  | .typ u => if v = .nil then .ok v else if v.indexable ∧ W.isType u v then .ok v else .err "type mismatch"

/-- Unary operations — lvm.c:1661-1690, 2099-2103, `luaV_objlen` lvm.c:848-880. -/
def unR (G : Env) (W : World) (o : Un) (t : TM) (v : Val) (s : St) : Res (Val × St) :=
  match o with
  | .neg => match v with
    | .int i => resI (W.iop .sub 0 i) s
    | .flt a => .ok (.flt (W.fop .sub 0 a), s)
    | _ => ask G W s
  | .bnot =>
    if t = tINT then do
      let i ← ivalue v
      resI (W.iop .bxor i (-1)) s
    else match v with
      | .int _ | .flt _ => numOp W .bxor v v s
      | _ => ask G W s
  | .len => match v with
    | .iarr _ | .farr _ | .str _ => (match W.elI s.n with
      | some i => .ok (.int i, { s with n := s.n + 1 })
      | none => .ok (.int 0, { s with n := s.n + 1 }))
    | _ => do
      let (v, s) ← ask G W s
      if lenConv t then do
        let v ← conv W .int v
        pure (v, s)
      else pure (v, s)

/-- Write a register. -/
def wr (s : St) (n : Nat) (v : Val) : St := { s with regs := s.regs.set n v }

/-- A conversion in place: the register may be that of a local variable. -/
def convIn (W : World) (c : Ann) (o : Opd) (s : St) : Res (Opd × St) := do
  let v ← rd s o
  let v' ← conv W c v
  match o with
  | .loc n => pure (.loc n, wr s n v')
  | _ => pure (.val v', s)

/-- `luaK_goiftrue` at run time. -/
def gtR (d : D) (f : Flow) (s : St) : Res Flow :=
  match f with
  | .out true _ => .ok (.thru (.val .nil))
  | .out false v => .ok (.out false v)
  | .thru o =>
    match d.k with
    | .jmp => match o with
      | .cond b => .ok (if b then .thru o else .out false none)
      | _ => .ub
    | .k _ | .kflt _ | .kint _ | .tru => .ok (.thru o)
    | _ => if d.tm &&& tFALSISH ≠ 0#32 then do
        let v ← rd s o
        pure (if v.falsy then .out false (if d.k = .reloc true then none else some v) else .thru o)
      else .ok (.thru o)

/-- `luaK_goiffalse` at run time. -/
def gfR (d : D) (f : Flow) (s : St) : Res Flow :=
  match f with
  | .out false _ => .ok (.thru (.val .nil))
  | .out true v => .ok (.out true v)
  | .thru o =>
    match d.k with
    | .jmp => match o with
      | .cond b => .ok (if b then .out true none else .thru o)
      | _ => .ub
    | .nil | .fls => .ok (.thru o)
    | _ => if d.tm &&& tTRUISH ≠ 0#32 then do
        let v ← rd s o
        pure (if v.falsy then .thru o else .out true (if d.k = .reloc true then none else some v))
      else .ok (.thru o)

/-- `luaK_dischargevars` on a flow. -/
def dischF (G : Env) (W : World) (d : D) (f : Flow) (s : St) : Res (Flow × St) :=
  match f with
  | .thru o => do
    let (o, s) ← dischR G W d o s
    pure (.thru o, s)
  | f => .ok (f, s)

/-- The typed array an `OP_NEWTABLE` has been changed to. -/
inductive Arr
  | iarr | farr
deriving DecidableEq, Repr

/-- `OP_NEWTABLE`, `OP_RAVI_NEW_IARRAY`, `OP_RAVI_NEW_FARRAY`. -/
def newR (p : Option Arr) (s : St) : Flow × St :=
  (.thru (.val (match p with | none => .tab s.n | some .iarr => .iarr s.n | some .farr => .farr s.n)), { s with n := s.n + 1 })

/-- The descriptor of a part of the program; a program with a syntax error does not run. -/
def stR (G : Env) (e : E) : Res D :=
  match st G e with | some d => .ok d | none => .err "syntax error"

/-- A call: other code runs; its results. -/
def callR (G : Env) (W : World) (s : St) : Res (List Val × St) :=
  match W.res s.n with
  | some vs => .ok (vs, other G W s)
  | none => .err "error"

/-- The array of a type assertion that changes the constructor. -/
def arrOf : Ann → Arr
  | .farr => .farr
  | _ => .iarr

/-- What the code of an expression does. `p` says that the `OP_NEWTABLE` in the field `pc` is later changed. -/
def ev (G : Env) (W : World) : E → Option Arr → St → Res (Flow × St)
  | .nil, _, s => .ok (.thru (.val .nil), s)
  | .tru, _, s => .ok (.thru (.val (.bool true)), s)
  | .fls, _, s => .ok (.thru (.val (.bool false)), s)
  | .int i, _, s => .ok (.thru (.val (.int i)), s)
  | .flt n, _, s => .ok (.thru (.val (.flt n)), s)
  | .str x, _, s => .ok (.thru (.val (.str x)), s)
  | .loc n, _, s => .ok (.thru (.loc n), s)
  | .up n, _, s => .ok (.thru (.up n), s)
  | .call, _, s => do
    let (vs, s) ← callR G W s
    pure (.thru (.val (vs.headD .nil)), s)
  | .dots, _, s => .ok (.thru (.val (W.dots.headD .nil)), s)
  | .tnew, p, s => .ok (newR p s)
  | .func, _, s => .ok (.thru (.val (.clos s.n)), { s with n := s.n + 1 })
  | .paren a, p, s => do
    let d ← stR G a
    let (f, s) ← ev G W a p s
    dischF G W d f s
  | .index t k, p, s => do
    let dt ← stR G t
    let (ft, s) ← ev G W t p s
    let (ot, s) ← match dt.k, ft with
      | .up _, .thru o => if dt.hasjumps then rkR G W dt ft s else .ok (o, s)
      | _, _ => rkR G W dt ft s
    let dk ← stR G k
    let (fk, s) ← ev G W k none s
    let (ok, s) ← rkR G W dk fk s
    pure (.thru (.idx ot ok), s)
  | .bin o a b, p, s => do
    let da ← stR G a
    let (fa, s) ← ev G W a p s
    let (oa, s) ← if o = .concat then (do
        let (v, s) ← settle G W da fa s
        pure (.val v, s)) else rkR G W da fa s
    let db ← stR G b
    let (fb, s) ← ev G W b none s
    let (ob, s) ← if o = .concat then (do
        let (v, s) ← settle G W db fb s
        pure (.val v, s)) else rkR G W db fb s
    let v1 ← rd s oa
    let v2 ← rd s ob
    let (v, s) ← binR G W o (exp2rk da).tm (exp2rk db).tm v1 v2 s
    pure (.thru (.val v), s)
  | .cmp o a b, p, s => do
    let da ← stR G a
    let (fa, s) ← ev G W a p s
    let (oa, s) ← rkR G W da fa s
    let db ← stR G b
    let (fb, s) ← ev G W b none s
    let (ob, s) ← rkR G W db fb s
    let v1 ← rd s oa
    let v2 ← rd s ob
    let (r, s) ← match o with
      | .gt | .ge => cmpR G W (exp2rk db).tm (exp2rk da).tm v2 v1 s
      | _ => cmpR G W (exp2rk da).tm (exp2rk db).tm v1 v2 s
    pure (.thru (.cond r), s)
  | .and a b, p, s => do
    let da ← stR G a
    let (fa, s) ← ev G W a none s
    let (fa, s) ← dischF G W da fa s
    let fa ← gtR (disch da) fa s
    match fa with
    | .out c v => pure (.out c v, s)
    | .thru _ => do
      let db ← stR G b
      let (fb, s) ← ev G W b p s
      dischF G W db fb s
  | .or a b, p, s => do
    let da ← stR G a
    let (fa, s) ← ev G W a none s
    let (fa, s) ← dischF G W da fa s
    let fa ← gfR (disch da) fa s
    match fa with
    | .out c v => pure (.out c v, s)
    | .thru _ => do
      let db ← stR G b
      let (fb, s) ← ev G W b p s
      dischF G W db fb s
  | .not a, p, s => do
    let d ← stR G a
    let (f, s) ← ev G W a p s
    let (f, s) ← dischF G W d f s
    match f with
    | .out b _ => pure (.out (!b) none, s)
    | .thru (.cond b) => pure (.thru (.cond (!b)), s)
    | .thru o => do
      let v ← rd s o
      pure (.thru (.val (.bool v.falsy)), s)
  | .un o a, p, s => do
    let d ← stR G a
    let (f, s) ← ev G W a p s
    let (x, s) ← rkR G W d f s
    let v ← rd s x
    let (v, s) ← unR G W o (anyreg d).tm v s
    pure (.thru (.val v), s)
  | .cast c a, p, s => do
    let d ← stR G a
    let p' := if castAct c d = .patch then some (arrOf c) else p
    let (f, s) ← ev G W a p' s
    let (f, s) ← dischF G W d f s
    match f with
    | .out b v => pure (.out b v, s)
    | .thru o =>
      if castAct c d = .conv then do
        let (o, s) ← convIn W c o s
        pure (.thru o, s)
      else pure (.thru o, s)

/-! ## Stores and declarations -/

/-- What `check_valid_store` and the move to the register of the variable do — lcode.c:864-982: nothing more than the move, or a conversion of
the source first. -/
inductive Act
  | direct | conv
deriving DecidableEq, Repr

/-- `ex_ravi_type_map` for elements — lcode.c:879-887, lparser.c:1417-1425. -/
def exTm (d : D) : TM :=
  match d.k with
  | .indexed _ _ _ => if d.tm = tIARR then tINT else if d.tm = tFARR then tFLT else tANY
  | _ => d.tm

/-- `VNONRELOC`? -/
def Kind.isNonreloc : Kind → Bool
  | .nonreloc _ => true
  | _ => false

/-- `check_valid_store` — lcode.c:864-982; `none`: syntax error. -/
def storeAct (c : Decl) (d : D) : Option Act :=
  match c with
  | none => some .direct
  | some c =>
    if d.k.isNonreloc then some .direct
    else match c with
      | .int | .num | .iarr | .farr | .tab =>
        if exTm d = c.tm then some .direct else if exTm d = tANY then some .conv else none
      | .str | .clos => if sub (exTm d) c.tm then some .direct else if exTm d = tANY then some .conv else none
      | .typ u =>
        if sub (exTm d) tUDN ∧ (exTm d &&& tUD = 0#32 ∨ d.ut = some u) then some .direct
        else if exTm d = tANY then some .conv else none

/-- The typed moves into the register of a local variable — lcode.c:687-713. -/
def moveTo (W : World) (c : Decl) (v : Val) : Res Val :=
  match c with
  | none => .ok v
  | some c => conv W c v

/-- `exp2reg` into the register of the local variable `n` — lcode.c:654-728, 769-791. The typed move is on the
straight path only; a pending `TESTSET` writes the register itself. -/
def toLocal (G : Env) (W : World) (n : Nat) (c : Decl) (d : D) (f : Flow) (s : St) : Res St :=
  match f with
  | .out _ (some v) => .ok (wr s n v)
  | .out b none => .ok (wr s n (.bool b))
  | .thru o => do
    let (o, s) ← dischR G W d o s
    if (disch d).k.isNonreloc then
      if o = .loc n then pure s
      else do
        let v ← rd s o
        let v ← moveTo W c v
        pure (wr s n v)
    else do
      let v ← rd s o
      pure (wr s n v)

/-- `luaK_storevar` for a local variable — lcode.c:1027-1034. -/
def storeLocal (G : Env) (W : World) (n : Nat) (c : Decl) (d : D) (f : Flow) (s : St) : Res St :=
  match storeAct c d, c with
  | none, _ => .err "syntax error"
  | some .conv, some a => do
    let (o, s) ← rkR G W d f s
    let (o, s) ← convIn W a o s
    toLocal G W n c ⟨.nonreloc (match o with | .loc m => some m | _ => none), a.tm, none, .none, false, false⟩ (.thru o) s
  | some _, _ => toLocal G W n c d f s

/-- `luaK_storevar` for an upvalue — lcode.c:984-1024, 1035-1040, lvm.c:2358-2410. -/
def storeUp (G : Env) (W : World) (n : Nat) (c : Decl) (d : D) (f : Flow) (s : St) : Res St := do
  let (v, s) ← settle G W d f s
  match c with
  | none => pure { s with ups := s.ups.set n v }
  | some a =>
    if sub (anyreg d).tm a.tm then pure { s with ups := s.ups.set n v }
    else do
      let v ← conv W a v
      pure { s with ups := s.ups.set n v }

/-- `OP_RAVI_FARRAY_SETF` and `OP_RAVI_FARRAY_SET` — lvm.c:2333-2357. -/
def setF (vtm : TM) (v : Val) (s : St) : Res St :=
  if vtm = tFLT then (fltvalue v).map' fun _ => s
  else match v with
    | .int _ | .flt _ => .ok s
    | _ => .err "number expected"

/-- `OP_RAVI_IARRAY_SETI` and `OP_RAVI_IARRAY_SET` — lvm.c:2308-2332. The second one truncates floats with a C cast, which is undefined for
floats out of range; that is not part of this model. -/
def setI (vtm : TM) (v : Val) (s : St) : Res St :=
  if vtm = tINT then (ivalue v).map' fun _ => s
  else match v with
    | .int _ | .flt _ => .ok s
    | _ => .err "integer expected"

/-- A store `t[k] = v` — lcode.c:1041-1065, lvm.c:1461-1486, 2308-2357. -/
def setOp (G : Env) (W : World) (isup : Bool) (ktm ttm vtm : TM) (t k v : Val) (s : St) : Res St :=
  if isup then (ask G W s).map' (·.2)
  else if ktm = tINT then do
    let _ ← ivalue k
    if ttm = tFARR then (match t with | .farr _ => setF vtm v s | _ => .ub)
    else if ttm = tIARR then (match t with | .iarr _ => setI vtm v s | _ => .ub)
    else (ask G W s).map' (·.2)
  else (ask G W s).map' (·.2)

/-- What `ravi_typecheck` does — lparser.c:1411-1507: accept, change the constructor, convert the result of the call in its
register, or put the value in its register and convert it. -/
inductive TAct
  | pass | patch | inCall | conv
deriving DecidableEq, Repr

/-- `ravi_typecheck` — lparser.c:1411-1507; the comparison of the registers is taken to succeed. -/
def typecheck (c : Decl) (d : D) : Option TAct :=
  match c with
  | none => some .pass
  | some c =>
    if sub (exTm d) c.tm then some .pass
    else if (c = .iarr ∨ c = .farr) ∧ d.k.isNonreloc then (if d.pc = .fresh then some .patch else none)
    else if d.k = .call then some .inCall
    else match c with
      | .str | .clos | .typ _ => some .conv
      | _ => if exTm d = tANY then some .conv else none

/-- A call or `...` that can still give several values after `ravi_typecheck`. -/
def multi (t : TAct) (k : Kind) : Bool :=
  (k = .call || k = .dots) && (t = .pass || t = .inCall)

/-- The value of a variable without initialiser — lparser.c:650-662, 697-711: zero, nil, or an error of the compiler. -/
def dflt (W : World) : Decl → Res Val
  | none => .ok .nil
  | some .int => .ok (.int 0)
  | some .num => .ok (.flt (W.ofInt 0))
  | some .str | some .clos | some (.typ _) => .ok .nil
  | some _ => .err "uninitialized local variable"

/-- The remaining variables of a declaration that ends in a call get converted results, those of one that ends in
`...` get them as they are — lparser.c:670-697, 714-744. -/
def rest (W : World) (isCall : Bool) : List Decl → List Val → Res (List Val)
  | [], _ => .ok []
  | d :: ds, vs => do
    let v ← if isCall then moveTo W d (vs.headD .nil) else pure (vs.headD .nil)
    let ws ← rest W isCall ds vs.tail
    pure (v :: ws)

/-- The remaining variables of a declaration with too few values. -/
def dflts (W : World) : List Decl → Res (List Val)
  | [] => .ok []
  | d :: ds => do
    let v ← dflt W d
    let ws ← dflts W ds
    pure (v :: ws)

/-- One initialiser: the value in its new register. -/
def initOne (G : Env) (W : World) (c : Decl) (e : E) (s : St) : Res (Val × St) := do
  let d ← stR G e
  match typecheck c d with
  | none => .err "syntax error"
  | some t => do
    let (f, s) ← ev G W e (if t = .patch then c.map arrOf else none) s
    let (v, s) ← settle G W d f s
    if t = .inCall ∨ t = .conv then do
      let v ← moveTo W c v
      pure (v, s)
    else pure (v, s)

/-- `localstat` — lparser.c:2295-2325, 714-744, 1514-1530. -/
def initAll (G : Env) (W : World) : List Decl → List E → St → Res (List Val × St)
  | ds, [], s => do
    let ws ← dflts W ds
    pure (ws, s)
  | [], e :: es, s => do
    let (_, s) ← initOne G W none e s
    initAll G W [] es s
  | d :: ds, [e], s => do
    let de ← stR G e
    match typecheck d de with
    | none => .err "syntax error"
    | some t =>
      if multi t de.k then
        if de.k = .call then do
          let (vs, s) ← callR G W s
          let v ← moveTo W (if t = .inCall then d else none) (vs.headD .nil)
          let ws ← rest W true ds vs.tail
          pure (v :: ws, s)
        else do
          let ws ← rest W false ds W.dots.tail
          pure (W.dots.headD .nil :: ws, s)
      else do
        let (v, s) ← initOne G W d e s
        let ws ← dflts W ds
        pure (v :: ws, s)
  | d :: ds, e :: es, s => do
    let (v, s) ← initOne G W d e s
    let (ws, s) ← initAll G W ds es s
    pure (v :: ws, s)

/-- Statements; variables are registers. `assignAny` stores a value that is already in a temporary register, as multiple
assignment does (lparser.c:1921). -/
inductive S
  | skip
  | seq (a b : S)
  | local_ (ds : List Decl) (es : List E)
  | assign (n : Nat) (e : E)
  | assignUp (n : Nat) (e : E)
  | assignIdx (t k e : E)
  | assignAny (n : Nat) (e : E)
  | ite (c : E) (a b : S)
  | while_ (c : E) (a : S)
  | block (a : S)
  | expr (e : E)
deriving Repr

/-- The variables in scope after a statement. -/
def after (G : Env) : S → Env
  | .seq a b => after (after G a) b
  | .local_ ds _ => { G with loc := G.loc ++ ds }
  | _ => G

/-- Leave a block. -/
def leave (G : Env) (s : St) : St := { s with regs := s.regs.take G.loc.length }

/-- The test of a condition: `luaK_goiftrue` — lparser.c:1929-1937. -/
def condR (G : Env) (W : World) (e : E) (s : St) : Res (Bool × St) := do
  let d ← stR G e
  let (f, s) ← ev G W e none s
  let (f, s) ← dischF G W d f s
  let f ← gtR (disch d) f s
  match f with
  | .thru _ => pure (true, s)
  | .out _ _ => pure (false, s)

/-- Statements. The first argument bounds the number of steps; a program that is not finished then ends with an error. -/
def run (W : World) : Nat → Env → S → St → Res St
  | 0, _, _, _ => .err "not finished"
  | _ + 1, _, .skip, s => .ok s
  | fuel + 1, G, .seq a b, s => do
    let s ← run W fuel G a s
    run W fuel (after G a) b s
  | _ + 1, G, .local_ ds es, s => do
    let (vs, s) ← initAll G W ds es s
    pure { s with regs := s.regs ++ vs }
  | _ + 1, G, .assign n e, s => do
    let d ← stR G e
    match G.loc[n]? with
    | none => .err "syntax error"
    | some c => do
      let (f, s) ← ev G W e none s
      storeLocal G W n c d f s
  | _ + 1, G, .assignUp n e, s => do
    let d ← stR G e
    match G.up[n]? with
    | none => .err "syntax error"
    | some c => do
      let (f, s) ← ev G W e none s
      storeUp G W n c d f s
  | _ + 1, G, .assignIdx t k e, s => do
    let di ← stR G (.index t k)
    let d ← stR G e
    let (fi, s) ← ev G W (.index t k) none s
    let (f, s) ← ev G W e none s
    let (o, s) ← rkR G W d f s
    match fi, di.k with
    | .thru (.idx ot ok), .indexed isup ktm _ => do
      let vt ← rd s ot
      let vk ← rd s ok
      let v ← rd s o
      setOp G W isup ktm di.tm (exp2rk d).tm vt vk v s
    | _, _ => .ub
  | _ + 1, G, .assignAny n e, s => do
    let d ← stR G e
    match G.loc[n]? with
    | none => .err "syntax error"
    | some c => do
      let (f, s) ← ev G W e none s
      let (v, s) ← settle G W d f s
      storeLocal G W n c ⟨.nonreloc none, tANY, none, .none, false, false⟩ (.thru (.val v)) s
  | fuel + 1, G, .ite c a b, s => do
    let (r, s) ← condR G W c s
    let s ← if r then run W fuel G a s else run W fuel G b s
    pure (leave G s)
  | fuel + 1, G, .while_ c a, s => do
    let (r, s) ← condR G W c s
    if r then do
      let s ← run W fuel G a s
      run W fuel G (.while_ c a) (leave G s)
    else pure s
  | fuel + 1, G, .block a, s => do
    let s ← run W fuel G a s
    pure (leave G s)
  | _ + 1, G, .expr e, s => do
    let d ← stR G e
    let (f, s) ← ev G W e none s
    let (_, s) ← settle G W d f s
    pure s

/-! ## The debug interface -/

/-- `raviV_checktype` — lvm.c:1207-1226. -/
def checktype (W : World) (t : TM) (ut : Option String) (v : Val) : Bool :=
  t == tANY
  || (t &&& tNIL != 0#32 && v == .nil)
  || (t &&& tFALSE != 0#32 && v == .bool false)
  || (t &&& tTRUE != 0#32 && v == .bool true)
  || (t &&& tINT != 0#32 && (match v with | .int _ => true | _ => false))
  || (t &&& tFLT != 0#32 && (match v with | .flt _ => true | _ => false))
  || (t &&& tIARR != 0#32 && (match v with | .iarr _ => true | _ => false))
  || (t &&& tFARR != 0#32 && (match v with | .farr _ => true | _ => false))
  || (t &&& tTAB != 0#32 && (match v with | .tab _ => true | _ => false))
  || (t &&& tSTR != 0#32 && (match v with | .str _ => true | _ => false))
  || (t &&& tFUN != 0#32 && (match v with | .clos _ => true | _ => false))
  || (t &&& tUD != 0#32 && (match ut with | some u => v.indexable && W.isType u v | none => false))

/-- The user type of a declaration, the `usertype` field of `LocVar` and `Upvaldesc` — lobject.h. -/
def utOf : Decl → Option String
  | some (.typ u) => some u
  | _ => none

/-- `lua_setupvalue` on a Lua closure whose upvalues have the types `G.up` — lapi.c:1615-1648; the result says whether the store was made. -/
def setupvalue (G : Env) (W : World) (n : Nat) (v : Val) (s : St) : Bool × St :=
  match G.up[n]? with
  | none => (false, s)
  | some c => if checktype W (declTm c) (utOf c) v
    then (true, { s with ups := s.ups.set n v }) else (false, s)

/-- `lua_setlocal` on a slot of the frame — ldebug.c:152-232: the type of an active variable, any value for another slot. -/
def setlocal (G : Env) (W : World) (n : Nat) (v : Val) (s : St) : Bool × St :=
  let c := (G.loc[n]?).getD none
  if s.regs.length ≤ n then (false, s)
  else if checktype W (declTm c) (utOf c) v
    then (true, wr s n v) else (false, s)

/-- `lua_upvaluejoin` — lapi.c:1682-1697: the upvalue `n` gets the cell of another closure's upvalue, with type `c'` and value `v`, if the type maps
agree. -/
def upvaluejoin (G : Env) (n : Nat) (c' : Decl) (v : Val) (s : St) : St :=
  match G.up[n]? with
  | none => s
  | some c => if declTm c = declTm c' then { s with ups := s.ups.set n v } else s

/-- The upvalues of a function that was loaded from a binary chunk: all nil (`luaF_initupvals`, lfunc.c:52-61), the first one is the
table of globals (`ravi_closure_setenv`, lapi.c:1324-1343). -/
def loaded (G : Env) (globals : Nat) : List Val :=
  match G.up with
  | [] => []
  | _ :: ds => .tab globals :: ds.map fun _ => .nil

end Verif.Typed
