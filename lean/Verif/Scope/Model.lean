import Verif.Base
/-!
Names and scopes: how `src/lparser.c` finds the variable that a name stands for (lines 386-620, 567-607), with blocks
(882-945) and functions (991-1040, 2499-2511).

The parser is taken as the machine that these functions make of the events in a program: a local variable is created, the
variables created become visible, a block or a function begins or ends, a name is used.  The types of
variables are the subject of `Typed`, the code that is emitted that of `Code` and `ExpCode`, labels are not modelled here.
-/
namespace Verif.Scope

/-- A local variable: its name, and a number that tells it from all others.  (The C code has `idx` in
`Vardesc`, the index of the variable in the function's `locvars`; here the number is unique in the program.) -/
structure Decl where
  name : Nat
  id : Nat
deriving DecidableEq

/-- `Upvaldesc`, lobject.h: a register of the enclosing function (`instack`) or one of its upvalues -/
structure Up where
  instack : Bool
  idx : Nat
  name : Nat
deriving DecidableEq

/-- `BlockCnt`, lparser.c 50-64: the number of variables outside the block, and whether one of the
block's variables is an upvalue of some function -/
structure Block where
  nactvar : Nat
  upval : Bool
deriving DecidableEq

/-- `FuncState`, lparser.h: only the fields used here; `bls` is the list that begins at `bl` -/
structure FS where
  firstlocal : Nat
  nactvar : Nat
  ups : List Up
  bls : List Block
deriving DecidableEq

/-- `Dyndata` and the list of functions that begins at `ls->fs`; `next` numbers the declarations -/
structure PS where
  act : List Decl
  fs : List FS
  next : Nat
deriving DecidableEq

/-- the results of `singlevaraux`: `VVOID`, `VLOCAL`, `VUPVAL` -/
inductive Var where
  | void
  | loc (r : Nat)
  | upv (i : Nat)
deriving DecidableEq

/-- `LUA_ENV`, the name `_ENV`; names are numbers -/
def env : Nat := 0

/-- `searchvar`, lparser.c 555-563; the last argument counts down from `nactvar` -/
def searchvar (act : List Decl) (first : Nat) (n : Nat) : Nat → Option Nat
  | 0 => none
  | k + 1 =>
    match act[first + k]? with
    | some d => if d.name = n then some k else searchvar act first n k
    | none => none

/-- `searchupvalue`, lparser.c 524-532 -/
def searchupvalue (n : Nat) : List Up → Option Nat
  | [] => none
  | u :: us => if u.name = n then some 0 else (searchupvalue n us).map (· + 1)

/-- `newupvalue`, lparser.c 534-551; `MAXUPVAL` is 125 (lfunc.h 29) -/
def newupvalue (f : FS) (n : Nat) (v : Var) : Res (FS × Nat) :=
  if 125 < f.ups.length + 1 then .err "too many upvalues"
  else
    match v with
    | .loc r => .ok ({ f with ups := f.ups ++ [⟨true, r, n⟩] }, f.ups.length)
    | .upv i => .ok ({ f with ups := f.ups ++ [⟨false, i, n⟩] }, f.ups.length)
    | .void => .ub

/-- `markupval`, lparser.c 570-575 -/
def markupval (level : Nat) : List Block → Res (List Block)
  | [] => .ub
  | b :: bs =>
    if b.nactvar > level then
      match markupval level bs with
      | .ok bs => .ok (b :: bs)
      | .err m => .err m
      | .ub => .ub
    else .ok ({ b with upval := true } :: bs)

/-- `singlevaraux`, lparser.c 582-607 -/
def singlevaraux (act : List Decl) (n : Nat) : List FS → Bool → Res (List FS × Var)
  | [], _ => .ok ([], .void)
  | f :: fs, base =>
    match searchvar act f.firstlocal n f.nactvar with
    | some r =>
      if base then .ok (f :: fs, .loc r)
      else
        match markupval r f.bls with
        | .ok bls => .ok ({ f with bls := bls } :: fs, .loc r)
        | .err m => .err m
        | .ub => .ub
    | none =>
      match searchupvalue n f.ups with
      | some i => .ok (f :: fs, .upv i)
      | none =>
        match singlevaraux act n fs false with
        | .ok (fs, .void) => .ok (f :: fs, .void)
        | .ok (fs, v) =>
          match newupvalue f n v with
          | .ok (f, i) => .ok (f :: fs, .upv i)
          | .err m => .err m
          | .ub => .ub
        | .err m => .err m
        | .ub => .ub

/-- what a name in the source stands for: a variable, or a field of a variable (`_ENV.name`) -/
inductive Ref where
  | var (v : Var)
  | field (v : Var)
deriving DecidableEq

/-- `singlevar`, lparser.c 613-624 -/
def singlevar (s : PS) (n : Nat) : Res (PS × Ref) :=
  match singlevaraux s.act n s.fs true with
  | .ok (fs, .void) =>
    match singlevaraux s.act env fs true with
    | .ok (fs, v) => .ok ({ s with fs := fs }, .field v)
    | .err m => .err m
    | .ub => .ub
  | .ok (fs, v) => .ok ({ s with fs := fs }, .var v)
  | .err m => .err m
  | .ub => .ub

/-- what the parser meets -/
inductive Ev where
  /-- a local variable is created (`new_localvar`) -/
  | new (n : Nat)
  /-- the first `k` of the variables created become visible (`adjustlocalvars`) -/
  | activate (k : Nat)
  | enter
  | leave
  | func
  | endfunc
  | use (n : Nat)
deriving DecidableEq

/-- what comes out -/
inductive Out where
  | none
  /-- the code of the block ends with an instruction that closes upvalues from this register on, or does not -/
  | closes (r : Option Nat)
  /-- the prototype of the function gets these upvalues -/
  | proto (ups : List Up)
  | ref (r : Ref)
deriving DecidableEq

/-- `new_localvar`, lparser.c 420-435; `MAXVARS` is 125 (lparser.c 41) -/
def newLocalvar (s : PS) (n : Nat) : Res PS :=
  match s.fs with
  | [] => .ub
  | f :: _ =>
    if 125 < s.act.length + 1 - f.firstlocal then .err "too many local variables"
    else .ok { s with act := s.act ++ [⟨n, s.next⟩], next := s.next + 1 }

/-- `adjustlocalvars`, lparser.c 501-508; to activate variables that were not created is an access out of
bounds -/
def adjustlocalvars (s : PS) (k : Nat) : Res PS :=
  match s.fs with
  | [] => .ub
  | f :: fs =>
    if f.firstlocal + f.nactvar + k ≤ s.act.length then .ok { s with fs := { f with nactvar := f.nactvar + k } :: fs }
    else .ub

/-- `enterblock`, lparser.c 882-892 -/
def enterblock (f : FS) : FS := { f with bls := ⟨f.nactvar, false⟩ :: f.bls }

/-- `open_func`, lparser.c 991-1012 -/
def openFunc (s : PS) : PS := { s with fs := enterblock ⟨s.act.length, 0, [], []⟩ :: s.fs }

/-- `removevars`, lparser.c 514-519 -/
def removevars (s : PS) (f : FS) (tolevel : Nat) : PS × FS :=
  ({ s with act := s.act.take (s.act.length - (f.nactvar - tolevel)) }, { f with nactvar := tolevel })

/-- `leaveblock`, lparser.c 917-938: for an inner block.  The parser leaves a block only at the end of a
statement, when all variables created are visible. -/
def leaveblock (s : PS) : Res (Out × PS) :=
  match s.fs with
  | f :: fs =>
    if f.firstlocal + f.nactvar = s.act.length then
      match f.bls with
      | b :: b' :: bs =>
        let (s, f) := removevars s f b.nactvar
        .ok (.closes (if b.upval then some b.nactvar else none), { s with fs := { f with bls := b' :: bs } :: fs })
      | _ => .ub
    else .ub
  | [] => .ub

/-- `close_func`, lparser.c 1016-1036, with `leaveblock` for the outermost block of the function; not for the main
function -/
def closeFunc (s : PS) : Res (Out × PS) :=
  match s.fs with
  | f :: f' :: fs =>
    if f.firstlocal + f.nactvar = s.act.length then
      match f.bls with
      | [b] =>
        let (s, f) := removevars s f b.nactvar
        .ok (.proto f.ups, { s with fs := f' :: fs })
      | _ => .ub
    else .ub
  | _ => .ub

/-- one event -/
def step (s : PS) : Ev → Res (Out × PS)
  | .new n =>
    match newLocalvar s n with
    | .ok s => .ok (.none, s)
    | .err m => .err m
    | .ub => .ub
  | .activate k =>
    match adjustlocalvars s k with
    | .ok s => .ok (.none, s)
    | .err m => .err m
    | .ub => .ub
  | .enter =>
    match s.fs with
    | f :: fs => .ok (.none, { s with fs := enterblock f :: fs })
    | [] => .ub
  | .leave => leaveblock s
  | .func => .ok (.none, openFunc s)
  | .endfunc => closeFunc s
  | .use n =>
    match singlevar s n with
    | .ok (s, r) => .ok (.ref r, s)
    | .err m => .err m
    | .ub => .ub

/-- `mainfunc`, lparser.c 2499-2511: the main function has the upvalue `_ENV` -/
def init : PS :=
  ⟨[], [{ firstlocal := 0, nactvar := 0, ups := [⟨true, 0, env⟩], bls := [⟨0, false⟩] }], 1⟩

/-- a sequence of events -/
def run (s : PS) : List Ev → Res (List Out × PS)
  | [] => .ok ([], s)
  | e :: es =>
    match step s e with
    | .ok (o, s) =>
      match run s es with
      | .ok (os, s) => .ok (o :: os, s)
      | .err m => .err m
      | .ub => .ub
    | .err m => .err m
    | .ub => .ub

/-! ### what the result of the parser means -/

/-- The variable in a register, or behind an upvalue, of the innermost function in a list.  The upvalues
of a function are resolved in the enclosing function, as `OP_CLOSURE` does (lvm.c 987-991); the upvalue of
the main function is the environment that the chunk was loaded with, which has the number 0. -/
def denotes (act : List Decl) : List FS → Var → Option Nat
  | _, .void => none
  | [], .loc r => if r = 0 then some 0 else none
  | [], .upv _ => none
  | f :: _, .loc r => if r < f.nactvar then (act[f.firstlocal + r]?).map Decl.id else none
  | f :: fs, .upv i =>
    match f.ups[i]? with
    | some u => denotes act fs (if u.instack then .loc u.idx else .upv u.idx)
    | none => none

/-! ### lexical scoping -/

/-- a function in the program text: its open blocks, the innermost first, each with its visible variables, the last one first,
and the variables that are not yet visible, the first one first -/
structure AF where
  blocks : List (List Decl)
  pending : List Decl

/-- the scopes around a place in the program; `captured` are the variables that a function inside theirs has used -/
structure A where
  funcs : List AF
  next : Nat
  captured : List Nat

/-- the visible variables, the innermost first -/
def AF.vis (a : AF) : List Decl := a.blocks.flatten

/-- The variable that a name stands for: the visible one declared last, if there is one; outside of everything
there is `_ENV`. -/
def look (n : Nat) : List AF → Option Nat
  | [] => if n = env then some 0 else none
  | a :: as =>
    match a.vis.find? (·.name = n) with
    | some d => some d.id
    | none => look n as

/-- the variable is used in a function inside that of its declaration -/
def captures (n : Nat) : List AF → Option Nat
  | [] => none
  | a :: as => if (a.vis.find? (·.name = n)).isSome then none else look n as

/-- what scoping says about an event -/
inductive AOut where
  | none
  /-- a function has used one of the block's variables; the number of variables around the block -/
  | leave (used : Bool) (outer : Nat)
  | proto
  /-- the name is this variable -/
  | var (d : Nat)
  /-- the name is a global name, a field of this variable -/
  | field (d : Nat)

/-- use of a variable by name -/
def A.capture (a : A) (n : Nat) : A :=
  match captures n a.funcs with
  | some d => { a with captured := d :: a.captured }
  | none => a

/-- scoping; `none`: the event is not possible here -/
def A.step (a : A) : Ev → Option (AOut × A)
  | .new n =>
    match a.funcs with
    | f :: fs => some (.none, { a with funcs := { f with pending := f.pending ++ [⟨n, a.next⟩] } :: fs, next := a.next + 1 })
    | [] => none
  | .activate k =>
    match a.funcs with
    | f :: fs =>
      if k ≤ f.pending.length then
        match f.blocks with
        | b :: bs =>
          some (.none, { a with funcs := ⟨((f.pending.take k).reverse ++ b) :: bs, f.pending.drop k⟩ :: fs })
        | [] => none
      else none
    | [] => none
  | .enter =>
    match a.funcs with
    | f :: fs => some (.none, { a with funcs := { f with blocks := [] :: f.blocks } :: fs })
    | [] => none
  | .leave =>
    match a.funcs with
    | f :: fs =>
      match f.blocks, f.pending with
      | b :: b' :: bs, [] =>
        some (.leave (b.any fun d => decide (d.id ∈ a.captured)) (b' :: bs).flatten.length,
          { a with funcs := ⟨b' :: bs, []⟩ :: fs })
      | _, _ => none
    | [] => none
  | .func => some (.none, { a with funcs := ⟨[[]], []⟩ :: a.funcs })
  | .endfunc =>
    match a.funcs with
    | f :: f' :: fs =>
      match f.blocks, f.pending with
      | [_], [] => some (.proto, { a with funcs := f' :: fs })
      | _, _ => none
    | _ => none
  | .use n =>
    match look n a.funcs with
    | some d => some (.var d, a.capture n)
    | none =>
      match look env a.funcs with
      | some d => some (.field d, a.capture env)
      | none => none

/-- the beginning of a chunk -/
def A.init : A := ⟨[⟨[[]], []⟩], 1, [0]⟩

/-- a sequence of events -/
def A.run (a : A) : List Ev → Option (List AOut × A)
  | [] => some ([], a)
  | e :: es =>
    match a.step e with
    | some (o, a) =>
      match A.run a es with
      | some (os, a) => some (o :: os, a)
      | none => none
    | none => none

end Verif.Scope
