import Verif.Assign.Model
/-!
Code generation for statements: `src/lparser.c` 783-937 (blocks, labels, gotos), 1833-2260 and 2380-2489 (the
statements, with calls), on top of the code for expressions of `ExpCode`; and programs run as a machine with program counter and
registers.

Simplifications, beside those of `ExpCode`:
* Names have been resolved (C76): a local variable is given by its register.  Variables that functions capture are left
  out: blocks have no upvalues to close, and jumps close none.
* Before a statement, and before a condition, the generator forgets the last instruction (`luaK_getlabel`), so that loads
  of nil are not merged with those of the statement before.  C56 is about merging.
* A block (`BlockCnt`) has its labels and pending gotos; in the code these are the parts of two arrays that begin at
  `firstlabel` and `firstgoto`.
* `FORPREP`, `FORLOOP` and `TFORLOOP`, which contain a jump, are two instructions here (see `ExpCode.Instr`); their typed
  variants (C50), and `OP_RAVI_TOINT` for expressions that begin with `#`, are left out.
* Assignments are those of `Assign`.  Nested functions are left out.
* A generic `for` is a block (`do`) with the declaration of its three variables without names and a statement `forin` that is
  the rest of the loop.  The code is that of the C functions: the block of the loop, which has the label for `break`, begins
  after the declaration here and before it there (lparser.c 2201), but the declaration has no jumps, and both blocks end at the same place.
* A list of expressions whose last one is a call (`hasmultret`, lparser.h 32) is an `E` of the kind of the arguments of a
  call (`E.aopen`), and the statements with such a list are `locc`, `assignc` and `retc`.  A list in `loc`, `assign` and `ret`
  ends with another expression, or with a call in parentheses, which gives one value.  (The code of an assignment with as many
  variables as expressions is the same for both, lparser.c 1910-1914.)  A tail call is a call whose results are returned.
* The limits on local variables, labels and the length of jumps are left out.
* Of labels in a row, each one is finished before the next (the C code finishes the last one first, lparser.c 1984,
  which makes a difference only if two errors are found at once).
-/
namespace Verif.Stat
open Verif.ExpCode
open Verif.Assign (Lhs)

/-- labels are numbers; this is the name `break`, lparser.c 899 -/
def brk : Nat := 0

/-- Statements, lists of statements and the parts of an `if`. -/
inductive S where
  /-- `local v1, .., vn = es` -/
  | loc (n : Nat) (es : List E)
  /-- `vs = es, e` -/
  | assign (vs : List Lhs) (es : List E) (e : E)
  /-- the same with lists that end with a call -/
  | locc (n : Nat) (as : E)
  | assignc (vs : List Lhs) (as : E)
  /-- `goto l`, `break` -/
  | goto (l : Nat)
  | label (l : Nat)
  | do_ (b : S)
  | while_ (c : E) (b : S)
  | repeat_ (b : S) (c : E)
  /-- `if` with its parts -/
  | if_ (p : S)
  /-- `for v = e1, e2, e3 do b end`; the step is `1` if there is no third expression.  The loop has three variables
  that have no name, in the registers before that of `v`. -/
  | for_ (e1 e2 e3 : E) (b : S)
  /-- `for v1, .., vn in .. do b end`; the function, the state and the control variable are the last three variables -/
  | forin (n : Nat) (b : S)
  | ret (es : List E)
  | retc (as : E)
  /-- lists -/
  | nil
  | cons (s rest : S)
  /-- `if` or `elseif`, `else`, `end` -/
  | test (c : E) (b rest : S)
  | els (b : S)
  | fi
deriving DecidableEq

/-- `v = e`, for a local variable -/
abbrev S.set (x : Nat) (e : E) : S := .assign [.loc x] [] e

/-- `v = e`, for an upvalue -/
abbrev S.setup (u : Nat) (e : E) : S := .assign [.up u] [] e

/-- a call as a statement, `exprstat`, lparser.c 2368-2377: it has the code of a declaration of no variables -/
abbrev S.callst (f as : E) : S := .locc 0 (.aopen f as)

/-- `for v1, .., vn in es do b end`, `forlist`, lparser.c 2171-2192 -/
abbrev S.forlist (n : Nat) (es : List E) (b : S) : S := .do_ (.cons (.loc 3 es) (.cons (.forin n b) .nil))

/-- the same, if the last expression is a call -/
abbrev S.forlistc (n : Nat) (as : E) (b : S) : S := .do_ (.cons (.locc 3 as) (.cons (.forin n b) .nil))

/-- the label that a statement is -/
def S.asLabel : S → Option Nat
  | .label l => some l
  | _ => none

def S.isNil : S → Bool
  | .nil => true
  | _ => false

def S.isFi : S → Bool
  | .fi => true
  | _ => false

/-- `skipnoopstat` and `block_follow`, lparser.c 1969-1972, 1050: only labels follow -/
def S.onlyLabels : S → Bool
  | .nil => true
  | .cons s rest => s.asLabel.isSome && rest.onlyLabels
  | _ => false

/-! ### the generator -/

/-- `Labeldesc` for a label, lparser.h 200-206 -/
structure Lab where
  name : Nat
  nact : Nat
  pc : Nat

/-- `Labeldesc` for a pending goto; `jumps` is the list of jumps that begins at `pc` -/
structure Gt where
  name : Nat
  nact : Nat
  jumps : List Nat

/-- `FuncState` with the current block (`BlockCnt`, lparser.c 50-64): `nact` is `bl->nactvar` -/
structure G where
  fs : FS
  nact : Nat
  labels : List Lab
  gotos : List Gt

/-- `luaK_patchlist`, lcode.c 273-281 -/
def patchlist (s : FS) (l : List Nat) (t : Nat) : FS :=
  if t = s.pc then patchtohere s l else { s with code := patchlistaux s.code l t none t }

/-- `closegoto`, lparser.c 784-802, without the removal from the list -/
def closegoto (s : FS) (g : Gt) (l : Lab) : Res FS :=
  if g.nact < l.nact then .err "jumps into the scope of local" else .ok (patchlist s g.jumps l.pc)

/-- `findgotos`, lparser.c 846-855: the gotos that are left -/
def findgotos (l : Lab) : FS → List Gt → Res (FS × List Gt)
  | s, [] => .ok (s, [])
  | s, g :: gs =>
    if g.name = l.name then do
      let s ← closegoto s g l
      findgotos l s gs
    else do
      let (s, gs) ← findgotos l s gs
      return (s, g :: gs)

/-- `movegotosout` with `findlabel`, lparser.c 864-879, 808-826: `n` is `nactvar` of the block that is left, `ls` are the
labels of the block around it -/
def movegotosout (n : Nat) (ls : List Lab) : FS → List Gt → Res (FS × List Gt)
  | s, [] => .ok (s, [])
  | s, g :: gs =>
    let g := { g with nact := if g.nact > n then n else g.nact }
    match ls.find? (·.name = g.name) with
    | some l => do
      let s ← closegoto s g l
      movegotosout n ls s gs
    | none => do
      let (s, gs) ← movegotosout n ls s gs
      return (s, g :: gs)

/-- `enterblock`, lparser.c 882-892 -/
def enter (s : FS) : G := ⟨s, s.nactvar, [], []⟩

/-- `breaklabel`, lparser.c 898-902, if the block is that of a loop -/
def breaklabel (isloop : Bool) (s : FS) (gs : List Gt) : Res (FS × List Gt) :=
  if isloop then findgotos ⟨brk, s.nactvar, s.pc⟩ s gs else .ok (s, gs)

/-- `leaveblock`, lparser.c 917-937, from the block `b` to the block `o` around it -/
def leave (isloop : Bool) (b o : G) : Res G := do
  let (s, gs) ← breaklabel isloop b.fs b.gotos
  let (s, gs) ← movegotosout b.nact o.labels { s with nactvar := b.nact, freereg := b.nact } gs
  return { o with fs := s, gotos := o.gotos ++ gs }

/-- `gotostat`, lparser.c 1939-1951, with `findlabel`; `js` are the jumps -/
def gotostat (l : Nat) (js : List Nat) (g : G) : Res G :=
  let gt : Gt := ⟨l, g.fs.nactvar, js⟩
  match g.labels.find? (·.name = l) with
  | some lb => do
    let s ← closegoto g.fs gt lb
    return { g with fs := s }
  | none => .ok { g with gotos := g.gotos ++ [gt] }

/-- `labelstat`, lparser.c 1975-1990, with `checkrepeated` 1955-1965; `last`: only labels follow in the block -/
def labelstat (l : Nat) (last : Bool) (g : G) : Res G :=
  match g.labels.find? (·.name = l) with
  | some _ => .err "label already defined"
  | none => do
    let s := getlabel g.fs
    let lb : Lab := ⟨l, if last then g.nact else s.nactvar, s.pc⟩
    let (s, gs) ← findgotos lb s g.gotos
    return { g with fs := s, labels := g.labels ++ [lb], gotos := gs }

/-- `cond`, lparser.c 1929-1936: the jumps that are taken if the condition is false -/
def cond (F : Fold.FOps) (fixed : Bool) (c : E) (s : FS) : Res (FS × List Nat) := do
  let (s, d) ← gen F fixed c (getlabel s)
  let d := match d.kind with | .nil => { d with kind := .fls } | _ => d
  let (s, d) ← goiftrue fixed s d
  return (s, d.f)

/-- the condition of `if`, lparser.c 2222, 2237-2239: the jumps that are taken if it is false -/
def condIf (F : Fold.FOps) (fixed : Bool) (c : E) (s : FS) : Res (FS × List Nat) := do
  let (s, d) ← gen F fixed c (getlabel s)
  let (s, d) ← goiftrue fixed s d
  return (s, d.f)

/-- the condition of `if` before a goto, lparser.c 2222-2227: the jumps that are taken if it is true -/
def condGoto (F : Fold.FOps) (fixed : Bool) (c : E) (s : FS) : Res (FS × List Nat) := do
  let (s, d) ← gen F fixed c (getlabel s)
  let (s, d) ← goiffalse fixed s d
  return (s, d.t)

/-- `luaK_jumpto`, lcode.h 51 -/
def jumpto (s : FS) (t : Nat) : FS :=
  let (s, j) := jump s
  patchlist s j t

/-- the end of `statement`, lparser.c 2488: `freereg` is set to the number of active variables -/
def endstat (g : G) : G := { g with fs := { g.fs with freereg := g.fs.nactvar } }

/-- `localstat`, lparser.c 2296-2326, with `localvar_adjust_assign` 715-748: missing values are nil, values that are too many
are dropped.  (`luaK_nil` for several registers makes the same instruction as for one after the other.) -/
def localstat (F : Fold.FOps) (fixed : Bool) (n : Nat) (es : List E) (s : FS) : Res FS := do
  let s' ← genList F fixed (es ++ List.replicate (n - es.length) .nil) s
  return { s' with nactvar := s.nactvar + n, freereg := s.nactvar + n }

/-- `retstat`, lparser.c 2380-2410 -/
def retstat (F : Fold.FOps) (fixed : Bool) (es : List E) (s : FS) : Res FS :=
  match es with
  | [e] => do
    let (s, d) ← gen F fixed e s
    let (s, _, r) ← exp2anyreg s d
    return emit s (.ret r 1)
  | es => do
    let n := s.nactvar
    let s ← genList F fixed es s
    return emit s (.ret n es.length)

/-- `localstat` if the last expression is a call, lparser.c 715-748 with 2296-2326 -/
def localMulti (F : Fold.FOps) (fixed : Bool) (n : Nat) (as : E) (s : FS) : Res FS := do
  let s' ← genMulti F fixed as n s
  return { s' with nactvar := s.nactvar + n, freereg := s.nactvar + n }

/-- `retstat` if the last expression is a call, lparser.c 2386-2396: all its results are returned, with the values of
the expressions before.  (If it is the only expression, the call becomes a tail call.) -/
def retMulti (F : Fold.FOps) (fixed : Bool) (as : E) (s : FS) : Res FS := do
  let n := s.nactvar
  let (s, o) ← genArgs F fixed as s
  match o with
  | none => .ub
  | some (a, k, l) => return emit s (.retcall n a k l)

/-- the expressions of a numeric `for` and its `FORPREP`: `fornum` and the beginning of `forbody`, lparser.c 2115-2160,
2075-2095.  The result is the position of the jump of `FORPREP`. -/
def forhead (F : Fold.FOps) (fixed : Bool) (e1 e2 e3 : E) (s : FS) : Res (FS × Nat) := do
  let base := s.freereg
  let s ← genList F fixed [e1, e2, e3] s
  let s := emit { s with nactvar := s.nactvar + 3 } (.forprep base)
  return (emit s (.jmp none), s.pc)

/-- the end of `forbody`, lparser.c 2100-2109 -/
def fortail (base prep : Nat) (s : FS) : FS :=
  let s := emit (patchtohere s [prep]) (.forloop base)
  patchlist (emit s (.jmp none)) [s.pc] (prep + 1)

/-- the end of `forbody` for a generic `for`, lparser.c 2100-2109: `js` are the jumps to its beginning, the last of them
at `prep` -/
def forintail (base n prep : Nat) (js : List Nat) (s : FS) : FS :=
  let s := emit (emit (patchtohere s js) (.tforcall base n)) (.tforloop (base + 2))
  patchlist (emit s (.jmp none)) [s.pc] (prep + 1)

/-- the end of `test_then_block`, lparser.c 2243-2246: `rest` are the other parts of the `if`; the second result is what is
added to `escapelist` -/
def testend (isFi : Bool) (jf : List Nat) (g : G) : G × List Nat :=
  if isFi then ({ g with fs := patchtohere g.fs jf }, [])
  else
    let (s, j) := jump g.fs
    ({ g with fs := patchtohere s jf }, j)

/-- Statements: `statement`, `statlist` and `block`, lparser.c 1050-1072, 1833-1840, 2413-2490.  `u`: the list ends with
`until`.  For the parts of an `if` the second result is `escapelist`. -/
def gs (F : Fold.FOps) (fixed : Bool) (u : Bool) : S → G → Res (G × List Nat)
  | .nil, g => .ok (g, [])
  | .cons s rest, g =>
    match s.asLabel with
    | some l => do
      let g ← labelstat l (!u && rest.onlyLabels) g
      gs F fixed u rest g
    | none => do
      let (g, _) ← gs F fixed false s { g with fs := getlabel g.fs }
      gs F fixed u rest (endstat g)
  | .loc n es, g => do
    let s ← localstat F fixed n es g.fs
    return ({ g with fs := s }, [])
  | .assign vs es e, g => do
    let s ← Assign.assignment F fixed vs es e g.fs
    return ({ g with fs := s }, [])
  | .locc n as, g => do
    let s ← localMulti F fixed n as g.fs
    return ({ g with fs := s }, [])
  | .assignc vs as, g => do
    let s ← Assign.assignMulti F fixed vs as g.fs
    return ({ g with fs := s }, [])
  | .goto l, g => do
    let (s, js) := jump g.fs
    let g ← gotostat l js { g with fs := s }
    return (g, [])
  | .label _, _ => .ub
  | .do_ b, g => do
    let (i, _) ← gs F fixed false b (enter g.fs)
    let g ← leave false i g
    return (g, [])
  | .while_ c b, g => do                   -- `whilestat`, lparser.c 1995-2011
    let init := g.fs.pc
    let (s, exit) ← cond F fixed c g.fs
    let loop := enter s
    let (i, _) ← gs F fixed false b (enter loop.fs)
    let loop ← leave false i loop
    let g ← leave true { loop with fs := jumpto loop.fs init } g
    return ({ g with fs := patchtohere g.fs exit }, [])
  | .repeat_ b c, g => do                  -- `repeatstat`, lparser.c 2016-2035
    let init := g.fs.pc
    let loop := enter (getlabel g.fs)
    let (i, _) ← gs F fixed true b (enter loop.fs)
    let (s, exit) ← cond F fixed c i.fs
    let loop ← leave false { i with fs := s } loop
    let g ← leave true { loop with fs := patchlist loop.fs exit init } g
    return (g, [])
  | .if_ p, g => do                        -- `ifstat`, lparser.c 2250-2261
    let (g, esc) ← gs F fixed false p g
    return ({ g with fs := patchtohere g.fs esc }, [])
  | .for_ e1 e2 e3 b, g => do              -- `forstat`, lparser.c 2197-2213, with `fornum` and `forbody`
    let base := g.fs.freereg
    let (s, prep) ← forhead F fixed e1 e2 e3 g.fs
    let loop : G := { enter g.fs with fs := s }
    let scope := enter loop.fs
    let s ← reserve { scope.fs with nactvar := scope.fs.nactvar + 1 } 1
    let (i, _) ← gs F fixed false b (enter s)
    let scope ← leave false i { scope with fs := s }
    let loop ← leave false scope loop
    let g ← leave true { loop with fs := fortail base prep loop.fs } g
    return (g, [])
  | .forin n b, g => do                    -- `forlist` from the end of the list on, and `forbody`, lparser.c 2189-2191, 2075-2109
    let _ ← reserve g.fs 3
    let (s, js) := jump g.fs
    let loop : G := { enter g.fs with fs := s }
    let scope := enter loop.fs
    let s ← reserve { scope.fs with nactvar := scope.fs.nactvar + n } n
    let (i, _) ← gs F fixed false b (enter s)
    let scope ← leave false i { scope with fs := s }
    let loop ← leave false scope loop
    let g ← leave true { loop with fs := forintail (g.fs.nactvar - 3) n g.fs.pc js loop.fs } g
    return (g, [])
  | .ret es, g => do
    let s ← retstat F fixed es g.fs
    return ({ g with fs := s }, [])
  | .retc as, g => do
    let s ← retMulti F fixed as g.fs
    return ({ g with fs := s }, [])
  | .test c (.cons (.goto l) b) rest, g => do   -- `test_then_block`, lparser.c 2215-2247
    let (s, js) ← condGoto F fixed c g.fs
    let i ← gotostat l js (enter s)
    if b.isNil then do
      let g ← leave false i g
      gs F fixed false rest g
    else do
      let (s, jf) := jump i.fs
      let (i, _) ← gs F fixed false b { i with fs := s }
      let g ← leave false i g
      let (g, j) := testend rest.isFi jf g
      let (g, esc) ← gs F fixed false rest g
      return (g, j ++ esc)
  | .test c b rest, g => do
    let (s, jf) ← condIf F fixed c g.fs
    let (i, _) ← gs F fixed false b (enter s)
    let g ← leave false i g
    let (g, j) := testend rest.isFi jf g
    let (g, esc) ← gs F fixed false rest g
    return (g, j ++ esc)
  | .els b, g => do                        -- `block`, lparser.c 1833-1840
    let (i, _) ← gs F fixed false b (enter g.fs)
    let g ← leave false i g
    return (g, [])
  | .fi, g => .ok (g, [])

/-- a function with `n` parameters: `body`, lparser.c 1347-1367, `open_func` and `close_func` 990-1045, without
nested functions; the result is the code and the constants -/
def genFunc (F : Fold.FOps) (fixed : Bool) (n : Nat) (b : S) : Res (List Instr × List Val) := do
  let (g, _) ← gs F fixed false b { fs := FS.start n [], nact := 0, labels := [], gotos := [] }
  match g.gotos with
  | [] =>
    let s := emit g.fs (.ret 0 0)
    return (s.code, s.k)
  | _ => .err "no visible label, or break outside a loop"

/-! ### the machine -/

variable {W : Type}

/-- the machine is running, or it has returned values or failed -/
inductive St (W : Type) where
  | run (pc : Nat) (R : Regs) (w : W)
  | done (r : Res (List Val × W))

/-- one instruction, `luaV_execute`, lvm.c 1390-2000 -/
def mstep (P : Ops W) (K : List Val) (C : List Instr) (pc : Nat) (R : Regs) (w : W) : St W :=
  match C[pc]? with
  | none => .done .ub
  | some (.jmp none) => .done .ub
  | some (.jmp (some t)) => .run t R w
  | some (.ret a n) => .done (.ok ((List.range' a n).map R, w))
  | some (.retcall first a n l) =>
    match callChain P a l R (a + 1 + n) w with
    | .ok (R, top, w) => .done (.ok ((List.range' first (top - first)).map R, w))
    | .err m => .done (.err m)
    | .ub => .done .ub
  | some i =>
    match i.exec P K R w with
    | .ok (n, R, w) => .run (pc + 1 + n) R w
    | .err m => .done (.err m)
    | .ub => .done .ub

/-- `n` instructions -/
def mrun (P : Ops W) (K : List Val) (C : List Instr) : Nat → St W → St W
  | 0, st => st
  | _ + 1, .done r => .done r
  | n + 1, .run pc R w => mrun P K C n (mstep P K C pc R w)

/-! ### the meaning of statements -/

/-- how execution ends; `out`: not within the given depth -/
inductive O (W : Type) where
  | fin (r : Res (List Val × W))
  | out

/-- what happens next, given the values of the local variables -/
abbrev Kont (W : Type) := List Val → W → O W

/-- the visible labels, each with the number of variables that are in scope there -/
abbrev LEnv (W : Type) := Nat → Option (Nat × Kont W)

/-- the variables of an environment -/
def look (env : List Val) (x : Nat) : Val := env.getD x .nil

def bindR {α : Type} (r : Res (α × W)) (f : α → W → O W) : O W :=
  match r with
  | .ok (a, w) => f a w
  | .err m => .fin (.err m)
  | .ub => .fin .ub

def bot : Kont W := fun _ _ => .out

/-- leave a scope: `n` variables are left -/
def cut (n : Nat) (k : Kont W) : Kont W := fun env w => k (env.take n) w

/-- `n` rounds of a loop -/
def iter (f : Kont W → Kont W) : Nat → Kont W
  | 0 => bot
  | n + 1 => f (iter f n)

/-- more labels -/
def extend (ρ : LEnv W) (ls : List (Nat × Nat × Kont W)) : LEnv W := fun l =>
  match ls.find? (·.1 = l) with
  | some e => some e.2
  | none => ρ l

/-- the labels of a block, whose continuations may go to them again, `d` times -/
def tie (ρ : LEnv W) (names : List Nat) (f : LEnv W → List (Nat × Nat × Kont W)) : Nat → LEnv W
  | 0 => extend ρ (names.map fun l => (l, 0, bot))
  | d + 1 => extend ρ (f (tie ρ names f d))

/-- the variables that a statement declares -/
def S.nloc : S → Nat
  | .loc n _ => n
  | .locc n _ => n
  | .cons s rest => s.nloc + rest.nloc
  | _ => 0

/-- the labels of a list of statements -/
def S.names : S → List Nat
  | .cons s rest => s.asLabel.toList ++ rest.names
  | _ => []

/-- a block, in which the labels that it defines are visible -/
def scope (d : Nat) (b : S) (ρ : LEnv W) (f : LEnv W → Kont W → Kont W × List (Nat × Nat × Kont W)) (k : Kont W) :
    Kont W :=
  (f (tie ρ b.names (fun ρ => (f ρ k).2) d) k).1

/-- `local v1, .., vn = vs` -/
def adjust (n : Nat) (vs : List Val) : List Val := (vs ++ List.replicate (n - vs.length) Val.nil).take n

/-- The meaning of a statement, a list of statements or the parts of an `if`, in the continuation style: what the
program does from there on, given what it does after the statement (`k`) and after each label that is visible (`ρ`).
For a list the second result gives its labels.  Loops and jumps backward are followed up to the depth `d` (and the
result is `out` beyond); the meaning of a program is the limit.  `n` is the number of variables in scope, `n0` that at
the beginning of the block, `u` says that the list ends with `until`.

Reference manual 3.3: a label is visible in the block where it is defined, and a goto may jump to any visible label as long
as it does not enter the scope of a local variable; labels at the end of a block are considered to be outside the scope of
its variables. -/
def sem (P : Ops W) (d : Nat) (u : Bool) (n0 n : Nat) : S → LEnv W → Kont W → Kont W × List (Nat × Nat × Kont W)
  | .nil, _, k => (k, [])
  | .cons s rest, ρ, k =>
    match s.asLabel with
    | some l =>
      let r := sem P d u n0 n rest ρ k
      (r.1, (l, if !u && rest.onlyLabels then n0 else n, r.1) :: r.2)
    | none =>
      let r := sem P d u n0 (n + s.nloc) rest ρ k
      ((sem P d false n n s (extend ρ r.2) r.1).1, r.2)
  | .loc m es, _, k => (fun env w => bindR (evalList P (look env) es w) fun vs w => k (env ++ adjust m vs) w, [])
  | .assign vs es e, _, k =>
    (fun env w => bindR (Assign.assign P vs (es ++ [e]) (look env) w) fun L w => k ((List.range env.length).map L) w, [])
  | .locc m as, _, k => (fun env w => bindR (evalArgs P (look env) as w) fun vs w => k (env ++ adjust m vs) w, [])
  | .assignc vs as, _, k =>
    (fun env w => bindR (Assign.assignAll P vs as (look env) w) fun L w => k ((List.range env.length).map L) w, [])
  | .goto l, ρ, _ =>
    (fun env w => match ρ l with
      | some (m, k) => k (env.take m) w
      | none => .fin .ub, [])
  | .label _, _, k => (k, [])
  | .do_ b, ρ, k => (scope d b ρ (sem P d false n n b) (cut n k), [])
  | .while_ c b, ρ, k =>
    let ρ' := extend ρ [(brk, n, k)]
    (iter (fun again env w => bindR (eval P (look env) c w) fun v w =>
      if v.truthy then scope d b ρ' (sem P d false n n b) (cut n again) env w else k env w) d, [])
  | .repeat_ b c, ρ, k =>
    let ρ' := extend ρ [(brk, n, k)]
    (iter (fun again => scope d b ρ' (sem P d true n n b) fun env w =>
      bindR (eval P (look env) c w) fun v w => if v.truthy then cut n k env w else cut n again env w) d, [])
  | .if_ p, ρ, k => ((sem P d false n n p ρ k).1, [])
  | .for_ e1 e2 e3 b, ρ, k =>
    let ρ' := extend ρ [(brk, n, k)]
    (fun env w => bindR (evalList P (look env) [e1, e2, e3] w) fun vs w =>
      match P.forprep (look vs 0) (look vs 1) (look vs 2) with
      | .err m => .fin (.err m)
      | .ub => .fin .ub
      | .ok (i, l, st) =>
        iter (fun again env w =>
          match P.forloop (look env n) (look env (n + 1)) (look env (n + 2)) with
          | none => cut n k env w
          | some v => scope d b ρ' (sem P d false (n + 4) (n + 4) b) (cut (n + 3) again) (env.set n v ++ [v]) w) d
        (env ++ [i, l, st]) w, [])
  | .forin m b, ρ, k =>
    let ρ' := extend ρ [(brk, n, k)]
    (iter (fun again env w =>
      bindR (P.call (look env (n - 3)) [look env (n - 2), look env (n - 1)] w) fun vs w =>
        if look vs 0 = .nil then k env w
        else scope d b ρ' (sem P d false (n + m) (n + m) b) (cut n again) (env.set (n - 1) (look vs 0) ++ adjust m vs) w) d, [])
  | .ret es, _, _ => (fun env w => bindR (evalList P (look env) es w) fun vs w => .fin (.ok (vs, w)), [])
  | .retc as, _, _ => (fun env w => bindR (evalArgs P (look env) as w) fun vs w => .fin (.ok (vs, w)), [])
  | .test c b rest, ρ, k =>
    (fun env w => bindR (eval P (look env) c w) fun v w =>
      if v.truthy then scope d b ρ (sem P d false n n b) (cut n k) env w
      else (sem P d false n n rest ρ k).1 env w, [])
  | .els b, ρ, k => (scope d b ρ (sem P d false n n b) (cut n k), [])
  | .fi, _, k => (k, [])

/-- a function that is called with the arguments `args` -/
def semFunc (P : Ops W) (d : Nat) (b : S) (args : List Val) (w : W) : O W :=
  scope d b (fun _ => none) (sem P d false 0 args.length b) (fun _ w => .fin (.ok ([], w))) args w

end Verif.Stat
