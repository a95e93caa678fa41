import Verif.Base
/-!
Instructions that call functions, and how they are completed when the function yielded: the metamethod cases of `luaV_execute`
(`src/lvm.c` 1444-1760, 1939-1960), `luaT_callTM`, `luaT_callbinTM`, `luaT_trybinTM`, `luaT_callorderTM` (`src/ltm.c` 125-190),
`luaV_lessthan`, `luaV_lessequal`, `luaV_equalobj`, `luaV_concat`, `luaV_objlen` (`src/lvm.c` 689-880) and `luaV_finishOp`
(`src/lvm.c` 1003-1064).

A function that is called from such an instruction runs in another call of `luaV_execute` or in C.  If it does not yield, the C code of the
instruction goes on behind the call.  If it yields, that C code is gone; when the function has returned, `unroll` (`src/ldo.c` 655-667) calls
`luaV_finishOp` and then `luaV_execute`.

Simplifications:
* What a called function does is arbitrary: it may change all of the stack (by upvalues) and all other state, and leaves its results where
  it was called.  It may not change `savedpc` and `callstatus` of its caller.
* What the instructions do without a call is a parameter: arithmetic, raw access and the search for handlers (`Verif.Meta`), comparison of
  numbers and strings, the conversion and joining of strings (`Verif.Concat`), closing of upvalues.
* The stack is indexed by numbers, so that its reallocation (`savestack`) is not seen.  Hooks and the collector are left out.
* `OP_CALL` and `OP_TAILCALL` are modelled for C functions only (for Lua functions the frame is left; see `Verif.Call` and `Verif.Coro`).
* Opcodes with the same effect are one instruction of the model.
-/
namespace Verif.FinishOp

/-- the state of a Lua function and of all else: stack, `L->top`, `savedpc`, the bit `CIST_LEQ`, and the rest -/
structure St (V W : Type) where
  R : Nat → V
  top : Nat
  pc : Nat
  leq : Bool
  w : W

/-- what a called function leaves: the stack, the rest, and the number of results if all are wanted -/
structure Ans (V W : Type) where
  R : Nat → V
  w : W
  n : Nat

/-- A computation: it ends, it raises an error, or it calls the function at index `func` for `want` results (all if `none`), and then goes on. -/
inductive Prog (V W α : Type) where
  | ret (a : α) (s : St V W)
  | err (e : V)
  | call (s : St V W) (func : Nat) (want : Option Nat) (k : Ans V W → Prog V W α)

abbrev M (V W α : Type) := St V W → Prog V W α

/-- sequence -/
def Prog.bind {V W α β : Type} : Prog V W α → (α → St V W → Prog V W β) → Prog V W β
  | .ret a s, f => f a s
  | .err e, _ => .err e
  | .call s func want k, f => .call s func want fun a => (k a).bind f

/-- the state when the called function has returned: the results are at `func` and `L->top` is behind them (`luaD_poscall`,
`src/ldo.c` 389-409) -/
def after {V W : Type} (s : St V W) (func : Nat) (want : Option Nat) (a : Ans V W) : St V W :=
  { s with R := a.R, w := a.w, top := func + want.getD a.n }

def set {V : Type} (R : Nat → V) (i : Nat) (v : V) : Nat → V := fun j => if j = i then v else R j

/-- an operand: register or constant (`RKB`, `RKC`), or upvalue -/
inductive Src where
  | reg (n : Nat)
  | const (n : Nat)
  | upval (n : Nat)

/-- events of binary metamethods -/
inductive Ev where
  | arith (op : Nat)
  | concat | lt | le
  deriving DecidableEq

/-- Instructions.  `arith`: `OP_ADD` … `OP_SHR`, and `OP_UNM`, `OP_BNOT` with twice the same operand; `get`: `OP_GETTABUP`, `OP_GETTABLE`,
`OP_RAVI_GETI`, `OP_RAVI_GETFIELD`, `OP_RAVI_TABLE_GETFIELD`, `OP_RAVI_GETTABUP_SK`; `self`: `OP_SELF`, `OP_RAVI_SELF_SK`,
`OP_RAVI_TABLE_SELF_SK`; `setv`: `OP_SETTABUP`, `OP_SETTABLE`, `OP_RAVI_SETI`, `OP_RAVI_SETFIELD`, `OP_RAVI_TABLE_SETFIELD`; `other`:
instructions that do not call. -/
inductive Instr where
  | arith (op a : Nat) (b c : Src)
  | len (a : Nat) (b : Src)
  | get (a : Nat) (t k : Src)
  | self (a : Nat) (b k : Src)
  | setv (t k v : Src)
  | concat (a b c : Nat)
  | eq (a : Bool) (b c : Src)
  | lt (a : Bool) (b c : Src)
  | le (a : Bool) (b c : Src)
  | jmp (a : Nat) (d : Int)
  | tforcall (a c : Nat)
  | tforloop (a : Nat) (d : Int)
  | call (a b c : Nat)
  | tailcall (a b : Nat)
  | other (n : Nat)

/-- what an instruction finds before it calls: a result, a handler (with the object it is called for), an error -/
inductive Dec (V X : Type) where
  | val (x : X)
  | tm (f o : V)
  | err (e : V)

/-- The fixed part: `base` and `ci->top` of the function, its code and constants, upvalues, and what the instructions do without a call. `join`
is one turn of `luaV_concat` without metamethod: `m + 2` operands at the top were joined (the stack is changed), or `none`: the last two
operands need the metamethod. -/
structure Sys (V W : Type) where
  base : Nat
  ctop : Nat
  code : Nat → Instr
  const : Nat → V
  upval : W → (Nat → V) → Nat → V
  falsy : V → Bool
  isnil : V → Bool
  arith : Nat → W → V → V → Option V
  tmOf : W → Ev → V → V
  tmErr : Ev → V → V → V
  lenOf : W → V → Dec V V
  index : W → V → V → Dec V V
  newindex : W → V → V → V → Dec V W
  eqOf : W → V → V → Dec V Bool
  ltPrim : V → V → Option Bool
  lePrim : V → V → Option Bool
  join : W → (Nat → V) → Nat → Nat → Option (Except V (Nat × (Nat → V) × W))
  close : Nat → W → (Nat → V) → (Nat → V) × W
  other : Nat → W → (Nat → V) → Nat → Nat → (Nat → V) × W × Nat × Nat

section
variable {V W : Type}

def src (P : Sys V W) (s : St V W) : Src → V
  | .reg n => s.R (P.base + n)
  | .const n => P.const n
  | .upval n => P.upval s.w s.R n

/-- `luaT_callTM` with a result for the stack index `p3`, `src/ltm.c` 125-146 -/
def callTM (f p1 p2 : V) (p3 : Nat) : M V W Unit := fun s =>
  let func := s.top
  let s1 := { s with R := set (set (set s.R func f) (func + 1) p1) (func + 2) p2, top := func + 3 }
  .call s1 func (some 1) fun a =>
    let s2 := after s1 func (some 1) a
    .ret () { s2 with R := set s2.R p3 (s2.R (s2.top - 1)), top := s2.top - 1 }

/-- `luaT_callTM` without result, `p3` is the third argument -/
def callTM0 (f p1 p2 p3 : V) : M V W Unit := fun s =>
  let func := s.top
  let s1 := { s with R := set (set (set (set s.R func f) (func + 1) p1) (func + 2) p2) (func + 3) p3, top := func + 4 }
  .call s1 func (some 0) fun a => .ret () (after s1 func (some 0) a)

/-- `luaT_callbinTM`, `src/ltm.c` 149-157 -/
def callbinTM (P : Sys V W) (p1 p2 : V) (res : Nat) (ev : Ev) : M V W Bool := fun s =>
  let tm := P.tmOf s.w ev p1
  let tm := if P.isnil tm then P.tmOf s.w ev p2 else tm
  if P.isnil tm then .ret false s
  else (callTM tm p1 p2 res s).bind fun _ s => .ret true s

/-- `luaT_trybinTM`, `src/ltm.c` 160-180 -/
def trybinTM (P : Sys V W) (p1 p2 : V) (res : Nat) (ev : Ev) : M V W Unit := fun s =>
  (callbinTM P p1 p2 res ev s).bind fun ok s => if ok then .ret () s else .err (P.tmErr ev p1 p2)

/-- `luaT_callorderTM`, `src/ltm.c` 183-190: `none` is -1 -/
def callorderTM (P : Sys V W) (p1 p2 : V) (ev : Ev) : M V W (Option Bool) := fun s =>
  (callbinTM P p1 p2 s.top ev s).bind fun ok s => .ret (if ok then some (!P.falsy (s.R s.top)) else none) s

/-- `luaV_lessthan`, `src/lvm.c` 689-699 -/
def lessthan (P : Sys V W) (l r : V) : M V W Bool := fun s =>
  match P.ltPrim l r with
  | some b => .ret b s
  | none => (callorderTM P l r .lt s).bind fun res s =>
    match res with
    | some b => .ret b s
    | none => .err (P.tmErr .lt l r)

/-- `luaV_lessequal`, `src/lvm.c` 710-725 -/
def lessequal (P : Sys V W) (l r : V) : M V W Bool := fun s =>
  match P.lePrim l r with
  | some b => .ret b s
  | none => (callorderTM P l r .le s).bind fun res s =>
    match res with
    | some b => .ret b s
    | none => (callorderTM P r l .lt { s with leq := true }).bind fun res s =>
      let s := { s with leq := !s.leq }
      match res with
      | some b => .ret (!b) s
      | none => .err (P.tmErr .lt l r)

/-- `luaV_equalobj`, `src/lvm.c` 732-783; the part before the call is `eqOf` -/
def equalobj (P : Sys V W) (t1 t2 : V) : M V W Bool := fun s =>
  match P.eqOf s.w t1 t2 with
  | .val b => .ret b s
  | .err e => .err e
  | .tm f _ => (callTM f t1 t2 s.top s).bind fun _ s => .ret (!P.falsy (s.R s.top)) s

/-- `luaV_concat`, `src/lvm.c` 806-841, called with `total ≥ 2` only -/
def concat (P : Sys V W) (total : Nat) : M V W Unit := fun s =>
  if h : total < 2 then .ret () s
  else
    match P.join s.w s.R s.top total with
    | none =>
      (trybinTM P (s.R (s.top - 2)) (s.R (s.top - 1)) (s.top - 2) .concat s).bind fun _ s =>
        concat P (total - 1) { s with top := s.top - 1 }
    | some (.error e) => .err e
    | some (.ok (m, R, w)) => concat P (total - (m + 1)) { s with R := R, w := w, top := s.top - (m + 1) }
termination_by total

/-- `pc += d` -/
def jump (pc : Nat) (d : Int) : Nat := (pc + d).toNat

/-- `dojump` for the `OP_JMP` with operands `a`, `d`, `src/lvm.c` 1094-1107 -/
def dojump (P : Sys V W) (a : Nat) (d e : Int) (s : St V W) : St V W :=
  let s := if a = 0 then s else
    let x := P.close (P.base + a - 1) s.w s.R
    { s with R := x.1, w := x.2 }
  { s with pc := jump s.pc (d + e) }

/-- operands of an `OP_JMP` -/
def jmpArgs : Instr → Nat × Int
  | .jmp a d => (a, d)
  | _ => (0, 0)

/-- the end of `OP_EQ`, `OP_LT`, `OP_LE` (`src/lvm.c` 1713-1716): skip the next instruction or do it (`donextjump`) -/
def test (P : Sys V W) (a res : Bool) : M V W Unit := fun s =>
  if res ≠ a then .ret () { s with pc := s.pc + 1 }
  else
    let j := jmpArgs (P.code s.pc)
    .ret () (dojump P j.1 j.2 1 s)

/-- `OP_TFORLOOP`, `src/lvm.c` 1953-1960 -/
def tforloop (P : Sys V W) (a : Nat) (d : Int) (s : St V W) : St V W :=
  if P.isnil (s.R (P.base + a + 1)) then s
  else { s with R := set s.R (P.base + a) (s.R (P.base + a + 1)), pc := jump s.pc d }

/-- operands of an `OP_TFORLOOP` -/
def tforArgs : Instr → Nat × Int
  | .tforloop a d => (a, d)
  | _ => (0, 0)

/-- one instruction; `pc` is already behind it -/
def exec (P : Sys V W) : Instr → M V W Unit
  | .arith op a b c => fun s =>
    match P.arith op s.w (src P s b) (src P s c) with
    | some v => .ret () { s with R := set s.R (P.base + a) v }
    | none => trybinTM P (src P s b) (src P s c) (P.base + a) (.arith op) s
  | .len a b => fun s =>
    match P.lenOf s.w (src P s b) with
    | .val v => .ret () { s with R := set s.R (P.base + a) v }
    | .err e => .err e
    | .tm f o => callTM f o o (P.base + a) s
  | .get a t k => fun s =>
    match P.index s.w (src P s t) (src P s k) with
    | .val v => .ret () { s with R := set s.R (P.base + a) v }
    | .err e => .err e
    | .tm f o => callTM f o (src P s k) (P.base + a) s
  | .self a b k => fun s =>
    let o := src P s b
    let s := { s with R := set s.R (P.base + a + 1) o }
    match P.index s.w o (src P s k) with
    | .val v => .ret () { s with R := set s.R (P.base + a) v }
    | .err e => .err e
    | .tm f o => callTM f o (src P s k) (P.base + a) s
  | .setv t k v => fun s =>
    match P.newindex s.w (src P s t) (src P s k) (src P s v) with
    | .val w => .ret () { s with w := w }
    | .err e => .err e
    | .tm f o => callTM0 f o (src P s k) (src P s v) s
  | .concat a b c => fun s =>
    (concat P (c - b + 1) { s with top := P.base + c + 1 }).bind fun _ s =>
      .ret () { s with R := set s.R (P.base + a) (s.R (P.base + b)), top := P.ctop }
  | .eq a b c => fun s => (equalobj P (src P s b) (src P s c) s).bind fun res s => test P a res s
  | .lt a b c => fun s => (lessthan P (src P s b) (src P s c) s).bind fun res s => test P a res s
  | .le a b c => fun s => (lessequal P (src P s b) (src P s c) s).bind fun res s => test P a res s
  | .jmp a d => fun s => .ret () (dojump P a d 0 s)
  | .tforcall a c => fun s =>
    let ra := P.base + a
    let cb := ra + 3
    let R := set s.R (cb + 2) (s.R (ra + 2))
    let R := set R (cb + 1) (R (ra + 1))
    let R := set R cb (R ra)
    let s1 := { s with R := R, top := cb + 3 }
    .call s1 cb (some c) fun x =>
      let s := { after s1 cb (some c) x with top := P.ctop }
      let j := tforArgs (P.code s.pc)
      .ret () (tforloop P j.1 j.2 { s with pc := s.pc + 1 })
  | .tforloop a d => fun s => .ret () (tforloop P a d s)
  | .call a b c => fun s =>
    let ra := P.base + a
    let s1 := if b ≠ 0 then { s with top := ra + b } else s
    let want := if c = 0 then none else some (c - 1)
    .call s1 ra want fun x =>
      let s := after s1 ra want x
      .ret () (if c = 0 then s else { s with top := P.ctop })
  | .tailcall a b => fun s =>
    let ra := P.base + a
    let s1 := if b ≠ 0 then { s with top := ra + b } else s
    .call s1 ra none fun x => .ret () (after s1 ra none x)
  | .other n => fun s =>
    let x := P.other n s.w s.R s.top s.pc
    .ret () { s with R := x.1, w := x.2.1, top := x.2.2.1, pc := x.2.2.2 }

/-- `luaV_finishOp` for the interrupted instruction, `src/lvm.c` 1003-1064 -/
def finishOp (P : Sys V W) : Instr → M V W Unit
  | .arith _ a _ _ => dest a
  | .len a _ => dest a
  | .get a _ _ => dest a
  | .self a _ _ => dest a
  | .le a _ _ => cond a
  | .lt a _ _ => cond a
  | .eq a _ _ => cond a
  | .concat a b _ => fun s =>
    let top := s.top - 1
    let total := top - 1 - (P.base + b)
    let s := { s with R := set s.R (top - 2) (s.R top) }
    let fin : M V W Unit := fun s => .ret () { s with R := set s.R (P.base + a) (s.R (s.top - 1)), top := P.ctop }
    if total > 1 then (concat P total { s with top := top - 1 }).bind fun _ s => fin s
    else fin s
  | .tforcall _ _ => fun s => .ret () { s with top := P.ctop }
  | .call _ _ c => fun s => .ret () (if c = 0 then s else { s with top := P.ctop })
  | .tailcall _ _ => fun s => .ret () s
  | .setv _ _ _ => fun s => .ret () s
  | .jmp _ _ => fun s => .ret () s
  | .tforloop _ _ => fun s => .ret () s
  | .other _ => fun s => .ret () s
where
  /-- `setobjs2s(L, base + GETARG_A(inst), --L->top)` -/
  dest (a : Nat) : M V W Unit := fun s =>
    .ret () { s with R := set s.R (P.base + a) (s.R (s.top - 1)), top := s.top - 1 }
  /-- the cases `OP_LE`, `OP_LT`, `OP_EQ` -/
  cond (a : Bool) : M V W Unit := fun s =>
    let res := !P.falsy (s.R (s.top - 1))
    let s := { s with top := s.top - 1 }
    let x := if s.leq then (!res, { s with leq := false }) else (res, s)
    if x.1 ≠ a then .ret () { x.2 with pc := x.2.pc + 1 } else .ret () x.2

/-- how a computation ends -/
inductive End (V W : Type) where
  | at (s : St V W)
  | err (e : V)

/-- A run of a computation for the instruction `i`, given what the called functions do and whether they yield: after a yield the C code is
gone, and `luaV_finishOp` is called for the state left by the function. -/
inductive Run (P : Sys V W) (i : Instr) : Prog V W Unit → List (Ans V W × Bool) → End V W → Prop
  | ret {s : St V W} : Run P i (.ret () s) [] (.at s)
  | err {e : V} : Run P i (.err e) [] (.err e)
  | back {s : St V W} {func : Nat} {want : Option Nat} {k : Ans V W → Prog V W Unit} {a : Ans V W} {l : List (Ans V W × Bool)} {o : End V W} :
      Run P i (k a) l o → Run P i (.call s func want k) ((a, false) :: l) o
  | resumed {s : St V W} {func : Nat} {want : Option Nat} {k : Ans V W → Prog V W Unit} {a : Ans V W} {l : List (Ans V W × Bool)} {o : End V W} :
      Run P i (finishOp P i (after s func want a)) l o → Run P i (.call s func want k) ((a, true) :: l) o

/-- `luaV_execute` runs instruction after instruction -/
inductive Reach (P : Sys V W) : St V W → List (Ans V W × Bool) → End V W → Prop
  | refl {s : St V W} : Reach P s [] (.at s)
  | step {s s1 : St V W} {l1 l2 : List (Ans V W × Bool)} {o : End V W} :
      Run P (P.code s.pc) (exec P (P.code s.pc) { s with pc := s.pc + 1 }) l1 (.at s1) → Reach P s1 l2 o → Reach P s (l1 ++ l2) o
  | err {s : St V W} {l : List (Ans V W × Bool)} {e : V} :
      Run P (P.code s.pc) (exec P (P.code s.pc) { s with pc := s.pc + 1 }) l (.err e) → Reach P s l (.err e)

end
end Verif.FinishOp
