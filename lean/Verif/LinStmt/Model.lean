import Verif.Lin.Model

/-!
# The linearizer of the compiler library: control statements

`if`, `while`, `repeat`, numeric `for`, `break` and lists of statements, on top of the expressions
and assignments of `Verif.Lin`.

Not modelled: variables captured by closures (so no scope has `need_close`, and no `op_close`
instruction is emitted), `goto` and labels, `return`, calls, the generic `for`.  The registers of
all local variables of the function are in use throughout, where the linearizer takes them at the
start of their scope and gives them back at its end (`start_scope`, `end_scope`, `linearizer.c`
2980-3035); a `local` statement is then an assignment.
-/
namespace Verif.LinStmt
open Verif.Lin

/-- Statements.  Lists of statements are built with `skip` and `seq`.  `ite c b r` is
`if c then b r` or `elseif c then b r`, where the rest `r` is another `ite`, or `els b`
(`else b end`), or `fin` (`end`). -/
inductive Stm (F O : Type) where
  | skip
  | seq (a b : Stm F O)
  | assign (ts : List (Tgt F O)) (es : List (Exp F O))
  | whl (c : Exp F O) (b : Stm F O)
  | rep (b : Stm F O) (c : Exp F O)
  | forn (x : Nat) (e1 e2 : Exp F O) (e3 : Option (Exp F O)) (b : Stm F O)
  | brk
  | ite (c : Exp F O) (b r : Stm F O)
  | els (b : Stm F O)
  | fin

/-! ## What statements mean -/

section
variable (P : Par)

/-- How a statement ends: normally, by `break`, or with an error - or it has not ended: `long n`
says that it is running and that loops have done at least `n` rounds.  `bad`: a run that is not
considered; it meets something that the conditions below exclude, or a `for` whose values are not
all integers. -/
inductive Out
  | norm (ρ : Nat → P.V) (s : P.S)
  | brk (ρ : Nat → P.V) (s : P.S)
  | err (m : String)
  | long (n : Nat)
  | bad

/-- What the rest of the statements around does not change. -/
def Out.pass {P : Par} : Out P → Bool
  | .norm _ _ | .brk _ _ => false
  | _ => true

/-- A statement, or a loop that is running: about to test the condition of a `while`, to run the
body of a `repeat`, or to test whether a numeric `for` goes on with the value `i`. -/
inductive Cmd
  | stm (a : Stm P.F P.O)
  | whl (c : Exp P.F P.O) (b : Stm P.F P.O)
  | rep (b : Stm P.F P.O) (c : Exp P.F P.O)
  | loop (x : Nat) (i l d : I64) (b : Stm P.F P.O)

/-- The three expressions of a numeric `for`, from left to right; the step is 1 if there is none. -/
def evalFor (ev : Exp P.F P.O → P.S → Res (P.V × P.S)) (e1 e2 : Exp P.F P.O)
    (e3 : Option (Exp P.F P.O)) (s : P.S) : Res ((P.V × P.V × P.V) × P.S) := do
  let (a, s) ← ev e1 s
  let (b, s) ← ev e2 s
  match e3 with
  | none => .ok ((a, b, .int 1), s)
  | some e => do
    let (c, s) ← ev e s
    .ok ((a, b, c), s)

/-- Does the loop go on (`src/lvm.c`, OP_FORLOOP for integers)? -/
def goesOn (i l d : I64) : Bool := if (0 : I64).slt d then i.sle l else l.sle i

/-- Conditions under which a run is considered: on the evaluation of expressions, on assignments,
on the expressions of a `for`, on the arithmetic of its start and of its steps. -/
structure Guard where
  exp : (Nat → P.V) → Exp P.F P.O → P.S → Prop
  asg : (Nat → P.V) → List (Tgt P.F P.O) → List (Exp P.F P.O) → P.S → Prop
  efor : (Nat → P.V) → Exp P.F P.O → Exp P.F P.O → Option (Exp P.F P.O) → P.S → Prop
  start : I64 → I64 → Prop
  next : I64 → I64 → Prop

/-- No conditions: the language. -/
def Guard.none : Guard P :=
  ⟨fun _ _ _ => True, fun _ _ _ _ => True, fun _ _ _ _ _ => True, fun _ _ => True, fun _ _ => True⟩

variable {P}

/-- What statements do (manual 3.3.4, 3.3.5; the numeric `for` over integers as in `src/lvm.c`,
OP_FORPREP and OP_FORLOOP, where the arithmetic wraps around).  `ty` are the declared types of the
variables. -/
inductive Exec (ty : Nat → Ty) (G : Guard P) : Cmd P → (Nat → P.V) → P.S → Out P → Prop where
  -- a run that is looked at before its end
  | cut {cmd ρ s} : Exec ty G cmd ρ s (.long 0)
  | skip {ρ s} : Exec ty G (.stm .skip) ρ s (.norm ρ s)
  | seq {a b ρ s ρ1 s1 o} : Exec ty G (.stm a) ρ s (.norm ρ1 s1) → Exec ty G (.stm b) ρ1 s1 o →
      Exec ty G (.stm (.seq a b)) ρ s o
  | seqB {a b ρ s ρ1 s1} : Exec ty G (.stm a) ρ s (.brk ρ1 s1) →
      Exec ty G (.stm (.seq a b)) ρ s (.brk ρ1 s1)
  | seqP {a b ρ s o} : o.pass = true → Exec ty G (.stm a) ρ s o → Exec ty G (.stm (.seq a b)) ρ s o
  | asg {ts es ρ s ρ1 s1} : G.asg ρ ts es s → evalAssign P ty ts es ρ s = .ok (ρ1, s1) →
      Exec ty G (.stm (.assign ts es)) ρ s (.norm ρ1 s1)
  | asgE {ts es ρ s m} : G.asg ρ ts es s → evalAssign P ty ts es ρ s = .err m →
      Exec ty G (.stm (.assign ts es)) ρ s (.err m)
  | asgX {ts es ρ s} : ¬ G.asg ρ ts es s → Exec ty G (.stm (.assign ts es)) ρ s .bad
  | brk {ρ s} : Exec ty G (.stm .brk) ρ s (.brk ρ s)
  -- while
  | whl {c b ρ s o} : Exec ty G (.whl c b) ρ s o → Exec ty G (.stm (.whl c b)) ρ s o
  | whlC {c b ρ s m} : G.exp ρ c s → eval P ρ c s = .err m → Exec ty G (.whl c b) ρ s (.err m)
  | whlF {c b ρ s v s1} : G.exp ρ c s → eval P ρ c s = .ok (v, s1) → isFalse v = true →
      Exec ty G (.whl c b) ρ s (.norm ρ s1)
  | whlT {c b ρ s v s1 ρ2 s2 o} : G.exp ρ c s → eval P ρ c s = .ok (v, s1) → isFalse v = false →
      Exec ty G (.stm b) ρ s1 (.norm ρ2 s2) → Exec ty G (.whl c b) ρ2 s2 o →
      Exec ty G (.whl c b) ρ s o
  | whlB {c b ρ s v s1 ρ2 s2} : G.exp ρ c s → eval P ρ c s = .ok (v, s1) → isFalse v = false →
      Exec ty G (.stm b) ρ s1 (.brk ρ2 s2) → Exec ty G (.whl c b) ρ s (.norm ρ2 s2)
  | whlP {c b ρ s v s1 o} : G.exp ρ c s → eval P ρ c s = .ok (v, s1) → isFalse v = false →
      o.pass = true → Exec ty G (.stm b) ρ s1 o → Exec ty G (.whl c b) ρ s o
  | whlX {c b ρ s} : ¬ G.exp ρ c s → Exec ty G (.whl c b) ρ s .bad
  | whlN {c b ρ s v s1 ρ2 s2 n} : G.exp ρ c s → eval P ρ c s = .ok (v, s1) → isFalse v = false →
      Exec ty G (.stm b) ρ s1 (.norm ρ2 s2) → Exec ty G (.whl c b) ρ2 s2 (.long n) →
      Exec ty G (.whl c b) ρ s (.long (n + 1))
  -- repeat
  | rep {b c ρ s o} : Exec ty G (.rep b c) ρ s o → Exec ty G (.stm (.rep b c)) ρ s o
  | repC {b c ρ s ρ1 s1 m} : Exec ty G (.stm b) ρ s (.norm ρ1 s1) → G.exp ρ1 c s1 →
      eval P ρ1 c s1 = .err m → Exec ty G (.rep b c) ρ s (.err m)
  | repT {b c ρ s ρ1 s1 v s2} : Exec ty G (.stm b) ρ s (.norm ρ1 s1) → G.exp ρ1 c s1 →
      eval P ρ1 c s1 = .ok (v, s2) → isFalse v = false → Exec ty G (.rep b c) ρ s (.norm ρ1 s2)
  | repF {b c ρ s ρ1 s1 v s2 o} : Exec ty G (.stm b) ρ s (.norm ρ1 s1) → G.exp ρ1 c s1 →
      eval P ρ1 c s1 = .ok (v, s2) → isFalse v = true → Exec ty G (.rep b c) ρ1 s2 o →
      Exec ty G (.rep b c) ρ s o
  | repB {b c ρ s ρ1 s1} : Exec ty G (.stm b) ρ s (.brk ρ1 s1) →
      Exec ty G (.rep b c) ρ s (.norm ρ1 s1)
  | repP {b c ρ s o} : o.pass = true → Exec ty G (.stm b) ρ s o → Exec ty G (.rep b c) ρ s o
  | repX {b c ρ s ρ1 s1} : Exec ty G (.stm b) ρ s (.norm ρ1 s1) → ¬ G.exp ρ1 c s1 →
      Exec ty G (.rep b c) ρ s .bad
  | repN {b c ρ s ρ1 s1 v s2 n} : Exec ty G (.stm b) ρ s (.norm ρ1 s1) → G.exp ρ1 c s1 →
      eval P ρ1 c s1 = .ok (v, s2) → isFalse v = true → Exec ty G (.rep b c) ρ1 s2 (.long n) →
      Exec ty G (.rep b c) ρ s (.long (n + 1))
  -- numeric for
  | forE {x e1 e2 e3 b ρ s m} : G.efor ρ e1 e2 e3 s → evalFor P (eval P ρ) e1 e2 e3 s = .err m →
      Exec ty G (.stm (.forn x e1 e2 e3 b)) ρ s (.err m)
  | forn {x e1 e2 e3 b ρ s i l d s1 o} : G.efor ρ e1 e2 e3 s →
      evalFor P (eval P ρ) e1 e2 e3 s = .ok ((.int i, .int l, .int d), s1) → G.start i d →
      Exec ty G (.loop x i l d b) ρ s1 o → Exec ty G (.stm (.forn x e1 e2 e3 b)) ρ s o
  | forX {x e1 e2 e3 b ρ s} : ¬ G.efor ρ e1 e2 e3 s →
      Exec ty G (.stm (.forn x e1 e2 e3 b)) ρ s .bad
  | forV {x e1 e2 e3 b ρ s v s1} : G.efor ρ e1 e2 e3 s →
      evalFor P (eval P ρ) e1 e2 e3 s = .ok (v, s1) →
      (¬ ∃ i l d, v = (.int i, .int l, .int d) ∧ G.start i d) →
      Exec ty G (.stm (.forn x e1 e2 e3 b)) ρ s .bad
  | stop {x i l d b ρ s} : goesOn i l d = false → Exec ty G (.loop x i l d b) ρ s (.norm ρ s)
  | next {x i l d b ρ s ρ1 s1 o} : goesOn i l d = true →
      Exec ty G (.stm b) (Lin.set ρ x (.int i)) s (.norm ρ1 s1) → G.next i d →
      Exec ty G (.loop x (i + d) l d b) ρ1 s1 o → Exec ty G (.loop x i l d b) ρ s o
  | loopB {x i l d b ρ s ρ1 s1} : goesOn i l d = true →
      Exec ty G (.stm b) (Lin.set ρ x (.int i)) s (.brk ρ1 s1) →
      Exec ty G (.loop x i l d b) ρ s (.norm ρ1 s1)
  | loopP {x i l d b ρ s o} : goesOn i l d = true → o.pass = true →
      Exec ty G (.stm b) (Lin.set ρ x (.int i)) s o → Exec ty G (.loop x i l d b) ρ s o
  | loopX {x i l d b ρ s ρ1 s1} : goesOn i l d = true →
      Exec ty G (.stm b) (Lin.set ρ x (.int i)) s (.norm ρ1 s1) → ¬ G.next i d →
      Exec ty G (.loop x i l d b) ρ s .bad
  | loopN {x i l d b ρ s ρ1 s1 n} : goesOn i l d = true →
      Exec ty G (.stm b) (Lin.set ρ x (.int i)) s (.norm ρ1 s1) → G.next i d →
      Exec ty G (.loop x (i + d) l d b) ρ1 s1 (.long n) →
      Exec ty G (.loop x i l d b) ρ s (.long (n + 1))
  -- if
  | iteC {c b r ρ s m} : G.exp ρ c s → eval P ρ c s = .err m →
      Exec ty G (.stm (.ite c b r)) ρ s (.err m)
  | iteX {c b r ρ s} : ¬ G.exp ρ c s → Exec ty G (.stm (.ite c b r)) ρ s .bad
  | iteT {c b r ρ s v s1 o} : G.exp ρ c s → eval P ρ c s = .ok (v, s1) → isFalse v = false →
      Exec ty G (.stm b) ρ s1 o → Exec ty G (.stm (.ite c b r)) ρ s o
  | iteF {c b r ρ s v s1 o} : G.exp ρ c s → eval P ρ c s = .ok (v, s1) → isFalse v = true →
      Exec ty G (.stm r) ρ s1 o → Exec ty G (.stm (.ite c b r)) ρ s o
  | els {b ρ s o} : Exec ty G (.stm b) ρ s o → Exec ty G (.stm (.els b)) ρ s o
  | fin {ρ s} : Exec ty G (.stm .fin) ρ s (.norm ρ s)

/-- `Steps g n c c'`: from `c` the program gets to `c'` in `n` instructions. -/
inductive Steps (g : Prog P) : Nat → Cfg P → Cfg P → Prop where
  | zero {c} : Steps g 0 c c
  | succ {n c c1 c2} : step P g c = some (.ok c1) → Steps g n c1 c2 → Steps g (n + 1) c c2

end

/-! ## The linearizer -/

section
variable {F O : Type}

/-- `is_block_terminated` of the current block (`linearizer.c` 2060-2067). -/
def terminated (st : St F O) : Bool :=
  match (st.blocks st.cur).getLast? with
  | some (.br _) | some (.cbr _ _ _) => true
  | _ => false

/-- `start_block` (2955-2961): a block that is not terminated gets a jump to the new one. -/
def startBlock (st : St F O) (b : Nat) : St F O :=
  { (if terminated st then st else emit st (.br b)) with cur := b }

/-- `instruct_br` (919-928): a block that is terminated is left; the jump goes to a new block. -/
def instBr (st : St F O) (b : Nat) : St F O :=
  if terminated st then emit { st with nb := st.nb + 1, cur := st.nb } (.br b) else emit st (.br b)

/-- A condition and the jump on it (`linearize_test_cond` 2070-2081, `linearize_while_statment`
2739-2747). -/
def linCond (Γ : Nat → LV) (c : Exp F O) (t f : Nat) (st : St F O) : Res (St F O) := do
  let (n, st) ← lin Γ c st
  let (q, st) ← operand st n
  .ok (freeN (tofree (emit st (.cbr q t f)) n q) n)

/-- `pseudo_gen_alloc` without `top` (152-167): the first register that is free. -/
def allocL (u : List Nat) : Res (Nat × List Nat) :=
  match (List.range 256).find? (fun r => !u.contains r) with
  | some r => .ok (r, r :: u)
  | none => .ub

def allocI (st : St F O) : Res (Ps F O × St F O) := do
  let (r, u) ← allocL st.i
  .ok (.ti r false, { st with i := u })

def allocB (st : St F O) : Res (Ps F O × St F O) := do
  let (r, u) ← allocL st.i
  .ok (.tb r, { st with i := u })

/-- An expression of a `for` goes to its temporary (2520-2551). -/
def linTo (Γ : Nat → LV) (e : Exp F O) (d : Ps F O) (st : St F O) : Res (St F O) := do
  let (n, st) ← lin Γ e st
  let (q, st) ← operand st n
  .ok (freeN (tofree (emit st (.mov q d)) n q) n)

/-- The chain of an `if`: how many conditions, and is there an `else` with statements? -/
def Stm.len : Stm F O → Nat
  | .ite _ _ r => r.len + 1
  | _ => 0

def Stm.hasElse : Stm F O → Bool
  | .ite _ _ r => r.hasElse
  | .els .skip => false
  | .els _ => true
  | _ => false

/-- The conditions of an `if`, in the blocks `blk`, `blk + 1`, …; the last one jumps to `e` if it
is false (`linearize_if_statement` 2176-2201). -/
def linConds (Γ : Nat → LV) : Stm F O → Nat → Nat → Nat → St F O → Res (St F O)
  | .ite c _ r, blk, tru, e, st => do
    let st ← linCond Γ c tru (match r with | .ite _ _ _ => blk + 1 | _ => e) (startBlock st blk)
    linConds Γ r (blk + 1) (tru + 1) e st
  | _, _, _, _, st => .ok st

/-- Are the expressions of a `for` integers (2594-2603)?  (If one of them is untyped, the type
checker wraps it in a conversion to an integer, `typechecker.c` 471-479; that is not modelled.) -/
def forInt (Γ : Nat → LV) (e1 e2 : Exp F O) (e3 : Option (Exp F O)) : Bool :=
  typ Γ e1 == .int && typ Γ e2 == .int &&
    (match e3 with | none => true | some e => typ Γ e == .int)

/-- Is the step known to be positive (2605-2624)? -/
def posStep : Option (Exp F O) → Bool
  | none => true
  | some (.lit (.int i)) => (0 : I64).slt i
  | _ => false

/-- The step, which is 1 if there is none (2538-2550). -/
def linStep (Γ : Nat → LV) (e3 : Option (Exp F O)) (d : Ps F O) (st : St F O) : Res (St F O) :=
  match e3 with
  | none => .ok (emit st (.mov (.kc (.int 1)) d))
  | some e => linTo Γ e d st

/-- The test of a `for` in its block (2570-2572, 2690-2696). -/
def linTest (a b stop : Ps F O) (e body : Nat) (st : St F O) : St F O :=
  emit (emit st (.bin (.cm .lt .ii) a b stop)) (.cbr stop e body)

mutual

/-- `linearize_statement` (2859-2918) for the statements modelled; `bt` is the block that `break`
goes to (`proc->current_break_target`). -/
def linS (Γ : Nat → LV) : Stm F O → Option Nat → St F O → Res (St F O)
  | .skip, _, st => .ok st
  | .seq a b, bt, st => do
    let st ← linS Γ a bt st
    linS Γ b bt st
  | .assign ts es, _, st => linAssign Γ ts es st
  | .brk, bt, st =>          -- `linearize_goto_statement` (2366-2380)
    match bt with
    | none => .err "no current break target"
    | some t =>
      let st := instBr st t
      let l := st.nb
      .ok (startBlock { st with nb := st.nb + 1 } l)
  | .whl c b, _, st => do    -- `linearize_while_statment` (2723-2767)
    let t := st.nb
    let st := startBlock { st with nb := st.nb + 3 } t
    let st ← linCond Γ c (t + 1) (t + 2) st
    let st ← linS Γ b (some (t + 2)) (startBlock st (t + 1))
    .ok (startBlock (instBr st t) (t + 2))
  | .rep b c, _, st => do    -- the same function
    let t := st.nb
    let st := startBlock (instBr { st with nb := st.nb + 3 } (t + 1)) t
    let (d, st) ← allocT st .bool
    let (n, st) ← lin Γ c st
    let (q, st) ← operand st n
    match q with
    | .ti _ _ | .tf _ _ => assertion      -- `emit_op_not` (`codegen.c` 2272)
    | q =>
      let st := tofree (emit (freeN st n) (.not q d)) n q
      let st := freeP (emit st (.cbr d (t + 1) (t + 2))) d
      let st ← linS Γ b (some (t + 2)) (startBlock st (t + 1))
      .ok (startBlock (instBr st t) (t + 2))
  | .forn x e1 e2 e3 b, _, st =>   -- `linearize_for_num_statement` (2501-2720)
    if forInt Γ e1 e2 e3 then
      if posStep e3 then do
        let (iv, st) ← allocI st
        let (lim, st) ← allocI st
        let (stp, st) ← allocI st
        let (stop, st) ← allocB st
        let st ← linTo Γ e1 iv st
        let st ← linTo Γ e2 lim st
        let st ← linStep Γ e3 stp st
        let st := emit st (.bin (.ar .sub .ii) iv stp iv)
        let l := st.nb
        let st := startBlock { st with nb := st.nb + 4 } l
        let st := emit st (.bin (.ar .add .ii) iv stp iv)
        let st := startBlock (instBr st (l + 1)) (l + 1)
        let st := startBlock (linTest lim iv stop (l + 3) (l + 2) st) (l + 2)
        let st ← linS Γ b (some (l + 3)) (emit st (.mov iv (Γ x).ps))
        let st := instBr st l
        let st := freeP (freeP (freeP (freeP st stop) stp) lim) iv
        .ok (startBlock st (l + 3))
      else do
        let (iv, st) ← allocI st
        let (lim, st) ← allocI st
        let (stp, st) ← allocI st
        let (pos, st) ← allocB st
        let (stop, st) ← allocB st
        let st ← linTo Γ e1 iv st
        let st ← linTo Γ e2 lim st
        let st ← linStep Γ e3 stp st
        let st := emit st (.bin (.cm .lt .ii) (.kc (.int 0)) stp pos)
        let st := emit st (.bin (.ar .sub .ii) iv stp iv)
        let l := st.nb
        let st := startBlock { st with nb := st.nb + 5 } l
        let st := emit st (.bin (.ar .add .ii) iv stp iv)
        let st := startBlock (emit st (.cbr pos (l + 1) (l + 2))) (l + 1)
        let st := startBlock (linTest lim iv stop (l + 4) (l + 3) st) (l + 2)
        let st := startBlock (linTest iv lim stop (l + 4) (l + 3) st) (l + 3)
        let st ← linS Γ b (some (l + 4)) (emit st (.mov iv (Γ x).ps))
        let st := instBr st l
        let st := freeP (freeP (freeP (freeP (freeP st stop) pos) stp) lim) iv
        .ok (startBlock st (l + 4))
    else .err "Only for loops with integer expressions currently supported"
  | .ite c b r, bt, st => do   -- `linearize_if_statement` (2147-2226)
    let n := r.len + 1
    let l := st.nb
    let e := l + 2 * n + (if r.hasElse then 1 else 0)
    let st ← linConds Γ (.ite c b r) l (l + n) (l + 2 * n) { st with nb := e + 1 }
    let st := startBlock st (l + n)
    let st ← linS Γ b bt st
    let st := if terminated st then st else emit st (.br e)
    let st ← linBodies Γ r bt (l + n + 1) e st
    .ok (startBlock st e)
  | .els _, _, _ => .err "no statement"
  | .fin, _, _ => .err "no statement"

/-- The blocks of an `if` after the first one (`linearize_test_then` 2083-2093, 2203-2224). -/
def linBodies (Γ : Nat → LV) : Stm F O → Option Nat → Nat → Nat → St F O → Res (St F O)
  | .ite _ b r, bt, tru, e, st => do
    let st ← linS Γ b bt (startBlock st tru)
    let st := if terminated st then st else emit st (.br e)
    linBodies Γ r bt (tru + 1) e st
  | .els .skip, _, _, _, st => .ok st
  | .els b, bt, tru, e, st => do
    let st ← linS Γ b bt (startBlock st tru)
    .ok (if terminated st then st else emit st (.br e))
  | _, _, _, _, st => .ok st

end

end

end Verif.LinStmt
