import Verif.Base
/-!
Coroutines: `lua_resume`, `lua_yieldk`, `unroll`, `recover`, `luaD_pcall` (`src/ldo.c` 145-158, 389-409, 603-862), `lua_callk`,
`lua_pcallk`, `lua_xmove` (`src/lapi.c` 123-136, 1250-1330), `lcorolib.c`, `luaB_pcall` (`src/lbaselib.c` 453-478), and the calls and
returns of `luaV_execute` as far as they decide what runs next (`src/lvm.c` 1389, 1857).

A thread has a stack, a list of CallInfos, and a native (C) stack.  A yield or an error leaves the native stack by a
long jump; later the functions that were on it go on from the CallInfos alone (`unroll`).

Simplifications:
* The code of Lua functions is arbitrary: a state, with the live registers of the function on the stack, says what the
  function does next (a call, a return, or an error).
* After a call with a fixed number of results `L->top` is the end of the results, not `ci->top`: registers above are not used.
* Hooks, continuations of C functions other than `pcall`, message handlers, deferred functions, memory and stack limits
  (`lua_checkstack`, `nCcalls`), and JIT-compiled functions are left out.  Error messages have no position.
* Tail calls and the size of stacks are left out.
-/
namespace Verif.Coro

/-- What a value does when it is called.  `yield d` is a C function that calls `lua_yield` for its arguments without the first
`d` (`coroutine.yield` for 0); `noy` is a C function that calls its first argument with the others by `lua_call`, without
continuation, and returns all results (as library functions with callbacks do). -/
inductive Callee (Fn : Type) where
  | lua (f : Fn)
  | yield (d : Nat)
  | pcall | noy | error | resume | create | status
  | none

/-- what a Lua function does next: a call (for `want` results, all if `none`), a return, or an error -/
inductive Act (V : Type) where
  | call (want : Option Nat) (f : V) (args : List V)
  | ret (vs : List V)
  | throw (v : V)

/-- values, functions, states of functions (`S`), and all the rest that code works on (`W`).  `act` gives the live registers too;
`next` is the state after a call, from the registers and the results. -/
structure World (V Fn S W : Type) where
  nil : V
  tru : V
  fls : V
  str : String → V
  thr : Nat → V
  asThr : V → Option Nat
  isFn : V → Bool
  callee : V → Callee Fn
  start : Fn → List V → S
  act : S → W → (List V × Act V) × W
  next : S → List V → List V → S

variable {V Fn S W : Type}

/-- results adjusted to the number wanted (`moveresults`, ldo.c 343-384) -/
def adj (nil : V) : Option Nat → List V → List V
  | none, vs => vs
  | some n, vs => (vs ++ List.replicate n nil).take n

/-! ### threads -/

/-- the function of a CallInfo; a Lua function with its state, and the register (relative to the base) of the call that it
waits for -/
inductive Kind (S : Type) where
  | lua (s : S) (ra : Nat)
  | pcall
  | c

/-- `CallInfo`, lstate.h 129-160; `k` is `CIST_YPCALL`, and that there is a continuation (`finishpcall`); `fresh` is `CIST_FRESH` -/
structure CI (S : Type) where
  func : Nat
  wanted : Option Nat
  kind : Kind S
  extra : Nat := 0
  k : Bool := false
  fresh : Bool := false

/-- The native stack: `exec` is `luaV_execute`; `pcallK` is `luaB_pcall` in `luaD_call`; `pcallS` is `luaB_pcall` in `luaD_pcall`, with
the saved CallInfos, top, and `nny`; `noy` is a C function in `lua_call`; `await` is `luaB_coresume` in `lua_resume`, with the saved
`nny` of the other thread; below these is `resume` or `unroll`, called by `lua_resume`, or the host program. -/
inductive Native (S : Type) where
  | exec
  | pcallK
  | pcallS (ci : List (CI S)) (oldtop nny : Nat)
  | noy
  | await (nny : Nat)
  | resume
  | unroll
  | host

/-- `L->status` -/
inductive Status where
  | ok | yield | error
deriving DecidableEq

/-- `lua_State`: the stack up to `top`, the CallInfos without `base_ci` (whose function is at 0) -/
structure Thread (V S : Type) where
  stk : List V
  ci : List (CI S)
  native : List (Native S)
  nny : Nat
  status : Status

/-- what a thread does next, or what it asks for: it goes on with Lua code; its function has returned (the results are
on the stack); there was an error that nothing handles; it yields; it has called `coroutine.resume`, `create` or `status` -/
inductive Ev (V : Type) where
  | run
  | done
  | failed (v : V)
  | yielded
  | resume (co : Nat)
  | create (f : V)
  | status (co : Nat)

/-- `lua_gettop`, lapi.c 166-168 -/
def gettop (L : Thread V S) : Nat :=
  L.stk.length - (match L.ci with | [] => 0 | c :: _ => c.func) - 1

/-- `luaD_poscall` with the `n` values at the top, ldo.c 392-409 -/
def poscall (nil : V) (L : Thread V S) (n : Nat) : Res (Thread V S) :=
  match L.ci with
  | [] => .ub
  | c :: cis => .ok { L with stk := L.stk.take c.func ++ adj nil c.wanted (L.stk.drop (L.stk.length - n)), ci := cis }

/-- `luaV_execute` goes on with the function of the current CallInfo, after a call -/
def resumeLua (P : World V Fn S W) (L : Thread V S) : Res (Ev V × Thread V S) :=
  match L.ci with
  | c :: cis =>
    match c.kind with
    | .lua s ra =>
      let s := P.next s ((L.stk.drop (c.func + 1)).take ra) (L.stk.drop (c.func + 1 + ra))
      .ok (.run, { L with ci := { c with kind := .lua s ra } :: cis })
    | _ => .ub
  | [] => .ub

/-- the loop of `unroll`, ldo.c 656-665, with `finishCcall` (623-645) for `pcall`; there is one round for each CallInfo -/
def unrollLoop (P : World V Fn S W) : Nat → Thread V S → Res (Ev V × Thread V S)
  | 0, _ => .ub
  | fuel + 1, L =>
    match L.ci with
    | [] => .ok (.done, L)
    | c :: cis =>
      match c.kind with
      | .lua .. => resumeLua P { L with ci := { c with fresh := true } :: cis, native := .exec :: L.native }
      | .pcall =>
        if c.k = true ∧ L.nny = 0 then do
          let L := { L with ci := { c with k := false } :: cis }
          let L ← poscall P.nil L (gettop L)
          unrollLoop P fuel L
        else .ub
      | .c => .ub

/-- a function has returned to its caller, which goes on -/
def back (P : World V Fn S W) : List (Native S) → Thread V S → Res (Ev V × Thread V S)
  | .exec :: ns, L => resumeLua P { L with native := .exec :: ns }
  | .pcallK :: ns, L =>                    -- end of `lua_pcallk`, lapi.c 1322-1324, and `finishpcall`, lbaselib.c 467
    match L.ci with
    | c :: cis => do
      let L := { L with ci := { c with k := false } :: cis }
      let L ← poscall P.nil L (gettop L)
      back P ns L
    | [] => .ub
  | .pcallS _ _ _ :: ns, L => do           -- end of `luaD_callnoyield`, ldo.c 616, and the same
    let L := { L with nny := L.nny - 1 }
    let L ← poscall P.nil L (gettop L)
    back P ns L
  | .noy :: ns, L => do
    let L := { L with nny := L.nny - 1 }
    let L ← poscall P.nil L (gettop L)
    back P ns L
  | .await _ :: _, _ => .ub
  | .resume :: ns, L => .ok (.done, { L with native := .resume :: ns })
  | .unroll :: ns, L => unrollLoop P (L.ci.length + 1) { L with native := .unroll :: ns }
  | .host :: ns, L => .ok (.done, { L with native := .host :: ns })
  | [], _ => .ub

/-- the long jump of `luaD_throw`, ldo.c 122-145, to the last `luaD_rawrunprotected` of this thread -/
def findS : List (Native S) → Option (List (CI S) × Nat × Nat × List (Native S))
  | [] => none
  | .pcallS ci t n :: ns => some (ci, t, n, ns)
  | _ :: ns => findS ns

/-- `findpcall`, ldo.c 672-679 -/
def findpcall : List (CI S) → Option (CI S × List (CI S))
  | [] => none
  | c :: cis => if c.k then some (c, cis) else findpcall cis

/-- An error with value `v`.  With a `luaD_pcall` on the native stack: the end of it, ldo.c 838-858, and of `luaB_pcall`.  Otherwise
`lua_resume`, ldo.c 774-791: `recover` (687-706) and `unroll`, or the coroutine is dead. -/
def throwE (P : World V Fn S W) (L : Thread V S) (v : V) : Res (Ev V × Thread V S) :=
  match findS L.native with
  | some (ci, oldtop, nny, ns) => do
    let L := { L with stk := L.stk.take oldtop ++ [v] ++ [P.fls, v], ci := ci, nny := nny, native := ns }
    let L ← poscall P.nil L 2
    back P ns L
  | none =>
    match findpcall L.ci with
    | some (c, cis) => do
      let L := { L with
        stk := L.stk.take c.extra ++ [v] ++ [P.fls, v], ci := { c with k := false } :: cis, nny := 0, native := [.unroll] }
      let L ← poscall P.nil L 2
      unrollLoop P (L.ci.length + 1) L
    | none => .ok (.failed v, { L with stk := L.stk ++ [v], native := [] })

/-- `luaD_precall` of the function at `func`, with the arguments above it: Lua functions begin (ldo.c 455-481), C functions run
until they end or call something; the fuel is the number of arguments -/
def precall (P : World V Fn S W) : Nat → Thread V S → Nat → Option Nat → Res (Ev V × Thread V S)
  | 0, _, _, _ => .ub
  | fuel + 1, L, func, wanted =>
    match L.stk.drop func with
    | [] => .ub
    | f :: args =>
      match P.callee f with
      | .lua g =>
        let c : CI S := { func := func, wanted := wanted, kind := .lua (P.start g args) 0 }
        match L.native with
        | .exec :: _ => .ok (.run, { L with ci := c :: L.ci })          -- `OP_CALL`, lvm.c 1783-1787
        | ns => .ok (.run, { L with ci := { c with fresh := true } :: L.ci, native := .exec :: ns })
      | .yield d =>                         -- `lua_yieldk`, ldo.c 800-826
        let n := args.length - d
        let c : CI S := { func := func, wanted := wanted, kind := .c }
        if L.nny > 0 then throwE P { L with ci := c :: L.ci } (P.str "attempt to yield")
        else .ok (.yielded, { L with
          ci := { c with extra := func, func := L.stk.length - n - 1 } :: L.ci, status := .yield, native := [] })
      | .pcall =>                           -- `luaB_pcall`, lbaselib.c 471-478; `lua_pcallk`, lapi.c 1286-1328
        let c : CI S := { func := func, wanted := wanted, kind := .pcall }
        if args = [] then throwE P { L with ci := c :: L.ci } (P.str "value expected")
        else
          let L := { L with stk := L.stk.take (func + 1) ++ [P.tru] ++ args }
          if L.nny > 0 then
            precall P fuel { L with
              ci := c :: L.ci, native := .pcallS (c :: L.ci) (func + 2) L.nny :: L.native, nny := L.nny + 1 } (func + 2) none
          else
            precall P fuel { L with
              ci := { c with k := true, extra := func + 2 } :: L.ci, native := .pcallK :: L.native } (func + 2) none
      | .noy =>
        let c : CI S := { func := func, wanted := wanted, kind := .c }
        if args = [] then throwE P { L with ci := c :: L.ci } (P.str "value expected")
        else precall P fuel { L with ci := c :: L.ci, native := .noy :: L.native, nny := L.nny + 1 } (func + 1) none
      | .error => throwE P { L with ci := { func := func, wanted := wanted, kind := .c } :: L.ci } (args.headD P.nil)
      | .resume =>                          -- `getco`, lcorolib.c 21-25
        let L := { L with ci := { func := func, wanted := wanted, kind := .c } :: L.ci }
        match args.head?.bind P.asThr with
        | some co => .ok (.resume co, L)
        | none => throwE P L (P.str "thread expected")
      | .create =>                          -- `luaB_cocreate`, lcorolib.c 91-99
        let L := { L with ci := { func := func, wanted := wanted, kind := .c } :: L.ci }
        match args with
        | g :: _ => if P.isFn g then .ok (.create g, L) else throwE P L (P.str "function expected")
        | [] => throwE P L (P.str "function expected")
      | .status =>
        let L := { L with ci := { func := func, wanted := wanted, kind := .c } :: L.ci }
        match args.head?.bind P.asThr with
        | some co => .ok (.status co, L)
        | none => throwE P L (P.str "thread expected")
      | .none => throwE P L (P.str "attempt to call a value")

/-- one step of the Lua function of the current CallInfo -/
def execLua (P : World V Fn S W) (L : Thread V S) (w : W) : Res ((Ev V × Thread V S) × W) :=
  match L.ci, L.native with
  | c :: cis, .exec :: ns =>
    match c.kind with
    | .lua s _ =>
      let ((regs, a), w) := P.act s w
      let stk := L.stk.take (c.func + 1) ++ regs
      match a with
      | .call want f args => do
        let L := { L with stk := stk ++ [f] ++ args, ci := { c with kind := .lua s regs.length } :: cis }
        return (← precall P L.stk.length L (c.func + 1 + regs.length) want, w)
      | .ret vs => do                       -- `OP_RETURN`, lvm.c 1844-1880
        let L ← poscall P.nil { L with stk := stk ++ vs } vs.length
        if c.fresh then return (← back P ns { L with native := ns }, w)
        else return (← back P (.exec :: ns) L, w)
      | .throw v => do
        return (← throwE P { L with stk := stk } v, w)
    | _ => .ub
  | _, _ => .ub

/-! ### the machine -/

/-- threads, the number of the next one, the running one and what it does next, and those that have resumed it and each other;
`fin`: the main function has returned (`.inr`) or failed -/
structure M (V S W : Type) where
  thr : Nat → Thread V S
  n : Nat
  cur : Nat
  ev : Ev V
  chain : List Nat
  w : W
  fin : Option (V ⊕ List V) := none

def upd {α : Type} (f : Nat → α) (i : Nat) (x : α) : Nat → α := fun j => if j = i then x else f j

/-- the C function of thread `i`, which called nothing, returns the `n` values at the top -/
def returnC (P : World V Fn S W) (m : M V S W) (i : Nat) (L : Thread V S) (n : Nat) : Res (M V S W) := do
  let L ← poscall P.nil L n
  let (ev, L) ← back P L.native L
  return { m with thr := upd m.thr i L, cur := i, ev := ev }

/-- the last `n` values of the stack moved to the other thread: `lua_xmove`, lapi.c 123-136 -/
def xmove (a b : Thread V S) (n : Nat) : Thread V S × Thread V S :=
  ({ a with stk := a.stk.take (a.stk.length - n) }, { b with stk := b.stk ++ a.stk.drop (a.stk.length - n) })

/-- `luaB_costatus`, lcorolib.c 116-141, `self` if the thread asks for its own status -/
def statusOf (L : Thread V S) (self : Bool) : String :=
  if self then "running"
  else match L.status with
    | .yield => "suspended"
    | .ok => if L.ci ≠ [] then "normal" else if gettop L = 0 then "dead" else "suspended"
    | .error => "dead"

/-- the end of `lua_resume` and `auxresume` (ldo.c 780-793, lcorolib.c 40-54) and `luaB_coresume` (58-70): the thread `i` that
resumed the current one gets `n` values of it, after `b` -/
def endResume (P : World V Fn S W) (m : M V S W) (co : Thread V S) (n : Nat) (b : V) : Res (M V S W) :=
  match m.chain with
  | [] => .ub
  | i :: chain =>
    match (m.thr i).native with
    | .await old :: ns => do
      let (co, L) := xmove co (m.thr i) n
      let L := { L with stk := L.stk.take (L.stk.length - n) ++ [b] ++ L.stk.drop (L.stk.length - n), native := ns }
      returnC P { m with thr := upd m.thr m.cur { co with nny := old }, chain := chain } i L (n + 1)
    | _ => .ub

/-- `resume_error`, ldo.c 713-719, and `auxresume`, lcorolib.c 49-54: the arguments of the thread `co'` (number `co`) are removed, and
the message is given to the current thread `L` -/
def resumeFail (P : World V Fn S W) (m : M V S W) (L : Thread V S) (co : Nat) (co' : Thread V S) (narg : Nat) (msg : String) :
    Res (M V S W) :=
  let co' := { co' with stk := co'.stk.take (co'.stk.length - narg) ++ [P.str msg] }
  let (co', L) := xmove co' L 1
  let L := { L with stk := L.stk.take (L.stk.length - 1) ++ [P.fls] ++ L.stk.drop (L.stk.length - 1) }
  returnC P { m with thr := upd m.thr co co' } m.cur L 2

/-- the current thread `L` waits for the thread `co`, which runs, and whose `nny` was `old` -/
def resumeGo (m : M V S W) (L : Thread V S) (co old : Nat) (r : Res (Ev V × Thread V S)) : Res (M V S W) := do
  let (ev, co') ← r
  let L := { L with native := .await old :: L.native }
  return { m with thr := upd (upd m.thr m.cur L) co co', cur := co, ev := ev, chain := m.cur :: m.chain }

/-- one step of the machine -/
def step (P : World V Fn S W) (m : M V S W) : Res (M V S W) :=
  match m.fin with
  | some _ => .ok m
  | none =>
  let L := m.thr m.cur
  match m.ev with
  | .run => do
    let ((ev, L), w) ← execLua P L m.w
    return { m with thr := upd m.thr m.cur L, ev := ev, w := w }
  | .done =>
    match m.chain with
    | [] => .ok { m with fin := some (.inr (L.stk.drop 1)) }
    | _ => endResume P m L (gettop L) P.tru
  | .failed v =>
    match m.chain with
    | [] => .ok { m with fin := some (.inl v) }
    | _ => endResume P m { L with status := .error } 1 P.fls
  | .yielded =>
    match m.chain with
    | [] => .ub
    | _ => endResume P m L (gettop L) P.tru
  | .create f =>
    let co : Thread V S := { stk := [P.nil, f], ci := [], native := [], nny := 1, status := .ok }
    returnC P { m with thr := upd m.thr m.n co, n := m.n + 1 } m.cur { L with stk := L.stk ++ [P.thr m.n] } 1
  | .status co =>
    returnC P m m.cur { L with stk := L.stk ++ [P.str (statusOf (m.thr co) (m.cur = co))] } 1
  | .resume co =>                           -- `auxresume`, lcorolib.c 28-56; `lua_resume`, ldo.c 758-793
    let narg := gettop L - 1
    let co' := m.thr co
    if co'.status = .ok ∧ gettop co' = 0 then
      returnC P m m.cur { L with stk := L.stk ++ [P.fls, P.str "cannot resume dead coroutine"] } 2
    else if co = m.cur then                 -- `lua_xmove` does nothing; `resume_error`, ldo.c 713-719
      returnC P m m.cur { L with
        stk := L.stk.take (L.stk.length - narg) ++ [P.fls, P.str "cannot resume non-suspended coroutine"] } 2
    else
      let (L, co') := xmove L co' narg
      match co'.status with
      | .ok =>
        if co'.ci ≠ [] then resumeFail P m L co co' narg "cannot resume non-suspended coroutine"
        else                                -- `resume`, ldo.c 733-736
          resumeGo m L co co'.nny (precall P co'.stk.length { co' with nny := 0, native := [.resume] } (co'.stk.length - narg - 1) none)
      | .error => resumeFail P m L co co' narg "cannot resume dead coroutine"
      | .yield =>                           -- `resume`, ldo.c 737-754
        match co'.ci with
        | [] => .ub
        | c :: cis => resumeGo m L co co'.nny (do
            let L ← poscall P.nil { co' with
              nny := 0, status := .ok, ci := { c with func := c.extra } :: cis, native := [.unroll] } narg
            unrollLoop P (L.ci.length + 1) L)

/-- `k` steps -/
def steps (P : World V Fn S W) : Nat → M V S W → Res (M V S W)
  | 0, m => .ok m
  | k + 1, m => do
    let m ← step P m
    steps P k m

/-- the host calls the function `f` in the main thread (number 0), whose `nny` is 1 (lstate.c 237) -/
def boot (P : World V Fn S W) (f : V) (args : List V) (w : W) : Res (M V S W) := do
  let dead : Thread V S := { stk := [P.nil], ci := [], native := [], nny := 1, status := .ok }
  let (ev, L) ← precall P (args.length + 1) { dead with stk := P.nil :: f :: args, native := [.host] } 1 none
  return { thr := upd (fun _ => dead) 0 L, n := 1, cur := 0, ev := ev, chain := [], w := w }

/-! ### what coroutines are: the manual, 2.6 and 6.2 -/

/-- what waits for the result of a call: a Lua function, with its registers and the number of results wanted; `pcall`; or a C
function that cannot be interrupted -/
inductive Fr (V S : Type) where
  | lua (s : S) (regs : List V) (want : Option Nat)
  | pcall
  | noy

/-- is it a C function that cannot be interrupted? -/
def isNoy : Fr V S → Bool | .noy => true | _ => false

/-- a coroutine: not started, suspended, running or waiting for one that it resumed, dead -/
inductive Co (V S : Type) where
  | new (f : V)
  | susp (fs : List (Fr V S))
  | active
  | dead

/-- what the current coroutine does next; `fs` is what waits for it in the same coroutine -/
inductive AEv (V S : Type) where
  | run (s : S) (fs : List (Fr V S))
  | done (vs : List V)
  | failed (v : V)
  | yielded (vs : List V) (fs : List (Fr V S))
  | resume (co : Nat) (args : List V) (fs : List (Fr V S))
  | create (f : V) (fs : List (Fr V S))
  | status (co : Nat) (fs : List (Fr V S))

/-- a call returns `vs` -/
def deliver (P : World V Fn S W) : List (Fr V S) → List V → AEv V S
  | [], vs => .done vs
  | .lua s regs want :: fs, vs => .run (P.next s regs (adj P.nil want vs)) fs
  | .pcall :: fs, vs => deliver P fs (P.tru :: vs)
  | .noy :: fs, vs => deliver P fs vs

/-- a call has the error `v` -/
def raise (P : World V Fn S W) (v : V) : List (Fr V S) → AEv V S
  | [] => .failed v
  | .pcall :: fs => deliver P fs [P.fls, v]
  | _ :: fs => raise P v fs

/-- a call of `f`; `main` if this is the main coroutine -/
def call (P : World V Fn S W) (main : Bool) : List V → V → List (Fr V S) → AEv V S
  | args, f, fs =>
    match P.callee f, args with
    | .lua g, args => .run (P.start g args) fs
    | .yield d, args =>
      if main ∨ (fs.any isNoy) then raise P (P.str "attempt to yield") fs
      else .yielded (args.drop d) fs
    | .pcall, [] => raise P (P.str "value expected") fs
    | .pcall, g :: args => call P main args g (.pcall :: fs)
    | .noy, [] => raise P (P.str "value expected") fs
    | .noy, g :: args => call P main args g (.noy :: fs)
    | .error, args => raise P (args.headD P.nil) fs
    | .resume, args =>
      match args.head?.bind P.asThr with
      | some co => .resume co args.tail fs
      | none => raise P (P.str "thread expected") fs
    | .create, [] => raise P (P.str "function expected") fs
    | .create, g :: _ => if P.isFn g then .create g fs else raise P (P.str "function expected") fs
    | .status, args =>
      match args.head?.bind P.asThr with
      | some co => .status co fs
      | none => raise P (P.str "thread expected") fs
    | .none, _ => raise P (P.str "attempt to call a value") fs

/-- all coroutines; those in `chain` wait for the one before them, the first for the current one -/
structure A (V S W : Type) where
  co : Nat → Co V S
  n : Nat
  cur : Nat
  ev : AEv V S
  chain : List (Nat × List (Fr V S))
  w : W
  fin : Option (V ⊕ List V) := none

/-- control goes back to the coroutine that resumed the current one -/
def resumer (P : World V Fn S W) (a : A V S W) (x : Co V S) (vs : List V) : A V S W :=
  match a.chain with
  | [] => a
  | (i, fs) :: chain => { a with co := upd a.co a.cur x, cur := i, ev := deliver P fs vs, chain := chain }

def astep (P : World V Fn S W) (a : A V S W) : A V S W :=
  match a.fin with
  | some _ => a
  | none =>
  match a.ev with
  | .run s fs =>
    let ((regs, act), w) := P.act s a.w
    { a with w := w, ev :=
      match act with
      | .call want f args => call P (a.cur = 0) args f (.lua s regs want :: fs)
      | .ret vs => deliver P fs vs
      | .throw v => raise P v fs }
  | .done vs => if a.chain = [] then { a with fin := some (.inr vs) } else resumer P a .dead (P.tru :: vs)
  | .failed v => if a.chain = [] then { a with fin := some (.inl v) } else resumer P a .dead [P.fls, v]
  | .yielded vs fs => resumer P a (.susp fs) (P.tru :: vs)
  | .create f fs => { a with co := upd a.co a.n (.new f), n := a.n + 1, ev := deliver P fs [P.thr a.n] }
  | .status co fs =>
    { a with ev := deliver P fs [P.str (if a.cur = co then "running" else
      match a.co co with
      | .new _ | .susp _ => "suspended"
      | .active => "normal"
      | .dead => "dead")] }
  | .resume co args fs =>
    match a.co co with
    | .new f =>
      { a with co := upd a.co co .active, cur := co, ev := call P false args f [], chain := (a.cur, fs) :: a.chain }
    | .susp gs =>
      { a with co := upd a.co co .active, cur := co, ev := deliver P gs args, chain := (a.cur, fs) :: a.chain }
    | .active => { a with ev := deliver P fs [P.fls, P.str "cannot resume non-suspended coroutine"] }
    | .dead => { a with ev := deliver P fs [P.fls, P.str "cannot resume dead coroutine"] }

def asteps (P : World V Fn S W) : Nat → A V S W → A V S W
  | 0, a => a
  | k + 1, a => asteps P k (astep P a)

def aboot (P : World V Fn S W) (f : V) (args : List V) (w : W) : A V S W :=
  { co := upd (fun _ => .dead) 0 .active, n := 1, cur := 0, ev := call P true args f [], chain := [], w := w }

end Verif.Coro
