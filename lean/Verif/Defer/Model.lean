import Verif.Base

/-!
# Deferred functions — lfunc.c:98-178, ldo.c:660-700, 758-798, 829-858, lstate.c:323-345, lcorolib.c:56-91, lvm.c:1092-1100, 1801-1855, 2609-2614, lparser.c:570-577, 863-960, 2265-2290, 2376-2395

A language with the statements that enter and leave scopes. Values are left out: conditions are given by the world, errors carry a
number. A function captures nothing but what `capture` says. `goto` other than `break`, `for` and memory errors are left out.
-/
namespace Verif.Defer

/-- Statements. `local_`: a local variable; `capture k`: create a function that uses the variable in register `k`; `defer b`: the
deferred function with the body `b`; `tail f`: `return f()`; `pcall f`, `resume f`, `wrap f`: `pcall(f)`,
`coroutine.resume(coroutine.create(f))`, `coroutine.wrap(f)()`, where `f` does not yield; `grow`: something that moves the stack. -/
inductive S
  | skip
  | seq (a b : S)
  | emit (k : Nat)
  | local_
  | capture (k : Nat)
  | defer (b : S)
  | block (b : S)
  | ite (a b : S)
  | while_ (b : S)
  | repeat_ (b : S)
  | brk
  | ret
  | tail (f : Nat)
  | call (f : Nat)
  | pcall (f : Nat)
  | resume (f : Nat)
  | wrap (f : Nat)
  | error (v : Nat)
  | grow
deriving DecidableEq, Repr

/-! ## The compiler -/

/-- The active local variables after a statement; `true`: a deferred function — lparser.c:2265-2280. -/
def decl (vs : List Bool) : S → List Bool
  | .seq a b => decl (decl vs a) b
  | .local_ => vs ++ [false]
  | .defer _ => vs ++ [true]
  | _ => vs

/-- The registers for which `markupval` is called while the statement is compiled, and whose block is outside of the statement — lparser.c:570-577,
2271. A deferred function has no name, so it cannot be captured. -/
def marks (vs : List Bool) : S → List Nat
  | .seq a b => marks vs a ++ marks (decl vs a) b
  | .capture k => if vs[k]? = some false then [k] else []
  | .defer _ => [vs.length]
  | .block b => (marks vs b).filter (· < vs.length)
  | .while_ b => (marks vs b).filter (· < vs.length)
  | .repeat_ b => (marks vs b).filter (· < vs.length)
  | .ite a b => (marks vs a).filter (· < vs.length) ++ (marks vs b).filter (· < vs.length)
  | _ => []

/-- `bl->upval` of the block with this body. -/
def ups (vs : List Bool) (b : S) : Bool := (marks vs b).any (vs.length ≤ ·)

/-- `fs->bl->insidetbc` after a statement — lparser.c:888, 2272. -/
def tbcAfter (t : Bool) : S → Bool
  | .seq a b => tbcAfter (tbcAfter t a) b
  | .defer _ => true
  | _ => t

/-- `sizep > 0`: the function contains functions. -/
def protos : S → Bool
  | .seq a b => protos a || protos b
  | .capture _ => true
  | .defer _ => true
  | .block b => protos b
  | .ite a b => protos a || protos b
  | .while_ b => protos b
  | .repeat_ b => protos b
  | _ => false

/-- The level `luaK_patchclose` gives the jump of a `break` when it is moved out of the blocks up to the loop, in one go — `movegotosout`, lparser.c:863-881. `na` is
`gt->nactvar`; for each block `bl->nactvar` and `bl->upval`. -/
def brkClose : Nat → List (Nat × Bool) → Option Nat
  | _, [] => none
  | na, (n, up) :: bl =>
    if n < na then
      match brkClose n bl with
      | some l => some l
      | none => if up then some n else none
    else brkClose na bl

/-- Code. Blocks and the jumps of `break` carry the level to which they close (`JMP` with `A > 0`), and so do returns (`sizep > 0`, lvm.c:1826, 1847); `defer` the function, with `sizep > 0`; `tail true` is `OP_TAILCALL`. -/
inductive C
  | skip
  | seq (a b : C)
  | emit (k : Nat)
  | local_
  | capture (k : Nat)
  | defer (sizep : Bool) (b : C)
  | block (cl : Option Nat) (b : C)
  | ite (ca : Option Nat) (a : C) (cb : Option Nat) (b : C)
  | while_ (cl : Option Nat) (b : C)
  | repeat_ (cl : Option Nat) (b : C)
  | brk (cl : Option Nat)
  | ret (cl : Option Nat)
  | tail (op : Bool) (cl : Option Nat) (f : Nat)
  | call (f : Nat)
  | pcall (f : Nat)
  | resume (f : Nat)
  | wrap (f : Nat)
  | error (v : Nat)
  | grow
deriving DecidableEq, Repr

/-- The close of `leaveblock` — lparser.c:917-926. -/
def leave (vs : List Bool) (b : S) : Option Nat := if ups vs b then some vs.length else none

/-- The close of `OP_RETURN` and `OP_TAILCALL` — lvm.c:1826, 1847: `if (cl->p->sizep > 0) luaF_close(L, base, …)`. -/
def retClose (p : Bool) : Option Nat := if p then some 0 else none

/-- The parser. `bl`: the blocks inside the innermost loop, if there is one; `t`: `insidetbc`; `p`: `sizep > 0` for the function. A `break` outside of loops is an error. -/
def comp (p : Bool) (bl : Option (List (Nat × Bool))) (t : Bool) (vs : List Bool) : S → Option C
  | .skip => some .skip
  | .seq a b => do
    let ca ← comp p bl t vs a
    let cb ← comp p bl (tbcAfter t a) (decl vs a) b
    pure (.seq ca cb)
  | .emit k => some (.emit k)
  | .local_ => some .local_
  | .capture k => if vs[k]? = some false then some (.capture k) else none
  | .defer b => do
    let cb ← comp (protos b) none false [] b
    pure (.defer (protos b) cb)
  | .block b => do
    let cb ← comp p (bl.map ((vs.length, ups vs b) :: ·)) t vs b
    pure (.block (leave vs b) cb)
  | .ite a b => do
    let ca ← comp p (bl.map ((vs.length, ups vs a) :: ·)) t vs a
    let cb ← comp p (bl.map ((vs.length, ups vs b) :: ·)) t vs b
    pure (.ite (leave vs a) ca (leave vs b) cb)
  | .while_ b => do
    let cb ← comp p (some [(vs.length, ups vs b)]) t vs b
    pure (.while_ (leave vs b) cb)
  | .repeat_ b => do
    let cb ← comp p (some [(vs.length, ups vs b)]) t vs b
    pure (.repeat_ (leave vs b) cb)
  | .brk => bl.map fun l => .brk (brkClose vs.length l)
  | .ret => some (.ret (retClose p))
  | .tail f => some (.tail (!t) (retClose p) f)
  | .call f => some (.call f)
  | .pcall f => some (.pcall f)
  | .resume f => some (.resume f)
  | .wrap f => some (.wrap f)
  | .error v => some (.error v)
  | .grow => some .grow

/-- A prototype: `sizep > 0` and the code. -/
structure Fn where
  sizep : Bool
  code : C
deriving DecidableEq, Repr

/-- The parser on the body of a function — lparser.c:1347-1368. -/
def compFun (b : S) : Option Fn := (comp (protos b) none false [] b).map fun c => ⟨protos b, c⟩

/-! ## The machine -/

/-- An open upvalue: its slot, and the deferred function in it (with the number of its registration) or `none` for a captured variable. -/
structure Ent where
  lvl : Nat
  d : Option (Nat × Fn)
deriving DecidableEq, Repr

/-- What can be seen: output; a function is deferred; a deferred function is called with an error object or nil; `pcall` and `coroutine.resume` return an error. -/
inductive Ev
  | emit (k : Nat)
  | reg (id : Nat)
  | run (id : Nat) (arg : Option Nat)
  | caught (v : Nat)
  | died (v : Nat)
deriving DecidableEq, Repr

/-- The list `openupval` of the running thread, the number of times the stack was moved, the number of conditions evaluated, of functions deferred, and what has been seen. -/
structure St where
  opn : List Ent
  gen : Nat
  tick : Nat
  next : Nat
  tr : List Ev
deriving DecidableEq, Repr

/-- How a statement ends. -/
inductive Outc
  | norm
  | brk
  | ret
  | err (v : Nat)
deriving DecidableEq, Repr

/-- The argument `status` of `luaF_close`: `LUA_OK`, an error (with its object), `CLOSEPROTECT`. -/
inductive Status
  | ok
  | code (v : Nat)
  | protect
deriving DecidableEq, Repr

/-- `luaF_findupval` with `refcount++` of `OP_CLOSURE`, or with `flags = 1` of `OP_RAVI_DEFER`: insert an upvalue unless the slot has one that is not flagged — lfunc.c:65-95. An
upvalue that a function has captured stays that, even if it is flagged: its `refcount` is not zero when it is closed. -/
def find (x : Ent) : List Ent → List Ent
  | [] => [x]
  | e :: es =>
    if x.lvl ≤ e.lvl then
      if e.lvl = x.lvl ∧ e.d = none then e :: es else e :: find x es
    else x :: e :: es

/-- Record something seen. -/
def St.see (s : St) (e : Ev) : St := { s with tr := s.tr ++ [e] }

/-- The error object passed to a deferred function: `luaD_seterrorobj` — ldo.c:97-120, lfunc.c:110-121. -/
def Status.arg : Status → Option Nat
  | .code v => some v
  | _ => none

/-- `luaF_close` with `NOCLOSINGMETH`: deferred functions are dropped — lfunc.c:150-178. -/
def drop (base : Nat) : Option Nat → List Ent → List Ent
  | none, es => es
  | some l, es => es.dropWhile (base + l ≤ ·.lvl)

/-! Execution, by a bound on the depth of the evaluation. -/
mutual

/-- Statements of a function with base `base` and `n` active variables; `co`: the thread can yield (`nny == 0`). -/
def ex (W : Nat → Bool) (F : Nat → Fn) : Nat → Bool → Nat → Nat → C → St → Res (Outc × Nat × St)
  | 0, _, _, _, _, _ => .err "not finished"
  | k + 1, co, base, n, c, s =>
    match c with
    | .skip => .ok (.norm, n, s)
    | .seq a b => do
      let (o, n, s) ← ex W F k co base n a s
      match o with
      | .norm => ex W F k co base n b s
      | o => pure (o, n, s)
    | .emit e => .ok (.norm, n, s.see (.emit e))
    | .local_ => .ok (.norm, n + 1, s)
    | .capture i => .ok (.norm, n, { s with opn := find ⟨base + i, none⟩ s.opn })
    | .defer p b => .ok (.norm, n + 1, { s with opn := find ⟨base + n, some (s.next, ⟨p, b⟩)⟩ s.opn, next := s.next + 1, tr := s.tr ++ [.reg s.next] })
    | .block cl b => scope W F k co base n cl b s
    | .ite ca a cb b =>
      let s' := { s with tick := s.tick + 1 }
      if W s.tick then scope W F k co base n ca a s' else scope W F k co base n cb b s'
    | .while_ cl b =>
      let s' := { s with tick := s.tick + 1 }
      if W s.tick then do
        let (o, n, s) ← scope W F k co base n cl b s'
        match o with
        | .norm => ex W F k co base n (.while_ cl b) s
        | .brk => pure (.norm, n, s)
        | o => pure (o, n, s)
      else .ok (.norm, n, s')
    | .repeat_ cl b => do
      let (o, n', s) ← ex W F k co base n b s
      match o with
      | .norm => do
        let again := W s.tick
        let s := { s with tick := s.tick + 1 }
        let (r, s) ← jmp W F k base n' cl s
        match r with
        | some v => pure (.err v, n, s)
        | none => if again then ex W F k co base n (.repeat_ cl b) s else pure (.norm, n, s)
      | .brk => pure (.norm, n, s)
      | o => pure (o, n, s)
    | .brk cl => do
      let (r, s) ← jmp W F k base n cl s
      match r with
      | some v => pure (.err v, n, s)
      | none => pure (.brk, n, s)
    | .ret cl => do
      let (r, s) ← jmp W F k base n cl s
      match r with
      | some v => pure (.err v, n, s)
      | none => pure (.ret, n, s)
    | .tail op cl f =>
      if op then do
        let (r, s) ← fn W F k co base (F f) { s with opn := drop base cl s.opn }
        match r with
        | some v => pure (.err v, n, s)
        | none => pure (.ret, n, s)
      else do
        let (r, s) ← fn W F k co (base + n + 1) (F f) s
        match r with
        | some v => pure (.err v, n, s)
        | none => do
          let (r, s) ← jmp W F k base n cl s
          match r with
          | some v => pure (.err v, n, s)
          | none => pure (.ret, n, s)
    | .call f => do
      let (r, s) ← fn W F k co (base + n + 1) (F f) s
      match r with
      | some v => pure (.err v, n, s)
      | none => pure (.norm, n, s)
    | .pcall f =>
      if co then recover W F k (base + n + 1) (F f) n s
      else do
        let (r, s) ← prot W F k (base + n + 1) (base + n + 2) (F f) s
        match r with
        | some v => pure (.norm, n, s.see (.caught v))
        | none => pure (.norm, n, s)
    | .resume f => do
      let old := s.opn
      let (r, s) ← fn W F k true 1 (F f) { s with opn := [] }
      match r with
      | some v => pure (.norm, n, { s.see (.died v) with opn := old })
      | none => pure (.norm, n, { s with opn := old })
    | .wrap f => do
      let old := s.opn
      let (r, s) ← fn W F k true 1 (F f) { s with opn := [] }
      match r with
      | some v => do
        let (_, s) ← close W F k 0 0 .protect s
        pure (.err v, n, { s with opn := old })
      | none => pure (.norm, n, { s with opn := old })
    | .error v => .ok (.err v, n, s)
    | .grow => .ok (.norm, n, { s with gen := s.gen + 1 })

/-- The body of a block and the jump of `leaveblock`. -/
def scope (W : Nat → Bool) (F : Nat → Fn) : Nat → Bool → Nat → Nat → Option Nat → C → St → Res (Outc × Nat × St)
  | 0, _, _, _, _, _, _ => .err "not finished"
  | k + 1, co, base, n, cl, b, s => do
    let (o, n', s) ← ex W F k co base n b s
    match o with
    | .norm => do
      let (r, s) ← jmp W F k base n' cl s
      match r with
      | some v => pure (.err v, n, s)
      | none => pure (.norm, n, s)
    | o => pure (o, n, s)

/-- `dojump` — lvm.c:1092-1100, and the close of `OP_RETURN`, lvm.c:1845-1850. `L->top` is above the `n` active variables. -/
def jmp (W : Nat → Bool) (F : Nat → Fn) : Nat → Nat → Nat → Option Nat → St → Res (Option Nat × St)
  | 0, _, _, _, _ => .err "not finished"
  | _ + 1, _, _, none, s => .ok (none, s)
  | k + 1, base, n, some l, s => close W F k (base + l) (base + n) .ok s

/-- `luaF_close` — lfunc.c:150-178, with `calldeferredfunction`, lfunc.c:135-154. The result is the error thrown, if any. -/
def close (W : Nat → Bool) (F : Nat → Fn) : Nat → Nat → Nat → Status → St → Res (Option Nat × St)
  | 0, _, _, _, _ => .err "not finished"
  | k + 1, level, top, st, s =>
    match s.opn with
    | [] => .ok (none, s)
    | e :: es =>
      if level ≤ e.lvl then
        match e.d with
        | none => close W F k level top st { s with opn := es }
        | some (id, b) =>
          let s := { s.see (.run id st.arg) with opn := es }
          match st with
          | .ok => do
            let (r, s) ← fn W F k false (top + 1) b s
            match r with
            | some v => pure (some v, s)
            | none => close W F k level top .ok s
          | .code v => do
            let (_, s) ← prot W F k (e.lvl + 2) (e.lvl + 3) b s
            close W F k level top (.code v) s
          | .protect => do
            let (r, s) ← prot W F k (e.lvl + 2) (e.lvl + 3) b s
            match r with
            | some w => close W F k level top (.code w) s
            | none => close W F k level top .protect s
      else .ok (none, s)

/-- Call a function; `OP_RETURN` at its end closes when `sizep > 0`. The result is the error thrown, if any. -/
def fn (W : Nat → Bool) (F : Nat → Fn) : Nat → Bool → Nat → Fn → St → Res (Option Nat × St)
  | 0, _, _, _, _ => .err "not finished"
  | k + 1, co, base, f, s => do
    let (o, n, s) ← ex W F k co base 0 f.code s
    match o with
    | .err v => pure (some v, s)
    | .ret => pure (none, s)
    | _ => jmp W F k base n (retClose f.sizep) s

/-- `luaD_pcall` — ldo.c:829-858. -/
def prot (W : Nat → Bool) (F : Nat → Fn) : Nat → Nat → Nat → Fn → St → Res (Option Nat × St)
  | 0, _, _, _, _ => .err "not finished"
  | k + 1, oldtop, base, f, s => do
    let (r, s) ← fn W F k false base f s
    match r with
    | none => pure (none, s)
    | some v => do
      let (_, s) ← close W F k oldtop oldtop (.code v) s
      pure (some v, s)

/-- `pcall` in a coroutine: `lua_pcallk` makes an ordinary call, and after an error `recover` — ldo.c:687-706 — closes the upvalues and then stores the
error object through `oldtop`, a pointer into the stack as it was before. -/
def recover (W : Nat → Bool) (F : Nat → Fn) : Nat → Nat → Fn → Nat → St → Res (Outc × Nat × St)
  | 0, _, _, _, _ => .err "not finished"
  | k + 1, oldtop, f, n, s => do
    let (r, s) ← fn W F k true (oldtop + 1) f s
    match r with
    | none => pure (.norm, n, s)
    | some v => do
      let gen := s.gen
      let (_, s) ← close W F k oldtop oldtop (.code v) s
      if s.gen = gen then pure (.norm, n, s.see (.caught v)) else .ub

end

/-- The main program: `f` called by `lua_pcall` in the main thread. -/
def main (W : Nat → Bool) (F : Nat → Fn) (k f : Nat) : Res (Option Nat × St) := prot W F k 0 1 (F f) ⟨[], 0, 0, 0, []⟩

end Verif.Defer
