import Verif.Base

/-!
# Moving values across calls — ldo.c and lvm.c

The stack is a map from slot numbers to values.  Growing the stack (which moves it) is modelled
separately (`Verif.StackMem`); here slots are named by their index.
-/
namespace Verif.Call

/-- The slots of a Lua stack; `V` is the type of values. -/
abbrev Stk (V : Type) := Nat → V

variable {V : Type}

/-- `setobjs2s` / `setnilvalue` on one slot. -/
def put (st : Stk V) (i : Nat) (v : V) : Stk V := fun j => if j = i then v else st j

/-- `for (i = 0; i < k; i++) setobjs2s(L, dst + i, src + i)` — ldo.c:363-364, 371-372, 375-376,
lvm.c:1828-1829, 2963-2964. -/
def copyUp (st : Stk V) (dst src : Nat) : Nat → Stk V
  | 0 => st
  | k + 1 => put (copyUp st dst src k) (dst + k) (copyUp st dst src k (src + k))

/-- `for (; i < k; i++) setnilvalue(dst + i)` for `n` further iterations starting at `dst`. -/
def nilFill (nil : V) (st : Stk V) (dst : Nat) : Nat → Stk V
  | 0 => st
  | k + 1 => put (nilFill nil st dst k) (dst + k) nil

/-- `moveresults` — ldo.c:350-388: new slots, new top, and the returned flag. -/
def moveresults (nil : V) (st : Stk V) (firstResult res nres : Nat) (wanted : Int) :
    Stk V × Nat × Bool :=
  if wanted = 0 then (st, res + 0, true)
  else if wanted = 1 then
    (put st res (if nres = 0 then nil else st firstResult), res + 1, true)
  else if wanted = -1 then
    (copyUp st res firstResult nres, res + nres, false)
  else
    let w := wanted.toNat
    if w ≤ nres then (copyUp st res firstResult w, res + w, true)
    else (nilFill nil (copyUp st res firstResult nres) (res + nres) (w - nres), res + w, true)

/-- The moving loop of `adjust_varargs` — ldo.c:316-319, after `k` iterations (`top` is the value
of `L->top` before the loop; it advances once per iteration). -/
def moveFixed (nil : V) (st : Stk V) (top fixed : Nat) : Nat → Stk V
  | 0 => st
  | k + 1 =>
    let s := moveFixed nil st top fixed k
    put (put s (top + k) (s (fixed + k))) (fixed + k) nil

/-- `adjust_varargs` — ldo.c:309-323: new slots and `base`. -/
def adjustVarargs (nil : V) (st : Stk V) (top nfix actual : Nat) : Stk V × Nat :=
  let fixed := top - actual
  let m := min nfix actual
  (nilFill nil (moveFixed nil st top fixed m) (top + m) (nfix - m), top)

/-- The part of a `Proto` used on entry. -/
structure Proto where
  numparams : Nat
  vararg : Bool
  maxstacksize : Nat

/-- `luaD_precall`, the `LUA_TLCL` case — ldo.c:459-480: new slots, `base`, `top`. -/
def enter (nil : V) (st : Stk V) (func top : Nat) (p : Proto) : Stk V × Nat × Nat :=
  let n := top - func - 1
  if p.vararg then
    let (s, base) := adjustVarargs nil st top p.numparams n
    (s, base, base + p.maxstacksize)
  else
    (nilFill nil st top (p.numparams - n), func + 1, func + 1 + p.maxstacksize)

/-- `raviV_op_vararg` — lvm.c:2948-2970, on a frame `func`, `base`; `b` is the operand: new slots
and, when `b` is 0, the new top. -/
def opVararg (nil : V) (st : Stk V) (func base numparams a b : Nat) : Stk V × Option Nat :=
  let n : Nat := ((base : Int) - func - numparams - 1).toNat
  let ra := base + a
  let b' : Nat := if b = 0 then n else b - 1
  let m := min b' n
  (nilFill nil (copyUp st ra (base - n) m) (ra + m) (b' - m),
    if b = 0 then some (ra + n) else none)

/-- `OP_TAILCALL` — lvm.c:1818-1832: the called frame replaces the calling one. -/
def tailMove (st : Stk V) (nfunc nbase ntop ofunc numparams : Nat) : Stk V × Nat × Nat :=
  let lim := nbase + numparams
  (copyUp st ofunc nfunc (lim - nfunc), ofunc + (nbase - nfunc), ofunc + (ntop - nfunc))

/-- The hole opened by `tryfuncTM` — ldo.c:337-338: `for (p = top; p > func; p--) *p = *(p-1)`,
`k` iterations from `top`. -/
def shiftUp (st : Stk V) (top : Nat) : Nat → Stk V
  | 0 => st
  | k + 1 => put (shiftUp st top k) (top - k) (shiftUp st top k (top - k - 1))

/-- `tryfuncTM` once the metamethod is found — ldo.c:336-340. -/
def tryfuncTM (st : Stk V) (func top : Nat) (tm : V) : Stk V × Nat :=
  (put (shiftUp st top (top - func)) func tm, top + 1)

/-- `luaD_precall` on a fast C function (`ravi.exp`, `ravi.ln`) — ldo.c:557-560: the number `v`
computed from the argument replaces the function, and the top follows it.  The number of wanted
results is not consulted; the result of the function is left abstract. -/
def fastcall (st : Stk V) (func : Nat) (v : V) : Stk V × Nat := (put st func v, func + 1)

end Verif.Call
