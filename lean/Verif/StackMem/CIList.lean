import Verif.Base

/-!
# The list of `CallInfo`s — lstate.c:104-147, ldo.c:413, 237-246

A `CallInfo` is the number `stacklevel` it carries (lstate.h:151, `unsigned short`).  `cur` are the frames in use, the
current one first and the base frame last; `free` are the ones after the current frame, kept for reuse.
-/
namespace Verif.StackMem

/-- The list and the counter `nci` (`unsigned short`, lstate.h:279). -/
structure CL where
  cur : List Nat
  free : List Nat
  nci : Nat
deriving DecidableEq, Repr

/-- `preinit_thread` and `stack_init` — lstate.c:226, 240. -/
def clInit : CL := ⟨[0], [], 0⟩

/-- `luaE_extendCI` — lstate.c:104-116, followed by making it current. -/
def extendCI (l : CL) : CL :=
  ⟨((l.cur.headD 0 + 1) % 65536) :: l.cur, [], (l.nci + 1) % 65536⟩

/-- `next_ci` — ldo.c:413. -/
def nextCI (l : CL) : CL :=
  match l.free with
  | c :: cs => ⟨c :: l.cur, cs, l.nci⟩
  | [] => extendCI l

/-- `L->ci = ci->previous` — ldo.c:406. -/
def prevCI (l : CL) : CL :=
  match l.cur with
  | c :: d :: cs => ⟨d :: cs, c :: l.free, l.nci⟩
  | _ => l

/-- `luaE_freeCI` — lstate.c:122-131. -/
def freeCI (l : CL) : CL :=
  ⟨l.cur, [], (l.nci + 65536 - l.free.length % 65536) % 65536⟩

/-- The loop of `luaE_shrinkCI` — lstate.c:141-147: of two consecutive unused entries the first is freed. -/
def halve : List Nat → List Nat × Nat
  | _ :: b :: cs => ((halve cs).1.cons b, (halve cs).2 + 1)
  | l => (l, 0)

/-- `luaE_shrinkCI` — lstate.c:137-147. -/
def shrinkCI (l : CL) : CL :=
  ⟨l.cur, (halve l.free).1, (l.nci + 65536 - (halve l.free).2 % 65536) % 65536⟩

/-- What happens to the list. -/
inductive CLOp
  | call | ret | freeAll | shrink
deriving DecidableEq

def clStep (l : CL) : CLOp → CL
  | .call => nextCI l
  | .ret => prevCI l
  | .freeAll => freeCI l
  | .shrink => shrinkCI l

def clRun (l : CL) (ops : List CLOp) : CL := ops.foldl clStep l

/-- Depth of calls after a history: the calls minus the returns (a return in the base frame has no effect). -/
def depth (ops : List CLOp) : Nat :=
  ops.foldl (fun d o => match o with
    | .call => d + 1
    | .ret => d - 1
    | _ => d) 0

end Verif.StackMem
