import Verif.Base

/-!
# Variables shared by closures — lfunc.c:31-95, 150-178, lvm.c:949-998, 2609-2614, lgc.c:853-869, lapi.c:1650-1697

The stacks of the threads are maps from slots to values (that moving a stack keeps everything is C45), values are numbers and
nil is 0. An upvalue is named by the number of its allocation; an access to one that has been freed is undefined.
-/
namespace Verif.Upval

/-- Values; 0 is nil. -/
abbrev Val := Nat

/-- What the field `v` of an upvalue points to: a slot of a thread, or its own field `u.value`, which holds a value — lobject.h:646-661. -/
inductive Loc
  | stk (t a : Nat)
  | own (v : Val)
deriving DecidableEq, Repr

/-- `!upisopen` — lfunc.h. -/
def Loc.isOwn : Loc → Bool
  | .own _ => true
  | .stk _ _ => false

/-- `UpVal` — lobject.h:646-661. -/
structure UV where
  loc : Loc
  refc : Nat
  flag : Bool
deriving DecidableEq, Repr

/-- `Upvaldesc`: a variable of the enclosing function (`instack`) or one of its upvalues — lobject.h. -/
inductive Desc
  | loc (i : Nat)
  | enc (i : Nat)
deriving DecidableEq, Repr

/-- Stacks, lists `openupval`, upvalues, closures (the upvalues of each, `none` when freed) and the field `cache` of prototypes. -/
structure St where
  stack : Nat → Nat → Val
  opn : Nat → List Nat
  upv : Nat → Option UV
  nextu : Nat
  clos : List (Option (List Nat))
  cache : Nat → Option Nat

/-- Nothing yet. -/
def init : St := ⟨fun _ _ => 0, fun _ => [], fun _ => none, 0, [], fun _ => none⟩

/-- Change an upvalue. -/
def St.put (s : St) (u : Nat) (x : Option UV) : St := { s with upv := fun i => if i = u then x else s.upv i }

/-- Change a list of open upvalues. -/
def St.setOpn (s : St) (t : Nat) (l : List Nat) : St := { s with opn := fun i => if i = t then l else s.opn i }

/-- The loop of `luaF_findupval` — lfunc.c:70-82: the upvalue found, or the list before and after the place for a new one. -/
def findLoop (upv : Nat → Option UV) (level : Nat) : List Nat → Res (Option Nat × List Nat × List Nat)
  | [] => .ok (none, [], [])
  | u :: us =>
    match upv u with
    | some ⟨.stk _ a, _, f⟩ =>
      if level ≤ a then
        if a = level ∧ f = false then .ok (some u, [], us)
        else do
          let (r, pre, post) ← findLoop upv level us
          pure (r, u :: pre, post)
      else .ok (none, [], u :: us)
    | _ => .ub

/-- `luaF_findupval` — lfunc.c:65-95. -/
def findupval (s : St) (t level : Nat) : Res (Nat × St) := do
  let (r, pre, post) ← findLoop s.upv level (s.opn t)
  match r with
  | some u => pure (u, s)
  | none =>
    let u := s.nextu
    pure (u, { (s.put u (some ⟨.stk t level, 0, false⟩)).setOpn t (pre ++ u :: post) with nextu := u + 1 })

/-- `refcount++` -/
def incr (s : St) (u : Nat) : Res St :=
  match s.upv u with
  | some x => .ok (s.put u (some { x with refc := x.refc + 1 }))
  | none => .ub

/-- The loop of `pushclosure` — lvm.c:986-994. -/
def fill (t base : Nat) (enc : List Nat) : List Desc → St → Res (List Nat × St)
  | [], s => .ok ([], s)
  | .loc i :: ds, s => do
    let (u, s) ← findupval s t (base + i)
    let s ← incr s u
    let (us, s) ← fill t base enc ds s
    pure (u :: us, s)
  | .enc i :: ds, s =>
    match enc[i]? with
    | none => .err "no such upvalue"
    | some u => do
      let s ← incr s u
      let (us, s) ← fill t base enc ds s
      pure (u :: us, s)

/-- The address in the field `v`: a slot, or the field of an upvalue. -/
inductive Ptr
  | stk (t a : Nat)
  | own (u : Nat)
deriving DecidableEq, Repr

/-- `upvals[i]->v` -/
def ptr (s : St) (u : Nat) : Res Ptr :=
  match s.upv u with
  | some ⟨.stk t a, _, _⟩ => .ok (.stk t a)
  | some ⟨.own _, _, _⟩ => .ok (.own u)
  | none => .ub

/-- The loop of `getcached` — lvm.c:961-966. -/
def sameUps (s : St) (t base : Nat) (enc : List Nat) : List Desc → List Nat → Res Bool
  | [], _ => .ok true
  | _ :: _, [] => .ok false
  | d :: ds, u :: us => do
    let want ← match d with
      | .loc i => pure (.stk t (base + i))
      | .enc i => match enc[i]? with
        | none => .err "no such upvalue"
        | some w => ptr s w
    let have_ ← ptr s u
    if have_ = want then sameUps s t base enc ds us else pure false

/-- The upvalues of a closure; a closure that was freed is not used again. -/
def St.ups (s : St) (c : Nat) : Res (List Nat) :=
  match s.clos[c]? with
  | some (some us) => .ok us
  | _ => .err "no such closure"

/-- `getcached` — lvm.c:949-969. -/
def getcached (P : Nat → List Desc) (s : St) (t base : Nat) (enc : List Nat) (p : Nat) : Res (Option Nat) :=
  match s.cache p with
  | none => .ok none
  | some c => do
    let us ← s.ups c
    let b ← sameUps s t base enc (P p) us
    pure (if b then some c else none)

/-- `OP_CLOSURE` — lvm.c:2030-2041 and `pushclosure` 978-998; `black`: the prototype has been marked. -/
def closure (P : Nat → List Desc) (s : St) (t base : Nat) (enc : List Nat) (p : Nat) (black : Bool) : Res (Nat × St) := do
  let r ← getcached P s t base enc p
  match r with
  | some c => pure (c, s)
  | none => do
    let (us, s) ← fill t base enc (P p) s
    let c := s.clos.length
    let s := { s with clos := s.clos ++ [some us] }
    pure (c, if black then s else { s with cache := fun q => if q = p then some c else s.cache q })

/-- `luaF_initupvals` — lfunc.c:52-61. -/
def newUps : Nat → St → List Nat × St
  | 0, s => ([], s)
  | n + 1, s =>
    let (us, s') := newUps n { s.put s.nextu (some ⟨.own 0, 1, false⟩) with nextu := s.nextu + 1 }
    (s.nextu :: us, s')

/-- The loop of `luaF_close` on the list of open upvalues — lfunc.c:150-178. The deferred functions it calls are the subject of C33. -/
def close (t level : Nat) : List Nat → St → Res St
  | [], s => .ok (s.setOpn t [])
  | u :: us, s =>
    match s.upv u with
    | some ⟨.stk _ a, n, f⟩ =>
      if level ≤ a then
        if n = 0 then close t level us (s.put u none)
        else close t level us (s.put u (some ⟨.own (s.stack t a), n, f⟩))
      else .ok (s.setOpn t (u :: us))
    | _ => .ub

/-- `luaC_upvdeccount` — lgc.c:853-858. -/
def decr (s : St) (u : Nat) : Res St :=
  match s.upv u with
  | some x =>
    if x.refc = 0 then .ub
    else if x.refc = 1 ∧ x.loc.isOwn = true then .ok (s.put u none)
    else .ok (s.put u (some { x with refc := x.refc - 1 }))
  | none => .ub

/-- The loop of `freeLclosure` — lgc.c:861-869. -/
def decrs : List Nat → St → Res St
  | [], s => .ok s
  | u :: us, s => do
    let s ← decr s u
    decrs us s

/-- `*uv->v` -/
def rd (s : St) (u : Nat) : Res Val :=
  match s.upv u with
  | some ⟨.stk t a, _, _⟩ => .ok (s.stack t a)
  | some ⟨.own v, _, _⟩ => .ok v
  | none => .ub

/-- Change a slot. -/
def St.setSlot (s : St) (t a : Nat) (v : Val) : St :=
  { s with stack := fun t' a' => if t' = t ∧ a' = a then v else s.stack t' a' }

/-- `*uv->v = v` -/
def wr (s : St) (u : Nat) (v : Val) : Res St :=
  match s.upv u with
  | some ⟨.stk t a, _, _⟩ => .ok (s.setSlot t a v)
  | some ⟨.own _, n, f⟩ => .ok (s.put u (some ⟨.own v, n, f⟩))
  | none => .ub

/-- The upvalue `i` of a closure. -/
def St.up (s : St) (c i : Nat) : Res Nat := do
  let us ← s.ups c
  match us[i]? with
  | some u => pure u
  | none => .err "no such upvalue"

/-- `lua_upvaluejoin` with equal types — lapi.c:1682-1697. -/
def join (s : St) (c i c' i' : Nat) : Res St := do
  let us ← s.ups c
  let u ← s.up c i
  let w ← s.up c' i'
  if u = w then pure s
  else do
    let s ← decr s u
    let s := { s with clos := s.clos.set c (some (us.set i w)) }
    incr s w

/-- The operations on variables: a local variable is a slot of a thread's stack. `closure`, `load`: create a function (from a prototype, with the
upvalues of the closure `enc` at hand; from a binary chunk); `close`: leave the scope of all slots from `level` on, or free the
thread; `free`: the collector frees a closure; `uncache`: it clears a cache; `defer`: `OP_RAVI_DEFER`. -/
inductive Op
  | set (t a : Nat) (v : Val)
  | get (t a : Nat)
  | closure (t base p : Nat) (enc : Option Nat) (black : Bool)
  | load (n : Nat)
  | getup (c i : Nat)
  | setup (c i : Nat) (v : Val)
  | close (t level : Nat)
  | free (c : Nat)
  | join (c i c' i' : Nat)
  | upvalueid (c i c' i' : Nat)
  | defer (t a : Nat)
  | uncache (p : Nat)
deriving Repr

/-- What an operation shows. -/
inductive Out
  | none
  | val (v : Val)
  | clo (c : Nat)
  | bool (b : Bool)
deriving DecidableEq, Repr

/-- One operation. A closure is freed when nothing refers to it, so caches that name it have been cleared (`traverseproto`, lgc.c:652-664). `OP_RAVI_DEFER` —
lvm.c:2609-2614 — works on the slot of a new variable, which no closure has captured; other uses are excluded here. -/
def step (P : Nat → List Desc) (s : St) : Op → Res (Out × St)
  | .set t a v => .ok (.none, s.setSlot t a v)
  | .get t a => .ok (.val (s.stack t a), s)
  | .closure t base p enc black => do
    let us ← match enc with
      | none => pure []
      | some c => s.ups c
    let (c, s) ← closure P s t base us p black
    pure (.clo c, s)
  | .load n =>
    let (us, s) := newUps n s
    .ok (.clo s.clos.length, { s with clos := s.clos ++ [some us] })
  | .getup c i => do
    let u ← s.up c i
    let v ← rd s u
    pure (.val v, s)
  | .setup c i v => do
    let u ← s.up c i
    let s ← wr s u v
    pure (.none, s)
  | .close t level => do
    let s ← close t level (s.opn t) s
    pure (.none, s)
  | .free c => do
    let us ← s.ups c
    let s ← decrs us s
    pure (.none, { s with clos := s.clos.set c Option.none, cache := fun q => if s.cache q = some c then Option.none else s.cache q })
  | .join c i c' i' => do
    let s ← join s c i c' i'
    pure (.none, s)
  | .upvalueid c i c' i' => do
    let u ← s.up c i
    let w ← s.up c' i'
    pure (.bool (u = w), s)
  | .defer t a => do
    let (u, s') ← findupval s t a
    if u = s.nextu then
      match s'.upv u with
      | some x => pure (.none, (s'.put u (some { x with flag := true })).setSlot t a 0)
      | Option.none => .ub
    else .err "slot in use"
  | .uncache p => .ok (.none, { s with cache := fun q => if q = p then Option.none else s.cache q })

/-- A history. -/
def run (P : Nat → List Desc) : List Op → St → Res (List Out × St)
  | [], s => .ok ([], s)
  | o :: os, s => do
    let (x, s) ← step P s o
    let (xs, s) ← run P os s
    pure (x :: xs, s)

end Verif.Upval
