import Verif.Base
/-!
Stack manipulation of the C API: `/repo/src/lapi.c` 65-89 (`index2addr`), 165-169 (`lua_absindex`), 177-193 (`lua_settop`),
200-207 (`reverse`), 214-227 (`lua_rotate`), 230-241 (`lua_copy`), 244-249 (`lua_pushvalue`), and the macros of `/repo/include/lua.h` 438, 463-467.

A state is the list of the slots from the bottom of the Lua stack up to (not including) `L->top`, and the
position `func` of the running function.  Reading or writing outside the list is undefined behaviour.  `api_check` is
disabled in normal builds, so its conditions are hypotheses of theorems, not tests.
Simplification: pseudo-indices (registry, upvalues) are not modelled.
-/
namespace Verif.Stack

/-- live slots and the position of `ci->func` -/
structure St (α : Type) where
  slots : List α
  func : Nat

variable {α : Type}

/-- position of `L->top` -/
def St.top (s : St α) : Nat := s.slots.length

/-- `index2addr`, lapi.c 65-76, as an offset from the bottom of the stack; `none` is `NONVALIDVALUE` -/
def index2addr (s : St α) (idx : Int) : Option Int :=
  if 0 < idx then
    let o := (s.func : Int) + idx
    if (s.top : Int) ≤ o then none else some o
  else some (s.top + idx)

/-- `lua_absindex`, lapi.c 165-169 -/
def absindex (s : St α) (idx : Int) : Int := if 0 < idx then idx else (s.top : Int) - s.func + idx

/-- read a slot -/
def load (s : List α) (p : Int) : Res α :=
  if 0 ≤ p then match s[p.toNat]? with
    | some v => .ok v
    | none => .ub
  else .ub

/-- write a slot -/
def store (s : List α) (p : Int) (v : α) : Res (List α) :=
  if 0 ≤ p ∧ p < s.length then .ok (s.set p.toNat v) else .ub

/-- `reverse`, lapi.c 200-207; the fuel bounds the number of iterations -/
def reverseF : Nat → List α → Int → Int → Res (List α)
  | 0, _, _, _ => .ub
  | fuel + 1, s, frm, to =>
    if frm < to then do
      let temp ← load s frm
      let x ← load s to
      let s ← store s frm x
      let s ← store s to temp
      reverseF fuel s (frm + 1) (to - 1)
    else .ok s

def reverse (s : List α) (frm to : Int) : Res (List α) := reverseF (s.length + 1) s frm to

/-- `lua_rotate`, lapi.c 214-227; a non valid start position is undefined behaviour -/
def rotate (s : St α) (idx n : Int) : Res (St α) :=
  let t : Int := (s.top : Int) - 1
  match index2addr s idx with
  | none => .ub
  | some p => do
    let m := if 0 ≤ n then t - n else p - n - 1
    let l ← reverse s.slots p m
    let l ← reverse l (m + 1) t
    let l ← reverse l p t
    return { s with slots := l }

/-- `lua_settop`, lapi.c 177-193 (`nil` is the nil value) -/
def settop (nil : α) (s : St α) (idx : Int) : Res (St α) :=
  if 0 ≤ idx then
    let newtop := s.func + 1 + idx.toNat
    .ok { s with slots := (s.slots ++ List.replicate (newtop - s.top) nil).take newtop }
  else
    let newtop := (s.top : Int) + (idx + 1)
    if newtop < 0 then .ub else .ok { s with slots := s.slots.take newtop.toNat }

/-- `lua_copy`, lapi.c 230-241 -/
def copy (s : St α) (fromidx toidx : Int) : Res (St α) :=
  match index2addr s fromidx, index2addr s toidx with
  | some fr, some to => do
    let v ← load s.slots fr
    let l ← store s.slots to v
    return { s with slots := l }
  | _, _ => .ub

/-- `lua_pushvalue`, lapi.c 244-249 (pushing a non valid index pushes nil; not modelled) -/
def pushvalue (s : St α) (idx : Int) : Res (St α) :=
  match index2addr s idx with
  | some p => do
    let v ← load s.slots p
    return { s with slots := s.slots ++ [v] }
  | none => .ub

/-- `lua_pop`, lua.h 438 -/
def pop (nil : α) (s : St α) (n : Int) : Res (St α) := settop nil s (-n - 1)

/-- `lua_insert`, lua.h 463 -/
def insert (s : St α) (idx : Int) : Res (St α) := rotate s idx 1

/-- `lua_remove`, lua.h 465 -/
def remove (nil : α) (s : St α) (idx : Int) : Res (St α) := do
  let s ← rotate s idx (-1)
  pop nil s 1

/-- `lua_replace`, lua.h 467 -/
def replace (nil : α) (s : St α) (idx : Int) : Res (St α) := do
  let s ← copy s (-1) idx
  pop nil s 1

end Verif.Stack
