import Verif.Upval.Model

/-!
# Variables as cells

What the language says: every local variable is a cell of its own, a function holds the cells of the variables it uses, and that is all.
There are no lists of open variables, no counters, nothing is moved or freed. The variable in slot `a` of thread `t` after the slot has been closed `k`
times is the cell `(t, a, k)`.
-/
namespace Verif.Upval

/-- A variable: of a slot, or of a function loaded from a binary chunk. -/
inductive Cell
  | stk (t a k : Nat)
  | own (n : Nat)
deriving DecidableEq, Repr

/-- `ep t a`: how often the slot has been closed; `cap`: cells some function has captured. -/
structure Sp where
  ep : Nat → Nat → Nat
  val : Cell → Val
  nexto : Nat
  clos : List (Option (List Cell))
  cache : Nat → Option Nat
  cap : Cell → Bool

/-- Nothing yet. -/
def Sp.init : Sp := ⟨fun _ _ => 0, fun _ => 0, 0, [], fun _ => none, fun _ => false⟩

/-- The variable now in a slot. -/
def Sp.cur (r : Sp) (t a : Nat) : Cell := .stk t a (r.ep t a)

/-- Assign to a variable. -/
def Sp.set (r : Sp) (c : Cell) (v : Val) : Sp := { r with val := fun x => if x = c then v else r.val x }

/-- The variables a new function needs. -/
def Sp.cells (r : Sp) (t base : Nat) (enc : List Cell) : List Desc → Res (List Cell)
  | [] => .ok []
  | .loc i :: ds => do
    let cs ← r.cells t base enc ds
    pure (r.cur t (base + i) :: cs)
  | .enc i :: ds =>
    match enc[i]? with
    | none => .err "no such upvalue"
    | some c => do
      let cs ← r.cells t base enc ds
      pure (c :: cs)

/-- The variables of a function. -/
def Sp.ups (r : Sp) (c : Nat) : Res (List Cell) :=
  match r.clos[c]? with
  | some (some us) => .ok us
  | _ => .err "no such closure"

/-- One of them. -/
def Sp.up (r : Sp) (c i : Nat) : Res Cell := do
  let us ← r.ups c
  match us[i]? with
  | some u => pure u
  | none => .err "no such upvalue"

/-- The variables of a frame that are captured. -/
def locs (t base : Nat) (r : Sp) (ds : List Desc) : List Cell :=
  ds.filterMap fun d => match d with | .loc i => some (r.cur t (base + i)) | .enc _ => none

/-- The last function made from a prototype, if it has these variables. -/
def Sp.last (r : Sp) (p : Nat) (cs : List Cell) : Res (Option Nat) :=
  match r.cache p with
  | none => .ok none
  | some c => do
    let us ← r.ups c
    pure (if us = cs then some c else none)

/-- One operation. A function with the same variables as the last one from the same prototype may be that one. -/
def Sp.step (P : Nat → List Desc) (r : Sp) : Op → Res (Out × Sp)
  | .set t a v => .ok (.none, r.set (r.cur t a) v)
  | .get t a => .ok (.val (r.val (r.cur t a)), r)
  | .closure t base p enc black => do
    let es ← match enc with
      | none => pure []
      | some c => r.ups c
    let cs ← r.cells t base es (P p)
    let old ← r.last p cs
    match old with
    | some c => pure (.clo c, r)
    | none =>
      let c := r.clos.length
      pure (.clo c, { r with
        clos := r.clos ++ [some cs]
        cap := fun x => r.cap x || x ∈ locs t base r (P p)
        cache := if black then r.cache else fun q => if q = p then some c else r.cache q })
  | .load n => .ok (.clo r.clos.length, { r with
      nexto := r.nexto + n
      clos := r.clos ++ [some ((List.range n).map fun i => .own (r.nexto + i))]
      val := fun x => match x with | .own m => (if r.nexto ≤ m ∧ m < r.nexto + n then 0 else r.val x) | _ => r.val x })
  | .getup c i => do
    let x ← r.up c i
    pure (.val (r.val x), r)
  | .setup c i v => do
    let x ← r.up c i
    pure (.none, r.set x v)
  | .close t level => .ok (.none, { r with
      ep := fun t' a => if t' = t ∧ level ≤ a then r.ep t' a + 1 else r.ep t' a
      val := fun x => match x with
        | .stk t' a k => if t' = t ∧ level ≤ a ∧ k = r.ep t' a + 1 then r.val (r.cur t' a) else r.val x
        | _ => r.val x
      cap := fun x => match x with
        | .stk t' a k => if t' = t ∧ level ≤ a ∧ k = r.ep t' a + 1 then false else r.cap x
        | _ => r.cap x })
  | .free c => do
    let _ ← r.ups c
    pure (.none, { r with clos := r.clos.set c Option.none, cache := fun q => if r.cache q = some c then Option.none else r.cache q })
  | .join c i c' i' => do
    let us ← r.ups c
    let _ ← r.up c i
    let x ← r.up c' i'
    pure (.none, { r with clos := r.clos.set c (some (us.set i x)) })
  | .upvalueid c i c' i' => do
    let x ← r.up c i
    let y ← r.up c' i'
    pure (.bool (x = y), r)
  | .defer t a =>
    if r.cap (r.cur t a) then .err "slot in use" else .ok (.none, r.set (r.cur t a) 0)
  | .uncache p => .ok (.none, { r with cache := fun q => if q = p then Option.none else r.cache q })

/-- A history. -/
def Sp.run (P : Nat → List Desc) : List Op → Sp → Res (List Out × Sp)
  | [], r => .ok ([], r)
  | o :: os, r => do
    let (x, r) ← r.step P o
    let (xs, r) ← Sp.run P os r
    pure (x :: xs, r)

end Verif.Upval
