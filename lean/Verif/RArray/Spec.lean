import Verif.RArray.Model
/-!
Specification of typed arrays: an array is a sequence of variables ("cells"); a slice is a
sub-sequence of the *same* cells.  No memory, no capacities except the maximum length.
-/
namespace Verif.RArray
open Verif.Arith (LInt)
variable {E : Type}

/-- an array: its cells (cell 0 is the hidden element 0), whether slices may be taken of it, the
maximum number of cells, and the array it is a slice of -/
structure AObj where
  cells : List Nat
  sliceable : Bool
  cap : Nat
  parent : Option Nat

structure Abs (E : Type) where
  objs : Nat → Option AObj
  nobj : Nat
  cell : Nat → E
  ncell : Nat

def Abs.empty (z : E) : Abs E := ⟨fun _ => none, 0, fun _ => z, 0⟩

/-- how an index and the length limit of a fixed array are understood -/
structure Policy where
  ix : LInt → Option Nat
  fixcap : Nat → Nat

/-- what a user expects: the index is the integer itself; arrays of fixed length do not grow -/
def ideal : Policy := ⟨fun i => if 0 ≤ i.toInt then some i.toNat else none, fun n => n + 1⟩

/-- what the implementation does: indexes are taken modulo 2^32, and fixed arrays can hold at least 12
elements -/
def actual : Policy := ⟨fun i => some (i.toNat % 2 ^ 32), fun n => max 13 (n + 1)⟩

/-- cells allocated one by one -/
def dynCap : Nat := 2 ^ 32 - 3

def aget (P : Policy) (s : Abs E) (o : AObj) (i : LInt) : Res E :=
  match P.ix i with
  | none => .err "array out of bounds"
  | some u => match o.cells[u]? with
    | none => .err "array out of bounds"
    | some c => .ok (s.cell c)

/-- add an object -/
def Abs.add (s : Abs E) (o : AObj) : Abs E := { s with objs := upd s.objs s.nobj (some o), nobj := s.nobj + 1 }

def awith {β : Type} (s : Abs E) (x : Nat) (f : AObj → Res β) : Res β :=
  match s.objs x with
  | none => .ub
  | some o => f o

def aset (P : Policy) (s : Abs E) (x : Nat) (o : AObj) (i : LInt) (v : E) : Res (Abs E) :=
  match P.ix i with
  | none => .err "array out of bounds"
  | some u =>
    match o.cells[u]? with
    | some c => .ok { s with cell := upd s.cell c v }
    | none =>
      if u = o.cells.length then
        if u < o.cap then
          .ok { s with objs := upd s.objs x (some { o with cells := o.cells ++ [s.ncell] })
                       cell := upd s.cell s.ncell v, ncell := s.ncell + 1 }
        else .err "array cannot be resized"
      else .err "array out of bounds"

def astep (P : Policy) (z : E) (s : Abs E) : Op E → Res (Abs E × Out E)
  | .newDyn =>
    .ok ({ s with cell := upd s.cell s.ncell z, ncell := s.ncell + 1 }.add ⟨[s.ncell], false, dynCap, none⟩, .obj s.nobj)
  | .newFixed n v =>
    if n + 1 = 2 ^ 32 then .err "array length out of range"
    else .ok ({ s with cell := fun c => if c < s.ncell then s.cell c else if c = s.ncell then z else v
                       ncell := s.ncell + (n + 1) }.add
        ⟨(List.range (n + 1)).map (s.ncell + ·), true, P.fixcap n, none⟩, .obj s.nobj)
  | .newSlice p start len => awith s p fun o =>
    if start < 1 ∨ len < 1 ∨ o.cells.length < start + len then .err "cannot create a slice of given bounds"
    else if o.sliceable = false then .err "cannot create slice from dynamic integer[] or number[] array"
    else .ok (s.add ⟨(o.cells.drop (start - 1)).take (len + 1), true, len + 1, some p⟩, .obj s.nobj)
  | .get x i => awith s x fun o => do let e ← aget P s o i; return (s, .val e)
  | .rawgeti x i => awith s x fun o =>
    if i.toInt ≤ (o.cells.length - 1 : Nat) then do let e ← aget P s o i; return (s, .val e)
    else return (s, .nil)
  | .set x i v => awith s x fun o => do let s ← aset P s x o i v; return (s, .unit)
  | .len x => awith s x fun o => .ok (s, .num (o.cells.length - 1))
  | .next x k => awith s x fun o =>
    let i := (k.getD 0) + 1
    if (o.cells.length : Int) ≤ i.toInt then return (s, .nil)
    else do let e ← aget P s o i; return (s, .kv i e)
  | .free x => awith s x fun _ => .ok ({ s with objs := upd s.objs x none }, .unit)

/-- Side conditions of an operation: it uses a live object; `unsigned int` arguments; the
collector frees an array only when no live slice refers to it; `next` is not called with the
largest integer. -/
def Allowed (s : Abs E) : Op E → Prop
  | .newDyn => True
  | .newFixed n _ => n < 2 ^ 32
  | .newSlice p start len => s.objs p ≠ none ∧ start < 2 ^ 32 ∧ len < 2 ^ 32
  | .get x _ => s.objs x ≠ none
  | .rawgeti x _ => s.objs x ≠ none
  | .set x _ _ => s.objs x ≠ none
  | .len x => s.objs x ≠ none
  | .next x k => s.objs x ≠ none ∧ k ≠ some (BitVec.intMax 64)
  | .free x => s.objs x ≠ none ∧ ∀ y o, s.objs y = some o → o.parent ≠ some x

/-- A run of the implementation together with the specified run: the same operations, the same
results (values, lengths, names, error messages).  An operation that raises an error leaves
everything unchanged. -/
inductive Run (P : Policy) (z : E) : List (Op E) → Heap E → Abs E → Prop
  | init : Run P z [] empty (Abs.empty z)
  | ok {ops h s h' s' o} (op : Op E) : Run P z ops h s → Allowed s op → step z h op = .ok (h', o) →
      astep P z s op = .ok (s', o) → Run P z (ops ++ [op]) h' s'
  | err {ops h s m} (op : Op E) : Run P z ops h s → Allowed s op → step z h op = .err m →
      astep P z s op = .err m → Run P z (ops ++ [op]) h s

end Verif.RArray
