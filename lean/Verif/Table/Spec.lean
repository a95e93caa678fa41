import Verif.Table.Model
/-!
Specification side for tables: histories of operations and the finite map they denote.
Nothing here refers to nodes, chains or hashing.
-/
namespace Verif.Table
open Verif.Arith (LInt)
variable {α V : Type} [DecidableEq α]

/-- the key that a raw key denotes: floats with an integral value are the integer; nil and NaN are not keys -/
def RawKey.norm : RawKey α → Option (Key α)
  | .nil => none
  | .nan => none
  | .fltInt i => some (.int i)
  | .key k _ => some k

/-- the object behind a raw key (none for values that are not collectable) -/
def RawKey.obj : RawKey α → Obj
  | .key _ o => o
  | _ => none

/-- what happens to a table between its creation and an observation -/
inductive Op (α V : Type) where
  /-- raw assignment (`lua_rawset`, `lua_rawseti`, the slow paths of `SETTABLE`) -/
  | set (k : RawKey α) (v : Option V)
  /-- the constructor asks for a larger array part (`OP_SETLIST`, lvm.c: `luaH_resizearray`) -/
  | grow (n : Nat)
  /-- the collector marks keys of empty entries dead (`removeentry`, lgc.c 168-172) -/
  | gc (p : Nat → Bool)

/-- execution of one operation by the model.  `grow`: lvm.c `OP_SETLIST`
`if (last > h->sizearray) luaH_resizearray(L, h, last)`, ltable.c 464-467. -/
def step (H : Hash α) (t : Tbl α V) : Op α V → Res (Tbl α V)
  | .set k v => rawset H t k v
  | .grow n => if t.asize < n then resize H t n (if t.lastfree = none then 0 else t.size) else .ok t
  | .gc p => .ok (collect t p)

/-- the effect of an operation on the map that the table stands for -/
def specStep (m : Key α → Option V) : Op α V → (Key α → Option V)
  | .set k v => match k.norm with
    | some k => fun x => if x = k then v else m x
    | none => m
  | _ => m

def specOf (ops : List (Op α V)) : Key α → Option V := ops.foldl specStep (fun _ => none)

/-- Side conditions on an operation, given the state it is applied to.
`set`: the key is neither nil nor NaN, and the collector's promise that two keys of the table that are
the same (live) object are equal.  `grow`: the size fits (`MAXASIZE`). -/
def Allowed (t : Tbl α V) : Op α V → Prop
  | .set k _ => ∃ k', k.norm = some k' ∧
      (k.obj ≠ none → ∀ i, i < t.size → ∀ k'', (t.node i).key = .live k'' k.obj → k'' = k')
  | .grow n => n ≤ 2 ^ 31
  | .gc _ => True

/-- `History H ops t`: table `t` is reached from a freshly created table (`lua_createtable`,
`OP_NEWTABLE`, with any size hints) by executing `ops`. -/
inductive History (H : Hash α) : List (Op α V) → Tbl α V → Prop
  | create (na nh : Nat) (t : Tbl α V) : na ≤ 2 ^ 31 → nh ≤ 2 ^ 31 → resize H new na nh = .ok t → History H [] t
  | step {ops : List (Op α V)} {t t' : Tbl α V} (op : Op α V) : History H ops t → Allowed t op →
      step H t op = .ok t' → History H (ops ++ [op]) t'

/-- what a program may do to the table between two calls of `next` without adding fields -/
inductive Mod (α V : Type) where
  /-- assignment (possibly of nil) to a field; skipped if the field does not exist (`t[k] == nil`) -/
  | assign (k : RawKey α) (v : Option V)
  /-- the collector marks keys of empty entries dead -/
  | gc (p : Nat → Bool)

def applyMod (H : Hash α) (t : Tbl α V) : Mod α V → Res (Tbl α V)
  | .assign k v => do
    match ← rawget H t k with
    | none => return t
    | some _ => rawset H t k v
  | .gc p => .ok (collect t p)

def applyMods (H : Hash α) : List (Mod α V) → Tbl α V → Res (Tbl α V)
  | [], t => .ok t
  | m :: ms, t => do let t ← applyMod H t m; applyMods H ms t

/-- the loop `k, v = next(t, k)` until nil; `mods n` happens after the `n`-th visit.
The result is the list of visited entries and the final table. -/
def traverse (H : Hash α) (mods : Nat → List (Mod α V)) : Nat → Nat → Tbl α V → RawKey α →
    Res (List (Key α × V) × Tbl α V)
  | 0, _, _, _ => .ub
  | fuel + 1, n, t, k => do
    match ← next H t k with
    | none => return ([], t)
    | some (k', o, v) =>
      let t ← applyMods H (mods n) t
      let (l, tf) ← traverse H mods fuel (n + 1) t (.key k' o)
      return ((k', v) :: l, tf)

end Verif.Table
