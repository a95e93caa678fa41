import Verif.ExpCode.Model
/-!
Multiple assignment: `assignment` and `check_conflict` of `src/lparser.c` 1843-1922, `adjust_assign` 750-771, and
`luaK_storevar` of `src/lcode.c` 1027-1068, on top of the code generator for expressions (`ExpCode`), with its
simplifications.  Further ones:
* No variable has a type annotation, so that `check_valid_store` and `check_valid_setupval` accept everything, and the
  stores specialised for the types of key and table are `SETTABLE`.
* In `assignment` the last expression is not a call, or it is one in parentheses, or there are as many expressions as
  variables, so that `adjust_assign` never asks for several results; in `assignMulti` it is a call.  `...` is left out.
* The limit on nested C calls (`checklimit`, 1907) is left out.
-/
namespace Verif.Assign
open Verif.ExpCode
open Verif.Fold (FOps)

/-- the variables that can be assigned to (`vkisvar`, lparser.h 57): a local variable, an upvalue, a field of a table.  A
global variable is a field of the upvalue `_ENV`. -/
inductive Lhs where
  | loc (x : Nat)
  | up (u : Nat)
  | index (a b : E)
deriving DecidableEq

/-- `suffixedexp` on a variable, lparser.c 1605-1660; of the descriptor (`lh->v`) the kind is kept -/
def genLhs (F : FOps) (fixed : Bool) (v : Lhs) (s : FS) : Res (FS × Kind) :=
  match v with
  | .loc x => .ok (s, .loc x)
  | .up u => .ok (s, .up u)
  | .index a b => do
    let (s, d) ← gen F fixed (.index a b) s
    return (s, d.kind)

/-- one round of the loop of `check_conflict`, lparser.c 1863-1877: the previous variable `k` when `v` is assigned, where
`extra` is the register for the copy; and whether it is needed -/
def conflict (v : Kind) (extra : Nat) (k : Kind) : Kind × Bool :=
  match v, k with
  | .loc x, .indexed t i =>
    (.indexed (if t = x then extra else t) (if i = .reg x then .reg extra else i), decide (t = x) || decide (i = .reg x))
  | .loc x, .indexup u i => (.indexup u (if i = .reg x then .reg extra else i), decide (i = .reg x))
  | .up u, .indexup u' i => if u' = u then (.indexed extra i, true) else (.indexup u' i, false)
  | _, k => (k, false)

/-- the copy, lparser.c 1881-1882 -/
def copyInstr (v : Kind) (extra : Nat) : Instr :=
  match v with
  | .loc x => .set extra (.move x)
  | .up u => .set extra (.getupval u)
  | _ => .set extra (.move 0)

/-- `check_conflict`, lparser.c 1859-1885, on the list of the previous variables -/
def checkConflict (s : FS) (lh : List Kind) (v : Kind) : Res (FS × List Kind) :=
  if lh.any fun k => (conflict v s.freereg k).2 then do
    let s' ← reserve (emit s (copyInstr v s.freereg)) 1
    return (s', lh.map fun k => (conflict v s.freereg k).1)
  else .ok (s, lh.map fun k => (conflict v s.freereg k).1)

/-- lparser.c 1901-1902: only for variables that are not fields -/
def checkVar (s : FS) (lh : List Kind) (v : Kind) : Res (FS × List Kind) :=
  match v with
  | .indexed .. | .indexup .. => .ok (s, lh)
  | _ => checkConflict s lh v

/-- the variables on the left, `exprstat` (lparser.c 2361-2376) and the recursion of `assignment` (1890-1906); the list is
the chain `lh`, the last variable first -/
def genVars (F : FOps) (fixed : Bool) : List Lhs → FS → List Kind → Res (FS × List Kind)
  | [], s, lh => .ok (s, lh)
  | v :: vs, s, lh => do
    let (s, k) ← genLhs F fixed v s
    let (s, lh) ← checkVar s lh k
    genVars F fixed vs s (k :: lh)

/-- `luaK_storevar`, lcode.c 1027-1068 -/
def storevar (s : FS) (v : Kind) (d : D) : Res FS :=
  match v with
  | .loc x => .ok (storelocal s d x)
  | .up u => do
    let (s, d, r) ← exp2anyreg s d
    return freeexp (emit s (.eff (.setupval u r))) d
  | .indexed t i => do
    let (s, d, r) ← exp2RK s d
    return freeexp (emit s (.eff (.settable t i r))) d
  | .indexup u i => do
    let (s, d, r) ← exp2RK s d
    return freeexp (emit s (.eff (.settabup u i r))) d
  | _ => .ub

/-- the default assignments, lparser.c 1919-1920, when the recursion of `assignment` returns -/
def storeRest : List Kind → FS → Res FS
  | [], s => .ok s
  | v :: vs, s => do
    let s ← storevar s v { kind := .nonreloc (s.freereg - 1), tm := Typed.tANY }
    storeRest vs s

/-- `assignment`, lparser.c 1890-1922, for `vs = es, e`, with `explist` (1393-1403) and `adjust_assign` (750-771;
`luaK_nil` for several registers makes the same instruction as for one after the other) -/
def assignment (F : FOps) (fixed : Bool) (vs : List Lhs) (es : List E) (e : E) (s : FS) : Res FS := do
  let (s, lh) ← genVars F fixed vs s []
  if es.length + 1 = vs.length then
    let s ← genList F fixed es s
    let (s, d) ← gen F fixed e s
    match lh with
    | v :: lh => do
      let s ← storevar s v d
      storeRest lh s
    | [] => .ub
  else
    let s ← genList F fixed (es ++ [e] ++ List.replicate (vs.length - (es.length + 1)) .nil) s
    storeRest lh { s with freereg := s.freereg - (es.length + 1 - vs.length) }

/-- `assignment` if the last expression is a call and there are not as many expressions as variables; otherwise it is that
of `assignment` above -/
def assignMulti (F : FOps) (fixed : Bool) (vs : List Lhs) (as : E) (s : FS) : Res FS := do
  let (s, lh) ← genVars F fixed vs s []
  if as.exps = vs.length then .ub
  else
    let s ← genMulti F fixed as vs.length s
    storeRest lh s

/-! ### what an assignment means -/

variable {W : Type}

/-- what is assigned to, when it is known: the field `k` of the value `t`, for a field -/
inductive Tgt where
  | loc (x : Nat)
  | up (u : Nat)
  | field (t k : Val)

/-- the table and the key of a variable -/
def evalLhs (P : Ops W) (L : Nat → Val) (v : Lhs) (w : W) : Res (Tgt × W) :=
  match v with
  | .loc x => .ok (.loc x, w)
  | .up u => .ok (.up u, w)
  | .index a b => do
    let (t, w) ← eval P L a w
    let (k, w) ← eval P L b w
    return (.field t k, w)

/-- from left to right -/
def evalVars (P : Ops W) (L : Nat → Val) : List Lhs → W → Res (List Tgt × W)
  | [], w => .ok ([], w)
  | v :: vs, w => do
    let (t, w) ← evalLhs P L v w
    let (ts, w) ← evalVars P L vs w
    return (t :: ts, w)

/-- assign a value -/
def put (P : Ops W) (t : Tgt) (v : Val) (L : Nat → Val) (w : W) : Res ((Nat → Val) × W) :=
  match t with
  | .loc x => .ok (fun y => if y = x then v else L y, w)
  | .up u => .ok (L, P.setup u v w)
  | .field t k => do
    let w ← P.setindex t k v w
    return (L, w)

/-- assign values to targets, from right to left -/
def putAll (P : Ops W) : List Tgt → List Val → (Nat → Val) → W → Res ((Nat → Val) × W)
  | t :: ts, v :: vs, L, w => do
    let (L, w) ← putAll P ts vs L w
    put P t v L w
  | _, _, L, w => .ok (L, w)

/-- `n` of the values: those missing are nil -/
def adjust (n : Nat) (vs : List Val) : List Val := (vs ++ List.replicate (n - vs.length) Val.nil).take n

/-- A multiple assignment (reference manual 3.3.3): first all expressions are evaluated, those on the left too, and only
then are the assignments performed. -/
def assign (P : Ops W) (vs : List Lhs) (es : List E) (L : Nat → Val) (w : W) : Res ((Nat → Val) × W) := do
  let (ts, w) ← evalVars P L vs w
  let (xs, w) ← evalList P L es w
  putAll P ts (adjust vs.length xs) L w

/-- the same if the last expression is a call, which gives all its values -/
def assignAll (P : Ops W) (vs : List Lhs) (as : E) (L : Nat → Val) (w : W) : Res ((Nat → Val) × W) := do
  let (ts, w) ← evalVars P L vs w
  let (xs, w) ← evalArgs P L as w
  putAll P ts (adjust vs.length xs) L w

/-- No operation that evaluates an expression or stores a value changes the upvalue `u`, except an assignment to it. -/
structure Stable (P : Ops W) (u : Nat) : Prop where
  bin : ∀ o x y w v w', P.bin o x y w = .ok (v, w') → P.up u w' = P.up u w
  un : ∀ o x w v w', P.un o x w = .ok (v, w') → P.up u w' = P.up u w
  len : ∀ x w v w', P.len x w = .ok (v, w') → P.up u w' = P.up u w
  cat : ∀ x y w v w', P.cat x y w = .ok (v, w') → P.up u w' = P.up u w
  index : ∀ x y w v w', P.index x y w = .ok (v, w') → P.up u w' = P.up u w
  rel : ∀ o x y w b w', P.rel o x y w = .ok (b, w') → P.up u w' = P.up u w
  tnew : ∀ w, P.up u (P.tnew w).2 = P.up u w
  func : ∀ i w, P.up u (P.func i w).2 = P.up u w
  call : ∀ f vs w rs w', P.call f vs w = .ok (rs, w') → P.up u w' = P.up u w
  setindex : ∀ x y z w w', P.setindex x y z w = .ok w' → P.up u w' = P.up u w
  setup : ∀ u' v w, u' ≠ u → P.up u (P.setup u' v w) = P.up u w

end Verif.Assign
