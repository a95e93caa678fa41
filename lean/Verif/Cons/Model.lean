import Verif.Base
/-!
Table constructors: `constructor` and its parts (`src/lparser.c` 1101-1215), `luaK_setlist` (`src/lcode.c` 1770-1791), and
`OP_SETLIST` (`src/lvm.c` 1960-2029; `raviV_op_setlist`, 2807-2860, which compiled code calls, is the same).

Simplifications:
* The code of an expression is one instruction that puts its value into a register; what it leaves in the registers above is
  arbitrary.  (C74 is about the code of expressions.)  The code of a list item is complete when `closelistfield` is called
  for the next field, before any other code.
* The key and the value of a record field, and the store, are one instruction.
* A new table has no metatable and is not known to any other code before the constructor is finished, so stores are raw.
* Sizes of the new table (`luaO_int2fb`) are left out: they are hints.  So are the write barrier, and the limit of registers.
* `OP_SETLIST` and the `OP_EXTRAARG` after it are one instruction.
-/
namespace Verif.Cons

/-- Values, expressions and what they do, over an arbitrary state `W`: `ev` gives the value of an expression, `evm` the values
of one that ends a list and may have several (a call, or `...`), `key` is the check and normalisation of keys
(`luaH_newkey`, ltable.c 420-436), `idx n` is the integer `n`, `junk` is what expressions leave in other registers. -/
structure World (V X W : Type) where
  nil : V
  idx : Nat → V
  key : V → Res V
  ev : X → W → Res (V × W)
  evm : X → W → Res (List V × W)
  junk : Nat → W → V

/-- a field of a constructor, lparser.c 1164-1184 -/
inductive Field (X : Type) where
  | item (x : X)
  | pair (k v : X)

inductive Instr (X : Type) where
  /-- the value of an expression -/
  | load (r : Nat) (x : X)
  /-- all the values of an expression -/
  | loadm (r : Nat) (x : X)
  /-- the expressions of a record field, with registers from `r` on, and `OP_SETTABLE` -/
  | settable (t r : Nat) (k v : X)
  /-- `OP_SETLIST A B C`, with the argument of the `OP_EXTRAARG` after it, if there is one -/
  | setlist (a b c : Nat) (ext : Option Nat)

/-- `LFIELDS_PER_FLUSH`, lopcodes.h 347 -/
def flush : Nat := 50
/-- `MAXARG_C`, lopcodes.h 54 -/
def maxC : Nat := 0xff
/-- `MAXARG_Ax`, lopcodes.h 56 -/
def maxAx : Nat := 0xffffff

/-- `ConsControl`, lparser.c 1101-1107, with the code and the first free register; `v` is the last list item read -/
structure CC (X : Type) where
  code : List (Instr X)
  freereg : Nat
  v : Option X
  na : Nat
  tostore : Nat

variable {V X W : Type}

/-- `luaK_setlist`, lcode.c 1778-1791; `tostore = none` is `LUA_MULTRET` -/
def setlist (cc : CC X) (base nelems : Nat) (tostore : Option Nat) : Res (CC X) :=
  let c := (nelems - 1) / flush + 1
  let b := tostore.getD 0
  if c ≤ maxC then .ok { cc with code := cc.code ++ [.setlist base b c none], freereg := base + 1 }
  else if c ≤ maxAx then .ok { cc with code := cc.code ++ [.setlist base b 0 (some c)], freereg := base + 1 }
  else .err "constructor too long"

/-- `closelistfield`, lparser.c 1132-1140 -/
def closelistfield (t : Nat) (cc : CC X) : Res (CC X) :=
  match cc.v with
  | none => .ok cc
  | some x =>
    let cc := { cc with code := cc.code ++ [.load cc.freereg x], freereg := cc.freereg + 1, v := none }
    if cc.tostore = flush then do
      let cc ← setlist cc t cc.na (some cc.tostore)
      return { cc with tostore := 0 }
    else .ok cc

/-- `field`, lparser.c 1164-1184: `listfield` (1156-1162) or `recfield` (1110-1129) -/
def field (t : Nat) (cc : CC X) : Field X → CC X
  | .item x => { cc with v := some x, na := cc.na + 1, tostore := cc.tostore + 1 }
  | .pair k v => { cc with code := cc.code ++ [.settable t cc.freereg k v] }

/-- the loop of `constructor`, lparser.c 1202-1207 -/
def fields (t : Nat) : List (Field X) → CC X → Res (CC X)
  | [], cc => .ok cc
  | f :: fs, cc => do
    let cc ← closelistfield t cc
    fields t fs (field t cc f)

/-- `lastlistfield`, lparser.c 1143-1153; `multi` says that the last item is a call or `...` -/
def lastlistfield (t : Nat) (multi : Bool) (cc : CC X) : Res (CC X) :=
  if cc.tostore = 0 then .ok cc
  else
    match cc.v, multi with
    | some x, true => setlist { cc with code := cc.code ++ [.loadm cc.freereg x] } t cc.na none
    | some x, false =>
      setlist { cc with code := cc.code ++ [.load cc.freereg x], freereg := cc.freereg + 1 } t cc.na (some cc.tostore)
    | none, _ => setlist cc t cc.na (some cc.tostore)

/-- `constructor`, lparser.c 1187-1215, after `OP_NEWTABLE` for register `t`; the code -/
def constructor (t : Nat) (fs : List (Field X)) (multi : Bool) : Res (List (Instr X)) := do
  let cc ← fields t fs { code := [], freereg := t + 1, v := none, na := 0, tostore := 0 }
  let cc ← lastlistfield t multi cc
  return cc.code

/-! ### running the code -/

/-- registers, the top after an open call, the new table, and the rest -/
structure St (V W : Type) where
  R : Nat → V
  top : Nat
  T : V → V
  w : W

def put [DecidableEq V] (T : V → V) (k v : V) : V → V := fun x => if x = k then v else T x

/-- the loop of `OP_SETLIST` for tables, lvm.c 1983-1987, from `n` down; `last` is an `unsigned int` -/
def storeList [DecidableEq V] (P : World V X W) (R : Nat → V) (a : Nat) : Nat → Nat → (V → V) → (V → V)
  | 0, _, T => T
  | n + 1, last, T => storeList P R a n ((last + 2 ^ 32 - 1) % 2 ^ 32) (put T (P.idx last) (R (a + (n + 1))))

/-- `n` of `OP_SETLIST`, lvm.c 1961-1972 -/
def listN (a b top : Nat) : Nat := if b = 0 then top - a - 1 else b
/-- `c` of `OP_SETLIST`, lvm.c 1962-1976 -/
def listC (c : Nat) (ext : Option Nat) : Nat := if c = 0 then ext.getD 0 else c
/-- `last` of `OP_SETLIST`, lvm.c 1977 -/
def listLast (c n : Nat) : Nat := ((c - 1) * flush + n) % 2 ^ 32

/-- one instruction -/
def Instr.exec [DecidableEq V] (P : World V X W) (s : St V W) : Instr X → Res (St V W)
  | .load r x => do
    let (v, w) ← P.ev x s.w
    return { s with R := fun i => if i < r then s.R i else if i = r then v else P.junk i w, w := w }
  | .loadm r x => do
    let (vs, w) ← P.evm x s.w
    return { s with R := fun i => if i < r then s.R i else vs.getD (i - r) (P.junk i w), top := r + vs.length, w := w }
  | .settable _ r k v => do
    let (k, w) ← P.ev k s.w
    let (v, w) ← P.ev v w
    let k ← P.key k
    return { s with R := fun i => if i < r then s.R i else P.junk i w, T := put s.T k v, w := w }
  | .setlist a b c ext =>
    let n := listN a b s.top
    .ok { s with T := storeList P s.R a n (listLast (listC c ext) n) s.T }

def run [DecidableEq V] (P : World V X W) : List (Instr X) → St V W → Res (St V W)
  | [], s => .ok s
  | i :: l, s => do
    let s ← i.exec P s
    run P l s

/-! ### typed arrays -/

/-- registers, the top after an open call, the elements of the new array from index 1 on, and the rest -/
structure StA (V W : Type) where
  R : Nat → V
  top : Nat
  A : List V
  w : W

/-- `raviH_set_int` and `raviH_set_float` with index `u`, ltable.c 837-880 and ltable.h 187-206, for `u` above zero -/
def aset (A : List V) (u : Nat) (v : V) : Res (List V) :=
  if u = 0 then .ub
  else if u ≤ A.length then .ok (A.set (u - 1) v)
  else if u = A.length + 1 then .ok (A ++ [v])
  else .err "array out of bounds"

/-- the loop of `OP_SETLIST` for arrays, lvm.c 1991-2024, with `n` rounds left; `conv` is the conversion of a value to the
type of the elements -/
def storeArr (conv : V → Res V) (R : Nat → V) (a : Nat) : Nat → Nat → List V → Res (List V)
  | 0, _, A => .ok A
  | n + 1, i, A => do
    let v ← conv (R (a + i))
    let A ← aset A i v
    storeArr conv R a n (i + 1) A

/-- one instruction, if the new object is an array; record fields store into the array with an index that is an integer,
and are left out -/
def Instr.execA (P : World V X W) (conv : V → Res V) (s : StA V W) : Instr X → Res (StA V W)
  | .load r x => do
    let (v, w) ← P.ev x s.w
    return { s with R := fun i => if i < r then s.R i else if i = r then v else P.junk i w, w := w }
  | .loadm r x => do
    let (vs, w) ← P.evm x s.w
    return { s with R := fun i => if i < r then s.R i else vs.getD (i - r) (P.junk i w), top := r + vs.length, w := w }
  | .settable .. => .ub
  | .setlist a b c ext => do
    let n := listN a b s.top
    let A ← storeArr conv s.R a n (listLast (listC c ext) n - n + 1) s.A
    return { s with A := A }

def runA (P : World V X W) (conv : V → Res V) : List (Instr X) → StA V W → Res (StA V W)
  | [], s => .ok s
  | i :: l, s => do
    let s ← i.execA P conv s
    runA P conv l s

/-! ### the meaning of constructors -/

/-- the values of the items, and the keys and values of the record fields, evaluated from left to right -/
def values (P : World V X W) (multi : Bool) : List (Field X) → W → Res ((List V × List (V × V)) × W)
  | [], w => .ok (([], []), w)
  | .pair k v :: fs, w => do
    let (k, w) ← P.ev k w
    let (v, w) ← P.ev v w
    let k ← P.key k
    let ((vs, rs), w) ← values P multi fs w
    return ((vs, (k, v) :: rs), w)
  | [.item x], w =>
    if multi then do
      let (vs, w) ← P.evm x w
      return ((vs, []), w)
    else do
      let (v, w) ← P.ev x w
      return (([v], []), w)
  | .item x :: fs, w => do
    let (v, w) ← P.ev x w
    let ((vs, rs), w) ← values P multi fs w
    return ((v :: vs, rs), w)

/-- the value of the last of the record fields with key `k`, or nil -/
def lastOf [DecidableEq V] (nil : V) (rs : List (V × V)) (k : V) : V :=
  ((rs.reverse.find? fun p => p.1 = k).map (·.2)).getD nil

/-- `T` has the values `us` at the integers from 1 on and otherwise the record fields `rs`; if a record field has one of
these integers as its key, either of the two values may be there -/
def Content [DecidableEq V] (P : World V X W) (T : V → V) (us : List V) (rs : List (V × V)) : Prop :=
  ∀ k, (∃ i v, us[i]? = some v ∧ k = P.idx (i + 1) ∧ T k = v) ∨
    (T k = lastOf P.nil rs k ∧ (k ∈ rs.map (·.1) ∨ ∀ i, i < us.length → k ≠ P.idx (i + 1)))

/-- number of list items -/
def items (fs : List (Field X)) : Nat := fs.countP fun | .item _ => true | .pair .. => false

/-- the conversion of all values, in order -/
def convAll (conv : V → Res V) : List V → Res (List V)
  | [] => .ok []
  | v :: vs => do
    let v ← conv v
    let vs ← convAll conv vs
    return v :: vs

end Verif.Cons
