import Verif.Base
/-!
Access to `t[k]` with the metamethods `__index` and `__newindex`: `luaV_finishget`, `luaV_finishset` (`src/lvm.c` 206-290), the
dispatch of `GETTABLE_INLINE`, `GETTABLE_INLINE_SSKEY`, `SETTABLE_INLINE` (`src/lvm.c` 293-435), `luaV_fastget` (`src/lvm.h` 83-87),
`luaT_gettmbyobj` (`src/ltm.c` 70-87), `OP_SELF` (`src/lvm.c` 1499-1510) and `auxgetstr` (`src/lapi.c` 637-652).

Simplifications:
* A table is what raw access shows of it: a function from keys to slots (`Verif.Table` models the table itself).  The cache of
  absent metamethods is left out (`Verif.TmCache` shows that it is invisible).
* What a typed array does when it is indexed is a parameter (`Verif.RArray` models it).
* A call of a handler is the outcome of the access; the collector's barriers are left out.
-/
namespace Verif.Meta

/-- what `ttype` says of a value (`src/lobject.h` 707-714): a table, a typed array (variants of `LUA_TTABLE`), a function, other -/
inductive Kind (T A : Type) where
  | tbl (t : T)
  | arr (a : A)
  | fn
  | other
  deriving DecidableEq

/-- How an access ends: done, a call of a handler, `luaG_typeerror` for a value, the error "chain too long", another error, or the
use of a typed array as if it were a table (`ub`). -/
inductive Out (V X : Type) where
  | done (x : X)
  | call (f : V) (args : List V)
  | typeerr (v : V)
  | toolong
  | err (m : String)
  | ub

/-- The fixed part: kinds of values, the value nil, the keys of the two events, the key under which a table stores (2.0 is stored as
2, `luaH_get`, `src/ltable.c`), the error of `luaH_newkey` for a key (nil or NaN), and what typed arrays do. -/
structure Sys (V T A C : Type) where
  kind : V → Kind T A
  nil : V
  index : V
  newindex : V
  norm : V → V
  keyerr : V → Option String
  arrGet : C → V → Out V V
  arrSet : C → V → V → Out V C

/-- The heap: the slots of tables (`none` if there is no entry, `luaO_nilobject`), metatables of tables, typed arrays and other values
(userdata, or by type), contents of typed arrays. -/
structure Heap (V T A C : Type) where
  slot : T → V → Option V
  mt : T → Option T
  mtArr : A → Option T
  mtVal : V → Option T
  arr : A → C

section
variable {V T A C : Type} [DecidableEq V] [DecidableEq T] [DecidableEq A]

/-- `MAXTAGLOOP`, `src/lvm.c` 49 -/
def maxTagLoop : Nat := 2000

/-- `luaH_get`, as a value -/
def Heap.get (S : Sys V T A C) (H : Heap V T A C) (t : T) (k : V) : V :=
  (H.slot t (S.norm k)).getD S.nil

/-- `fasttm` of a metatable, `src/ltm.h` 52-55 -/
def fasttm (S : Sys V T A C) (H : Heap V T A C) (mt : Option T) (e : V) : Option V :=
  match mt with
  | none => none
  | some m => if H.get S m e = S.nil then none else some (H.get S m e)

/-- `luaT_gettmbyobj`, `src/ltm.c` 70-87 -/
def gettmbyobj (S : Sys V T A C) (H : Heap V T A C) (v e : V) : V :=
  let mt := match S.kind v with
    | .arr a => H.mtArr a
    | .tbl t => H.mt t
    | _ => H.mtVal v
  match mt with
  | none => S.nil
  | some m => H.get S m e

/-- What `luaV_fastget` leaves in `slot` (`src/lvm.h` 83-87): `none` is NULL; the table and its slot otherwise.  The test `ttistable` is
true of typed arrays too (`src/lobject.h` 710), and `hvalue` then takes the array for a table: `ub`. -/
def fastget (S : Sys V T A C) (H : Heap V T A C) (t k : V) : Res (Option (T × Option V)) :=
  match S.kind t with
  | .tbl h => .ok (some (h, H.slot h (S.norm k)))
  | .arr _ => .ub
  | _ => .ok none

/-- `luaV_finishget`, `src/lvm.c` 211-244; `n` is what is left of `MAXTAGLOOP`; `slot` is NULL or the table of `t` -/
def finishget (S : Sys V T A C) (H : Heap V T A C) (k : V) : Nat → V → Option T → Out V V
  | 0, _, _ => .toolong
  | n + 1, t, slot =>
    let go (tm : V) : Out V V :=
      if S.kind tm = .fn then .call tm [t, k]
      else match fastget S H tm k with
        | .ok none => finishget S H k n tm none
        | .ok (some (h, s)) =>
          if s.getD S.nil ≠ S.nil then .done (s.getD S.nil) else finishget S H k n tm (some h)
        | .err m => .err m
        | .ub => .ub
    match slot with
    | none =>
      let tm := gettmbyobj S H t S.index
      if tm = S.nil then .typeerr t else go tm
    | some h =>
      match fasttm S H (H.mt h) S.index with
      | none => .done S.nil
      | some tm => go tm

/-- `luaV_gettable`, `GETTABLE_INLINE`, `src/lvm.c` 293-322, 521-523 -/
def gettable (S : Sys V T A C) (H : Heap V T A C) (t k : V) : Out V V :=
  match S.kind t with
  | .tbl h =>
    if H.get S h k ≠ S.nil then .done (H.get S h k) else finishget S H k maxTagLoop t (some h)
  | .arr a => S.arrGet (H.arr a) k
  | _ => finishget S H k maxTagLoop t none

/-- `raviV_gettable_sskey`, `GETTABLE_INLINE_SSKEY`, `src/lvm.c` 357-369: the key is a short string -/
def gettableS (S : Sys V T A C) (H : Heap V T A C) (t k : V) : Out V V :=
  match S.kind t with
  | .tbl h =>
    if H.get S h k ≠ S.nil then .done (H.get S h k) else finishget S H k maxTagLoop t (some h)
  | .arr _ => .typeerr t
  | _ => finishget S H k maxTagLoop t none

/-- The access in `OP_SELF` with a key that is not a short string (`src/lvm.c` 1505-1508), and `lua_getfield` (`auxgetstr`, `src/lapi.c`
637-652, 671-674): `luaV_fastget`, then `luaV_finishget`. -/
def getself (S : Sys V T A C) (H : Heap V T A C) (t k : V) : Out V V :=
  match fastget S H t k with
  | .ok none => finishget S H k maxTagLoop t none
  | .ok (some (h, s)) =>
    if s.getD S.nil ≠ S.nil then .done (s.getD S.nil) else finishget S H k maxTagLoop t (some h)
  | .err m => .err m
  | .ub => .ub

/-- `setobj2t` into the slot of a key -/
def Heap.put (S : Sys V T A C) (H : Heap V T A C) (t : T) (k v : V) : Heap V T A C :=
  { H with slot := fun t' k' => if t' = t ∧ k' = S.norm k then some v else H.slot t' k' }

/-- `luaV_finishset`, `src/lvm.c` 254-290; `slot` is NULL or the table of `t` and the slot of `k` -/
def finishset (S : Sys V T A C) (H : Heap V T A C) (k v : V) : Nat → V → Option (T × Option V) → Out V (Heap V T A C)
  | 0, _, _ => .toolong
  | n + 1, t, slot =>
    let go (tm : V) : Out V (Heap V T A C) :=
      if S.kind tm = .fn then .call tm [t, k, v]
      else match fastget S H tm k with
        | .ok none => finishset S H k v n tm none
        | .ok (some (h, s)) =>
          if s.getD S.nil ≠ S.nil then .done (H.put S h k v) else finishset S H k v n tm (some (h, s))
        | .err m => .err m
        | .ub => .ub
    match slot with
    | some (h, s) =>
      match fasttm S H (H.mt h) S.newindex with
      | none =>
        match s with
        | none =>
          match S.keyerr k with
          | some m => .err m
          | none => .done (H.put S h k v)
        | some _ => .done (H.put S h k v)
      | some tm => go tm
    | none =>
      let tm := gettmbyobj S H t S.newindex
      if tm = S.nil then .typeerr t else go tm

/-- `luaV_settable`, `SETTABLE_INLINE`, `src/lvm.c` 374-430, 532-534 -/
def settable (S : Sys V T A C) (H : Heap V T A C) (t k v : V) : Out V (Heap V T A C) :=
  match S.kind t with
  | .tbl h =>
    if H.get S h k ≠ S.nil then .done (H.put S h k v)
    else finishset S H k v maxTagLoop t (some (h, H.slot h (S.norm k)))
  | .arr a =>
    match S.arrSet (H.arr a) k v with
    | .done c => .done { H with arr := fun a' => if a' = a then c else H.arr a' }
    | .call f as => .call f as
    | .typeerr x => .typeerr x
    | .toolong => .toolong
    | .err m => .err m
    | .ub => .ub
  | _ => finishset S H k v maxTagLoop t none

end
end Verif.Meta
