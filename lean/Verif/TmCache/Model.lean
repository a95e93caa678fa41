import Verif.Base

/-!
# The cache of absent metamethods — ltm.c, ltm.h, lvm.c:205-505, lapi.c:967-1200

A table is its raw contents (the tables of C01–C08 behave as such maps), its metatable and the byte `flags`.
The functions that look up metamethods are parameters of the operations, so that the same operations can be
run with and without the cache.
-/
namespace Verif.TmCache

/-- The events with fast access — ltm.h:18-25. -/
inductive Ev
  | index | newindex | gc | mode | len | eq
deriving DecidableEq, Repr

/-- Keys: strings, integers, and all other values. -/
inductive Key
  | str (s : String)
  | int (i : Int)
  | other (n : Nat)
deriving DecidableEq, Repr

/-- `tmname[event]` — ltm.c:38-41. -/
def name : Ev → Key
  | .index => .str "__index"
  | .newindex => .str "__newindex"
  | .gc => .str "__gc"
  | .mode => .str "__mode"
  | .len => .str "__len"
  | .eq => .str "__eq"

/-- Values: nil, tables, typed arrays, full userdata, functions, and values of the other types (by type tag). -/
inductive Val
  | nil
  | tab (id : Nat)
  | arr (id : Nat)
  | udata (id : Nat)
  | fn (n : Nat)
  | basic (ty n : Nat)
deriving DecidableEq, Repr

/-- `Table` — lobject.h:768-780; `flags e` says that the bit `1 << e` is set. -/
structure Tab where
  get : Key → Val
  mt : Option Nat
  flags : Ev → Bool

/-- Tables by identity; the metatables of userdata, of arrays and of the basic types (functions have a tag of
their own, 6). -/
structure State where
  tabs : Nat → Option Tab
  next : Nat
  umt : Nat → Option Nat
  amt : Nat → Option Nat
  bmt : Nat → Option Nat

/-- No table yet. -/
def init : State := ⟨fun _ => none, 0, fun _ => none, fun _ => none, fun _ => none⟩

/-- Access through a pointer to a table. -/
def State.tab (s : State) (h : Nat) : Res Tab := match s.tabs h with | some t => .ok t | none => .ub

/-- Write a table back. -/
def State.put (s : State) (h : Nat) (t : Tab) : State := { s with tabs := fun i => if i = h then some t else s.tabs i }

/-- A lookup of a metamethod in a metatable, or in `NULL`; the state may change. -/
abbrev Lookup := State → Option Nat → Ev → Res (Option Val × State)

/-- `luaT_gettm` — ltm.c:59-67. -/
def gettm (s : State) (m : Nat) (e : Ev) : Res (Option Val × State) := do
  let t ← s.tab m
  if t.get (name e) = .nil then pure (none, s.put m { t with flags := fun f => if f = e then true else t.flags f })
  else pure (some (t.get (name e)), s)

/-- `fasttm` — ltm.h:52-55. -/
def fasttm : Lookup := fun s et e =>
  match et with
  | none => .ok (none, s)
  | some m => do
    let t ← s.tab m
    if t.flags e then pure (none, s) else gettm s m e

/-- The lookup without the cache: what the contents say. -/
def rawtm : Lookup := fun s et e =>
  match et with
  | none => .ok (none, s)
  | some m => do
    let t ← s.tab m
    pure (if t.get (name e) = .nil then none else some (t.get (name e)), s)

/-- `luaT_gettmbyobj` — ltm.c:70-86, without cache; `nil` if there is no metatable. -/
def gettmbyobj (s : State) (v : Val) (e : Ev) : Res Val := do
  let mt ← match v with
    | .tab h => do
      let t ← s.tab h
      pure t.mt
    | .arr a => pure (s.amt a)
    | .udata u => pure (s.umt u)
    | .fn _ => pure (s.bmt 6)
    | .nil => pure (s.bmt 0)
    | .basic ty _ => pure (s.bmt ty)
  match mt with
  | none => pure .nil
  | some m => do
    let t ← s.tab m
    pure (t.get (name e))

/-- What an operation comes to: a value, nothing, a call of a metamethod, an error, or the primitive operation
on a typed array, which is not part of this model. -/
inductive Out
  | val (v : Val)
  | done
  | call (f : Val)
  | error (msg : String)
  | typed
deriving DecidableEq, Repr

/-- `ttisfunction` -/
def Val.isFn : Val → Bool
  | .fn _ => true
  | _ => false

/-- The loop of `luaV_finishget` — lvm.c:210-243; the access `hvalue(t)` to a typed array is undefined. -/
def finishget (tm : Lookup) : Nat → State → Val → Key → Res (Out × State)
  | 0, s, _, _ => .ok (.error "'__index' chain too long; possible loop", s)
  | loop + 1, s, t, k =>
    let go (s : State) (m : Val) : Res (Out × State) :=
      if m.isFn then pure (.call m, s)
      else match m with
        | .tab h => do
          let x ← s.tab h
          if x.get k = .nil then finishget tm loop s m k else pure (.val (x.get k), s)
        | .arr _ => .ub
        | _ => finishget tm loop s m k
    match t with
    | .tab h => do
      let x ← s.tab h
      let (m, s) ← tm s x.mt .index
      match m with
      | none => pure (.val .nil, s)
      | some m => go s m
    | .arr _ => .ub
    | o => do
      let m ← gettmbyobj s o .index
      if m = .nil then pure (.error "index", s) else go s m

/-- `MAXTAGLOOP` — lvm.c:49. -/
def MAXTAGLOOP : Nat := 2000

/-- `luaV_gettable` — lvm.c:293-322, 521-523. -/
def gettable (tm : Lookup) (s : State) (t : Val) (k : Key) : Res (Out × State) :=
  match t with
  | .tab h => do
    let x ← s.tab h
    if x.get k = .nil then finishget tm MAXTAGLOOP s t k else pure (.val (x.get k), s)
  | .arr _ => .ok (.typed, s)
  | _ => finishget tm MAXTAGLOOP s t k

/-- The raw store of a value for a key. -/
def Tab.store (t : Tab) (k : Key) (v : Val) : Tab := { t with get := fun k' => if k' = k then v else t.get k' }

/-- `invalidateTMcache` — ltable.h:27. -/
def Tab.invalidate (t : Tab) : Tab := { t with flags := fun _ => false }

/-- The loop of `luaV_finishset` — lvm.c:254-291. -/
def finishset (tm : Lookup) : Nat → State → Val → Key → Val → Res (Out × State)
  | 0, s, _, _, _ => .ok (.error "'__newindex' chain too long; possible loop", s)
  | loop + 1, s, t, k, v =>
    let go (s : State) (m : Val) : Res (Out × State) :=
      if m.isFn then pure (.call m, s)
      else match m with
        | .tab h => do
          let x ← s.tab h
          if x.get k = .nil then finishset tm loop s m k v else pure (.done, s.put h (x.store k v))
        | .arr _ => .ub
        | _ => finishset tm loop s m k v
    match t with
    | .tab h => do
      let x ← s.tab h
      let (m, s) ← tm s x.mt .newindex
      match m with
      | none => do
        let x ← s.tab h
        pure (.done, s.put h (x.store k v).invalidate)
      | some m => go s m
    | .arr _ => .ub
    | o => do
      let m ← gettmbyobj s o .newindex
      if m = .nil then pure (.error "index", s) else go s m

/-- `luaV_settable` — lvm.c:374-430, 532-534; also `lua_setfield`, `lua_seti` and the opcodes. -/
def settable (tm : Lookup) (s : State) (t : Val) (k : Key) (v : Val) : Res (Out × State) :=
  match t with
  | .tab h => do
    let x ← s.tab h
    if x.get k = .nil then finishset tm MAXTAGLOOP s t k v else pure (.done, s.put h (x.store k v))
  | .arr _ => .ok (.typed, s)
  | _ => finishset tm MAXTAGLOOP s t k v

/-- The operations of a program on tables and metatables. -/
inductive Op
  | new
  | get (t : Val) (k : Key)
  | set (t : Val) (k : Key) (v : Val)
  | rawset (h : Nat) (k : Key) (v : Val)
  | rawseti (h : Nat) (i : Int) (v : Val)
  | rawsetp (h : Nat) (n : Nat) (v : Val)
  | setmt (t : Val) (m : Option Nat)
  | eq (a b : Val)
  | len (h : Nat)
  | mode (et : Option Nat)
  | fin (et : Option Nat)
  | clear (h : Nat) (k : Key)

/-- The metatable of a table or userdata — lvm.c:756, 769. -/
def metaOf (s : State) : Val → Res (Option Nat)
  | .tab h => do
    let t ← s.tab h
    pure t.mt
  | .udata u => .ok (s.umt u)
  | _ => .ok none

/-- One operation:
`luaH_new` (ltable.c:495-504), `luaV_gettable`, `luaV_settable`, `lua_rawset` (lapi.c:1065-1078), `lua_rawseti` (lapi.c:1120-1129),
`lua_rawsetp` (lapi.c:1160-1173), `lua_setmetatable` (lapi.c:1176-1220), `luaV_equalobj` for tables and userdata (lvm.c:753-778),
`luaV_objlen` for tables (lvm.c:857-862), the lookups of `__mode` and `__gc` by the collector (lgc.c:626, 1114), and the
clearing of an entry of a weak table (lgc.c:812, 833-839). -/
def step (tm : Lookup) (s : State) : Op → Res (Out × State)
  | .new => .ok (.val (.tab s.next), { s.put s.next ⟨fun _ => .nil, none, fun _ => true⟩ with next := s.next + 1 })
  | .get t k => gettable tm s t k
  | .set t k v => settable tm s t k v
  | .rawset h k v => do
    let x ← s.tab h
    pure (.done, s.put h (x.store k v).invalidate)
  | .rawseti h i v => do
    let x ← s.tab h
    pure (.done, s.put h (x.store (.int i) v))
  | .rawsetp h n v => do
    let x ← s.tab h
    pure (.done, s.put h (x.store (.other n) v))
  | .setmt t m =>
    match t with
    | .tab h => do
      let x ← s.tab h
      pure (.done, s.put h { x with mt := m })
    | .arr a => .ok (.done, { s with amt := fun i => if i = a then m else s.amt i })
    | .udata u => .ok (.done, { s with umt := fun i => if i = u then m else s.umt i })
    | .fn _ => .ok (.done, { s with bmt := fun i => if i = 6 then m else s.bmt i })
    | .nil => .ok (.done, { s with bmt := fun i => if i = 0 then m else s.bmt i })
    | .basic ty _ => .ok (.done, { s with bmt := fun i => if i = ty then m else s.bmt i })
  | .eq a b => do
    let ma ← metaOf s a
    let (r, s) ← tm s ma .eq
    match r with
    | some f => pure (.call f, s)
    | none => do
      let mb ← metaOf s b
      let (r, s) ← tm s mb .eq
      match r with
      | some f => pure (.call f, s)
      | none => pure (.done, s)
  | .len h => do
    let x ← s.tab h
    let (r, s) ← tm s x.mt .len
    match r with
    | some f => pure (.call f, s)
    | none => pure (.done, s)
  | .mode et => do
    let (r, s) ← tm s et .mode
    pure (.val (r.getD .nil), s)
  | .fin et => do
    let (r, s) ← tm s et .gc
    pure (.val (r.getD .nil), s)
  | .clear h k => do
    let x ← s.tab h
    pure (.done, s.put h (x.store k .nil))

/-- A history: the results in order. -/
def run (tm : Lookup) : State → List Op → Res (List Out × State)
  | s, [] => .ok ([], s)
  | s, op :: ops => do
    let (o, s) ← step tm s op
    let (os, s) ← run tm s ops
    pure (o :: os, s)

end Verif.TmCache
