import Verif.Base

/-!
# The incremental collector — lgc.c, lgc.h, and the stores with write barriers in lapi.c, lvm.c, ltable.c, lfunc.c, lstring.c

Objects are kept in a partial map from addresses; an address whose object was freed has no object, and may be used again. Reading
an object that does not exist, and an assertion of the collector that fails, set `bad`. Numbers that only decide *when* the collector
runs (debts, pauses, work units) are left out: a collector step may happen between any two operations of the program.
Generational mode is left out. Upvalues are counted objects (`Verif.Upval`); here they are never freed.
-/
namespace Verif.GC

/-- Address of a collectable object (`GCObject *`, lobject.h:110-120). -/
abbrev Id := Nat

/-- Types of collectable objects (`o->tt` in `reallymarkobject`, lgc.c:379-422); `arr` is a typed array or a slice of one. -/
inductive Kind
  | str | udata | arr | lcl | ccl | table | thread | proto
deriving DecidableEq, Repr

/-- The colour bits of `marked` — lgc.h:71-96. There are two whites. -/
inductive Color
  | white (b : Bool) | gray | black
deriving DecidableEq, Repr

/-- The age bits of `marked` that occur in incremental mode — lgc.h:113-120. `old` stands for `G_OLD`, the age of fixed objects. -/
inductive Age
  | new | old0 | old | touched1
deriving DecidableEq, Repr

/-- A value: nil, something else that is not collectable, or an object — `TValue`, lobject.h. -/
inductive Val
  | nil | prim | ref (i : Id)
deriving DecidableEq, Repr

/-- The key of a table node: not collectable, an object, or a dead key (an address that is only compared) — `TKey`, lobject.h; lgc.c:168-180. -/
inductive Key
  | prim | ref (i : Id) | dead (i : Id)
deriving DecidableEq, Repr

/-- A node of the hash part of a table — `Node`, lobject.h. -/
structure Node where
  key : Key
  val : Val
deriving DecidableEq, Repr

/-- What the collector sees of an object, for all types. Fields that a type does not have are empty.

* `mt`: metatable (tables, userdata, arrays)
* `vals`: array part of a table; stack of a thread, `top` slots of which are in use; upvalues of a C closure; constants, names and
  inner functions of a prototype; prototype of a Lua closure; user value of a userdata; parent of a slice
* `nodes`: hash part of a table
* `ups`: upvalues of a Lua closure; open upvalues of a thread
* `wk`, `wv`: whether the field `__mode` of the table says weak keys, weak values
* `cache`: last closure created from a prototype -/
structure Obj where
  kind : Kind
  mt : Option Id := none
  vals : List Val := []
  top : Nat := 0
  nodes : List Node := []
  ups : List Nat := []
  wk : Bool := false
  wv : Bool := false
  cache : Option Id := none
deriving DecidableEq, Repr

/-- An upvalue — `UpVal`, lfunc.h:27-45: open (in a slot of a thread, with the flag `touched`) or closed. -/
inductive UpVal
  | opn (th : Id) (slot : Nat) (touched : Bool)
  | closed (v : Val)
deriving DecidableEq, Repr

/-- `gcstate` — lgc.h:31-39. -/
inductive Phase
  | propagate | enteratomic | atomic | swpallgc | swpfinobj | swptobefnz | swpend | callfin | pause
deriving DecidableEq, Repr

/-- `g->sweepgc`, a pointer to a `next` field: NULL, the head of the list being swept, or the field of an object in it. -/
inductive Ptr
  | null | head | after (i : Id)
deriving DecidableEq, Repr

/-- The state — `global_State`, lstate.h. `running` is the thread the collector is called with; `strcache` the entries of the string
cache. `oof`: the bound on the depth of the recursion was too small (such runs are not considered). -/
structure G where
  obj : Id → Option Obj
  col : Id → Color
  age : Id → Age
  fin : Id → Bool
  up : Nat → UpVal
  phase : Phase
  white : Bool
  allgc : List Id
  finobj : List Id
  tobefnz : List Id
  fixedgc : List Id
  sweepgc : Ptr
  gray : List Id
  grayagain : List Id
  weak : List Id
  allweak : List Id
  ephemeron : List Id
  twups : List Id
  main : Id
  running : Id
  registry : Val
  mts : List Val
  strcache : List Id
  bad : Bool
  oof : Bool

/-- `iswhite` — lgc.h:85. -/
def Color.isWhite : Color → Bool
  | .white _ => true
  | _ => false

namespace G

/-- `iswhite(o)` — lgc.h:85. -/
def isWhite (s : G) (i : Id) : Bool := (s.col i).isWhite
/-- `isdead(g,o)` — lgc.h:92-94: it has the other white. -/
def isDead (s : G) (i : Id) : Bool := s.col i = .white (!s.white)
/-- `isold(o)` — lgc.h:126. -/
def isOld (s : G) (i : Id) : Bool := s.age i ≠ .new
/-- `keepinvariant(g)` — lgc.h:55. -/
def keepinvariant (s : G) : Bool := s.phase = .propagate || s.phase = .enteratomic || s.phase = .atomic
/-- `issweepphase(g)` — lgc.h:42-43. -/
def issweepphase (s : G) : Bool :=
  s.phase = .swpallgc || s.phase = .swpfinobj || s.phase = .swptobefnz || s.phase = .swpend

/-- Undefined behaviour or a failed assertion. -/
def fail (s : G) : G := { s with bad := true }
/-- Change the colour bits of an object (`set2black`, `set2gray`, `makewhite` — lgc.c:70-83). -/
def setCol (s : G) (i : Id) (c : Color) : G := { s with col := fun j => if j = i then c else s.col j }
/-- `setage` — lgc.h:125. -/
def setAge (s : G) (i : Id) (a : Age) : G := { s with age := fun j => if j = i then a else s.age j }
/-- Change the contents of an object. -/
def setObj (s : G) (i : Id) (o : Option Obj) : G := { s with obj := fun j => if j = i then o else s.obj j }
/-- Change the bit `FINALIZEDBIT`. -/
def setFin (s : G) (i : Id) (b : Bool) : G := { s with fin := fun j => if j = i then b else s.fin j }
/-- Change an upvalue. -/
def setUp (s : G) (u : Nat) (x : UpVal) : G := { s with up := fun w => if w = u then x else s.up w }

/-- `*uv->v`: the value of an upvalue. -/
def upGet (s : G) (u : Nat) : Val :=
  match s.up u with
  | .closed v => v
  | .opn th slot _ =>
    match s.obj th with
    | some o => o.vals.getD slot .nil
    | none => .nil

end G

/-- The lists of gray objects — lgc.h:22-27. -/
inductive GList
  | gray | grayagain | weak | allweak | ephemeron
deriving DecidableEq, Repr

/-- `linkgclist_` — lgc.c:145-150: the object must not be in a list. -/
def link (s : G) (l : GList) (i : Id) : G :=
  if s.col i = .gray then s.fail
  else
    let s := s.setCol i .gray
    match l with
    | .gray => { s with gray := i :: s.gray }
    | .grayagain => { s with grayagain := i :: s.grayagain }
    | .weak => { s with weak := i :: s.weak }
    | .allweak => { s with allweak := i :: s.allweak }
    | .ephemeron => { s with ephemeron := i :: s.ephemeron }

/-- `nw2black` — lgc.h:97-98. -/
def nw2black (s : G) (i : Id) : G := if s.isWhite i then s.fail else s.setCol i .black

/-! ## Marking -/

/-- Continue with a list of values, of which the white ones are marked. -/
def foldMark (mark : G → Id → G) : List Val → G → G
  | [], s => s
  | .ref i :: vs, s => foldMark mark vs (mark s i)
  | _ :: vs, s => foldMark mark vs s

mutual
/-- `reallymarkobject` — lgc.c:377-423. `goto reentry` is a recursive call; `n` bounds the depth. -/
def reallymark : Nat → G → Id → G
  | 0, s, _ => { s with oof := true }
  | n + 1, s, i =>
    match s.obj i with
    | none => s.fail
    | some o =>
      match o.kind with
      | .str => s.setCol i .black
      | .udata | .arr =>
        let s := match o.mt with
          | none => s
          | some m => markobject n s m
        let s := s.setCol i .black
        foldMark (markobject n) o.vals s
      | _ => link s .gray i

/-- `markobject` — lgc.c:104. Looking at the colour of an object that does not exist is undefined. -/
def markobject : Nat → G → Id → G
  | 0, s, _ => { s with oof := true }
  | n + 1, s, i =>
    match s.obj i with
    | none => s.fail
    | some _ => if s.isWhite i then reallymark n s i else s
end

/-- `markvalue` — lgc.c:98-99. -/
def markvalue (n : Nat) (s : G) (v : Val) : G := foldMark (markobject n) [v] s

/-- `markobjectN` — lgc.c:109. -/
def markobjectN (n : Nat) (s : G) : Option Id → G
  | none => s
  | some i => markobject n s i

/-- `markmt` — lgc.c:428-432. -/
def markmt (n : Nat) (s : G) : G := foldMark (markobject n) s.mts s

/-- `markbeingfnz` — lgc.c:438-446. -/
def markbeingfnz (n : Nat) (s : G) : G := foldMark (markobject n) (s.tobefnz.map .ref) s

/-- The loop over the open upvalues of a thread in `remarkupvals` — lgc.c:470-476. -/
def remarkUps (n : Nat) : List Nat → G → G
  | [], s => s
  | u :: us, s =>
    match s.up u with
    | .opn th slot true => remarkUps n us ((markvalue n s (s.upGet u)).setUp u (.opn th slot false))
    | _ => remarkUps n us s

/-- The loop over the threads in `remarkupvals` — lgc.c:456-479. The result has the threads that stay in the list. -/
def remarkThreads (n : Nat) : List Id → G → List Id × G
  | [], s => ([], s)
  | th :: ths, s =>
    match s.obj th with
    | none => ([], s.fail)
    | some o =>
      if !s.isWhite th && o.ups ≠ [] then
        let (l, s) := remarkThreads n ths s
        (th :: l, s)
      else remarkThreads n ths (remarkUps n o.ups s)

/-- `remarkupvals` — lgc.c:455-481. -/
def remarkupvals (n : Nat) (s : G) : G :=
  let (l, s) := remarkThreads n s.twups s
  { s with twups := l }

/-- `cleargraylists` — lgc.c:484-487. -/
def cleargraylists (s : G) : G := { s with gray := [], grayagain := [], weak := [], allweak := [], ephemeron := [] }

/-- `restartcollection` — lgc.c:493-499. -/
def restartcollection (n : Nat) (s : G) : G :=
  let s := cleargraylists s
  let s := markobject n s s.main
  let s := markvalue n s s.registry
  let s := markmt n s
  markbeingfnz n s

/-! ## Traversing -/

/-- `genlink` — lgc.c:517-523 (there is no `G_TOUCHED2` in incremental mode). -/
def genlink (s : G) (i : Id) : G := if s.age i = .touched1 then link s .grayagain i else s

/-- `removeentry` — lgc.c:177-181. -/
def removeentry (n : Node) : Node :=
  match n.key with
  | .ref i => { n with key := .dead i }
  | _ => n

/-- `if (ttisnil(gval(n))) removeentry(n)` -/
def removeIfNil (n : Node) : Node := if n.val = .nil then removeentry n else n

/-- `iscleared` — lgc.c:192-199. -/
def iscleared (n : Nat) (s : G) (i : Id) : Bool × G :=
  match s.obj i with
  | none => (false, s.fail)
  | some o => if o.kind = .str then (false, markobject n s i) else (s.isWhite i, s)

/-- `iscleared(g, gcvalueN(v))`. -/
def isclearedV (n : Nat) (s : G) : Val → Bool × G
  | .ref i => iscleared n s i
  | _ => (false, s)

/-- `iscleared(g, gcvalueN(key))`: a dead key is not collectable. -/
def isclearedK (n : Nat) (s : G) : Key → Bool × G
  | .ref i => iscleared n s i
  | _ => (false, s)

/-- `markvalue(g, gkey(n))`. -/
def markkey (n : Nat) (s : G) : Key → G
  | .ref i => markobject n s i
  | _ => s

/-- The loop of `traverseweakvalue` — lgc.c:540-551; the change of the nodes is done by the caller. -/
def weakLoop (n : Nat) : List Node → Bool → G → Bool × G
  | [], hc, s => (hc, s)
  | x :: xs, hc, s =>
    if x.val = .nil then weakLoop n xs hc s
    else
      let s := markkey n s x.key
      if hc then weakLoop n xs hc s
      else
        let (c, s) := isclearedV n s x.val
        weakLoop n xs c s

/-- Apply `removeIfNil` to all nodes of a table. The loops of the traversals do this node by node while they mark; neither depends on
the other. -/
def cleanNodes (s : G) (h : Id) (o : Obj) : G := s.setObj h (some { o with nodes := o.nodes.map removeIfNil })

/-- `traverseweakvalue` — lgc.c:534-556. -/
def traverseweakvalue (n : Nat) (s : G) (h : Id) (o : Obj) : G :=
  let s := cleanNodes s h o
  let (hc, s) := weakLoop n o.nodes (!o.vals.isEmpty) s
  if s.phase = .atomic && hc then link s .weak h else link s .grayagain h

/-- `if (valiswhite(v)) { marked = 1; reallymarkobject(g, gcvalue(v)); }` — lgc.c:579-582, 594-597. -/
def markW (n : Nat) (s : G) : Val → Bool × G
  | .ref i =>
    match s.obj i with
    | none => (false, s.fail)
    | some _ => if s.isWhite i then (true, reallymark n s i) else (false, s)
  | _ => (false, s)

/-- The loop over the array part in `traverseephemeron` — lgc.c:578-583. -/
def ephArray (n : Nat) : List Val → Bool → G → Bool × G
  | [], m, s => (m, s)
  | v :: vs, m, s =>
    let (w, s) := markW n s v
    ephArray n vs (m || w) s

/-- `valiswhite` — lgc.c:86. -/
def valiswhite (s : G) : Val → Bool × G
  | .ref i =>
    match s.obj i with
    | none => (false, s.fail)
    | some _ => (s.isWhite i, s)
  | _ => (false, s)

/-- `marked`, `hasclears`, `hasww` of `traverseephemeron`. -/
structure Eph where
  marked : Bool
  hasclears : Bool
  hasww : Bool

/-- The loop over the hash part in `traverseephemeron` — lgc.c:585-598. -/
def ephNodes (n : Nat) : List Node → Eph → G → Eph × G
  | [], e, s => (e, s)
  | x :: xs, e, s =>
    if x.val = .nil then ephNodes n xs e s
    else
      let (c, s) := isclearedK n s x.key
      if c then
        let (w, s) := valiswhite s x.val
        ephNodes n xs { e with hasclears := true, hasww := e.hasww || w } s
      else
        let (w, s) := markW n s x.val
        ephNodes n xs { e with marked := e.marked || w } s

/-- `traverseephemeron` — lgc.c:570-609. -/
def traverseephemeron (n : Nat) (s : G) (h : Id) (o : Obj) : Bool × G :=
  let s := cleanNodes s h o
  let (m, s) := ephArray n o.vals false s
  let (e, s) := ephNodes n o.nodes ⟨m, false, false⟩ s
  (e.marked,
    if s.phase = .propagate then link s .grayagain h
    else if e.hasww then link s .ephemeron h
    else if e.hasclears then link s .allweak h
    else genlink s h)

/-- The loop over the hash part in `traversestrongtable` — lgc.c:617-625. -/
def strongNodes (n : Nat) : List Node → G → G
  | [], s => s
  | x :: xs, s =>
    if x.val = .nil then strongNodes n xs s
    else strongNodes n xs (markvalue n (markkey n s x.key) x.val)

/-- `traversestrongtable` — lgc.c:612-627. -/
def traversestrongtable (n : Nat) (s : G) (h : Id) (o : Obj) : G :=
  let s := cleanNodes s h o
  let s := foldMark (markobject n) o.vals s
  let s := strongNodes n o.nodes s
  genlink s h

/-- The mode of a table: what `__mode` of its metatable says — lgc.c:632-637. -/
def modeOf (s : G) (o : Obj) : Bool × Bool :=
  match o.mt with
  | none => (false, false)
  | some m =>
    match s.obj m with
    | none => (false, false)
    | some t => (t.wk, t.wv)

/-- `traversetable` — lgc.c:630-650. -/
def traversetable (n : Nat) (s : G) (h : Id) (o : Obj) : G :=
  let mode := modeOf s o
  let s := markobjectN n s o.mt
  match mode with
  | (false, true) => traverseweakvalue n s h o
  | (true, false) => (traverseephemeron n s h o).2
  | (true, true) => link s .allweak h
  | (false, false) => traversestrongtable n s h o

/-- `if (f->cache && iswhite(f->cache)) f->cache = NULL` — lgc.c:661-662. -/
def clearCache (s : G) (i : Id) (o : Obj) : G :=
  match o.cache with
  | none => s
  | some c =>
    match s.obj c with
    | none => s.fail
    | some _ => if s.isWhite c then s.setObj i (some { o with cache := none }) else s

/-- `traverseproto` — lgc.c:659-679. -/
def traverseproto (n : Nat) (s : G) (i : Id) (o : Obj) : G := foldMark (markobject n) o.vals (clearCache s i o)

/-- The loop over the upvalues of a closure — lgc.c:699-707. -/
def lclUps (n : Nat) : List Nat → G → G
  | [], s => s
  | u :: us, s =>
    match s.up u with
    | .opn th slot _ =>
      if s.phase ≠ .atomic then lclUps n us (s.setUp u (.opn th slot true))
      else lclUps n us (markvalue n s (s.upGet u))
    | .closed v => lclUps n us (markvalue n s v)

/-- `traverseLclosure` — lgc.c:696-709. -/
def traverseLclosure (n : Nat) (s : G) (o : Obj) : G := lclUps n o.ups (foldMark (markobject n) o.vals s)

/-- The loop over the open upvalues of a thread — lgc.c:735-736. -/
def markUps (n : Nat) : List Nat → G → G
  | [], s => s
  | u :: us, s => markUps n us (markvalue n s (s.upGet u))

/-- The end of `traversethread` in the atomic phase — lgc.c:737-748. `luaD_shrinkstack` (`Verif.Stack`) removes some of the slots
that are cleared here. -/
def clearStack (s : G) (i : Id) (o : Obj) : G :=
  let s := s.setObj i (some { o with vals := o.vals.take o.top ++ List.replicate (o.vals.length - o.top) .nil })
  if i ∉ s.twups ∧ o.ups ≠ [] then { s with twups := i :: s.twups } else s

/-- `traversethread` — lgc.c:724-750. -/
def traversethread (n : Nat) (s : G) (i : Id) (o : Obj) : G :=
  let s := if s.isOld i || s.phase = .propagate then link s .grayagain i else s
  let s := foldMark (markobject n) (o.vals.take o.top) s
  let s := markUps n o.ups s
  if s.phase = .atomic then clearStack s i o else s

/-- The switch of `propagatemark` — lgc.c:760-767. -/
def traverse (n : Nat) (s : G) (i : Id) : G :=
  match s.obj i with
  | none => s.fail
  | some o =>
    match o.kind with
    | .table => traversetable n s i o
    | .lcl => traverseLclosure n s o
    | .ccl => foldMark (markobject n) o.vals s
    | .proto => traverseproto n s i o
    | .thread => traversethread n s i o
    | _ => s.fail

/-- `propagatemark` — lgc.c:756-768. -/
def propagatemark (n : Nat) (s : G) : G :=
  match s.gray with
  | [] => s.fail
  | i :: rest => traverse n { nw2black s i with gray := rest } i

/-- `propagateall` — lgc.c:771-776. -/
def propagateall (n : Nat) : Nat → G → G
  | 0, s => { s with oof := true }
  | k + 1, s => if s.gray = [] then s else propagateall n k (propagatemark n s)

/-- The inner loop of `convergeephemerons` — lgc.c:793-801. -/
def convPass (n : Nat) : List Id → Bool → G → Bool × G
  | [], c, s => (c, s)
  | h :: hs, c, s =>
    match s.obj h with
    | none => (c, s.fail)
    | some o =>
      let (m, s) := traverseephemeron n (nw2black s h) h o
      if m then convPass n hs true (propagateall n n s) else convPass n hs c s

/-- `convergeephemerons` — lgc.c:785-805. -/
def converge (n : Nat) : Nat → G → G
  | 0, s => { s with oof := true }
  | k + 1, s =>
    let (c, s) := convPass n s.ephemeron false { s with ephemeron := [] }
    if c then converge n k s else s

/-! ## The atomic phase -/

/-- The loop over the nodes in `clearbykeys` — lgc.c:824-830. -/
def keysLoop (n : Nat) : List Node → G → List Node × G
  | [], s => ([], s)
  | x :: xs, s =>
    let (c, s) := if x.val = .nil then (false, s) else isclearedK n s x.key
    let (l, s) := keysLoop n xs s
    (removeIfNil { x with val := if c then .nil else x.val } :: l, s)

/-- `clearbykeys` — lgc.c:820-832. -/
def clearbykeys (n : Nat) : List Id → G → G
  | [], s => s
  | h :: hs, s =>
    match s.obj h with
    | none => s.fail
    | some o =>
      let (l, s) := keysLoop n o.nodes s
      clearbykeys n hs (s.setObj h (some { o with nodes := l }))

/-- The loop over the array part in `clearbyvalues` — lgc.c:844-848. -/
def valsLoop (n : Nat) : List Val → G → List Val × G
  | [], s => ([], s)
  | v :: vs, s =>
    let (c, s) := isclearedV n s v
    let (l, s) := valsLoop n vs s
    ((if c then .nil else v) :: l, s)

/-- The loop over the nodes in `clearbyvalues` — lgc.c:849-854. -/
def nvalsLoop (n : Nat) : List Node → G → List Node × G
  | [], s => ([], s)
  | x :: xs, s =>
    let (c, s) := isclearedV n s x.val
    let (l, s) := nvalsLoop n xs s
    (removeIfNil { x with val := if c then .nil else x.val } :: l, s)

/-- `clearbyvalues` — lgc.c:839-856, for the tables of the list before the element `f`. -/
def clearbyvalues (n : Nat) : List Id → G → G
  | [], s => s
  | h :: hs, s =>
    match s.obj h with
    | none => s.fail
    | some o =>
      let (vs, s) := valsLoop n o.vals s
      let (l, s) := nvalsLoop n o.nodes s
      clearbyvalues n hs (s.setObj h (some { o with vals := vs, nodes := l }))

/-- `separatetobefnz(g, 0)` — lgc.c:1066-1086. -/
def separatetobefnz (s : G) : G :=
  { s with finobj := s.finobj.filter fun i => !s.isWhite i, tobefnz := s.tobefnz ++ s.finobj.filter fun i => s.isWhite i }

/-- `luaS_clearcache` — lstring.c:103-110: a white entry is replaced with a fixed string. -/
def clearcache (s : G) : G := { s with strcache := s.strcache.filter fun i => !s.isWhite i }

/-- The first half of `atomic` — lgc.c:1615-1636: up to "all strongly accessible objects are marked". -/
def atomicMark (n : Nat) (s : G) : G :=
  let ga := s.grayagain
  let s := { s with grayagain := [], phase := .atomic }
  let s := markobject n s s.running
  let s := markvalue n s s.registry
  let s := markmt n s
  let s := propagateall n n s
  let s := remarkupvals n s
  let s := propagateall n n s
  let s := { s with gray := ga }
  let s := propagateall n n s
  converge n n s

/-- The second half of `atomic` — lgc.c:1637-1657, up to the flip of the white. -/
def atomicClear (n : Nat) (s : G) : G :=
  let s := clearbyvalues n s.weak s
  let s := clearbyvalues n s.allweak s
  let ow := s.weak.length
  let oa := s.allweak.length
  let s := separatetobefnz s
  let s := markbeingfnz n s
  let s := propagateall n n s
  let s := converge n n s
  let s := clearbykeys n s.ephemeron s
  let s := clearbykeys n s.allweak s
  let s := clearbyvalues n (s.weak.take (s.weak.length - ow)) s
  let s := clearbyvalues n (s.allweak.take (s.allweak.length - oa)) s
  clearcache s

/-- `atomic` — lgc.c:1615-1659. -/
def atomic (n : Nat) (s : G) : G :=
  let s := atomicClear n (atomicMark n s)
  { s with white := !s.white }

/-! ## Sweeping -/

/-- `luaF_close(L1, L1->stack, NOCLOSINGMETH)` when a thread is freed — lstate.c:311-322, lfunc.c:159-178. Barriers do nothing while
the collector sweeps. -/
def closeAll : List Nat → G → G
  | [], s => s
  | u :: us, s => closeAll us (s.setUp u (.closed (s.upGet u)))

/-- `freeobj` — lgc.c:877-911. -/
def freeobj (s : G) (i : Id) (o : Obj) : G :=
  let s := if o.kind = .thread then closeAll o.ups s else s
  s.setObj i none

/-- The body of the loop of `sweeplist` — lgc.c:923-934; the result says whether the object stays. -/
def sweepOne (s : G) (i : Id) : Bool × G :=
  match s.obj i with
  | none => (false, s.fail)
  | some o => if s.isDead i then (false, freeobj s i o) else (true, (s.setCol i (.white s.white)).setAge i .new)

/-- `sweeplist` — lgc.c:916-939: `pre` are the objects before the pointer, `post` those after it. -/
def sweeplist : Nat → List Id → List Id → G → List Id × List Id × G
  | 0, pre, post, s => (pre, post, s)
  | _ + 1, pre, [], s => (pre, [], s)
  | n + 1, pre, c :: post, s =>
    let (keep, s) := sweepOne s c
    sweeplist n (if keep then pre ++ [c] else pre) post s

/-- `sweeptolive` — lgc.c:945-951: sweep one by one until an object stays or the list ends. -/
def sweeptolive : List Id → List Id → G → List Id × List Id × G
  | pre, [], s => (pre, [], s)
  | pre, c :: post, s =>
    let (keep, s) := sweepOne s c
    if keep then (pre ++ [c], post, s) else sweeptolive pre post s

/-- The pointer between `pre` and `post`: NULL at the end of the list. -/
def mkPtr (pre post : List Id) : Ptr :=
  if post = [] then .null
  else match pre.getLast? with
    | none => .head
    | some i => .after i

/-- The list before and after a pointer. -/
def split : Ptr → List Id → List Id × List Id
  | .null, l => (l, [])
  | .head, l => ([], l)
  | .after _, [] => ([], [])
  | .after i, c :: l =>
    if c = i then ([c], l)
    else
      let (a, b) := split (.after i) l
      (c :: a, b)

/-- The list being swept in a phase. -/
def curList (s : G) : List Id :=
  match s.phase with
  | .swpallgc => s.allgc
  | .swpfinobj => s.finobj
  | _ => s.tobefnz

/-- Replace the list being swept. -/
def setCurList (s : G) (l : List Id) : G :=
  match s.phase with
  | .swpallgc => { s with allgc := l }
  | .swpfinobj => { s with finobj := l }
  | _ => { s with tobefnz := l }

/-- `entersweep` — lgc.c:1572-1577. -/
def entersweep (s : G) : G :=
  let (pre, post, s) := sweeptolive [] s.allgc { s with phase := .swpallgc }
  { s with allgc := pre ++ post, sweepgc := mkPtr pre post }

/-- `sweepstep` — lgc.c:1662-1676, with `GCSWEEPMAX` = 100 (lgc.c:32). -/
def sweepstep (s : G) (next : Phase) (nextlist : Ptr) : G :=
  if s.sweepgc = .null then { s with phase := next, sweepgc := nextlist }
  else
    let (pre, post) := split s.sweepgc (curList s)
    let (pre, post, s) := sweeplist 100 pre post s
    { setCurList s (pre ++ post) with sweepgc := mkPtr pre post }

/-- `singlestep` — lgc.c:1679-1738. In the phase `callfin` finalizers are called by `finalize`; the step itself can only end the
cycle, which it does in an emergency or if there are no more finalizers. -/
def singlestep (n : Nat) (s : G) : G :=
  match s.phase with
  | .pause => { restartcollection n s with phase := .propagate }
  | .propagate => if s.gray = [] then { s with phase := .enteratomic } else propagatemark n s
  | .enteratomic => entersweep (atomic n s)
  | .atomic => s.fail
  | .swpallgc => sweepstep s .swpfinobj .head
  | .swpfinobj => sweepstep s .swptobefnz .head
  | .swptobefnz => sweepstep s .swpend .null
  | .swpend => { s with phase := .callfin }
  | .callfin => { s with phase := .pause }

/-! ## The program -/

/-- `luaC_barrier_` — lgc.c:275-292. -/
def barrierF (n : Nat) (s : G) (i : Id) (v : Id) : G :=
  if s.isDead v || s.isDead i then s.fail
  else if s.keepinvariant then
    let s := reallymark n s v
    if s.isOld i then s.setAge v .old0 else s
  else if s.issweepphase then s.setCol i (.white s.white)
  else s.fail

/-- `luaC_barrier`, `luaC_objbarrier` — lgc.h:175-177, 183-185. -/
def barrier (n : Nat) (s : G) (i : Id) : Val → G
  | .ref v =>
    match s.obj v with
    | none => s.fail
    | some _ => if s.col i = .black && s.isWhite v then barrierF n s i v else s
  | _ => s

/-- `luaC_barrierback` — lgc.h:179-181, lgc.c:317-327. -/
def barrierback (s : G) (i : Id) : Val → G
  | .ref v =>
    match s.obj v with
    | none => s.fail
    | some _ =>
      if s.col i = .black && s.isWhite v then
        let s := link s .grayagain i
        if s.isOld i then s.setAge i .touched1 else s
      else s
  | _ => s

/-- `luaC_upvalbarrier` for a closed upvalue — lgc.h:187-189, lgc.c:300-308. -/
def upvalbarrier (n : Nat) (s : G) : Val → G
  | .ref v =>
    if s.keepinvariant then
      let s := markobject n s v
      if s.isOld v then s else s.setAge v .old0
    else s
  | _ => s

/-- `luaC_checkfinalizer` for an object with a finalizer — lgc.c:1113-1139. -/
def checkfinalizer (s : G) (i : Id) : G :=
  if s.fin i then s
  else
    let s :=
      if s.issweepphase then
        let s := s.setCol i (.white s.white)
        if s.sweepgc = .after i then
          let (pre, post) := split s.sweepgc s.allgc
          let (pre, post, s) := sweeptolive pre post s
          { s with allgc := pre ++ post, sweepgc := mkPtr pre post }
        else s
      else s
    if i ∈ s.allgc then
      { s with allgc := s.allgc.erase i, finobj := i :: s.finobj }.setFin i true
    else s.fail

/-- Push a value on the stack of the running thread. -/
def push (s : G) (v : Val) : G :=
  match s.obj s.running with
  | none => s.fail
  | some o => s.setObj s.running (some { o with vals := o.vals.take o.top ++ v :: o.vals.drop (o.top + 1), top := o.top + 1 })

/-- `udata2finalize` and the first part of `GCTM` — lgc.c:974-988, 999-1014: the object goes back to `allgc` and is pushed on the stack for
the finalizer, which is then run by the program. This happens in the phase `callfin`, or `pause` if the finalizer before needed an
emergency collection. -/
def finalize (s : G) : G :=
  match s.tobefnz with
  | [] => s
  | i :: rest =>
    if !s.fin i then s.fail
    else
      let s := { s with tobefnz := rest, allgc := i :: s.allgc }.setFin i false
      push s (.ref i)

/-- Change an object that must exist. -/
def modify (s : G) (i : Id) (f : Obj → Obj) : G :=
  match s.obj i with
  | none => s.fail
  | some o => s.setObj i (some (f o))

/-- The body of the loop of `luaF_close` — lfunc.c:162-176: the upvalue leaves the list of open upvalues and gets its own value. -/
def closeUp (n : Nat) (th : Id) (u : Nat) (s : G) : G :=
  let v := s.upGet u
  upvalbarrier n ((modify s th fun o => { o with ups := o.ups.erase u }).setUp u (.closed v)) v

/-- `luaF_close` — lfunc.c:159-178: the upvalues `us` of a thread at or above the level are closed. -/
def closeUps (n : Nat) (th : Id) (level : Nat) : List Nat → G → G
  | [], s => s
  | u :: us, s =>
    match s.up u with
    | .opn _ slot _ => closeUps n th level us (if level ≤ slot then closeUp n th u s else s)
    | .closed _ => closeUps n th level us s

/-- Operations of the program. -/
inductive Op
  /-- create an object of kind `k` at the address `i` and push it — `luaC_newobj`, lgc.c:345-354; lua_newthread, lstate.c:280-308 -/
  | new (k : Kind) (i : Id)
  /-- write a slot of a stack: no barrier -/
  | setstack (th : Id) (slot : Nat) (v : Val)
  /-- move the top of a stack -/
  | settop (th : Id) (top : Nat)
  /-- `luaD_growstack`: `k` new slots -/
  | growstack (th : Id) (k : Nat)
  /-- write the array part of a table — lvm.c:269, 389, 1986, lapi.c:1077, 1129 -/
  | setarr (t : Id) (j : Nat) (v : Val)
  /-- write the value of a node — the same places -/
  | setnode (t : Id) (j : Nat) (v : Val)
  /-- put a key into a free node — `luaH_newkey`, ltable.c:616-617 -/
  | newkey (t : Id) (j : Nat) (k : Key)
  /-- move entries around: `luaH_resize`, and the colliding node in `luaH_newkey` -/
  | rehash (t : Id) (vals : List Val) (nodes : List Node)
  /-- change `__mode` of a table (the value itself is a string, stored like other fields) -/
  | setmode (t : Id) (wk wv : Bool)
  /-- `lua_setmetatable` — lapi.c:1176-1221; `gc`: the metatable has a field `__gc` -/
  | setmt (i : Id) (m : Option Id) (gc : Bool)
  /-- a field of a userdata, C closure, Lua closure or prototype — lapi.c:235, 1235, 1643, lcode.c:462, lparser.c:414, 549, 955 -/
  | setfield (i : Id) (j : Nat) (v : Val)
  /-- one more field, for an object that is being built — the same places -/
  | addfield (i : Id) (v : Val)
  /-- `luaF_findupval` when there is no upvalue for the slot — lfunc.c:85-98 -/
  | capture (th : Id) (slot : Nat) (u : Nat)
  /-- store an upvalue into a new closure — lvm.c:989-997: no barrier -/
  | addup (i : Id) (u : Nat)
  /-- a new closed upvalue for a new closure — `luaF_initupvals`, lfunc.c:52-62 -/
  | initup (i : Id) (u : Nat)
  /-- write an upvalue of a closure — lvm.c:1446, lapi.c:1644 -/
  | setup (i : Id) (u : Nat) (v : Val)
  /-- `luaF_close` — lfunc.c:155-178 -/
  | close (th : Id) (level : Nat)
  /-- `lua_upvaluejoin` — lapi.c:1682-1695 -/
  | join (i : Id) (j : Nat) (u : Nat)
  /-- `p->cache = ncl` if `p` is not black — lvm.c:998-999 -/
  | setcache (p : Id) (c : Id)
  /-- a string that is still in the string table: `internshrstr`, lstring.c:163-171, which resurrects it if it is dead -/
  | intern (i : Id)
  /-- `luaS_new` puts a string into the cache — lstring.c:224-228 -/
  | addstr (i : Id)
  /-- change the registry, the metatables of basic types, the running thread -/
  | setreg (v : Val)
  | setmts (vs : List Val)
  | resume (th : Id)

/-- A new thread, `isintwups` false, or another new object: all fields empty. -/
def newObj (s : G) (k : Kind) (i : Id) : G :=
  { ((((s.setObj i (some { kind := k })).setCol i (.white s.white)).setAge i .new).setFin i false) with allgc := i :: s.allgc }

/-- Value stored as a key. -/
def Key.toVal : Key → Val
  | .ref i => .ref i
  | _ => .prim

/-- What an operation does. -/
def exec (n : Nat) (s : G) : Op → G
  | .new k i => push (newObj s k i) (.ref i)
  | .setstack th slot v => modify s th fun o => { o with vals := o.vals.set slot v }
  | .settop th top => modify s th fun o => { o with top := top }
  | .growstack th k => modify s th fun o => { o with vals := o.vals ++ List.replicate k .nil }
  | .setarr t j v => barrierback (modify s t fun o => { o with vals := o.vals.set j v }) t v
  | .setnode t j v => barrierback (modify s t fun o => { o with nodes := o.nodes.modify j fun x => { x with val := v } }) t v
  | .newkey t j k =>
    barrierback (modify s t fun o => { o with nodes := o.nodes.modify j fun x => { x with key := k } }) t k.toVal
  | .rehash t vals nodes => modify s t fun o => { o with vals := vals, nodes := nodes }
  | .setmode t wk wv => modify s t fun o => { o with wk := wk, wv := wv }
  | .setmt i m gc =>
    let s := modify s i fun o => { o with mt := m }
    match m with
    | none => s
    | some m =>
      let s := barrier n s i (.ref m)
      if gc then checkfinalizer s i else s
  | .setfield i j v => barrier n (modify s i fun o => { o with vals := o.vals.set j v }) i v
  | .addfield i v => barrier n (modify s i fun o => { o with vals := o.vals ++ [v] }) i v
  | .capture th slot u =>
    let s := (modify s th fun o => { o with ups := u :: o.ups }).setUp u (.opn th slot true)
    if th ∈ s.twups then s else { s with twups := th :: s.twups }
  | .addup i u => modify s i fun o => { o with ups := o.ups ++ [u] }
  | .initup i u => (modify s i fun o => { o with ups := o.ups ++ [u] }).setUp u (.closed .nil)
  | .setup _ u v =>
    match s.up u with
    | .opn th slot _ => modify s th fun o => { o with vals := o.vals.set slot v }
    | .closed _ => upvalbarrier n (s.setUp u (.closed v)) v
  | .close th level =>
    match s.obj th with
    | none => s.fail
    | some o =>
      closeUps n th level o.ups s
  | .join i j u =>
    let s := modify s i fun o => { o with ups := o.ups.set j u }
    match s.up u with
    | .opn th slot _ => s.setUp u (.opn th slot true)
    | .closed v => upvalbarrier n s v
  | .setcache p c => if s.col p = .black then s else modify s p fun o => { o with cache := some c }
  | .intern i => push (if s.isDead i then s.setCol i (.white s.white) else s) (.ref i)
  | .addstr i => { s with strcache := i :: s.strcache }
  | .setreg v => { s with registry := v }
  | .setmts vs => { s with mts := vs }
  | .resume th => { s with running := th }

end Verif.GC
