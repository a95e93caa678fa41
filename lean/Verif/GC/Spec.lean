import Verif.GC.Model

/-!
# What a program can reach, what it may do, and runs of program and collector
-/
namespace Verif.GC

/-- `o` has a reference to `r`: a strong or a weak one, also in stack slots above the top. -/
inductive Ref (s : G) (o : Obj) : Id → Prop
  | mt {r} : o.mt = some r → Ref s o r
  | val {r} : Val.ref r ∈ o.vals → Ref s o r
  | key {x r} : x ∈ o.nodes → x.key = .ref r → Ref s o r
  | nval {x r} : x ∈ o.nodes → x.val = .ref r → Ref s o r
  | up {u r} : u ∈ o.ups → s.upGet u = .ref r → Ref s o r
  | cache {r} : o.cache = some r → Ref s o r

/-- The roots of a program: its threads, the registry, the metatables of basic types, the string cache, fixed strings. -/
inductive Root (s : G) : Id → Prop
  | main : Root s s.main
  | running : Root s s.running
  | registry {r} : s.registry = .ref r → Root s r
  | mts {r} : Val.ref r ∈ s.mts → Root s r
  | strcache {r} : r ∈ s.strcache → Root s r
  | fixed {r} : r ∈ s.fixedgc → Root s r

/-- The objects a program can get at: also through weak tables. -/
inductive Acc (s : G) : Id → Prop
  | root {r} : Root s r → Acc s r
  | step {i o r} : Acc s i → s.obj i = some o → Ref s o r → Acc s r

/-- A value a program can get at. -/
def AccV (s : G) (v : Val) : Prop := ∀ r, v = .ref r → Acc s r

/-- An object of some kind that a program can get at. -/
def AccK (s : G) (i : Id) (k : Kind) : Prop := Acc s i ∧ ∃ o, s.obj i = some o ∧ o.kind = k

/-- An upvalue address that is not in use. -/
def FreshUp (s : G) (u : Nat) : Prop := (∀ i o, s.obj i = some o → u ∉ o.ups) ∧ ∀ th slot t, s.up u ≠ .opn th slot t

/-- The operations a program can do in a state: the operands are objects it can get at, of the right types. -/
def Valid (s : G) : Op → Prop
  | .new _ i => s.obj i = none
  | .setstack th _ v => AccK s th .thread ∧ AccV s v
  | .settop th top => Acc s th ∧ ∃ o, s.obj th = some o ∧ o.kind = .thread ∧ top ≤ o.vals.length
  | .growstack th _ => AccK s th .thread
  | .setarr t _ v => AccK s t .table ∧ AccV s v
  | .setnode t j v => Acc s t ∧ AccV s v ∧ ∃ o, s.obj t = some o ∧ o.kind = .table ∧
      ∀ x, o.nodes[j]? = some x → v = .nil ∨ ∀ d, x.key ≠ .dead d
  | .newkey t j k => Acc s t ∧ AccV s k.toVal ∧ (∀ d, k ≠ .dead d) ∧ ∃ o, s.obj t = some o ∧ o.kind = .table ∧
      ∀ x, o.nodes[j]? = some x → x.val = .nil
  | .rehash t vals nodes => Acc s t ∧ ∃ o, s.obj t = some o ∧ o.kind = .table ∧
      (∀ r, .ref r ∈ vals ∨ (∃ x ∈ nodes, x.val = .ref r) → .ref r ∈ o.vals ∨ ∃ x ∈ o.nodes, x.val = .ref r) ∧
      (∀ x ∈ nodes, ∀ r, x.key = .ref r → ∃ y ∈ o.nodes, y.key = .ref r)
  | .setmode t _ _ => AccK s t .table
  | .setmt i m _ => Acc s i ∧ (∃ o, s.obj i = some o ∧ (o.kind = .table ∨ o.kind = .udata ∨ o.kind = .arr)) ∧
      ∀ m', m = some m' → AccK s m' .table
  | .setfield i _ v | .addfield i v => Acc s i ∧ AccV s v ∧
      ∃ o, s.obj i = some o ∧ (o.kind = .udata ∨ o.kind = .arr ∨ o.kind = .ccl ∨ o.kind = .lcl ∨ o.kind = .proto)
  | .capture th slot u => FreshUp s u ∧ Acc s th ∧ ∃ o, s.obj th = some o ∧ o.kind = .thread ∧ slot < o.vals.length
  | .addup i u => AccK s i .lcl ∧ s.isWhite i = true ∧
      ∃ c oc, Acc s c ∧ s.obj c = some oc ∧ u ∈ oc.ups
  | .initup i u => AccK s i .lcl ∧ FreshUp s u
  | .setup i u v => Acc s i ∧ AccV s v ∧ ∃ o, s.obj i = some o ∧ o.kind = .lcl ∧ u ∈ o.ups
  | .close th _ => AccK s th .thread
  | .join i _ u => AccK s i .lcl ∧ ∃ c oc, Acc s c ∧ s.obj c = some oc ∧ oc.kind = .lcl ∧ u ∈ oc.ups
  | .setcache p c => AccK s p .proto ∧ Acc s c
  | .intern i => ∃ o, s.obj i = some o ∧ o.kind = .str
  | .addstr i => AccK s i .str
  | .setreg v => AccV s v
  | .setmts vs => ∀ v ∈ vs, AccV s v
  | .resume th => AccK s th .thread

/-- The one store the barriers miss: a new metatable for a table whose keys and values are weak, after the collector has visited it.
See `weak_metatable_freed`. -/
def Missed (s : G) : Op → Prop
  | .setmt i (some _) _ => s.keepinvariant = true ∧ i ∈ s.allweak
  | _ => False

/-- A step of the program or of the collector. `n` bounds the recursion of the collector; only runs for which it is enough are
considered, and any bound may be chosen for any step. -/
inductive Step : G → G → Prop
  | op {s} (n : Nat) (a : Op) : Valid s a → ¬ Missed s a → (exec n s a).oof = false → Step s (exec n s a)
  | gc {s} (n : Nat) : (singlestep n s).oof = false → Step s (singlestep n s)
  /-- a full collection during a cycle — `fullinc`, lgc.c:1818-1819 -/
  | sweep {s} : s.keepinvariant = true → Step s (entersweep s)
  /-- a full collection does not wait for the propagation — lgc.c:1823 -/
  | hurry {s} : s.phase = .propagate → Step s { s with phase := .enteratomic }
  /-- a finalizer is called -/
  | finalizer {s} : s.phase = .callfin ∨ s.phase = .pause → Step s (finalize s)

/-- A new state — `lua_newstate`, lstate.c:363-420: the main thread and fixed strings. -/
structure Init (s : G) : Prop where
  allgc : s.allgc = [s.main]
  finobj : s.finobj = []
  tobefnz : s.tobefnz = []
  nodup : (s.main :: s.fixedgc).Nodup
  mainObj : ∃ k, s.obj s.main = some { kind := .thread, vals := List.replicate k .nil }
  fixedObj : ∀ i ∈ s.fixedgc, s.obj i = some { kind := .str } ∧ s.col i = .gray
  others : ∀ i, i ≠ s.main → i ∉ s.fixedgc → s.obj i = none
  mainCol : s.col s.main = .white s.white
  fin : s.fin s.main = false
  up : ∀ u th slot t, s.up u ≠ .opn th slot t
  phase : s.phase = .pause
  sweepgc : s.sweepgc = .null
  twups : s.twups = []
  running : s.running = s.main
  registry : s.registry = .nil
  mts : s.mts = []
  strcache : s.strcache = []
  bad : s.bad = false
  oof : s.oof = false

/-- The states a program and the collector can get to. -/
inductive Reachable : G → Prop
  | init {s} : Init s → Reachable s
  | step {s s'} : Reachable s → Step s s' → Reachable s'

end Verif.GC
