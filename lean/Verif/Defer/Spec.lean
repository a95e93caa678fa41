import Verif.Defer.Model

/-!
# What deferred functions should do

There is no stack here. Executing a statement gives, with the way it ends, the functions that it has deferred and that are still to be called, the latest
first. Scopes call them when they are left normally, loops when they are left by `break`, functions when they return, and protected calls after an error.
-/
namespace Verif.Defer

/-- Deferred functions that are still to be called, the latest first. -/
abbrev Pend := List (Nat × S)

/-- Conditions evaluated, functions deferred, what has been seen. -/
structure X where
  tick : Nat
  next : Nat
  tr : List Ev
deriving DecidableEq, Repr

def X.see (x : X) (e : Ev) : X := { x with tr := x.tr ++ [e] }

def X.tock (x : X) : X := { x with tick := x.tick + 1 }

/-- What is executed: a statement; the body of a function; deferred functions, in order, (`runN`) when a scope is left without error, (`runP v`) because of the error `v`, (`runW`) when a dead
coroutine is closed. -/
inductive Job
  | st (s : S)
  | fn (b : S)
  | runN (ds : Pend)
  | runP (v : Nat) (ds : Pend)
  | runW (ds : Pend)

/-- How it ends: for a statement the way it ends and what is to be called; otherwise `none` or an error and what is to be called. -/
inductive Rs
  | out (o : Outc) (ds : Pend)
  | fin (r : Option (Nat × Pend))

/-- The end of a scope that is left in the way `o`, after its deferred functions were called with the result `r`. -/
def after (o : Outc) : Option (Nat × Pend) → Rs
  | none => .out o []
  | some (v, p) => .out (.err v) p

/-- Execution. -/
inductive Sem (W : Nat → Bool) (F : Nat → S) : Job → X → Rs → X → Prop
  | skip {x} : Sem W F (.st .skip) x (.out .norm []) x
  | seq {a b x x₁ x₂ da o db} : Sem W F (.st a) x (.out .norm da) x₁ → Sem W F (.st b) x₁ (.out o db) x₂ → Sem W F (.st (.seq a b)) x (.out o (db ++ da)) x₂
  | seqStop {a b x x₁ o d} : o ≠ .norm → Sem W F (.st a) x (.out o d) x₁ → Sem W F (.st (.seq a b)) x (.out o d) x₁
  | emit {k x} : Sem W F (.st (.emit k)) x (.out .norm []) (x.see (.emit k))
  | local_ {x} : Sem W F (.st .local_) x (.out .norm []) x
  | capture {k x} : Sem W F (.st (.capture k)) x (.out .norm []) x
  | defer {b x} : Sem W F (.st (.defer b)) x (.out .norm [(x.next, b)]) { x with next := x.next + 1, tr := x.tr ++ [.reg x.next] }
  /-- The end of a block calls the functions deferred in it. -/
  | block {b x x₁ x₂ ds r} : Sem W F (.st b) x (.out .norm ds) x₁ → Sem W F (.runN ds) x₁ (.fin r) x₂ → Sem W F (.st (.block b)) x (after .norm r) x₂
  | blockStop {b x x₁ o ds} : o ≠ .norm → Sem W F (.st b) x (.out o ds) x₁ → Sem W F (.st (.block b)) x (.out o ds) x₁
  | ite {a b x R x₁} : Sem W F (.st (.block (if W x.tick then a else b))) x.tock R x₁ → Sem W F (.st (.ite a b)) x R x₁
  | whileEnd {b x} : W x.tick = false → Sem W F (.st (.while_ b)) x (.out .norm []) x.tock
  | whileNext {b x x₁ R x₂} : W x.tick = true → Sem W F (.st (.block b)) x.tock (.out .norm []) x₁ → Sem W F (.st (.while_ b)) x₁ R x₂ → Sem W F (.st (.while_ b)) x R x₂
  /-- So does `break` with all functions deferred since the loop was entered. -/
  | whileBrk {b x x₁ ds r x₂} : W x.tick = true → Sem W F (.st (.block b)) x.tock (.out .brk ds) x₁ → Sem W F (.runN ds) x₁ (.fin r) x₂ →
      Sem W F (.st (.while_ b)) x (after .norm r) x₂
  | whileStop {b x x₁ o ds} : W x.tick = true → o ≠ .norm → o ≠ .brk → Sem W F (.st (.block b)) x.tock (.out o ds) x₁ → Sem W F (.st (.while_ b)) x (.out o ds) x₁
  | repeatEnd {b x x₁ ds r x₂} : Sem W F (.st b) x (.out .norm ds) x₁ → Sem W F (.runN ds) x₁.tock (.fin r) x₂ → (r = none → W x₁.tick = false) →
      Sem W F (.st (.repeat_ b)) x (after .norm r) x₂
  | repeatNext {b x x₁ ds x₂ R x₃} : Sem W F (.st b) x (.out .norm ds) x₁ → Sem W F (.runN ds) x₁.tock (.fin none) x₂ → W x₁.tick = true →
      Sem W F (.st (.repeat_ b)) x₂ R x₃ → Sem W F (.st (.repeat_ b)) x R x₃
  | repeatBrk {b x x₁ ds r x₂} : Sem W F (.st b) x (.out .brk ds) x₁ → Sem W F (.runN ds) x₁ (.fin r) x₂ → Sem W F (.st (.repeat_ b)) x (after .norm r) x₂
  | repeatStop {b x x₁ o ds} : o ≠ .norm → o ≠ .brk → Sem W F (.st b) x (.out o ds) x₁ → Sem W F (.st (.repeat_ b)) x (.out o ds) x₁
  | brk {x} : Sem W F (.st .brk) x (.out .brk []) x
  | ret {x} : Sem W F (.st .ret) x (.out .ret []) x
  | tail {f x r x₁} : Sem W F (.fn (F f)) x (.fin r) x₁ → Sem W F (.st (.tail f)) x (after .ret r) x₁
  | call {f x r x₁} : Sem W F (.fn (F f)) x (.fin r) x₁ → Sem W F (.st (.call f)) x (after .norm r) x₁
  | pcall {f x x₁} : Sem W F (.fn (F f)) x (.fin none) x₁ → Sem W F (.st (.pcall f)) x (.out .norm []) x₁
  /-- A protected call calls, after an error, the functions deferred in it. -/
  | pcallErr {f x v p x₁ x₂} : Sem W F (.fn (F f)) x (.fin (some (v, p))) x₁ → Sem W F (.runP v p) x₁ (.fin none) x₂ → Sem W F (.st (.pcall f)) x (.out .norm []) (x₂.see (.caught v))
  | resume {f x x₁} : Sem W F (.fn (F f)) x (.fin none) x₁ → Sem W F (.st (.resume f)) x (.out .norm []) x₁
  /-- `coroutine.resume` never calls them: they are lost. -/
  | resumeErr {f x v p x₁} : Sem W F (.fn (F f)) x (.fin (some (v, p))) x₁ → Sem W F (.st (.resume f)) x (.out .norm []) (x₁.see (.died v))
  | wrap {f x x₁} : Sem W F (.fn (F f)) x (.fin none) x₁ → Sem W F (.st (.wrap f)) x (.out .norm []) x₁
  | wrapErr {f x v p x₁ x₂} : Sem W F (.fn (F f)) x (.fin (some (v, p))) x₁ → Sem W F (.runW p) x₁ (.fin none) x₂ → Sem W F (.st (.wrap f)) x (.out (.err v) []) x₂
  | error {v x} : Sem W F (.st (.error v)) x (.out (.err v) []) x
  | grow {x} : Sem W F (.st .grow) x (.out .norm []) x
  /-- A function calls them before it returns. -/
  | fn {b x o ds x₁ r x₂} : o = .norm ∨ o = .ret → Sem W F (.st b) x (.out o ds) x₁ → Sem W F (.runN ds) x₁ (.fin r) x₂ → Sem W F (.fn b) x (.fin r) x₂
  | fnErr {b x v ds x₁} : Sem W F (.st b) x (.out (.err v) ds) x₁ → Sem W F (.fn b) x (.fin (some (v, ds))) x₁
  | runNil {x} : Sem W F (.runN []) x (.fin none) x
  | runOk {i b ds x x₁ r x₂} : Sem W F (.fn b) (x.see (.run i none)) (.fin none) x₁ → Sem W F (.runN ds) x₁ (.fin r) x₂ → Sem W F (.runN ((i, b) :: ds)) x (.fin r) x₂
  /-- When a deferred function fails, the others are called because of that error. -/
  | runErr {i b ds x v p x₁} : Sem W F (.fn b) (x.see (.run i none)) (.fin (some (v, p))) x₁ → Sem W F (.runN ((i, b) :: ds)) x (.fin (some (v, p ++ ds))) x₁
  | protNil {v x} : Sem W F (.runP v []) x (.fin none) x
  | protOk {v i b ds x x₁ x₂} : Sem W F (.fn b) (x.see (.run i (some v))) (.fin none) x₁ → Sem W F (.runP v ds) x₁ (.fin none) x₂ → Sem W F (.runP v ((i, b) :: ds)) x (.fin none) x₂
  /-- When one fails that was called because of an error, its own deferred functions get its error, the others the first one. -/
  | protErr {v i b ds x w p x₁ x₂ x₃} : Sem W F (.fn b) (x.see (.run i (some v))) (.fin (some (w, p))) x₁ → Sem W F (.runP w p) x₁ (.fin none) x₂ → Sem W F (.runP v ds) x₂ (.fin none) x₃ →
      Sem W F (.runP v ((i, b) :: ds)) x (.fin none) x₃
  | wrapNil {x} : Sem W F (.runW []) x (.fin none) x
  | wrapOk {i b ds x x₁ x₂} : Sem W F (.fn b) (x.see (.run i none)) (.fin none) x₁ → Sem W F (.runW ds) x₁ (.fin none) x₂ → Sem W F (.runW ((i, b) :: ds)) x (.fin none) x₂
  | wrapFail {i b ds x w p x₁ x₂ x₃} : Sem W F (.fn b) (x.see (.run i none)) (.fin (some (w, p))) x₁ → Sem W F (.runP w p) x₁ (.fin none) x₂ → Sem W F (.runP w ds) x₂ (.fin none) x₃ →
      Sem W F (.runW ((i, b) :: ds)) x (.fin none) x₃

end Verif.Defer
