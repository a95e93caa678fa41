/-!
Shared outcome type.

C code can return a value, raise a Lua error (`luaG_runerror`, `luaL_error`, …: a `longjmp`
that never returns to the caller) or run into undefined behaviour of C.  Undefined behaviour is
a separate outcome of the model so that "never undefined" is something theorems have to prove.
-/
namespace Verif

/-- Outcome of running a piece of C code. -/
inductive Res (α : Type) where
  /-- normal return -/
  | ok (a : α)
  /-- a Lua error was raised (message abbreviated) -/
  | err (msg : String)
  /-- the C standard gives the execution no meaning -/
  | ub
deriving Repr, DecidableEq

namespace Res

def bind {α β : Type} (x : Res α) (f : α → Res β) : Res β :=
  match x with
  | ok a => f a
  | err m => err m
  | ub => ub

instance : Monad Res where
  pure := ok
  bind := bind

def map' {α β : Type} (f : α → β) (x : Res α) : Res β := x.bind (fun a => ok (f a))

/-- "did not run into undefined behaviour" -/
def Defined {α : Type} : Res α → Prop
  | ub => False
  | _ => True

instance {α : Type} (r : Res α) : Decidable r.Defined := by
  cases r <;> simp only [Defined] <;> infer_instance

@[simp] theorem bind_ok {α β : Type} (a : α) (f : α → Res β) : (Res.ok a >>= f) = f a := rfl
@[simp] theorem bind_err {α β : Type} (m : String) (f : α → Res β) :
    ((Res.err m : Res α) >>= f) = Res.err m := rfl
@[simp] theorem bind_ub {α β : Type} (f : α → Res β) : ((Res.ub : Res α) >>= f) = Res.ub := rfl
@[simp] theorem pure_eq {α : Type} (a : α) : (pure a : Res α) = Res.ok a := rfl

/-- a sequence of two steps succeeds iff both do -/
theorem bind_eq_ok {α β : Type} {x : Res α} {f : α → Res β} {y : β} :
    (x >>= f) = .ok y ↔ ∃ a, x = .ok a ∧ f a = .ok y := by
  cases x with
  | ok a => simp
  | err m => simp
  | ub => simp

end Res
end Verif
