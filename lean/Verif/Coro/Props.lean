import Verif.Coro.Machine
/-!
C86: coroutines do what the manual says, although the implementation keeps a suspended coroutine only as a list of CallInfos and a
stack, throws away its native stack at each yield, and rebuilds what it needs later.

The specification (`astep` and so on, end of `Model.lean`) has no stack of values, no CallInfos, no native stack and no long jumps: a
coroutine is a list of frames, each of which gets the result of the frame above.
-/
namespace Verif.Coro
variable {V Fn S W : Type}

theorem boot_ok (P : World V Fn S W) (f : V) (args : List V) (w : W) : ∃ m, boot P f args w = .ok m ∧ Rel P m (aboot P f args w) := by
  obtain ⟨r, hr, hv⟩ := call_ok (P := P) (main := true) args f [.host] [] [] [P.nil] 1 none (.host P.nil rfl) (args.length + 1)
    { stk := P.nil :: f :: args, ci := [], native := [.host], nny := 1, status := .ok } ⟨rfl, rfl, rfl, rfl, rfl⟩ (by omega)
  have hr' : precall P (args.length + 1) { stk := P.nil :: f :: args, ci := [], native := [.host], nny := 1, status := .ok } 1 none
    = .ok r := hr
  refine ⟨_, by simp only [boot, hr', Res.bind_ok]; rfl, ⟨rfl, rfl, rfl, rfl, rfl, by simp [A.ids, aboot], rfl, ?_, ?_, ?_, ?_, ?_⟩⟩
  · exact hv
  · intro i hi
    have : i = 0 := by simpa [A.ids, aboot] using hi
    rw [this]
    rfl
  · intro p hp
    cases hp
  · intro i hi
    have : i ≠ 0 := by
      rintro rfl
      exact hi (by simp [A.ids, aboot])
    dsimp only [aboot]
    rw [upd_ne _ _ this, upd_ne _ _ this]
    exact Or.inr ⟨rfl, rfl, _, rfl⟩
  · intro i hi
    have : i ≠ 0 := by
      rintro rfl
      simp [aboot] at hi
    dsimp only [aboot]
    rw [upd_ne _ _ this]

theorem steps_ok {P : World V Fn S W} (k : Nat) : ∀ {m : M V S W} {a : A V S W}, Rel P m a →
    ∃ m', steps P k m = .ok m' ∧ Rel P m' (asteps P k a) := by
  induction k with
  | zero => intro m a h; exact ⟨m, rfl, h⟩
  | succ k ih =>
    intro m a h
    obtain ⟨m1, h1, r1⟩ := step_ok h
    obtain ⟨m2, h2, r2⟩ := ih r1
    exact ⟨m2, by simp only [steps, h1, Res.bind_ok, h2], r2⟩

/-- C86.  Any program with coroutines, for any number of steps: the machine has no undefined behaviour, and it has done to the world
what the specification says, and ended with the same results or error, if it has. -/
theorem coroutines_correct (P : World V Fn S W) (f : V) (args : List V) (w : W) (k : Nat) :
    ∃ m, (boot P f args w >>= steps P k) = .ok m ∧
      m.w = (asteps P k (aboot P f args w)).w ∧ m.fin = (asteps P k (aboot P f args w)).fin := by
  obtain ⟨m, h1, r1⟩ := boot_ok P f args w
  obtain ⟨m', h2, r2⟩ := steps_ok k r1
  exact ⟨m', by simp only [h1, Res.bind_ok, h2], r2.w, r2.fin⟩

/-- C86.  After any number of steps, `coroutine.status` of any other coroutine, as the implementation computes it from the thread, is
that of the specification. -/
theorem status_correct (P : World V Fn S W) (f : V) (args : List V) (w : W) (k co : Nat) :
    ∃ m, (boot P f args w >>= steps P k) = .ok m ∧ m.cur = (asteps P k (aboot P f args w)).cur ∧
      (co ≠ m.cur → statusOf (m.thr co) false = match (asteps P k (aboot P f args w)).co co with
        | .new _ | .susp _ => "suspended"
        | .active => "normal"
        | .dead => "dead") := by
  obtain ⟨m, h1, r1⟩ := boot_ok P f args w
  obtain ⟨m', h2, r2⟩ := steps_ok k r1
  refine ⟨m', by simp only [h1, Res.bind_ok, h2], r2.cur, fun hne => ?_⟩
  rw [r2.cur] at hne
  generalize asteps P k (aboot P f args w) = a at *
  simp only [statusOf, Bool.false_eq_true, if_false]
  by_cases hin : co ∈ a.ids
  · rw [r2.active co hin]
    have : co ∈ a.chain.map Prod.fst := (List.mem_cons.1 hin).resolve_left hne
    obtain ⟨p, hp, rfl⟩ := List.mem_map.1 this
    obtain ⟨c, cis, st, fv, tv, old, ns, f1, f2, f3, f4, f5, f6⟩ := r2.waiting p hp
    rw [f3]
    simp [f1]
  · have hi := r2.idle co hin
    cases hx : a.co co with
    | new f =>
      rw [hx] at hi
      obtain ⟨f1, f2, b, f3⟩ := hi
      simp [f1, f2, f3, gettop]
    | susp gs =>
      rw [hx] at hi
      simp [hi.1]
    | active => rw [hx] at hi; exact hi.elim
    | dead =>
      rw [hx] at hi
      rcases hi with hi | ⟨f1, f2, b, f3⟩
      · simp [hi]
      · simp [f1, f2, f3, gettop]

/-! ### a program -/

/-- values of the example -/
inductive Val where
  | nil | tru | fls | n (k : Nat) | s (x : String) | t (co : Nat) | f (name : String)
deriving DecidableEq

/-- states of functions: the function, the next instruction, and its variables -/
abbrev St := String × Nat × List Val

/-- ```
function f(x)
  local ok, e = pcall(g, x)
  local z = coroutine.yield(e, ok)
  return z, x
end
function g(x)  local y = coroutine.yield(x);  error(y)  end
function main()
  local co = coroutine.create(f)
  local a, b = coroutine.resume(co, 1)
  local c, d, e = coroutine.resume(co, 2)
  local r = ...all results of coroutine.resume(co, 3)
  return b, d, e, coroutine.status(co), ...
end
``` -/
def ex : World Val String St (List Nat) where
  nil := .nil
  tru := .tru
  fls := .fls
  str := .s
  thr := .t
  asThr := fun | .t c => some c | _ => none
  isFn := fun | .f _ => true | _ => false
  callee := fun
    | .f "pcall" => .pcall | .f "yield" => .yield 0 | .f "error" => .error | .f "resume" => .resume
    | .f "create" => .create | .f "status" => .status | .f "sort" => .noy
    | .f g => .lua g
    | _ => .none
  start := fun g args => (g, 0, args)
  next := fun (g, pc, _) regs rs => (g, pc + 1, regs ++ rs)
  act := fun (g, pc, r) w => ((r, match g, pc, r with
    | "f", 0, [x] => .call (some 2) (.f "pcall") [.f "g", x]
    | "f", 1, [_, ok, e] => .call (some 1) (.f "yield") [e, ok]
    | "f", 2, [x, _, _, z] => .ret [z, x]
    | "g", 0, [x] => .call (some 1) (.f "yield") [x]
    | "g", 1, [_, y] => .call (some 0) (.f "error") [y]
    | "main", 0, [] => .call (some 1) (.f "create") [.f "f"]
    | "main", 1, [co] => .call (some 2) (.f "resume") [co, .n 1]
    | "main", 2, [co, _, _] => .call (some 3) (.f "resume") [co, .n 2]
    | "main", 3, [co, _, _, _, _, _] => .call (some 1) (.f "status") [co]
    | "main", 4, [co, _, _, _, _, _, _] => .call none (.f "resume") [co, .n 3]
    | "main", 5, _ :: r => .ret r
    | "main2", 0, [] => .call (some 1) (.f "create") [.f "h"]
    | "main2", 1, [co] => .call (some 2) (.f "resume") [co]
    | "main2", 2, [co, _, _] => .call (some 2) (.f "resume") [co]
    | "main2", 3, _ :: r => .ret r
    | "h", 0, [] => .call none (.f "sort") [.f "yield", .n 1]
    | _, _, _ => .throw (.s "bad")), pc :: w)

def finOf (r : Res (M Val St (List Nat))) : Option (Val ⊕ List Val) := match r with | .ok m => m.fin | _ => none

/-- the error of `g` is caught by the `pcall` of `f`, after a yield in `g` has removed `luaB_pcall` from the native stack -/
example : finOf (boot ex (.f "main") [] [] >>= steps ex 21) =
    some (.inr [.tru, .n 1, .tru, .n 2, .fls, .s "suspended", .tru, .n 3, .n 1]) := by decide +kernel

example : (asteps ex 21 (aboot ex (.f "main") [] [])).fin =
    some (.inr [.tru, .n 1, .tru, .n 2, .fls, .s "suspended", .tru, .n 3, .n 1]) := by decide +kernel

/-- a yield inside a callback of a C function is an error in the coroutine, which then is dead -/
example : finOf (boot ex (.f "main2") [] [] >>= steps ex 10) =
    some (.inr [.fls, .s "attempt to yield", .fls, .s "cannot resume dead coroutine"]) := by decide +kernel

/-- a yield in the main program is an error -/
example : finOf (boot ex (.f "pcall") [.f "yield", .n 1] [] >>= steps ex 1) = some (.inr [.fls, .s "attempt to yield"]) := by
  decide +kernel

end Verif.Coro
