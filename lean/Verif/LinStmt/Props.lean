import Verif.LinStmt.Det
import Verif.Lin.Props

/-!
# Properties of the linearizer of the compiler library: control statements (C93)
-/
namespace Verif.LinStmt
open Verif.Lin

variable {P : Par}

/-- The runs considered are runs of the language. -/
theorem safe_run_is_run {ty : Nat → Ty} {G : Guard P} {cmd : Cmd P} {ρ s o} (h : Exec ty G cmd ρ s o)
    (ho : o ≠ .bad) : Exec ty (Guard.none P) cmd ρ s o := by
  induction h with
  | cut => exact .cut
  | skip => exact .skip
  | seq _ _ i1 i2 => exact .seq (i1 nofun) (i2 ho)
  | seqB _ i1 => exact .seqB (i1 nofun)
  | seqP h _ i1 => exact .seqP h (i1 ho)
  | asg _ h => exact .asg trivial h
  | asgE _ h => exact .asgE trivial h
  | brk => exact .brk
  | whl _ i => exact .whl (i ho)
  | whlC _ h => exact .whlC trivial h
  | whlF _ h h' => exact .whlF trivial h h'
  | whlT _ h h' _ _ i1 i2 => exact .whlT trivial h h' (i1 nofun) (i2 ho)
  | whlB _ h h' _ i => exact .whlB trivial h h' (i nofun)
  | whlP _ h h' hp _ i => exact .whlP trivial h h' hp (i ho)
  | whlN _ h h' _ _ i1 i2 => exact .whlN trivial h h' (i1 nofun) (i2 nofun)
  | rep _ i => exact .rep (i ho)
  | repC _ _ h i => exact .repC (i nofun) trivial h
  | repT _ _ h h' i => exact .repT (i nofun) trivial h h'
  | repF _ _ h h' _ i i' => exact .repF (i nofun) trivial h h' (i' ho)
  | repB _ i => exact .repB (i nofun)
  | repP hp _ i => exact .repP hp (i ho)
  | repN _ _ h h' _ i i' => exact .repN (i nofun) trivial h h' (i' nofun)
  | forE _ h => exact .forE trivial h
  | forn _ h _ _ i => exact .forn trivial h trivial (i ho)
  | stop h => exact .stop h
  | next h _ _ _ i i' => exact .next h (i nofun) trivial (i' ho)
  | loopB h _ i => exact .loopB h (i nofun)
  | loopP h hp _ i => exact .loopP h hp (i ho)
  | loopN h _ _ _ i i' => exact .loopN h (i nofun) trivial (i' nofun)
  | iteC _ h => exact .iteC trivial h
  | iteT _ h h' _ i => exact .iteT trivial h h' (i ho)
  | iteF _ h h' _ i => exact .iteF trivial h h' (i ho)
  | els _ i => exact .els (i ho)
  | fin => exact .fin
  | _ => exact absurd rfl ho

/-- A statement ends in one way only. -/
theorem one_outcome {ty : Nat → Ty} {G : Guard P} {cmd : Cmd P} {ρ s o o'} (h : Exec ty G cmd ρ s o)
    (h' : Exec ty G cmd ρ s o') (ho : o.ended = true) (ho' : o'.ended = true) : o' = o := by
  obtain ⟨N, hN⟩ := exec_fits h ho
  exact (hN _ h').1 ho'

/-- A statement that ends does not run for ever. -/
theorem ended_not_forever {ty : Nat → Ty} {G : Guard P} {cmd : Cmd P} {ρ s o}
    (h : Exec ty G cmd ρ s o) (ho : o.ended = true) : ¬ ∀ n, Exec ty G cmd ρ s (.long n) := by
  intro hn
  obtain ⟨N, hN⟩ := exec_fits h ho
  exact Nat.not_succ_le_self N ((hN _ (hn (N + 1))).2 _ rfl)

/-! ## C93: the code of a statement does what the statement means -/

/-- The code between `st` and `st'`, from the machine `M`, does what the outcome says: it gets to
the point after it, with the values in the variables and the memory; or to the block `bt`, where
`break` goes; or it raises the error; or it makes at least so many steps.  Registers that are in
use, but hold no variable, are kept. -/
def Does (Γ : Nat → LV) (g : Prog P) (bt : Option Nat) (st st' : St P.F P.O) (M : Mach P) : Out P → Prop
  | .norm ρ' s' => ∃ M', Run P g (here st M) (.ok (here st' M')) ∧
      (∀ x, rd P M' (Γ x).ps = ρ' x) ∧ M'.s = s' ∧
      ∀ q, Ok st q → (∀ x, slot q ≠ some (Γ x).slot) → rd P M' q = rd P M q
  | .brk ρ' s' => ∃ t M', bt = some t ∧ Run P g (here st M) (.ok ⟨t, 0, M'⟩) ∧
      (∀ x, rd P M' (Γ x).ps = ρ' x) ∧ M'.s = s' ∧
      ∀ q, Ok st q → (∀ x, slot q ≠ some (Γ x).slot) → rd P M' q = rd P M q
  | .err m => Run P g (here st M) (.err m)
  | .long n => ∃ c', Steps g n (here st M) c'
  | .bad => True

theorem Steps.take {g : Prog P} {n k : Nat} {c c' : Cfg P} (h : Steps g k c c') (hn : n ≤ k) :
    ∃ c2, Steps g n c c2 := by
  induction h generalizing n with
  | zero =>
    obtain rfl := Nat.le_zero.1 hn
    exact ⟨_, .zero⟩
  | succ h _ ih =>
    cases n with
    | zero => exact ⟨_, .zero⟩
    | succ n =>
      obtain ⟨c2, h2⟩ := ih (Nat.le_of_succ_le_succ hn)
      exact ⟨c2, .succ h h2⟩

section
variable {Γ : Nat → LV} {ρ : Nat → P.V} {g : Prog P} {st st' : St P.F P.O} {M : Mach P}
  {a : Stm P.F P.O} {bt : Option Nat}

/-- A statement, linearized from a block that is not terminated, in a program that contains its
code: whenever the statement runs to its end in the language - and meets, on the way, no overflow
of the signed integers of C and no float that comes from an untyped place into an integer variable -
the code runs to the point after it, with the same values in the variables and the same memory; if
the statement leaves by `break`, the code gets to the block where `break` goes; if the statement
raises an error, so does the code.
There is no bound on the number of rounds of a loop nor on the nesting of the statements. -/
theorem statement_partial {o : Out P} (hD : Distinct Γ)
    (hρ : ∀ x, HasTy (Γ x).ty (ρ x)) (hw : Wf Γ st) (ho : terminated st = false)
    (hp : PlainS Γ a = true) (h : linS Γ a bt st = .ok st') (hg : Covers g st') (hL : Locals Γ ρ M)
    (he : Exec (fun x => (Γ x).ty) (Guard.safe Γ) (.stm a) ρ M.s o) : Does Γ g bt st st' M o := by
  have key := (exec_sim (g := g) hD he hρ hp).1 h ⟨hw, ho⟩ hg hL rfl
  cases o with
  | norm ρ' s' =>
    obtain ⟨M', h1, h2, h3, _, h5⟩ := key
    exact ⟨M', h1, h2, h3, h5⟩
  | brk ρ' s' =>
    obtain ⟨t, M', ht, h1, h2, h3, _, h5⟩ := key
    exact ⟨t, M', ht, h1, h2, h3, h5⟩
  | err m => exact key
  | long n =>
    obtain ⟨k, c', h1, h2⟩ := key
    exact h2.take h1
  | bad => trivial

/-- Every statement ends or runs for ever, and so does its code: unless the run meets an overflow of
the signed integers of C or a float that comes from an untyped place into an integer variable. -/
theorem statement_total_partial (hD : Distinct Γ)
    (hρ : ∀ x, HasTy (Γ x).ty (ρ x)) (hw : Wf Γ st) (ho : terminated st = false)
    (hp : PlainS Γ a = true) (h : linS Γ a bt st = .ok st') (hg : Covers g st') (hL : Locals Γ ρ M)
    (hb : ¬ Exec (fun x => (Γ x).ty) (Guard.safe Γ) (.stm a) ρ M.s .bad) :
    (∃ o, o.ended = true ∧ o ≠ .bad ∧ Exec (fun x => (Γ x).ty) (Guard.none P) (.stm a) ρ M.s o ∧
      Does Γ g bt st st' M o) ∨
    (∀ n, Exec (fun x => (Γ x).ty) (Guard.none P) (.stm a) ρ M.s (.long n)) ∧
      ∀ n, ∃ c', Steps g n (here st M) c' := by
  rcases stm_total (Γ := Γ) a ρ M.s with ⟨o, h1, h2⟩ | h1
  · have h3 : o ≠ .bad := by
      rintro rfl
      exact hb h2
    exact Or.inl ⟨o, h1, h3, safe_run_is_run h2 h3, statement_partial hD hρ hw ho hp h hg hL h2⟩
  · exact Or.inr ⟨fun n => safe_run_is_run (h1 n) nofun,
      fun n => statement_partial hD hρ hw ho hp h hg hL (h1 n)⟩

/-- The code comes to its end here: an error, undefined behaviour, or no instruction left. -/
def Stopped (g : Prog P) : Res (Cfg P) → Prop
  | .ok c => step P g c = none
  | _ => True

/-- Code that stops does not run for ever. -/
theorem stopped_bound {c : Cfg P} {r} (h : Run P g c r) (hs : Stopped g r) :
    ∃ N, ∀ n c', Steps g n c c' → n ≤ N := by
  have one : ∀ {c : Cfg P}, (∀ c1, step P g c ≠ some (.ok c1)) → ∀ n c', Steps g n c c' → n ≤ 0 := by
    intro c h n c' h'
    cases h' with
    | zero => exact le_rfl
    | succ h1 _ => exact absurd h1 (h _)
  induction h with
  | here c => exact ⟨0, one fun c1 e => by rw [show step P g c = none from hs] at e; cases e⟩
  | step c c1 o h _ ih =>
    obtain ⟨N, hN⟩ := ih hs
    refine ⟨N + 1, fun n c' h' => ?_⟩
    cases h' with
    | zero => exact Nat.zero_le _
    | succ h1 h2 =>
      rw [h] at h1
      cases h1
      exact Nat.succ_le_succ (hN _ _ h2)
  | err c m h => exact ⟨0, one fun c1 e => by rw [h] at e; cases e⟩
  | ub c h => exact ⟨0, one fun c1 e => by rw [h] at e; cases e⟩

/-- If the code stops - at the end of the program, say, or with an error - the statement ends in the
language, and in the way the code says. -/
theorem code_stops_partial {r} (hD : Distinct Γ)
    (hρ : ∀ x, HasTy (Γ x).ty (ρ x)) (hw : Wf Γ st) (ho : terminated st = false)
    (hp : PlainS Γ a = true) (h : linS Γ a bt st = .ok st') (hg : Covers g st') (hL : Locals Γ ρ M)
    (hb : ¬ Exec (fun x => (Γ x).ty) (Guard.safe Γ) (.stm a) ρ M.s .bad)
    (hr : Run P g (here st M) r) (hs : Stopped g r) :
    ∃ o, o.ended = true ∧ o ≠ .bad ∧ Exec (fun x => (Γ x).ty) (Guard.none P) (.stm a) ρ M.s o ∧
      Does Γ g bt st st' M o := by
  rcases statement_total_partial hD hρ hw ho hp h hg hL hb with h1 | ⟨_, h1⟩
  · exact h1
  · obtain ⟨N, hN⟩ := stopped_bound hr hs
    obtain ⟨c', h2⟩ := h1 (N + 1)
    exact absurd (hN _ _ h2) (Nat.not_succ_le_self N)

end

/-! An example: two untyped variables `x`, `y`, an integer `i` that is 7, a number `f`.

```
for x = 5, i do
  if x == 6 then break else y = x end
end
while y < i do y = y + 1 end
```
-/

def prog0 : Stm Int Nat :=
  .seq (.forn 0 (.lit (.int 5)) (.loc 2) none
      (.ite (.bin (.cm .eq) (.loc 0) (.lit (.int 6))) .brk (.els (.assign [.loc 1] [.loc 0]))))
    (.whl (.bin (.cm .lt) (.loc 1) (.loc 2))
      (.assign [.loc 1] [.bin (.ar .add) (.loc 1) (.lit (.int 1))]))

/-- A fourth variable in a place of its own, as are all others. -/
def Γs : Nat → LV
  | 2 => .ireg 0
  | 3 => .freg 0
  | n => .sym n .any

theorem distinct_s : Distinct Γs := by
  intro x y h
  rcases x with _ | _ | _ | _ | x <;> rcases y with _ | _ | _ | _ | y <;>
    simp_all [Γs, LV.slot]

def ρs : Nat → P0.V
  | 2 => .int 7
  | 3 => .flt (5 : Int)
  | n => .obj (n : Nat)

def Ms : Mach P0 := ⟨fun r => .obj (r : Nat), fun _ => .nil, fun _ => 7, fun _ => (5 : Int), []⟩

theorem typed_s : ∀ x, HasTy (P := P0) (Γs x).ty (ρs x) := by
  intro x
  rcases x with _ | _ | _ | _ | x
  · trivial
  · trivial
  · exact ⟨7, rfl⟩
  · exact ⟨(5 : Int), rfl⟩
  · trivial

theorem wf_s : Wf (P := P0) Γs st0 := by
  refine ⟨?_, by decide, fun b hb => rfl⟩
  rintro k ⟨x, hx⟩
  rcases x with _ | _ | _ | _ | x <;> simp [Γs, LV.ps, use] at hx <;> subst hx <;>
    simp [live, pool, st0]

theorem locals_s : Locals (P := P0) Γs ρs Ms := by
  intro x
  rcases x with _ | _ | _ | _ | x <;> rfl

example : PlainS Γs prog0 = true := by decide +kernel

example : terminated st0 = false := by decide +kernel

example : ∃ st', linS Γs prog0 none st0 = .ok st' := ⟨_, rfl⟩

/-- What these variables are at the end. -/
def ρe : Nat → P0.V := Lin.set (Lin.set (Lin.set (Lin.set (Lin.set ρs 0 (.int 5)) 1 (.int 5)) 0 (.int 6))
  1 (.int 6)) 1 (.int 7)

theorem prog0_runs :
    Exec (P := P0) (fun x => (Γs x).ty) (Guard.safe Γs) (.stm prog0) ρs Ms.s (.norm ρe []) := by
  refine .seq (.forn (fun h => nomatch h) rfl rfl (.next rfl
    (.iteF (fun h => nomatch h) rfl rfl (.els (.asg (fun h => nomatch h) rfl))) rfl (.loopB rfl
      (.iteT (fun h => nomatch h) rfl rfl .brk)))) ?_
  exact .whl (.whlT (fun h => nomatch h) rfl rfl (.asg (fun h => nomatch h) rfl)
    (.whlT (fun h => nomatch h) rfl rfl (.asg (fun h => nomatch h) rfl)
      (.whlF (fun h => nomatch h) rfl rfl)))

/-- `while 1 <= i do end` runs for ever. -/
example (n : Nat) : Exec (P := P0) (fun x => (Γs x).ty) (Guard.safe Γs)
    (.stm (.whl (.bin (.cm .le) (.lit (.int 1)) (.loc 2)) .skip)) ρs Ms.s (.long n) := by
  refine .whl ?_
  induction n with
  | zero => exact .cut
  | succ n ih => exact .whlN (fun h => nomatch h) rfl rfl .skip ih

/-- The example above meets nothing that is excluded: it ends otherwise. -/
example : ¬ Exec (P := P0) (fun x => (Γs x).ty) (Guard.safe Γs) (.stm prog0) ρs Ms.s .bad :=
  fun h => nomatch one_outcome prog0_runs h rfl rfl

/-! ## Where the code does something else

In each case the statement ends normally in the language. -/

/-- The linearizer accepts the statement, the language runs it to its end, and the code ends with
`out` instead. -/
def Fails (a : Stm Int Nat) (out : Res (Cfg P0)) : Prop :=
  ∃ st' ρ' s', linS Γs a none st0 = .ok st' ∧
    Exec (P := P0) (fun x => (Γs x).ty) (Guard.none P0) (.stm a) ρs Ms.s (.norm ρ' s') ∧
    Run P0 st'.blocks (here st0 Ms) out

/-- `while i do break end` with an integer variable `i`: the code generator has no jump on an
integer (`emit_op_cbr`), although every integer is a true value. -/
theorem while_integer_rejected : Fails (.whl (.loc 2) .brk) reject :=
  ⟨_, _, _, rfl, .whl (.whlB trivial rfl rfl .brk), run_runN _ 3 _⟩

/-- `repeat break until i` with an integer variable: an assertion of the code generator. -/
theorem repeat_integer_asserts : linS Γs (.rep .brk (.loc 2)) none st0 = assertion ∧
    Exec (P := P0) (fun x => (Γs x).ty) (Guard.none P0) (.stm (.rep .brk (.loc 2))) ρs Ms.s
      (.norm ρs []) :=
  ⟨rfl, .rep (.repB .brk)⟩

/-- `for x = math.mininteger, 0 do break end`: the code begins with `init - step`. -/
theorem for_start_ub : Fails (.forn 0 (.lit (.int 0x8000000000000000)) (.lit (.int 0)) none .brk) .ub :=
  ⟨_, _, _, rfl, .forn trivial rfl trivial (.loopB rfl .brk), run_runN _ 5 _⟩

/-- A loop up to `math.maxinteger` that is left in the round after: the code computes
`maxinteger + 1` with the signed type, where the virtual machine wraps around. -/
theorem for_step_ub : Fails
    (.forn 0 (.lit (.int 0x7fffffffffffffff)) (.lit (.int 0x7fffffffffffffff)) none
      (.ite (.bin (.cm .lt) (.loc 0) (.lit (.int 0))) .brk .fin)) .ub :=
  ⟨_, _, _, rfl, .forn trivial rfl trivial (.next rfl (.iteF trivial rfl rfl .fin) trivial
    (.loopB rfl (.iteT trivial rfl rfl .brk))), run_runN _ 20 _⟩

/-- A `for` over floats is refused. -/
theorem for_float_rejected {F O : Type} (Γ : Nat → LV) (x : Nat) (f : F) (e2 : Exp F O) (e3 b bt)
    (st : St F O) : linS Γ (.forn x (.lit (.flt f)) e2 e3 b) bt st =
      .err "Only for loops with integer expressions currently supported" := by
  simp [linS, forInt, typ]

end Verif.LinStmt
