import Verif.Stat.Code
/-! The machine, and pieces of code that it runs through. -/
namespace Verif.Stat
open Verif.ExpCode
variable {W : Type} {P : Ops W} {K : List Val} {C : List Instr}

theorem mrun_done (n : Nat) (r : Res (List Val × W)) : mrun P K C n (.done r) = .done r := by
  cases n <;> rfl

theorem mrun_add (a b : Nat) (st : St W) : mrun P K C (a + b) st = mrun P K C b (mrun P K C a st) := by
  induction a generalizing st with
  | zero => rw [Nat.zero_add]; rfl
  | succ a ih =>
    cases st with
    | done r => rw [mrun_done, mrun_done, mrun_done]
    | run pc R w =>
      rw [Nat.succ_add]
      exact ih _

/-- the machine ends with `r`, or it is still running after `i` steps -/
def Does (P : Ops W) (K : List Val) (C : List Instr) (i : Nat) (st : St W) (o : O W) : Prop :=
  match o with
  | .fin r => ∃ n, mrun P K C n st = .done r
  | .out => ∃ pc R w, mrun P K C i st = .run pc R w

theorem Does.mono {i j : Nat} {st : St W} {o : O W} (h : Does P K C i st o) (hj : j ≤ i) : Does P K C j st o := by
  cases o with
  | fin r => exact h
  | out =>
    obtain ⟨pc, R, w, h⟩ := h
    obtain ⟨d, rfl⟩ : ∃ d, i = j + d := ⟨i - j, by omega⟩
    rw [mrun_add] at h
    cases hs : mrun P K C j st with
    | run pc R w => exact ⟨pc, R, w, hs⟩
    | done r => rw [hs, mrun_done] at h; cases h

theorem Does.done {i : Nat} {st : St W} {r : Res (List Val × W)} (h : ∃ n, mrun P K C n st = .done r) :
    Does P K C i st (.fin r) := h

theorem Does.zero {pc : Nat} {R : Regs} {w : W} : Does P K C 0 (.run pc R w) .out := ⟨pc, R, w, rfl⟩

/-- the machine comes from `st` to `st'`, or does as if -/
def Go (P : Ops W) (K : List Val) (C : List Instr) (st st' : St W) : Prop :=
  ∀ i o, Does P K C i st' o → Does P K C i st o

/-- in one step or more -/
def GoS (P : Ops W) (K : List Val) (C : List Instr) (st st' : St W) : Prop :=
  ∀ i o, Does P K C i st' o → Does P K C (i + 1) st o

theorem Go.refl (st : St W) : Go P K C st st := fun _ _ h => h

theorem Go.trans {a b c : St W} (h : Go P K C a b) (h' : Go P K C b c) : Go P K C a c := fun i o hc => h i o (h' i o hc)

theorem GoS.go {a b : St W} (h : GoS P K C a b) : Go P K C a b := fun i o hb => (h i o hb).mono (Nat.le_succ i)

theorem Go.transS {a b c : St W} (h : Go P K C a b) (h' : GoS P K C b c) : GoS P K C a c := fun i o hc => h _ o (h' i o hc)

theorem goS_step {pc : Nat} {R : Regs} {w : W} {st : St W} (h : mstep P K C pc R w = st) : GoS P K C (.run pc R w) st := by
  subst h
  intro i o hd
  cases o with
  | fin r => obtain ⟨n, hn⟩ := hd; exact ⟨n + 1, hn⟩
  | out => exact hd

theorem goS_jmp {j t : Nat} (h : C[j]? = some (.jmp (some t))) (R : Regs) (w : W) :
    GoS P K C (.run j R w) (.run t R w) := goS_step (by unfold mstep; rw [h])

/-- two states with the same next state -/
theorem go_same {a b : Nat} {R : Regs} {w : W} (h : mstep P K C a R w = mstep P K C b R w) :
    Go P K C (.run a R w) (.run b R w) := by
  intro i o hd
  cases i with
  | zero =>
    cases o with
    | out => exact Does.zero
    | fin r =>
      obtain ⟨n, hn⟩ := hd
      cases n with
      | zero => cases hn
      | succ n => refine ⟨n + 1, ?_⟩; show mrun P K C n (mstep P K C a R w) = _; rw [h]; exact hn
  | succ i =>
    cases o with
    | out => obtain ⟨pc, R', w', hn⟩ := hd; refine ⟨pc, R', w', ?_⟩; show mrun P K C i (mstep P K C a R w) = _; rw [h]; exact hn
    | fin r =>
      obtain ⟨n, hn⟩ := hd
      cases n with
      | zero => cases hn
      | succ n => refine ⟨n + 1, ?_⟩; show mrun P K C n (mstep P K C a R w) = _; rw [h]; exact hn

theorem Tgt.go {js : List Nat} {m j : Nat} (h : Tgt C js m) (hj : j ∈ js) (R : Regs) (w : W) :
    Go P K C (.run j R w) (.run m R w) := by
  obtain ⟨t, h1, h2⟩ := h
  rcases h2 with rfl | ⟨h2, _⟩
  · exact (goS_jmp (h1 j hj) R w).go
  · exact go_same (by unfold mstep; rw [h1 j hj, h2])

theorem Tgt.goS {js : List Nat} {m j : Nat} (h : Tgt C js m) (hj : j ∈ js) (hm : m ≤ j) (R : Regs) (w : W) :
    GoS P K C (.run j R w) (.run m R w) := by
  obtain ⟨t, h1, h2⟩ := h
  rcases h2 with rfl | ⟨_, h2⟩
  · exact goS_jmp (h1 j hj) R w
  · have := h2 j hj; omega

/-- a piece of code that ends at `e` has the outcome `o` -/
def Ex (P : Ops W) (K : List Val) (C : List Instr) (st : St W) (o : Res (Out W)) (e : Nat) : Prop :=
  match o with
  | .ok (.fall R w) => Go P K C st (.run e R w)
  | .ok (.exit j R w) => Go P K C st (.run j R w)
  | .err m => ∃ n, mrun P K C n st = .done (.err m)
  | .ub => ∃ n, mrun P K C n st = .done .ub

theorem Ex.go {st st' : St W} {o : Res (Out W)} {e : Nat} (h : Ex P K C st' o e) (hg : Go P K C st st') : Ex P K C st o e := by
  rcases o with ⟨_ | _⟩ | _ | _
  · exact hg.trans h
  · exact hg.trans h
  · exact hg 0 (.fin _) h
  · exact hg 0 (.fin _) h

theorem PatI.exec {x y : Instr} (h : PatI x y) (hx : ∀ t, x ≠ .jmp t) (R : Regs) (w : W) :
    (∀ t, y ≠ .jmp t) ∧ (isRet x = false → isRet y = false) ∧ y.exec P K R w = x.exec P K R w := by
  rcases h with rfl | ⟨rfl, _⟩ | ⟨b, c, rfl, rfl⟩
  · exact ⟨hx, id, rfl⟩
  · exact absurd rfl (hx none)
  · refine ⟨(fun _ e => nomatch e), fun _ => rfl, ?_⟩
    simp only [Instr.exec]
    split <;> rfl

theorem mstep_exec {pc : Nat} {y : Instr} (h : C[pc]? = some y) (hj : ∀ t, y ≠ .jmp t) (hr : isRet y = false) (R : Regs) (w : W) :
    mstep P K C pc R w = match y.exec P K R w with
      | .ok (n, R, w) => .run (pc + 1 + n) R w
      | .err m => .done (.err m)
      | .ub => .done .ub := by
  unfold mstep
  rw [h]
  cases y with
  | jmp t => exact absurd rfl (hj t)
  | ret a n => cases hr
  | retcall f a n l => cases hr
  | _ => rfl

/-- the code of a piece, run by the machine -/
theorem lift {c : List Instr} {m : Nat} (hw : CodeWF c c.length) (hn : NR c)
    (hp : ∀ (i : Nat) (x : Instr), m ≤ i → c[i]? = some x → ∃ y, C[i]? = some y ∧ PatI x y) :
    ∀ (n pc : Nat), c.length - pc = n → m ≤ pc → pc ≤ c.length → ∀ (R : Regs) (w : W),
      Ex P K C (.run pc R w) (ExpCode.run P K c pc R w) c.length := by
  intro n
  induction n using Nat.strongRecOn with
  | ind n ih =>
    intro pc hpc hm hle R w
    rcases Nat.eq_or_lt_of_le hle with rfl | hlt
    · rw [run_end]; exact Go.refl _
    · have hx := List.getElem?_eq_getElem hlt
      obtain ⟨y, hy, hpat⟩ := hp pc _ hm hx
      by_cases hj : ∃ t, c[pc] = .jmp t
      · obtain ⟨t, ht⟩ := hj
        rw [ht] at hx
        cases t with
        | none => rw [run_jmp_none hx]; exact Go.refl _
        | some t =>
          obtain ⟨h1, h2, _⟩ := hw.tgt pc t hx
          have e := hpat.same (by rw [ht]; exact fun e => nomatch e) (by rw [ht]; exact fun _ _ e => nomatch e)
          rw [ht] at e
          subst e
          rw [run_jmp_some hx h1]
          exact (ih _ (by omega) t rfl (by omega) h2 R w).go (goS_jmp hy R w).go
      · have hj : ∀ t, c[pc] ≠ .jmp t := fun t e => hj ⟨t, e⟩
        obtain ⟨j1, j2, j3⟩ := hpat.exec (P := P) (K := K) hj R w
        have hst := mstep_exec (P := P) (K := K) hy j1 (j2 (hn _ (List.getElem_mem hlt))) R w
        rw [j3] at hst
        rw [run_exec hx hj]
        cases he : c[pc].exec P K R w with
        | err e => rw [he] at hst; exact ⟨1, hst⟩
        | ub => rw [he] at hst; exact ⟨1, hst⟩
        | ok r =>
          obtain ⟨d, R', w'⟩ := r
          rw [he] at hst
          have hd : pc + 1 + d ≤ c.length := by
            rcases exec_next he with rfl | ⟨rfl, h1 | ⟨a, b, h1⟩⟩
            · omega
            · obtain ⟨t, h2⟩ := hw.test pc _ hx h1
              have := getElem?_lt h2; omega
            · rw [h1] at hx
              obtain ⟨a', b', h2⟩ := hw.skip pc a b hx
              have := getElem?_lt h2; omega
          exact (ih _ (by omega) (pc + 1 + d) rfl (by omega) hd R' w').go (goS_step hst).go

end Verif.Stat
