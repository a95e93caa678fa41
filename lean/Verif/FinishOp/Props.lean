import Verif.FinishOp.Model
/-!
C88: a metamethod (or iterator) that yields makes no difference to the instruction that called it.
-/
namespace Verif.FinishOp

variable {V W : Type}

/-- What the compiler emits: a comparison is followed by a jump, the call of an iterator by `OP_TFORLOOP`, a concatenation has at least two
operands; and a turn of `luaV_concat` uses no more operands than there are. -/
structure Sound (P : Sys V W) : Prop where
  eq : ∀ pc a b c, P.code pc = .eq a b c → ∃ x d, P.code (pc + 1) = .jmp x d
  lt : ∀ pc a b c, P.code pc = .lt a b c → ∃ x d, P.code (pc + 1) = .jmp x d
  le : ∀ pc a b c, P.code pc = .le a b c → ∃ x d, P.code (pc + 1) = .jmp x d
  tfor : ∀ pc a c, P.code pc = .tforcall a c → ∃ x d, P.code (pc + 1) = .tforloop x d
  concat : ∀ pc a b c, P.code pc = .concat a b c → b < c
  join : ∀ w R top total m R' w', P.join w R top total = some (.ok (m, R', w')) → m + 2 ≤ total

/-- `s'` is `s`, or the next instruction leads from `s'` to `s` without a call -/
def Settles (P : Sys V W) (s s' : St V W) : Prop :=
  s' = s ∨ exec P (P.code s'.pc) { s' with pc := s'.pc + 1 } = .ret () s

/-- `q` does the same as `p`, and it does not matter for `p` whether called functions yield -/
inductive Sim (P : Sys V W) (i : Instr) : Prog V W Unit → Prog V W Unit → Prop
  | ret {s s' : St V W} : s.leq = false → Settles P s s' → Sim P i (.ret () s) (.ret () s')
  | err {e : V} : Sim P i (.err e) (.err e)
  | call {s : St V W} {func : Nat} {want : Option Nat} {k k' : Ans V W → Prog V W Unit} :
      (∀ a, Sim P i (k a) (k' a)) → (∀ a, Sim P i (k a) (finishOp P i (after s func want a))) →
      Sim P i (.call s func want k) (.call s func want k')

/-- all calls return without a yield -/
def Plain (l : List (Ans V W × Bool)) : Prop := ∀ x ∈ l, x.2 = false

/-- how the runs of similar computations end -/
def EndSim (P : Sys V W) : End V W → End V W → Prop
  | .at s, .at s' => s.leq = false ∧ Settles P s s'
  | .err e, .err e' => e = e'
  | _, _ => False

theorem sim_run {P : Sys V W} {i : Instr} {p q : Prog V W Unit} (h : Sim P i p q) : ∀ {l o}, Run P i p l o → Plain l →
    ∀ l', l'.map Prod.fst = l.map Prod.fst → ∃ o', Run P i q l' o' ∧ EndSim P o o' := by
  induction h with
  | ret hl hs =>
    intro l o hr _ l' hl'
    cases hr
    have : l' = [] := by simpa using hl'
    subst this
    exact ⟨_, .ret, hl, hs⟩
  | err =>
    intro l o hr _ l' hl'
    cases hr
    have : l' = [] := by simpa using hl'
    subst this
    exact ⟨_, .err, rfl⟩
  | call h1 h2 ih1 ih2 =>
    intro l o hr hp l' hl'
    cases hr with
    | resumed _ => exact absurd (hp _ (List.mem_cons_self ..)) (by simp)
    | back hr =>
      cases l' with
      | nil => simp at hl'
      | cons x l' =>
        obtain ⟨a, y⟩ := x
        simp only [List.map_cons, List.cons.injEq] at hl'
        obtain ⟨e, hl'⟩ := hl'
        subst e
        have hp' : Plain _ := fun x hx => hp x (List.mem_cons_of_mem _ hx)
        cases y with
        | false =>
          obtain ⟨o', hr', ho⟩ := ih1 a hr hp' l' hl'
          exact ⟨o', .back hr', ho⟩
        | true =>
          obtain ⟨o', hr', ho⟩ := ih2 a hr hp' l' hl'
          exact ⟨o', .resumed hr', ho⟩

/-! ### the calls of metamethods -/

/-- a call of a metamethod for the register `base + a` -/
theorem sim_dest {P : Sys V W} {i : Instr} {a : Nat} (hi : finishOp P i = finishOp.dest P a) (f p1 p2 : V) (s : St V W)
    (hl : s.leq = false) : Sim P i (callTM f p1 p2 (P.base + a) s) (callTM f p1 p2 (P.base + a) s) := by
  unfold callTM
  refine .call (fun x => .ret hl (.inl rfl)) (fun x => ?_)
  rw [hi]
  exact .ret hl (.inl rfl)

theorem sim_trybin {P : Sys V W} {i : Instr} {a : Nat} (hi : finishOp P i = finishOp.dest P a) (p1 p2 : V) (ev : Ev) (s : St V W)
    (hl : s.leq = false) : Sim P i (trybinTM P p1 p2 (P.base + a) ev s) (trybinTM P p1 p2 (P.base + a) ev s) := by
  unfold trybinTM callbinTM
  dsimp only
  generalize (if P.isnil (P.tmOf s.w ev p1) = true then P.tmOf s.w ev p2 else P.tmOf s.w ev p1) = tm
  cases P.isnil tm
  · simp only [callTM, Prog.bind, Bool.false_eq_true, if_false, if_true]
    refine .call (fun x => .ret hl (.inl rfl)) (fun x => ?_)
    rw [hi]
    exact .ret hl (.inl rfl)
  · simp only [if_true, Prog.bind, Bool.false_eq_true, if_false]
    exact .err

/-! ### comparisons -/

/-- the end of a comparison, done at once or by `luaV_finishOp` and the next instruction -/
theorem sim_test {P : Sys V W} {i : Instr} (a res : Bool) (s : St V W) (hl : s.leq = false) (hj : ∃ x d, P.code s.pc = .jmp x d) :
    Sim P i (test P a res s) (if res ≠ a then .ret () { s with pc := s.pc + 1 } else .ret () s) := by
  obtain ⟨x, d, hj⟩ := hj
  unfold test
  split
  · exact .ret hl (.inl rfl)
  · dsimp only
    refine .ret (by unfold dojump; dsimp only; split <;> exact hl) (.inr ?_)
    rw [hj]
    have e : jump (s.pc + 1) (d + 0) = jump s.pc (d + 1) := by
      unfold jump
      congr 1
      push_cast
      omega
    show Prog.ret () (dojump P x d 0 { s with pc := s.pc + 1 }) = Prog.ret () (dojump P x d 1 s)
    unfold dojump
    dsimp only
    by_cases hx : x = 0
    · simp only [if_pos hx, e]
    · simp only [if_neg hx, e]

theorem sim_test_self {P : Sys V W} {i : Instr} (a res : Bool) (s : St V W) (hl : s.leq = false) :
    Sim P i (test P a res s) (test P a res s) := by
  unfold test
  split
  · exact .ret hl (.inl rfl)
  · exact .ret (by unfold dojump; dsimp only; split <;> exact hl) (.inl rfl)

/-- a call of a metamethod whose result decides a comparison; `neg` if it is "<" for "<=" -/
theorem sim_cond {P : Sys V W} {i : Instr} {a : Bool} (hi : finishOp P i = finishOp.cond P a) (f p1 p2 : V) (s : St V W)
    (hj : ∃ x d, P.code s.pc = .jmp x d) (k : St V W → Prog V W Unit)
    (hk : ∀ s', s'.leq = s.leq → s'.pc = s.pc → k s' = test P a (xor s'.leq (!P.falsy (s'.R s'.top))) { s' with leq := false }) :
    Sim P i ((callTM f p1 p2 s.top s).bind fun _ s => k s) ((callTM f p1 p2 s.top s).bind fun _ s => k s) := by
  unfold callTM
  simp only [Prog.bind]
  have key : ∀ x : Ans V W, Sim P i
      (k { R := set x.R s.top (x.R s.top), top := s.top, pc := s.pc, leq := s.leq, w := x.w })
      (k { R := set x.R s.top (x.R s.top), top := s.top, pc := s.pc, leq := s.leq, w := x.w }) := by
    intro x
    rw [hk { R := set x.R s.top (x.R s.top), top := s.top, pc := s.pc, leq := s.leq, w := x.w } rfl rfl]
    exact sim_test_self _ _ _ rfl
  refine .call (fun x => key x) (fun x => ?_)
  rw [hi]
  have e : set x.R s.top (x.R s.top) = x.R := by
    funext j
    unfold set
    split
    · next h => rw [h]
    · rfl
  simp only [after, Option.getD_some, Nat.add_sub_cancel, e, finishOp.cond]
  rw [hk { R := x.R, top := s.top, pc := s.pc, leq := s.leq, w := x.w } rfl rfl]
  have := sim_test (i := i) a (xor s.leq (!P.falsy (x.R s.top))) { R := x.R, top := s.top, pc := s.pc, leq := false, w := x.w } rfl hj
  cases hq : s.leq <;> simp [hq] at this ⊢ <;> exact this

theorem bind_assoc {α β γ : Type} (p : Prog V W α) (f : α → St V W → Prog V W β) (g : β → St V W → Prog V W γ) :
    (p.bind f).bind g = p.bind fun a s => (f a s).bind g := by
  induction p with
  | ret => rfl
  | err => rfl
  | call s func want k ih => simp only [Prog.bind, ih]

/-- the end of `OP_CONCAT` in `luaV_execute` -/
def catEnd (P : Sys V W) (a b : Nat) : Unit → St V W → Prog V W Unit := fun _ s =>
  .ret () { s with R := set s.R (P.base + a) (s.R (P.base + b)), top := P.ctop }

/-- the end of the case `OP_CONCAT` in `luaV_finishOp` -/
def catFin (P : Sys V W) (a : Nat) : Unit → St V W → Prog V W Unit := fun _ s =>
  .ret () { s with R := set s.R (P.base + a) (s.R (s.top - 1)), top := P.ctop }

theorem concat_sim {P : Sys V W} (hP : Sound P) (a b c : Nat) : ∀ (total : Nat) (s : St V W), 1 ≤ total → s.top = P.base + b + total →
    s.leq = false → ∀ E, E = catEnd P a b ∨ E = catFin P a →
    Sim P (.concat a b c) ((concat P total s).bind (catEnd P a b)) ((concat P total s).bind E) := by
  intro total
  induction total using Nat.strongRecOn with
  | _ total ih =>
  intro s h1 ht hl E hE
  rw [concat]
  split
  · have : total = 1 := by omega
    subst this
    simp only [Prog.bind]
    rcases hE with rfl | rfl
    · exact .ret hl (.inl rfl)
    · unfold catEnd catFin
      rw [ht, Nat.add_sub_cancel]
      exact .ret hl (.inl rfl)
  next h2 =>
  cases hj : P.join s.w s.R s.top total with
  | some r =>
    cases r with
    | error e => exact .err
    | ok x =>
      obtain ⟨m, R, w⟩ := x
      have hm := hP.join _ _ _ _ _ _ _ hj
      refine ih (total - (m + 1)) (by omega) _ (by omega) ?_ (by exact hl) E hE
      show s.top - (m + 1) = _
      omega
  | none =>
    dsimp only
    unfold trybinTM callbinTM
    dsimp only
    generalize (if P.isnil (P.tmOf s.w .concat (s.R (s.top - 2))) = true then P.tmOf s.w .concat (s.R (s.top - 1))
      else P.tmOf s.w .concat (s.R (s.top - 2))) = tm
    cases P.isnil tm
    · simp only [callTM, Prog.bind, Bool.false_eq_true, if_false, if_true]
      refine .call (fun x => ?_) (fun x => ?_)
      · refine ih (total - 1) (by omega) _ (by omega) ?_ (by exact hl) E hE
        show s.top + 1 - 1 - 1 = _
        omega
      · simp only [finishOp, after, Option.getD_some, Nat.add_sub_cancel]
        have ht' : s.top - 1 - (P.base + b) = total - 1 := by omega
        rw [ht']
        split
        · refine ih (total - 1) (by omega) _ (by omega) ?_ (by exact hl) (catFin P a) (.inr rfl)
          show s.top - 1 = _
          omega
        · have : total = 2 := by omega
          subst this
          rw [concat, dif_pos (by omega)]
          simp only [Prog.bind, catEnd]
          have e1 : s.top - 2 = P.base + b := by omega
          refine .ret hl (.inl ?_)
          have e2 : s.top ≠ P.base + b := by omega
          simp [e1, set, e2]
    · simp only [if_true, Prog.bind, Bool.false_eq_true, if_false]
      exact .err

/-- a call of a metamethod for an order; without metamethod `g none` follows -/
theorem sim_order {P : Sys V W} {i : Instr} {a : Bool} (hi : finishOp P i = finishOp.cond P a) (p1 p2 : V) (ev : Ev) (s : St V W)
    (hj : ∃ x d, P.code s.pc = .jmp x d) (g : Option Bool → St V W → Prog V W Unit)
    (hg : ∀ b s', s'.leq = s.leq → s'.pc = s.pc → g (some b) s' = test P a (xor s'.leq b) { s' with leq := false })
    (hn : Sim P i (g none s) (g none s)) :
    Sim P i ((callorderTM P p1 p2 ev s).bind g) ((callorderTM P p1 p2 ev s).bind g) := by
  unfold callorderTM callbinTM
  dsimp only
  generalize (if P.isnil (P.tmOf s.w ev p1) = true then P.tmOf s.w ev p2 else P.tmOf s.w ev p1) = tm
  cases P.isnil tm
  · simp only [Bool.false_eq_true, if_false]
    rw [bind_assoc, bind_assoc]
    simp only [Prog.bind, if_true]
    exact sim_cond hi _ _ _ s hj (fun s => g (some (!P.falsy (s.R s.top))) s) (fun s' h1 h2 => hg _ s' h1 h2)
  · simpa only [if_true, Prog.bind, Bool.false_eq_true, if_false] using hn

theorem exec_sim {P : Sys V W} (hP : Sound P) (pc : Nat) (s : St V W) (hpc : s.pc = pc + 1) (hl : s.leq = false) :
    Sim P (P.code pc) (exec P (P.code pc) s) (exec P (P.code pc) s) := by
  have hself : ∀ s : St V W, s.leq = false → Sim P (P.code pc) (.ret () s) (.ret () s) := fun s h => .ret h (.inl rfl)
  generalize hi : P.code pc = i at hself
  cases i with
  | arith op a b c =>
    simp only [exec]
    split
    · exact hself _ hl
    · exact sim_trybin rfl _ _ _ s hl
  | len a b =>
    simp only [exec]
    split
    · exact hself _ hl
    · exact .err
    · exact sim_dest rfl _ _ _ s hl
  | get a t k =>
    simp only [exec]
    split
    · exact hself _ hl
    · exact .err
    · exact sim_dest rfl _ _ _ s hl
  | self a b k =>
    simp only [exec]
    split
    · exact hself _ hl
    · exact .err
    · exact sim_dest rfl _ _ _ _ hl
  | setv t k v =>
    simp only [exec]
    split
    · exact hself _ hl
    · exact .err
    · exact .call (fun x => hself _ hl) (fun x => hself _ hl)
  | concat a b c =>
    have hbc := hP.concat pc a b c hi
    simp only [exec]
    refine concat_sim hP a b c (c - b + 1) _ (by omega) ?_ (by exact hl) _ (.inl rfl)
    show P.base + c + 1 = _
    omega
  | eq a b c =>
    have hj := hP.eq pc a b c hi
    rw [← hpc] at hj
    simp only [exec, equalobj]
    split
    · simp only [Prog.bind]; exact sim_test_self _ _ _ hl
    · exact .err
    · rw [bind_assoc]
      refine sim_cond (a := a) rfl _ _ _ s hj (fun s => test P a (!P.falsy (s.R s.top)) s) (fun s' h1 _ => ?_)
      rw [hl] at h1
      obtain ⟨R, top, pc', leq, w⟩ := s'
      dsimp only at h1
      subst h1
      simp
  | lt a b c =>
    have hj := hP.lt pc a b c hi
    rw [← hpc] at hj
    simp only [exec, lessthan]
    split
    · simp only [Prog.bind]; exact sim_test_self _ _ _ hl
    · rw [bind_assoc]
      refine sim_order (a := a) rfl _ _ _ s hj _ (fun b s' h1 _ => ?_) .err
      rw [hl] at h1
      obtain ⟨R, top, pc', leq, w⟩ := s'
      dsimp only at h1
      subst h1
      simp [Prog.bind]
  | le a b c =>
    have hj := hP.le pc a b c hi
    rw [← hpc] at hj
    simp only [exec, lessequal]
    split
    · simp only [Prog.bind]; exact sim_test_self _ _ _ hl
    · rw [bind_assoc]
      refine sim_order (a := a) rfl _ _ _ s hj _ (fun b s' h1 _ => ?_) ?_
      · rw [hl] at h1
        obtain ⟨R, top, pc', leq, w⟩ := s'
        dsimp only at h1
        subst h1
        simp [Prog.bind]
      · dsimp only
        rw [bind_assoc]
        refine sim_order (a := a) rfl _ _ _ { s with leq := true } hj _ (fun b s' h1 _ => ?_) .err
        obtain ⟨R, top, pc', leq, w⟩ := s'
        dsimp only at h1
        subst h1
        simp [Prog.bind]
  | jmp a d =>
    simp only [exec]
    exact hself _ (by unfold dojump; dsimp only; split <;> exact hl)
  | tforcall a c =>
    have hj := hP.tfor pc a c hi
    rw [← hpc] at hj
    obtain ⟨x, d, hj⟩ := hj
    simp only [exec]
    have hq : ∀ (j : Nat × Int) (s : St V W), s.leq = false → (tforloop P j.1 j.2 s).leq = false := by
      intro j s h
      unfold tforloop
      split <;> exact h
    refine .call (fun y => hself _ (hq _ _ hl)) (fun y => .ret (hq _ _ hl) (.inr ?_))
    simp only [after, hj, exec, tforArgs]
  | tforloop a d =>
    simp only [exec]
    refine hself _ ?_
    unfold tforloop
    split <;> exact hl
  | call a b c =>
    simp only [exec]
    have h1 : ∀ x : Nat, (if b ≠ 0 then { s with top := x } else s).leq = false := by
      intro x
      split <;> exact hl
    refine .call (fun x => hself _ ?_) (fun x => hself _ ?_)
    all_goals
      split
      · exact h1 _
      · exact h1 _
  | tailcall a b =>
    simp only [exec]
    have h1 : ∀ x : Nat, (if b ≠ 0 then { s with top := x } else s).leq = false := by
      intro x
      split <;> exact hl
    exact .call (fun x => hself _ (h1 _)) (fun x => hself _ (h1 _))
  | other n =>
    simp only [exec]
    exact hself _ hl

/-- **C88.** If a program gets to an end when no called function yields, it gets to the same end when the functions do the same but any of them
yield in between. -/
theorem yield_transparent (P : Sys V W) (hP : Sound P) (s : St V W) (hs : s.leq = false) (l : List (Ans V W × Bool)) (o : End V W)
    (hr : Reach P s l o) (hp : Plain l) (l' : List (Ans V W × Bool)) (hl : l'.map Prod.fst = l.map Prod.fst) : Reach P s l' o := by
  induction hr generalizing l' with
  | refl =>
    have : l' = [] := by simpa using hl
    subst this
    exact .refl
  | @step s s1 l1 l2 o h1 _ ih =>
    rw [List.map_append] at hl
    obtain ⟨l1', l2', rfl, e1, e2⟩ := List.map_eq_append_iff.mp hl
    have hp1 : Plain l1 := fun x hx => hp x (List.mem_append_left _ hx)
    have hp2 : Plain l2 := fun x hx => hp x (List.mem_append_right _ hx)
    obtain ⟨o', hr', he⟩ := sim_run (exec_sim hP s.pc { s with pc := s.pc + 1 } rfl hs) h1 hp1 l1' e1
    cases o' with
    | err e => exact he.elim
    | «at» s' =>
      obtain ⟨hq, rfl | hst⟩ := he
      · exact .step hr' (ih hq hp2 l2' e2)
      · refine .step hr' ?_
        rw [← List.nil_append l2']
        exact .step (by rw [hst]; exact .ret) (ih hq hp2 l2' e2)
  | @err s l e h1 =>
    obtain ⟨o', hr', he⟩ := sim_run (exec_sim hP s.pc { s with pc := s.pc + 1 } rfl hs) h1 hp l' hl
    cases o' with
    | «at» s' => exact he.elim
    | err e' =>
      cases (he : e = e')
      exact .err hr'

/-- the same answers without yields -/
def plain (l : List (Ans V W × Bool)) : List (Ans V W × Bool) := l.map fun x => (x.1, false)

theorem run_sim {P : Sys V W} {i : Instr} {p q : Prog V W Unit} (h : Sim P i p q) : ∀ {l o'}, Run P i q l o' →
    ∃ o, Run P i p (plain l) o ∧ EndSim P o o' := by
  induction h with
  | ret hl hs =>
    intro l o hr
    cases hr
    exact ⟨_, .ret, hl, hs⟩
  | err =>
    intro l o hr
    cases hr
    exact ⟨_, .err, rfl⟩
  | call h1 h2 ih1 ih2 =>
    intro l o hr
    cases hr with
    | back hr =>
      obtain ⟨o, hr', ho⟩ := ih1 _ hr
      exact ⟨o, .back hr', ho⟩
    | resumed hr =>
      obtain ⟨o, hr', ho⟩ := ih2 _ hr
      exact ⟨o, .back hr', ho⟩

theorem yield_sound_aux (P : Sys V W) (hP : Sound P) (s' : St V W) (l : List (Ans V W × Bool)) (o' : End V W) (hr : Reach P s' l o') :
    ∀ s : St V W, s.leq = false → Settles P s s' → ∃ o, Reach P s (plain l) o ∧ EndSim P o o' := by
  induction hr with
  | refl => exact fun s hs hst => ⟨.at s, .refl, hs, hst⟩
  | @step s' s1 l1 l2 o h1 _ ih =>
    intro s hs hst
    rcases hst with rfl | hst
    · obtain ⟨o1, hr1, he⟩ := run_sim (exec_sim hP s'.pc { s' with pc := s'.pc + 1 } rfl hs) h1
      cases o1 with
      | err e => exact he.elim
      | «at» s2 =>
        obtain ⟨o2, hr2, he2⟩ := ih s2 he.1 he.2
        refine ⟨o2, ?_, he2⟩
        rw [plain, List.map_append]
        exact .step hr1 hr2
    · rw [hst] at h1
      cases h1
      exact ih _ hs (.inl rfl)
  | @err s' l e h1 =>
    intro s hs hst
    rcases hst with rfl | hst
    · obtain ⟨o1, hr1, he⟩ := run_sim (exec_sim hP s'.pc { s' with pc := s'.pc + 1 } rfl hs) h1
      cases o1 with
      | «at» s2 => exact he.elim
      | err e' =>
        cases (he : e' = e)
        exact ⟨.err _, .err hr1, rfl⟩
    · rw [hst] at h1
      cases h1

/-- **C88**, the other way round: whatever a program gets to when called functions yield, it gets to without yields, too (if need be after
the jump, or the `OP_TFORLOOP`, that is done at once with the instruction that called). -/
theorem yield_sound (P : Sys V W) (hP : Sound P) (s : St V W) (hs : s.leq = false) (l : List (Ans V W × Bool)) (o' : End V W)
    (hr : Reach P s l o') : ∃ o, Reach P s (plain l) o ∧
      ((∃ e, o = .err e ∧ o' = .err e) ∨ (∃ s1 s2, o = .at s1 ∧ o' = .at s2 ∧ (s2 = s1 ∨ Reach P s2 [] (.at s1)))) := by
  obtain ⟨o, h1, h2⟩ := yield_sound_aux P hP s l o' hr s hs (.inl rfl)
  refine ⟨o, h1, ?_⟩
  cases o with
  | err e =>
    cases o' with
    | err e' => cases (h2 : e = e'); exact .inl ⟨e, rfl, rfl⟩
    | «at» s2 => exact h2.elim
  | «at» s1 =>
    cases o' with
    | err e' => exact h2.elim
    | «at» s2 =>
      refine .inr ⟨s1, s2, rfl, rfl, ?_⟩
      rcases h2.2 with h | h
      · exact .inl h
      · refine .inr ?_
        rw [← List.nil_append ([] : List (Ans V W × Bool))]
        exact .step (by rw [h]; exact .ret) .refl

/-! ### an instance: `a <= b` where the operands have `__lt` only -/

/-- values are numbers, 0 is false and nil; 5 has the metamethod 9 for "<"; the code compares registers 0 and 1 -/
def exP : Sys Nat Unit where
  base := 1
  ctop := 4
  code pc := match pc with | 0 => .le true (.reg 0) (.reg 1) | 1 => .jmp 0 7 | 2 => .concat 0 0 2 | _ => .other 0
  const _ := 0
  upval _ _ _ := 0
  falsy v := v == 0
  isnil v := v == 0
  arith _ _ _ _ := none
  tmOf _ e v := if e = .lt ∧ v = 5 then 9 else if e = .concat ∧ v = 5 then 8 else 0
  tmErr _ _ _ := 100
  lenOf _ _ := .err 100
  index _ _ _ := .err 100
  newindex _ _ _ _ := .err 100
  eqOf _ _ _ := .val false
  ltPrim _ _ := none
  lePrim _ _ := none
  join _ _ _ _ := none
  close _ w R := (R, w)
  other _ w R top pc := (R, w, top, pc)

theorem exP_sound : Sound exP where
  eq pc a b c h := by
    simp only [exP] at h
    split at h <;> cases h
  lt pc a b c h := by
    simp only [exP] at h
    split at h <;> cases h
  le pc a b c h := by
    simp only [exP] at h
    split at h <;> cases h
    exact ⟨0, 7, rfl⟩
  tfor pc a c h := by
    simp only [exP] at h
    split at h <;> cases h
  concat pc a b c h := by
    simp only [exP] at h
    split at h <;> cases h
    decide
  join w R top total m R' w' h := by cases h

/-- registers 0, 1, 2 hold 5 -/
def exSt : St Nat Unit := { R := fun _ => 5, top := 4, pc := 0, leq := false, w := () }

/-- the metamethod "<" of the operands returns false: `a <= b` holds and the jump is done -/
def exAns : Ans Nat Unit := { R := fun i => if i = 4 then 0 else 5, w := (), n := 1 }

theorem exNative : Reach exP exSt [(exAns, false)] (.at { R := set exAns.R 4 0, top := 4, pc := 9, leq := false, w := () }) := by
  have h : Run exP (exP.code 0) (exec exP (exP.code 0) { exSt with pc := 1 }) [(exAns, false)]
      (.at { R := set exAns.R 4 0, top := 4, pc := 9, leq := false, w := () }) := .back .ret
  exact Reach.step (P := exP) (s := exSt) (l2 := []) h .refl

/-- the metamethod yields -/
example : Reach exP exSt [(exAns, true)] (.at { R := set exAns.R 4 0, top := 4, pc := 9, leq := false, w := () }) :=
  yield_transparent exP exP_sound exSt rfl _ _ exNative (by simp [Plain]) _ rfl

end Verif.FinishOp
