import Verif.Typed.Stmt

/-! # C38: typed variables hold values of their types -/
namespace Verif.Typed

/-- What the documentation says a value of an annotated type is. -/
def IsOf (W : World) (c : Ann) (v : Val) : Prop :=
  match c with
  | .int => ∃ i, v = .int i
  | .num => ∃ n, v = .flt n
  | .iarr => ∃ a, v = .iarr a
  | .farr => ∃ a, v = .farr a
  | .tab => ∃ a, v = .tab a
  | .str => v = .nil ∨ ∃ x, v = .str x
  | .clos => v = .nil ∨ ∃ a, v = .clos a
  | .typ u => v = .nil ∨ W.isType u v = true

/-- Every conversion instruction and typed move raises an error or leaves a value of the type it is for, never anything undefined. -/
theorem conv_type (W : World) (c : Ann) (v : Val) : (∃ m, conv W c v = .err m) ∨ ∃ v', conv W c v = .ok v' ∧ IsOf W c v' := by
  cases c with
  | int =>
    cases v with
    | flt n =>
      simp only [conv, IsOf]
      cases W.toInt n with
      | none => exact .inl ⟨_, rfl⟩
      | some i => exact .inr ⟨_, rfl, i, rfl⟩
    | int i => exact .inr ⟨_, rfl, i, rfl⟩
    | _ => exact .inl ⟨_, rfl⟩
  | typ u =>
    simp only [conv, IsOf]
    split
    · exact .inr ⟨_, rfl, .inl (by assumption)⟩
    · split
      · rename_i h; exact .inr ⟨_, rfl, .inr h.2⟩
      · exact .inl ⟨_, rfl⟩
  | _ => cases v <;> simp [conv, IsOf]

/-- A value that already has the type is not changed, and no conversion changes anything but a number into the other kind of number. -/
theorem conv_keeps (W : World) (c : Ann) (v v' : Val) (h : conv W c v = .ok v') :
    v' = v ∨ (c = .int ∧ ∃ n i, v = .flt n ∧ W.toInt n = some i ∧ v' = .int i) ∨ (c = .num ∧ ∃ i, v = .int i ∧ v' = .flt (W.ofInt i)) := by
  rcases conv_same h with e | ⟨rfl, n, rfl⟩ | ⟨rfl, i, rfl⟩
  · exact .inl e
  · simp only [conv] at h
    split at h
    · cases h; exact .inr (.inl ⟨rfl, n, _, rfl, by assumption, rfl⟩)
    · cases h
  · cases h; exact .inr (.inr ⟨rfl, i, rfl, rfl⟩)

/-- Values of the type are accepted. -/
theorem conv_accepts (W : World) (c : Ann) (v : Val) (h : IsOf W c v) (hu : ∀ u, c = .typ u → v = .nil ∨ v.indexable = true) :
    conv W c v = .ok v := by
  cases c with
  | typ u =>
    simp only [conv]
    split
    · rfl
    · rename_i hn
      have h1 : W.isType u v = true := by
        rcases h with h | h
        · exact absurd h hn
        · exact h
      have h2 : v.indexable = true := by
        rcases hu u rfl with h | h
        · exact absurd h hn
        · exact h
      rw [if_pos ⟨h2, h1⟩]
  | str => rcases h with rfl | ⟨_, rfl⟩ <;> rfl
  | clos => rcases h with rfl | ⟨_, rfl⟩ <;> rfl
  | _ => obtain ⟨_, rfl⟩ := h; rfl

/-- The type maps of the annotations, in terms of tags. -/
def TagOf (c : Ann) (v : Val) : Prop :=
  match c with
  | .int => ∃ i, v = .int i
  | .num => ∃ n, v = .flt n
  | .iarr => ∃ a, v = .iarr a
  | .farr => ∃ a, v = .farr a
  | .tab => ∃ a, v = .tab a
  | .str => v = .nil ∨ ∃ x, v = .str x
  | .clos => v = .nil ∨ ∃ a, v = .clos a
  | .typ _ => v = .nil ∨ v.indexable = true

theorem has_tag (c : Ann) (v : Val) : has c.tm v = true ↔ TagOf c v := by
  cases c <;> (cases v with
    | bool b => cases b <;> simp [has, TagOf, Ann.tm, Val.ti, Val.indexable, tINT, tFLT, tIARR, tFARR, tTAB, tSTRN, tSTR, tFUNN, tFUN, tUDN, tUD, tNIL]
    | _ => simp [has, TagOf, Ann.tm, Val.ti, Val.indexable, tINT, tFLT, tIARR, tFARR, tTAB, tSTRN, tSTR, tFUNN, tFUN, tUDN, tUD, tNIL])

/-- A state in which every variable in scope and every upvalue has a value with the tag of its annotation. -/
def Typed (G : Env) (s : St) : Prop :=
  (s.regs.length = G.loc.length ∧ ∀ (n : Nat) (c : Ann), G.loc[n]? = some (some c) → ∃ v, s.regs[n]? = some v ∧ TagOf c v) ∧
  s.ups.length = G.up.length ∧ ∀ (n : Nat) (c : Ann), G.up[n]? = some (some c) → ∃ v, s.ups[n]? = some v ∧ TagOf c v

theorem typed_iff (G : Env) (s : St) : WT G s ↔ Typed G s := by
  constructor
  · intro h
    refine ⟨⟨h.ll, fun n c hc => ?_⟩, h.ul, fun n c hc => ?_⟩
    · obtain ⟨v, hv, hh⟩ := h.lv n _ hc
      exact ⟨v, hv, (has_tag c v).1 hh⟩
    · obtain ⟨v, hv, hh⟩ := h.uv n _ hc
      exact ⟨v, hv, (has_tag c v).1 hh⟩
  · rintro ⟨⟨ll, lv⟩, ul, uv⟩
    refine ⟨ll, fun n t ht => ?_, ul, fun n t ht => ?_⟩
    · cases t with
      | none =>
        have : n < s.regs.length := by
          rw [ll]
          exact (List.getElem?_eq_some_iff.1 ht).1
        exact ⟨s.regs[n], List.getElem?_eq_getElem this, has_any _⟩
      | some c =>
        obtain ⟨v, hv, hh⟩ := lv n c ht
        exact ⟨v, hv, (has_tag c v).2 hh⟩
    · cases t with
      | none =>
        have : n < s.ups.length := by
          rw [ul]
          exact (List.getElem?_eq_some_iff.1 ht).1
        exact ⟨s.ups[n], List.getElem?_eq_getElem this, has_any _⟩
      | some c =>
        obtain ⟨v, hv, hh⟩ := uv n c ht
        exact ⟨v, hv, (has_tag c v).2 hh⟩

/-- Typed variables: in a program without the patterns `goodS` excludes, no specialised instruction ever reads a value of another type, and
after every statement all variables and upvalues have values of their declared types, whatever other code does and for runs of any length.
Missing from the full claim: the excluded patterns (see the witnesses below) and numbers with metamethods for bitwise operations. -/
theorem typed_variables_partial (W : World) (hW : ∀ n, W.numbit n = none) (fuel : Nat) (G : Env) (S : S) (s : St) (hg : goodS G S = true) (hs : Typed G s) :
    run W fuel G S s ≠ .ub ∧ ∀ s', run W fuel G S s = .ok s' → Typed (after G S) s' := by
  have h := run_sound hW fuel G S s hg ((typed_iff G s).2 hs)
  constructor
  · intro e
    rw [e] at h
    exact h
  · intro s' e
    rw [e] at h
    exact (typed_iff _ _).1 h

/-- The static type of an expression is sound: when the expression's value is put in a register it belongs to the type map the compiler
computed. Missing as above. -/
theorem static_type_partial (W : World) (hW : ∀ n, W.numbit n = none) (G : Env) (e : E) (d : D) (s : St) (hg : goodE G e = true) (hd : st G e = some d)
    (hs : Typed G s) : match ev G W e none s with
      | .ub => False
      | .err _ => True
      | .ok (f, s1) => Typed G s1 ∧ match settle G W d f s1 with
        | .ub => False
        | .err _ => True
        | .ok (v, s2) => Typed G s2 ∧ has (anyreg d).tm v = true := by
  have h := ev_sound hW e d s hg hd ((typed_iff G s).2 hs)
  cases he : ev G W e none s with
  | ub => rw [he] at h; exact h
  | err m => trivial
  | ok r =>
    rw [he] at h
    have h : WT G r.2 ∧ OkF G r.2 d r.1 := h
    refine ⟨(typed_iff _ _).1 h.1, ?_⟩
    have h2 := settle_post (W := W) h.1 h.2
    cases hs2 : settle G W d r.1 r.2 with
    | ub => rw [hs2] at h2; exact h2
    | err m => trivial
    | ok q =>
      rw [hs2] at h2
      have h2 : WT G q.2 ∧ has (disch d).tm q.1 = true := h2
      exact ⟨(typed_iff _ _).1 h2.1, by rw [anyreg_tm]; exact h2.2⟩

/-! ## The debug interface -/

theorem check_has {W : World} {c : Decl} {v : Val}
    (h : checktype W (declTm c) (utOf c) v = true) : has (declTm c) v = true := by
  cases c with
  | none => exact has_any v
  | some c =>
    have hne : (declTm (some c) == tANY) = false := by
      rw [beq_eq_false_iff_ne]
      exact ann_ne_any c
    rw [declTm, has_tag]
    unfold checktype at h
    rw [hne] at h
    simp only [declTm, utOf] at h
    cases c <;> (cases v with
      | bool b => cases b <;> simp [TagOf, Ann.tm, Val.indexable, tNIL, tFALSE, tTRUE, tINT, tFLT, tIARR, tFARR, tTAB, tSTR, tSTRN, tFUN, tFUNN, tUD, tUDN] at h ⊢
      | _ => simp [TagOf, Ann.tm, Val.indexable, tNIL, tFALSE, tTRUE, tINT, tFLT, tIARR, tFARR, tTAB, tSTR, tSTRN, tFUN, tFUNN, tUD, tUDN] at h ⊢)

/-- `debug.setupvalue` never stores a value of another type into a typed upvalue, and says whether it stored. -/
theorem setupvalue_typed (G : Env) (W : World) (n : Nat) (v : Val) (s : St) (hs : Typed G s) :
    Typed G (setupvalue G W n v s).2 ∧ ((setupvalue G W n v s).1 = false → (setupvalue G W n v s).2 = s) ∧
      ((setupvalue G W n v s).1 = true → n < G.up.length ∧ (setupvalue G W n v s).2 = { s with ups := s.ups.set n v }) := by
  unfold setupvalue
  cases hc : G.up[n]? with
  | none => exact ⟨hs, fun _ => rfl, fun e => nomatch e⟩
  | some c =>
    dsimp only
    by_cases h : checktype W (declTm c) (utOf c) v = true
    · rw [if_pos h]
      refine ⟨(typed_iff _ _).1 (setup_wt ((typed_iff _ _).2 hs) fun t ht => ?_), (fun e => nomatch e), fun _ => ⟨(List.getElem?_eq_some_iff.1 hc).1, rfl⟩⟩
      rw [hc] at ht
      cases ht
      exact check_has h
    · rw [if_neg h]
      exact ⟨hs, fun _ => rfl, fun e => nomatch e⟩

/-- A value that does not have the user type is not stored. -/
theorem setupvalue_usertype (G : Env) (W : World) (n : Nat) (u : String) (v : Val) (s : St) (hc : G.up[n]? = some (some (.typ u)))
    (hn : v ≠ .nil) (ht : W.isType u v = false) : setupvalue G W n v s = (false, s) := by
  unfold setupvalue
  rw [hc]
  dsimp only
  rw [if_neg]
  cases v with
  | nil => exact absurd rfl hn
  | bool b => cases b <;> simp [checktype, declTm, utOf, Ann.tm, tANY, tUDN, tUD, tNIL, tFALSE, tTRUE, tINT, tFLT, tIARR, tFARR, tTAB, tSTR, tFUN, ht]
  | _ => simp [checktype, declTm, utOf, Ann.tm, tANY, tUDN, tUD, tNIL, tFALSE, tTRUE, tINT, tFLT, tIARR, tFARR, tTAB, tSTR, tFUN, ht]

/-- It does store values of the type. -/
theorem setupvalue_stores (G : Env) (W : World) (n : Nat) (c : Ann) (v : Val) (s : St) (hc : G.up[n]? = some (some c)) (hv : TagOf c v)
    (hu : ∀ u, c = .typ u → v = .nil ∨ W.isType u v = true) : setupvalue G W n v s = (true, { s with ups := s.ups.set n v }) := by
  unfold setupvalue
  rw [hc]
  dsimp only
  rw [if_pos]
  cases c with
  | typ u =>
    rcases hv with rfl | hi
    · simp [checktype, declTm, utOf, Ann.tm, tUDN, tUD, tNIL]
    · rcases hu u rfl with rfl | ht
      · simp [checktype, declTm, utOf, Ann.tm, tUDN, tUD, tNIL]
      · simp [checktype, declTm, utOf, Ann.tm, tUDN, tUD, tNIL, hi, ht]
  | str => rcases hv with rfl | ⟨_, rfl⟩ <;> simp [checktype, declTm, utOf, Ann.tm, tSTRN, tSTR, tNIL]
  | clos => rcases hv with rfl | ⟨_, rfl⟩ <;> simp [checktype, declTm, utOf, Ann.tm, tFUNN, tFUN, tNIL]
  | _ => obtain ⟨_, rfl⟩ := hv; simp [checktype, declTm, utOf, Ann.tm, tINT, tFLT, tIARR, tFARR, tTAB]

/-- `debug.setlocal` never stores a value of another type into a typed variable in scope. -/
theorem setlocal_typed (G : Env) (W : World) (n : Nat) (v : Val) (s : St) (hs : Typed G s) : Typed G (setlocal G W n v s).2 := by
  unfold setlocal
  dsimp only
  split
  · exact hs
  · by_cases h : checktype W (declTm (G.loc[n]?.getD none)) (utOf (G.loc[n]?.getD none)) v = true
    · rw [if_pos h]
      refine (typed_iff _ _).1 (wr_wt ((typed_iff _ _).2 hs) fun t ht => ?_)
      rw [ht] at h
      exact check_has h
    · rw [if_neg h]
      exact hs

/-- `debug.upvaluejoin` with an upvalue of a well-typed function keeps the tags. Missing: the user type, see `join_usertype`. -/
theorem upvaluejoin_partial (G : Env) (n : Nat) (c' : Decl) (v : Val) (s : St) (hs : Typed G s) (hv : ∀ a, c' = some a → TagOf a v) :
    Typed G (upvaluejoin G n c' v s) := by
  unfold upvaluejoin
  cases hc : G.up[n]? with
  | none => exact hs
  | some c =>
    dsimp only
    split
    · rename_i e
      refine (typed_iff _ _).1 (setup_wt ((typed_iff _ _).2 hs) fun t ht => ?_)
      rw [hc] at ht
      cases ht
      rw [e]
      cases c' with
      | none => exact has_any v
      | some a => exact (has_tag a v).2 (hv a rfl)
    · exact hs

/-! ## What the compiler lets through -/

/-- A world in which every operation gives nil; floats are named by the integer they equal. -/
def W0 : World where
  orc _ := some .nil
  shared _ := ([], [])
  elI _ := some 0
  elF _ := some 0
  res _ := some []
  dots := [.str "x", .str "s"]
  numbit _ := none
  toInt n := some n
  ofInt i := i.toNat
  iop _ i j := some (i + j)
  fop _ a b := a + b
  rel _ := false
  isType u v := u = "Foo" ∧ v = .udata 0

/-- `i: integer`, `x`, `y`. -/
def G0 : Env := ⟨[some .int, none, none], []⟩

/-- `i = x or y` stores `x` unchecked: the pending `TESTSET` writes the register of `i`. -/
theorem or_store : Typed G0 ⟨[.int 0, .str "s", .nil], [], 0⟩ ∧
    run W0 9 G0 (.assign 0 (.or (.loc 1) (.loc 2))) ⟨[.int 0, .str "s", .nil], [], 0⟩ = .ok ⟨[.str "s", .str "s", .nil], [], 0⟩ ∧
    run W0 9 G0 (.seq (.assign 0 (.or (.loc 1) (.loc 2))) (.expr (.bin .add (.loc 0) (.int 1)))) ⟨[.int 0, .str "s", .nil], [], 0⟩ = .ub :=
  ⟨(typed_iff _ _).1 (by
    refine ⟨rfl, fun n t h => ?_, rfl, fun n t h => by simp [G0] at h⟩
    match n with
    | 0 => cases h; exact ⟨_, rfl, hii 0⟩
    | 1 => cases h; exact ⟨_, rfl, has_any _⟩
    | 2 => cases h; exact ⟨_, rfl, has_any _⟩
    | n + 3 => simp [G0] at h), by decide +kernel, by decide +kernel⟩

/-- `local a: integer[] = x or {}` changes the constructor to an array and leaves `x` unchecked; `a[1]` then reads any value as an array. -/
theorem or_array : run W0 9 ⟨[none], []⟩ (.local_ [some .iarr] [.or (.loc 0) .tnew]) ⟨[.str "s"], [], 0⟩ = .ok ⟨[.str "s", .str "s"], [], 0⟩ ∧
    run W0 9 ⟨[none], []⟩ (.seq (.local_ [some .iarr] [.or (.loc 0) .tnew]) (.expr (.index (.loc 1) (.int 1)))) ⟨[.str "s"], [], 0⟩ = .ub := by
  decide +kernel

/-- `@integer (x or y)` does not check `x`. -/
theorem or_assert : run W0 9 ⟨[none, none], []⟩ (.local_ [some .int] [.cast .int (.or (.loc 0) (.loc 1))]) ⟨[.str "s", .nil], [], 0⟩
    = .ok ⟨[.str "s", .nil, .str "s"], [], 0⟩ := by decide +kernel

/-- `@integer f` on a variable `f: number` changes the variable itself to an integer; later arithmetic on it is undefined. -/
theorem assert_in_place : run W0 9 ⟨[some .num], []⟩ (.expr (.cast .int (.loc 0))) ⟨[.flt 2], [], 0⟩ = .ok ⟨[.int 2], [], 0⟩ ∧
    run W0 9 ⟨[some .num], []⟩ (.seq (.expr (.cast .int (.loc 0))) (.expr (.bin .add (.loc 0) (.loc 0)))) ⟨[.flt 2], [], 0⟩ = .ub := by decide +kernel

/-- `local x, j: integer = ...` does not check the second value. -/
theorem dots_unchecked : run W0 9 ⟨[], []⟩ (.local_ [none, some .int] [.dots]) ⟨[], [], 0⟩ = .ok ⟨[.str "x", .str "s"], [], 0⟩ := by decide +kernel

/-- With `f` changing `x`, the operand of `(@integer x) + (@integer f())` is no longer the value that was checked. -/
theorem assert_then_call : run { W0 with res := fun _ => some [.int 1], shared := fun _ => ([.str "s"], []) } 9 ⟨[none], []⟩
    (.expr (.bin .add (.cast .int (.loc 0)) (.cast .int .call))) ⟨[.int 1], [], 0⟩ = .ub := by decide +kernel

/-- `local b: Bar = a` with `a: Foo` is accepted without any check. -/
theorem usertype_init : run W0 9 ⟨[some (.typ "Foo")], []⟩ (.local_ [some (.typ "Bar")] [.loc 0]) ⟨[.udata 0], [], 0⟩ = .ok ⟨[.udata 0, .udata 0], [], 0⟩ ∧
    W0.isType "Bar" (.udata 0) = false := by decide +kernel

/-- `u = a` for an upvalue `u: Bar` and `a: Foo`. -/
theorem usertype_up : run W0 9 ⟨[some (.typ "Foo")], [some (.typ "Bar")]⟩ (.assignUp 0 (.loc 0)) ⟨[.udata 0], [.nil], 0⟩ = .ok ⟨[.udata 0], [.udata 0], 0⟩ := by
  decide +kernel

/-- Joining an upvalue of one user type to one of another. -/
theorem join_usertype : (upvaluejoin ⟨[], [some (.typ "Bar")]⟩ 0 (some (.typ "Foo")) (.udata 0) ⟨[], [.nil], 0⟩).ups = [.udata 0] ∧
    W0.isType "Bar" (.udata 0) = false := by decide +kernel

/-- `local a: integer[] = @string (x or {}).f`: the field `pc` of the constructor survives, so the string is accepted as an array. -/
theorem stale_constructor : run { W0 with orc := fun _ => some (.str "s") } 9 ⟨[none], []⟩
    (.local_ [some .iarr] [.cast .str (.index (.or (.loc 0) .tnew) (.str "f"))]) ⟨[.tab 0], [], 0⟩ = .ok ⟨[.tab 0, .str "s"], [], 1⟩ := by decide +kernel

/-- `i = y` with an untyped local `y` converts `y` as well. -/
theorem assign_changes_source : run W0 9 ⟨[some .int, none], []⟩ (.assign 0 (.loc 1)) ⟨[.int 0, .flt 2], [], 0⟩ = .ok ⟨[.int 2, .int 2], [], 0⟩ := by
  decide +kernel

/-- A function that uses an upvalue `i: integer`, dumped and loaded again, reads the number out of nil. -/
theorem loaded_upvalue : run W0 9 ⟨[], [none, some .int]⟩ (.expr (.bin .add (.up 1) (.int 1))) ⟨[], loaded ⟨[], [none, some .int]⟩ 0, 0⟩ = .ub := by
  decide +kernel

/-- With a metamethod for numbers, `(x & 1) + 1` for `x: number` reads the number out of any value. -/
theorem number_metamethod : run { W0 with toInt := fun _ => none, numbit := fun _ => some (.str "s") } 9 ⟨[some .num], []⟩
    (.expr (.bin .add (.bin .band (.loc 0) (.int 1)) (.int 1))) ⟨[.flt 0], [], 0⟩ = .ub := by decide +kernel

/-- `debug.setlocal` on the slot of a variable that is not in scope yet: in `local i: integer, x = 1, f()` the function `f` can store any value into
the temporary of `i`. -/
theorem setlocal_temporary : setlocal ⟨[], []⟩ W0 0 (.str "s") ⟨[.int 1], [], 0⟩ = (true, ⟨[.str "s"], [], 0⟩) := by decide +kernel

/-- An assertion leaves the compiler with (part of) the asserted type, whether code is generated for it or not; except for the constructor of a table that is
taken to be an array already (`stale_constructor`). -/
theorem assertion_type (c : Ann) (d : D) (h : castAct c d ≠ .bad) (hf : ∀ x, d.k = .kflt x → d.tm = tFLT) (hi : ∀ x, d.k = .kint x → d.tm = tINT)
    (hp : d.pc = .none ∨ d.pc = .fresh) : sub (castD c d).tm c.tm = true := by
  have hpc : (disch d).pc = d.pc := by cases hk : d.k <;> simp only [disch, hk]
  have hf' : ∀ x, (disch d).k = .kflt x → (disch d).tm = tFLT := by
    intro x hx
    cases hk : d.k <;> simp only [disch, hk, reduceCtorEq] at hx ⊢
    exact hf _ hk
  have hi' : ∀ x, (disch d).k = .kint x → (disch d).tm = tINT := by
    intro x hx
    cases hk : d.k <;> simp only [disch, hk, reduceCtorEq] at hx ⊢
    exact hi _ hk
  have hs : ∀ t, sub t t = true := by intro t; simp [sub]
  have skip : castAct c d = .skip → sub (disch d).tm c.tm = true := by
    intro e
    unfold castAct at e
    dsimp only at e
    rw [← hpc] at hp
    have regs : (match c with
        | .int | .num | .tab => if (disch d).tm = c.tm then CastAct.skip else .conv
        | .iarr | .farr =>
          if (disch d).tm = c.tm then .skip
          else if (disch d).tm = tTAB ∧ (disch d).pc ≠ Pc.none then (if (disch d).pc = Pc.fresh then .patch else .skip)
          else .conv
        | .str | .clos => if sub (disch d).tm c.tm then .skip else .conv
        | .typ _ => .conv) = .skip → sub (disch d).tm c.tm = true := by
      intro e
      have arr : ∀ t, (if (disch d).tm = t then CastAct.skip
          else if (disch d).tm = tTAB ∧ (disch d).pc ≠ Pc.none then (if (disch d).pc = Pc.fresh then .patch else .skip)
          else .conv) = .skip → sub (disch d).tm t = true := by
        intro t e
        split at e
        · rename_i e1; rw [e1]; exact hs _
        · split at e
          · rename_i e2
            rw [if_pos (hp.resolve_left e2.2)] at e
            exact nomatch e
          · exact nomatch e
      have eq : ∀ t, (if (disch d).tm = t then CastAct.skip else .conv) = .skip → sub (disch d).tm t = true := by
        intro t e
        split at e
        · rename_i e1; rw [e1]; exact hs _
        · exact nomatch e
      have sb : ∀ t, (if sub (disch d).tm t then CastAct.skip else .conv) = .skip → sub (disch d).tm t = true := by
        intro t e
        split at e
        · assumption
        · exact nomatch e
      cases c with
      | int => exact eq _ e
      | num => exact eq _ e
      | tab => exact eq _ e
      | iarr => exact arr _ e
      | farr => exact arr _ e
      | str => exact sb _ e
      | clos => exact sb _ e
      | typ n => exact nomatch e
    cases hk : (disch d).k <;> rw [hk] at e <;> dsimp only at e
    case kflt x =>
      split at e
      · rename_i e1; rw [hf' x hk, e1]; decide
      · exact nomatch e
    case kint x =>
      split at e
      · rename_i e1; rw [hi' x hk, e1]; decide
      · exact nomatch e
    case k x =>
      split at e
      · rename_i e1; rw [e1.1, e1.2]; decide
      · exact nomatch e
    case reloc => exact regs e
    case nonreloc => exact regs e
    all_goals exact nomatch e
  unfold castD
  have htm : (match (disch d).k with | .reloc _ => { disch d with k := .nonreloc none } | _ => disch d : D).tm = (disch d).tm := by split <;> rfl
  cases hc : castAct c d with
  | bad => exact absurd hc h
  | skip => exact htm ▸ skip hc
  | patch => exact hs _
  | conv => exact hs _

example : ∃ d, st ⟨[none], []⟩ (.loc 0) = some d ∧ castAct .str d = .conv ∧ castAct .str (castD .str d) = .skip ∧ (castD .str d).pc = .none := ⟨_, rfl, rfl, rfl, rfl⟩

/-! ## The hypotheses are met -/

/-- A program with typed variables, arrays, a loop, a call and an assertion:
`local i: integer, a: integer[] = 0, {}; while i < #a do a[i] = a[i] + i; i = @integer(f()); x = i or a end; local t: table = f()`. -/
def P0 : S :=
  .seq (.local_ [some .int, some .iarr] [.int 0, .tnew])
    (.seq (.while_ (.cmp .lt (.loc 1) (.un .len (.loc 2)))
        (.seq (.assignIdx (.loc 2) (.loc 1) (.bin .add (.index (.loc 2) (.loc 1)) (.loc 1)))
          (.seq (.assign 1 (.cast .int .call)) (.assign 0 (.or (.loc 1) (.loc 2))))))
      (.local_ [some .tab] [.call]))

example : goodS ⟨[none], []⟩ P0 = true := by decide +kernel

example : Typed ⟨[none], []⟩ ⟨[.nil], [], 0⟩ := ⟨⟨rfl, fun n c h => by
  match n with
  | 0 => simp at h
  | n + 1 => simp at h⟩, rfl, fun n c h => by simp at h⟩

example : run { W0 with res := fun _ => some [.tab 7] } 20 ⟨[none], []⟩ P0 ⟨[.nil], [], 0⟩ = .ok ⟨[.nil, .int 0, .iarr 0, .tab 7], [], 4⟩ := by decide +kernel

example : run { W0 with rel := fun n => n < 4, res := fun n => some [if n < 7 then .int 3 else .tab 7] } 20 ⟨[none], []⟩ P0 ⟨[.nil], [], 0⟩
    = .ok ⟨[.int 3, .int 3, .iarr 0, .tab 7], [], 8⟩ := by decide +kernel

end Verif.Typed
