import Verif.Scope.Steps
/-!
Property C76: a name is the variable declared last among those visible, functions share the variables around them, and blocks
whose variables are shared are closed.
-/
namespace Verif.Scope

/-- what can be seen of an event in the parser: references are given as the variable they reach through
registers and upvalues of the functions that are open -/
def observed (s' : PS) : Out → Option AOut
  | .none => some .none
  | .closes (some r) => some (.leave true r)
  | .closes none => some (.leave false 0)
  | .proto _ => some .proto
  | .ref (.var v) => (denotes s'.act s'.fs v).map .var
  | .ref (.field v) => (denotes s'.act s'.fs v).map .field

/-- what can be seen of a block that needs no closing -/
def AOut.seen : AOut → AOut
  | .leave false _ => .leave false 0
  | o => o

/-- what is seen while the parser reads a program -/
def observe (s : PS) : List Ev → Res (List AOut)
  | [] => .ok []
  | e :: es =>
    match step s e with
    | .ok (o, s') =>
      match observed s' o with
      | none => .ub
      | some x =>
        match observe s' es with
        | .ok l => .ok (x :: l)
        | .err m => .err m
        | .ub => .ub
    | .err m => .err m
    | .ub => .ub

theorem observed_of {s' : PS} {o : Out} {ao : AOut} (h : Match s' o ao) : observed s' o = some ao.seen := by
  cases o with
  | none => cases ao <;> first | rfl | exact h.elim
  | closes r =>
    cases ao with
    | leave used outer =>
      dsimp only [Match] at h
      cases used <;> (simp at h; subst h; rfl)
    | _ => exact h.elim
  | proto ups => cases ao <;> first | rfl | exact h.elim
  | ref r =>
    cases r with
    | var v =>
      cases ao with
      | var d => dsimp only [Match] at h; simp only [observed, h]; rfl
      | _ => exact h.elim
    | field v =>
      cases ao with
      | field d => dsimp only [Match] at h; simp only [observed, h]; rfl
      | _ => exact h.elim

theorem observe_spec : ∀ (es : List Ev) (s : PS) (a : A), Inv s a →
    (∃ outs a', A.run a es = some (outs, a') ∧ observe s es = .ok (outs.map AOut.seen)) ∨
    (∃ m, observe s es = .err m) ∨ (A.run a es = none ∧ observe s es = .ub) := by
  intro es
  induction es with
  | nil => intro s a _; exact Or.inl ⟨[], a, rfl, rfl⟩
  | cons e es ih =>
    intro s a h
    have hs := step_spec h e
    simp only [A.run, observe]
    cases ha : a.step e with
    | none =>
      rw [ha] at hs
      dsimp only at hs
      rw [hs]
      exact Or.inr (Or.inr ⟨rfl, rfl⟩)
    | some p =>
      obtain ⟨ao, a'⟩ := p
      rw [ha] at hs
      dsimp only at hs
      rcases hs with ⟨o, s', h1, h2, h3⟩ | ⟨m, h1, _⟩
      · rw [h1]
        dsimp only
        rw [observed_of h3]
        dsimp only
        rcases ih s' a' h2 with ⟨outs, a'', i1, i2⟩ | ⟨m, i1⟩ | ⟨i1, i2⟩
        · rw [i1, i2]; exact Or.inl ⟨_, _, rfl, rfl⟩
        · rw [i1]; exact Or.inr (Or.inl ⟨_, rfl⟩)
        · rw [i1, i2]; exact Or.inr (Or.inr ⟨rfl, rfl⟩)
      · rw [h1]
        exact Or.inr (Or.inl ⟨_, rfl⟩)

/-- **C76** (names).  In every program that the parser accepts, every name is, at the place of its use, the
visible variable of that name declared last; if there is none it is a field of the variable `_ENV`, found in the same way.  The variable
is reached through the register or the chain of upvalue descriptors that the parser records.  A block is closed exactly when one of its
variables has been used by a function inside, from the block's first register on. -/
theorem names_are_lexical (es : List Ev) (l : List AOut) (h : observe init es = .ok l) :
    ∃ outs a, A.run A.init es = some (outs, a) ∧ l = outs.map AOut.seen := by
  rcases observe_spec es init A.init init_inv with ⟨outs, a, h1, h2⟩ | ⟨m, h1⟩ | ⟨h1, h2⟩
  · rw [h2] at h
    cases h
    exact ⟨outs, a, h1, rfl⟩
  · rw [h1] at h; cases h
  · rw [h2] at h; cases h

/-- **C76** (nothing undefined).  On every sequence of events that blocks and functions allow, the parser goes on or
raises an error. -/
theorem parser_defined (es : List Ev) (h : A.run A.init es ≠ none) : observe init es ≠ .ub := by
  rcases observe_spec es init A.init init_inv with ⟨outs, a, h1, h2⟩ | ⟨m, h1⟩ | ⟨h1, h2⟩
  · rw [h2]; exact (fun e => nomatch e)
  · rw [h1]; exact (fun e => nomatch e)
  · exact absurd h1 h

/-- the states of the parser, with the scopes -/
def Reach (s : PS) (a : A) : Prop :=
  ∃ es outs aouts, run init es = .ok (outs, s) ∧ A.run A.init es = some (aouts, a)

theorem run_inv : ∀ (es : List Ev) (s s' : PS) (a : A) (outs : List Out), Inv s a → run s es = .ok (outs, s') →
    ∃ aouts a', A.run a es = some (aouts, a') ∧ Inv s' a' := by
  intro es
  induction es with
  | nil => intro s s' a outs h hr; cases hr; exact ⟨[], a, rfl, h⟩
  | cons e es ih =>
    intro s s' a outs h hr
    have hs := step_spec h e
    simp only [run] at hr
    cases ha : a.step e with
    | none =>
      rw [ha] at hs
      dsimp only at hs
      rw [hs] at hr
      cases hr
    | some p =>
      obtain ⟨ao, a1⟩ := p
      rw [ha] at hs
      dsimp only at hs
      rcases hs with ⟨o, s1, h1, h2, h3⟩ | ⟨m, h1, _⟩
      · rw [h1] at hr
        dsimp only at hr
        cases hr1 : run s1 es with
        | ok x =>
          obtain ⟨os, s2⟩ := x
          rw [hr1] at hr
          cases hr
          obtain ⟨aouts, a', i1, i2⟩ := ih s1 _ a1 os h2 hr1
          exact ⟨ao :: aouts, a', by simp only [A.run, ha, i1], i2⟩
        | err m => rw [hr1] at hr; cases hr
        | ub => rw [hr1] at hr; cases hr
      · rw [h1] at hr; cases hr

theorem Reach.inv {s : PS} {a : A} (h : Reach s a) : Inv s a := by
  obtain ⟨es, outs, aouts, h1, h2⟩ := h
  obtain ⟨aouts', a', i1, i2⟩ := run_inv es init s A.init outs init_inv h1
  rw [h2] at i1
  cases i1
  exact i2

/-- **C76** (the limits).  The parser refuses only when a function has 125 upvalues already, or 125
variables. -/
theorem limits {s : PS} {a : A} (h : Reach s a) (e : Ev) (m : String) (he : step s e = .err m) :
    (∃ n, e = .use n ∧ ∃ f ∈ s.fs, 125 ≤ f.ups.length) ∨
    (∃ n, e = .new n ∧ ∃ f fs, s.fs = f :: fs ∧ f.firstlocal + 125 ≤ s.act.length) := by
  have hs := step_spec h.inv e
  cases ha : a.step e with
  | none => rw [ha] at hs; dsimp only at hs; rw [hs] at he; cases he
  | some p =>
    rw [ha] at hs
    obtain ⟨ao, a'⟩ := p
    dsimp only at hs
    rcases hs with ⟨o, s', h1, _⟩ | ⟨m, h1, h2⟩
    · rw [h1] at he; cases he
    · cases e with
      | use n => exact Or.inl ⟨n, rfl, h2⟩
      | new n => exact Or.inr ⟨n, rfl, h2⟩
      | _ => exact h2.elim

/-- **C76** (registers and upvalues).  A variable of the function itself is used in its register, a variable of a function around
it as an upvalue. -/
theorem local_iff {s s' : PS} {a : A} (h : Reach s a) {n d : Nat} {v : Var} (hl : look n a.funcs = some d)
    (hs : step s (.use n) = .ok (.ref (.var v), s')) :
    denotes s'.act s'.fs v = some d ∧
    ((∃ r, v = .loc r) ↔ ∃ f fs, a.funcs = f :: fs ∧ ∃ x ∈ f.vis, x.name = n) := by
  rcases use_inv h.inv hl with ⟨fs', v', e1, e2, e3, e4, _, e5⟩ | ⟨e1, e2⟩
  · simp only [step, singlevar, e1] at hs
    cases v' with
    | void => exact absurd rfl e2
    | loc r =>
      cases hs
      refine ⟨e4, ?_⟩
      rw [e5]
      simp only [List.find?_isSome, decide_eq_true_eq]
    | upv i =>
      cases hs
      refine ⟨e4, ?_⟩
      rw [e5]
      simp only [List.find?_isSome, decide_eq_true_eq]
  · simp only [step, singlevar, e1] at hs
    cases hs

/-! ### upvalues stay what they are -/

/-- where a function that is open now is after an event: how many functions are open inside it; `none` when it
is closed -/
def inner : Nat → List Ev → Option Nat
  | p, [] => some p
  | p, .func :: es => inner (p + 1) es
  | 0, .endfunc :: _ => none
  | p + 1, .endfunc :: es => inner p es
  | p, _ :: es => inner p es

theorem Rel.drop {cap : List Nat} : ∀ (p : Nat) {fs : List FS} {as : List AF} {act : List Decl}, Rel cap act fs as →
    ∃ pre x, act = pre ++ x ∧ Rel cap pre (fs.drop p) (as.drop p) := by
  intro p
  induction p with
  | zero => intro fs as act h; exact ⟨act, [], by simp, h⟩
  | succ p ih =>
    intro fs as act h
    cases fs with
    | nil =>
      cases as with
      | nil => exact ⟨act, [], by simp, h⟩
      | cons => exact h.elim
    | cons f fs =>
      cases as with
      | nil => exact h.elim
      | cons a as =>
        obtain ⟨pre, h1, _, _, _, _, _, _, h8⟩ := h
        obtain ⟨pre', x, e1, e2⟩ := ih h8
        exact ⟨pre', x ++ (a.vis.reverse ++ a.pending), by rw [h1, e1]; simp, e2⟩

/-- an upvalue is what its name stands for around the function -/
theorem upv_denotes {s : PS} {a : A} (h : Inv s a) {p i : Nat} {f : FS} {fs : List FS} {u : Up}
    (hf : s.fs.drop p = f :: fs) (hu : f.ups[i]? = some u) :
    ∃ d, denotes s.act (s.fs.drop p) (.upv i) = some d ∧ look u.name (a.funcs.drop (p + 1)) = some d := by
  obtain ⟨pre, x, e1, e2⟩ := h.rel.drop p
  rw [hf] at e2
  cases ha : a.funcs.drop p with
  | nil => rw [ha] at e2; exact e2.elim
  | cons a' as' =>
    have hr := e2
    rw [ha] at e2
    obtain ⟨pre', h1, _, _, _, _, h6, _, h8⟩ := e2
    obtain ⟨d, q1, q2, _⟩ := h6 u (List.mem_of_getElem? hu)
    refine ⟨d, ?_, ?_⟩
    · rw [e1, hf, denotes_append _ _ _ _ _ _ hr]
      simp only [denotes, hu]
      rw [h1, denotes_append _ _ _ _ _ _ h8]
      exact q2
    · rw [← List.tail_drop, ha]
      exact q1

theorem Ext.drop : ∀ (p : Nat) {fs gs : List FS}, Ext fs gs → Ext (fs.drop p) (gs.drop p) := by
  intro p
  induction p with
  | zero => intro fs gs h; exact h
  | succ p ih =>
    intro fs gs h
    cases fs with
    | nil => cases gs with | nil => exact h | cons => exact h.elim
    | cons f fs => cases gs with | nil => exact h.elim | cons g gs => exact ih h.2.2.2

theorem singlevar_ext {s s' : PS} {a : A} (h : Inv s a) {n : Nat} {r : Ref} (hs : singlevar s n = .ok (s', r)) :
    Ext s.fs s'.fs ∧ s'.act = s.act := by
  simp only [singlevar] at hs
  cases hl : look n a.funcs with
  | some d =>
    rcases use_inv h hl with ⟨fs', v, e1, e2, _, _, e3, _⟩ | ⟨e1, _⟩
    · rw [e1] at hs
      cases v with
      | void => exact absurd rfl e2
      | loc r => cases hs; exact ⟨e3, rfl⟩
      | upv i => cases hs; exact ⟨e3, rfl⟩
    · rw [e1] at hs; cases hs
  | none =>
    have e0 := (singlevaraux_spec n _ _ s.act [] a.captured true h.rel (by simpa using h.nodup) h.pos h.zero (Or.inl h.ne)).1 hl
    rw [List.append_nil] at e0
    rw [e0] at hs
    dsimp only at hs
    cases hle : look env a.funcs with
    | none =>
      have e1 := (singlevaraux_spec env _ _ s.act [] a.captured true h.rel (by simpa using h.nodup) h.pos h.zero (Or.inl h.ne)).1 hle
      rw [List.append_nil] at e1
      rw [e1] at hs
      cases hs
      exact ⟨Ext.refl _, rfl⟩
    | some d =>
      rcases use_inv h hle with ⟨fs', v, e1, e2, _, _, e3, _⟩ | ⟨e1, _⟩
      · rw [e1] at hs; cases hs; exact ⟨e3, rfl⟩
      · rw [e1] at hs; cases hs

/-- the functions around an open function, and its upvalues, under an event inside -/
theorem step_outer {s s' : PS} {a a' : A} {e : Ev} {o : Out} {ao : AOut} (h : Inv s a) (hs : step s e = .ok (o, s'))
    (ha : a.step e = some (ao, a')) (p p' : Nat) (hp : inner p [e] = some p') (i : Nat) (u : Up) (f : FS) (fs : List FS)
    (hf : s.fs.drop p = f :: fs) (hu : f.ups[i]? = some u) :
    a'.funcs.drop (p' + 1) = a.funcs.drop (p + 1) ∧ ∃ f' fs', s'.fs.drop p' = f' :: fs' ∧ f'.ups[i]? = some u := by
  obtain ⟨act, gs, next⟩ := s
  obtain ⟨as, anext, cap⟩ := a
  have same : ∀ (g g' : FS) (gs : List FS) (q : Nat), g.ups = g'.ups → (g :: gs).drop q = f :: fs →
      ∃ f' fs', (g' :: gs).drop q = f' :: fs' ∧ f'.ups[i]? = some u := by
    intro g g' gs q hg hd
    cases q with
    | zero =>
      simp only [List.drop_zero, List.cons.injEq] at hd
      refine ⟨g', gs, rfl, ?_⟩
      rw [← hg, hd.1]; exact hu
    | succ q => exact ⟨f, fs, hd, hu⟩
  cases e with
  | new n =>
    cases hp
    simp only [A.step] at ha
    simp only [step, newLocalvar] at hs
    cases as with
    | nil => cases ha
    | cons x xs =>
      cases ha
      cases gs with
      | nil => cases hs
      | cons g gs =>
        dsimp only at hs
        split at hs
        · rename_i s1 heq
          split at heq
          · cases heq
          · cases heq; cases hs; exact ⟨rfl, f, fs, hf, hu⟩
        · cases hs
        · cases hs
  | activate k =>
    cases hp
    simp only [A.step] at ha
    simp only [step, adjustlocalvars] at hs
    cases as with
    | nil => cases ha
    | cons x xs =>
      dsimp only at ha
      split at ha
      · split at ha
        · cases ha
          cases gs with
          | nil => cases hs
          | cons g gs =>
            dsimp only at hs
            split at hs
            · rename_i s1 heq
              split at heq
              · cases heq; cases hs; exact ⟨rfl, same g _ gs _ rfl hf⟩
              · cases heq
            · cases hs
            · cases hs
        · cases ha
      · cases ha
  | enter =>
    cases hp
    simp only [A.step] at ha
    simp only [step] at hs
    cases as with
    | nil => cases ha
    | cons x xs =>
      cases ha
      cases gs with
      | nil => cases hs
      | cons g gs => cases hs; exact ⟨rfl, same g _ gs _ rfl hf⟩
  | leave =>
    cases hp
    simp only [A.step] at ha
    simp only [step, leaveblock] at hs
    cases as with
    | nil => cases ha
    | cons x xs =>
      dsimp only at ha
      split at ha
      · cases ha
        cases gs with
        | nil => cases hs
        | cons g gs =>
          dsimp only at hs
          split at hs
          · split at hs
            · cases hs; exact ⟨rfl, same g _ gs _ rfl hf⟩
            · cases hs
          · cases hs
      · cases ha
  | func =>
    cases hp
    cases ha
    cases hs
    exact ⟨rfl, f, fs, hf, hu⟩
  | endfunc =>
    cases p with
    | zero => cases hp
    | succ q =>
      cases hp
      simp only [A.step] at ha
      simp only [step, closeFunc] at hs
      cases as with
      | nil => cases ha
      | cons x xs =>
        cases xs with
        | nil => cases ha
        | cons y ys =>
          dsimp only at ha
          split at ha
          · cases ha
            cases gs with
            | nil => cases hs
            | cons g gs =>
              cases gs with
              | nil => cases hs
              | cons g' gs =>
                dsimp only at hs
                split at hs
                · split at hs
                  · cases hs; exact ⟨rfl, f, fs, hf, hu⟩
                  · cases hs
                · cases hs
          · cases ha
  | use n =>
    cases hp
    simp only [A.step] at ha
    simp only [step] at hs
    have hsame : a'.funcs = as := by
      have hc : ∀ (a : A) (m : Nat), (a.capture m).funcs = a.funcs := by
        intro a m; rw [capture_eq]
      split at ha
      · cases ha; exact hc _ _
      · split at ha
        · cases ha; exact hc _ _
        · cases ha
    split at hs
    · rename_i s1 r1 heq
      cases hs
      obtain ⟨e1, e2⟩ := singlevar_ext h heq
      refine ⟨by rw [hsame], ?_⟩
      have := e1.drop p
      rw [hf] at this
      cases hd : s'.fs.drop p with
      | nil => rw [hd] at this; exact this.elim
      | cons f' fs' =>
        rw [hd] at this
        obtain ⟨_, _, ⟨x, hx⟩, _⟩ := this
        refine ⟨f', fs', rfl, ?_⟩
        rw [hx, List.getElem?_append_left (List.getElem?_eq_some_iff.1 hu).1]; exact hu
    · cases hs
    · cases hs

theorem inner_cons (p : Nat) (e : Ev) (es : List Ev) (d : Nat) (h : inner p (e :: es) = some d) :
    ∃ p', inner p [e] = some p' ∧ inner p' es = some d := by
  cases e with
  | endfunc =>
    cases p with
    | zero => cases h
    | succ p => exact ⟨p, rfl, h⟩
  | func => exact ⟨p + 1, rfl, h⟩
  | _ => exact ⟨p, by cases p <;> rfl, by cases p <;> exact h⟩

theorem upvalue_stable_aux : ∀ (es : List Ev) (s s' : PS) (a : A) (outs : List Out) (p q i : Nat) (u : Up) (f : FS)
    (fs : List FS) (d : Nat), Inv s a → run s es = .ok (outs, s') → inner p es = some q → s.fs.drop p = f :: fs →
    f.ups[i]? = some u → denotes s.act (s.fs.drop p) (.upv i) = some d →
    denotes s'.act (s'.fs.drop q) (.upv i) = some d := by
  intro es
  induction es with
  | nil => intro s s' a outs p q i u f fs d _ hr hq _ _ hd; cases hr; cases hq; exact hd
  | cons e es ih =>
    intro s s' a outs p q i u f fs d h hr hq hf hu hd
    obtain ⟨p', hp1, hp2⟩ := inner_cons p e es q hq
    have hs := step_spec h e
    simp only [run] at hr
    cases ha : a.step e with
    | none => rw [ha] at hs; dsimp only at hs; rw [hs] at hr; cases hr
    | some x =>
      obtain ⟨ao, a1⟩ := x
      rw [ha] at hs
      dsimp only at hs
      rcases hs with ⟨o, s1, h1, h2, h3⟩ | ⟨m, h1, _⟩
      · obtain ⟨k1, f', fs', k2, k3⟩ := step_outer h h1 ha p p' hp1 i u f fs hf hu
        rw [h1] at hr
        dsimp only at hr
        cases hr1 : run s1 es with
        | ok x =>
          obtain ⟨os, s2⟩ := x
          rw [hr1] at hr
          cases hr
          refine ih s1 _ a1 os p' q i u f' fs' d h2 hr1 hp2 k2 k3 ?_
          obtain ⟨d1, j1, j2⟩ := upv_denotes h hf hu
          obtain ⟨d2, j3, j4⟩ := upv_denotes h2 k2 k3
          rw [k1] at j4
          rw [j2] at j4
          rw [j1] at hd
          rw [j3, ← j4, hd]
        | err m => rw [hr1] at hr; cases hr
        | ub => rw [hr1] at hr; cases hr
      · rw [h1] at hr; cases hr

/-- **C76** (upvalues are stable).  From when an upvalue of a function is made until the function ends, whatever else is declared and
used inside, it is the same variable. -/
theorem upvalue_stable {s s' : PS} {a : A} (h : Reach s a) (es : List Ev) (outs : List Out) (q i d : Nat)
    (hr : run s es = .ok (outs, s')) (hq : inner 0 es = some q) (hd : denotes s.act s.fs (.upv i) = some d) :
    denotes s'.act (s'.fs.drop q) (.upv i) = some d := by
  cases hf : s.fs with
  | nil => rw [hf] at hd; cases hd
  | cons f fs =>
    rw [hf] at hd
    have hd' := hd
    simp only [denotes] at hd'
    cases hu : f.ups[i]? with
    | none => rw [hu] at hd'; cases hd'
    | some u => exact upvalue_stable_aux es s s' a outs 0 q i u f fs d h.inv hr hq hf hu (by rw [hf]; exact hd)

/-- **C76** (what `OP_CLOSURE` gets).  When a function ends, each descriptor in its prototype names, in the function around
it, the variable that the upvalue was inside. -/
theorem proto_descriptors {s s' : PS} {a : A} (h : Reach s a) {ups : List Up} (hs : step s .endfunc = .ok (.proto ups, s'))
    (i : Nat) (u : Up) (hu : ups[i]? = some u) :
    ∃ d, denotes s.act s.fs (.upv i) = some d ∧
      denotes s'.act s'.fs (if u.instack then .loc u.idx else .upv u.idx) = some d := by
  have hi := h.inv
  obtain ⟨act, gs, next⟩ := s
  simp only [step, closeFunc] at hs
  cases gs with
  | nil => cases hs
  | cons f gs =>
    cases gs with
    | nil => cases hs
    | cons f' gs =>
      dsimp only at hs
      split at hs
      · rename_i hfull
        split at hs
        · rename_i b hb
          dsimp only [removevars] at hs
          cases hs
          have hr := hi.rel
          dsimp only at hr
          cases haf : a.funcs with
          | nil => rw [haf] at hr; exact hr.elim
          | cons x xs =>
            rw [haf] at hr
            obtain ⟨pre, h1, h2, h3, h4, _, h6, _, h8⟩ := hr
            obtain ⟨d, q1, q2, _⟩ := h6 u (List.mem_of_getElem? hu)
            refine ⟨d, ?_, ?_⟩
            · simp only [denotes, hu]
              rw [h1, denotes_append _ _ _ _ _ _ h8]
              exact q2
            · have hb0 : b.nactvar = 0 := by
                rw [hb] at h4
                cases hbl : x.blocks with
                | nil => rw [hbl] at h4; exact h4.elim
                | cons l ls =>
                  rw [hbl] at h4
                  cases ls with
                  | nil => exact h4.1
                  | cons => exact h4.2.2.elim
              have hact : act.take (act.length - (f.nactvar - b.nactvar)) = pre := by
                have : act.length - (f.nactvar - b.nactvar) = pre.length := by rw [hb0, ← h2]; omega
                rw [this, h1]; simp
              dsimp only
              rw [hact]
              exact q2
        · cases hs
      · cases hs

/-! ### examples -/

/-- `local x = 1; local x, y = x, function() return x + z end` … `do local y; function() y = x end end` : names `x` 1, `y` 2, `z` 3 -/
def sample : List Ev :=
  [.new 1, .activate 1,
   .new 1, .new 2, .use 1, .func, .use 1, .use 3, .endfunc, .activate 2,
   .enter, .new 2, .activate 1, .func, .func, .use 2, .use 1, .endfunc, .use 2, .endfunc, .leave, .use 2]

/-- In the initial values `x` is the first `x` (1); in the block, `y` is the third one (4), taken
through two functions, `x` the second one (2), and the block is closed from register 3 on; after it `y` is 3. -/
example : observe init sample = .ok
    [.none, .none, .none, .none, .var 1, .none, .var 1, .field 0, .proto, .none,
     .none, .none, .none, .none, .none, .var 4, .var 2, .proto, .var 4, .proto, .leave true 3, .var 3] := by rfl

example : ∃ l, observe init sample = .ok l ∧ ∃ outs a, A.run A.init sample = some (outs, a) ∧ l = outs.map AOut.seen :=
  ⟨_, rfl, names_are_lexical sample _ rfl⟩

/-- a state inside two functions, with the upvalue `y` made -/
def sampleS : PS := match run init (sample.take 16) with | .ok (_, s) => s | _ => init

/-- the scopes there -/
def sampleA : A := match A.run A.init (sample.take 16) with | some (_, a) => a | none => A.init

example : Reach sampleS sampleA ∧ denotes sampleS.act sampleS.fs (.upv 0) = some 4 ∧
    (∃ outs s', run sampleS [.use 1] = .ok (outs, s') ∧ denotes s'.act s'.fs (.upv 0) = some 4) := by
  have hr : Reach sampleS sampleA := ⟨sample.take 16, _, _, rfl, rfl⟩
  exact ⟨hr, rfl, _, _, rfl, upvalue_stable hr [.use 1] _ 0 0 4 rfl rfl rfl⟩

example : ∃ s', step sampleS .endfunc = .ok (.proto [⟨false, 0, 2⟩], s') ∧
    ∃ d, denotes sampleS.act sampleS.fs (.upv 0) = some d ∧ denotes s'.act s'.fs (.upv 0) = some d :=
  ⟨_, rfl, proto_descriptors ⟨sample.take 16, _, _, rfl, rfl⟩ (a := sampleA) rfl 0 ⟨false, 0, 2⟩ rfl⟩

end Verif.Scope
