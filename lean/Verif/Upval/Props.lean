import Verif.Upval.Steps

/-!
# Closures share variables (C32)

For every history of assignments, captures, calls of functions, scope exits, collections and uses of the debug library.
-/
namespace Verif.Upval

/-- What a history shows. -/
def shown {α : Type} (x : Res (List Out × α)) : Res (List Out) := x >>= fun y => .ok y.1

/-- No history touches a freed upvalue, and everything a program sees is what it would see if each local variable were a cell of its own and functions
held the cells of their variables. -/
theorem variables_are_cells (P : Nat → List Desc) (os : List Op) : run P os init ≠ .ub ∧ shown (run P os init) = shown (Sp.run P os .init) := by
  have h := run_R os (init_R P)
  generalize run P os init = x at h
  generalize Sp.run P os .init = y at h
  cases h with
  | ok h =>
    refine ⟨(fun e => nomatch e), ?_⟩
    show Res.ok _ = Res.ok _
    rw [h.1]
  | err m => exact ⟨(fun e => nomatch e), rfl⟩

/-- States a program can be in. -/
def Reach (P : Nat → List Desc) (s : St) : Prop := ∃ os out, run P os init = .ok (out, s)

theorem Reach.rel {P s} (h : Reach P s) : ∃ r, R P s r := by
  obtain ⟨os, out, h⟩ := h
  have h1 := run_R os (init_R P)
  rw [h] at h1
  generalize Sp.run P os .init = y at h1
  cases h1 with
  | ok h2 => exact ⟨_, h2.2⟩

/-- The operation ends the scope of the slot. -/
def closes (t a : Nat) : Op → Bool
  | .close t' level => t' = t ∧ level ≤ a
  | _ => false

/-- The operation does not free the function or replace its variables. -/
def keeps (c : Nat) : Op → Bool
  | .free c' => c' ≠ c
  | .join c' _ _ _ => c' ≠ c
  | _ => true

theorem sim_ok {α β : Type} {Q : α → β → Prop} {x : Res α} {y : Res β} {a : α} (h : Sim Q x y) (hx : x = .ok a) : ∃ b, y = .ok b ∧ Q a b := by
  subst hx
  cases h with
  | ok h => exact ⟨_, rfl, h⟩

theorem sim_ok' {α β : Type} {Q : α → β → Prop} {x : Res α} {y : Res β} {b : β} (h : Sim Q x y) (hy : y = .ok b) : ∃ a, x = .ok a ∧ Q a b := by
  subst hy
  cases h with
  | ok h => exact ⟨_, rfl, h⟩

theorem ups_lt {r : Sp} {c us} (h : r.ups c = .ok us) : r.clos[c]? = some (some us) := by
  unfold Sp.ups at h
  split at h
  · cases h; assumption
  · exact nomatch h

theorem ups_of {r : Sp} {c : Nat} {us : List Cell} (h : r.clos[c]? = some (some us)) : r.ups c = .ok us := by
  unfold Sp.ups
  rw [h]

theorem append_keep {cl : List (Option (List Cell))} {c : Nat} {us x} (h : cl[c]? = some (some us)) : (cl ++ [x])[c]? = some (some us) := by
  rw [List.getElem?_append_left]
  · exact h
  · rcases Nat.lt_or_ge c cl.length with h1 | h1
    · exact h1
    · rw [List.getElem?_eq_none h1] at h; exact nomatch h

theorem ups_keep {P} {r r' : Sp} {o out c us} (h : r.step P o = .ok (out, r')) (hk : keeps c o = true) (hu : r.ups c = .ok us) : r'.ups c = .ok us := by
  have hc := ups_lt hu
  cases o with
  | set => cases h; exact hu
  | get => cases h; exact hu
  | closure t base p enc black =>
    unfold Sp.step at h
    dsimp only at h
    have key : ∀ es, (r.cells t base es (P p) >>= fun cs => r.last p cs >>= fun old => (match old with
          | some c => (pure (.clo c, r) : Res (Out × Sp))
          | none => pure (.clo r.clos.length, { r with
              clos := r.clos ++ [some cs]
              cap := fun x => r.cap x || x ∈ locs t base r (P p)
              cache := if black then r.cache else fun q => if q = p then some r.clos.length else r.cache q }))) = .ok (out, r') → r'.ups c = .ok us := by
      intro es h
      rw [Res.bind_eq_ok] at h
      obtain ⟨cs, _, h⟩ := h
      rw [Res.bind_eq_ok] at h
      obtain ⟨old, _, h⟩ := h
      cases old with
      | some c => cases h; exact hu
      | none => cases h; exact ups_of (append_keep hc)
    cases enc with
    | none => exact key _ h
    | some c' =>
      dsimp only at h
      rw [Res.bind_eq_ok] at h
      obtain ⟨es, _, h⟩ := h
      exact key _ h
  | load n => cases h; exact ups_of (append_keep hc)
  | getup c i =>
    unfold Sp.step at h
    rw [Res.bind_eq_ok] at h
    obtain ⟨x, _, h⟩ := h
    cases h; exact hu
  | setup c i v =>
    unfold Sp.step at h
    rw [Res.bind_eq_ok] at h
    obtain ⟨x, _, h⟩ := h
    cases h; exact hu
  | close => cases h; exact hu
  | free c' =>
    unfold Sp.step at h
    rw [Res.bind_eq_ok] at h
    obtain ⟨x, _, h⟩ := h
    cases h
    refine ups_of ?_
    show (r.clos.set c' none)[c]? = _
    rw [List.getElem?_set_ne (by simpa [keeps] using hk)]
    exact hc
  | join c' i c'' i' =>
    unfold Sp.step at h
    rw [Res.bind_eq_ok] at h
    obtain ⟨us', _, h⟩ := h
    rw [Res.bind_eq_ok] at h
    obtain ⟨_, _, h⟩ := h
    rw [Res.bind_eq_ok] at h
    obtain ⟨x, _, h⟩ := h
    cases h
    refine ups_of ?_
    show (r.clos.set c' _)[c]? = _
    rw [List.getElem?_set_ne (by simpa [keeps] using hk)]
    exact hc
  | upvalueid c i c' i' =>
    unfold Sp.step at h
    rw [Res.bind_eq_ok] at h
    obtain ⟨x, _, h⟩ := h
    rw [Res.bind_eq_ok] at h
    obtain ⟨y, _, h⟩ := h
    cases h; exact hu
  | defer t a =>
    unfold Sp.step at h
    dsimp only at h
    split at h
    · exact nomatch h
    · cases h; exact hu
  | uncache => cases h; exact hu

theorem ep_step {P} {r r' : Sp} {o out} (h : r.step P o = .ok (out, r')) (t a : Nat) : r'.ep t a = if closes t a o then r.ep t a + 1 else r.ep t a := by
  cases o with
  | set => cases h; rfl
  | get => cases h; rfl
  | closure t base p enc black =>
    unfold Sp.step at h
    dsimp only at h
    have key : ∀ es, (r.cells t base es (P p) >>= fun cs => r.last p cs >>= fun old => (match old with
          | some c => (pure (.clo c, r) : Res (Out × Sp))
          | none => pure (.clo r.clos.length, { r with
              clos := r.clos ++ [some cs]
              cap := fun x => r.cap x || x ∈ locs t base r (P p)
              cache := if black then r.cache else fun q => if q = p then some r.clos.length else r.cache q }))) = .ok (out, r') → r'.ep = r.ep := by
      intro es h
      rw [Res.bind_eq_ok] at h
      obtain ⟨cs, _, h⟩ := h
      rw [Res.bind_eq_ok] at h
      obtain ⟨old, _, h⟩ := h
      cases old with
      | some c => cases h; rfl
      | none => cases h; rfl
    cases enc with
    | none => rw [key _ h]; rfl
    | some c' =>
      dsimp only at h
      rw [Res.bind_eq_ok] at h
      obtain ⟨es, _, h⟩ := h
      rw [key _ h]; rfl
  | load n => cases h; rfl
  | getup c i =>
    unfold Sp.step at h
    rw [Res.bind_eq_ok] at h
    obtain ⟨x, _, h⟩ := h
    cases h; rfl
  | setup c i v =>
    unfold Sp.step at h
    rw [Res.bind_eq_ok] at h
    obtain ⟨x, _, h⟩ := h
    cases h; rfl
  | close t' level =>
    cases h
    show (if t = t' ∧ level ≤ a then r.ep t a + 1 else r.ep t a) = if decide (t' = t ∧ level ≤ a) then _ else _
    by_cases e : t = t' ∧ level ≤ a
    · rw [if_pos e, if_pos (by simpa using ⟨e.1.symm, e.2⟩)]
    · rw [if_neg e, if_neg (by simpa using fun h1 => by have := fun h2 => e ⟨h1.symm, h2⟩; omega)]
  | free c' =>
    unfold Sp.step at h
    rw [Res.bind_eq_ok] at h
    obtain ⟨x, _, h⟩ := h
    cases h; rfl
  | join c' i c'' i' =>
    unfold Sp.step at h
    rw [Res.bind_eq_ok] at h
    obtain ⟨us', _, h⟩ := h
    rw [Res.bind_eq_ok] at h
    obtain ⟨_, _, h⟩ := h
    rw [Res.bind_eq_ok] at h
    obtain ⟨x, _, h⟩ := h
    cases h; rfl
  | upvalueid c i c' i' =>
    unfold Sp.step at h
    rw [Res.bind_eq_ok] at h
    obtain ⟨x, _, h⟩ := h
    rw [Res.bind_eq_ok] at h
    obtain ⟨y, _, h⟩ := h
    cases h; rfl
  | defer t a =>
    unfold Sp.step at h
    dsimp only at h
    split at h
    · exact nomatch h
    · cases h; rfl
  | uncache => cases h; rfl

theorem run_keep {P c us} (t a : Nat) : ∀ (os : List Op) {r r' : Sp} {out}, Sp.run P os r = .ok (out, r') → (∀ o ∈ os, keeps c o = true) → r.ups c = .ok us →
    r'.ups c = .ok us ∧ r.ep t a ≤ r'.ep t a ∧ (r'.ep t a = r.ep t a ↔ ∀ o ∈ os, closes t a o = false)
  | [], r, r', out, h, _, hu => by
    cases h
    exact ⟨hu, Nat.le_refl _, ⟨(fun _ _ h => nomatch h), (fun _ => rfl)⟩⟩
  | o :: os, r, r', out, h, hk, hu => by
    unfold Sp.run at h
    rw [Res.bind_eq_ok] at h
    obtain ⟨⟨x, r1⟩, h1, h⟩ := h
    dsimp only at h
    rw [Res.bind_eq_ok] at h
    obtain ⟨⟨xs, r2⟩, h2, h⟩ := h
    cases h
    obtain ⟨a1, a2, a3⟩ := run_keep t a os h2 (fun o ho => hk o (List.mem_cons_of_mem _ ho)) (ups_keep h1 (hk o (List.mem_cons_self ..)) hu)
    have he := ep_step h1 t a
    dsimp only
    refine ⟨a1, ?_, ?_⟩
    · split at he <;> omega
    · constructor
      · intro e
        split at he
        · omega
        · rename_i hc
          intro o' ho
          rcases List.mem_cons.1 ho with rfl | ho
          · simpa using hc
          · exact a3.1 (by omega) o' ho
      · intro hh
        rw [hh o (List.mem_cons_self ..), if_neg (fun e => nomatch e)] at he
        rw [← he]
        exact a3.2 (fun o ho => hh o (List.mem_cons_of_mem _ ho))

theorem cells_get {r : Sp} {t base : Nat} {es : List Cell} : ∀ {ds : List Desc} {cs : List Cell} {k i : Nat}, r.cells t base es ds = .ok cs → ds[k]? = some (.loc i) → cs[k]? = some (r.cur t (base + i))
  | [], _, _, _, _, h => nomatch h
  | d :: ds, cs, k, i, h, hk => by
    cases d with
    | loc j =>
      unfold Sp.cells at h
      rw [Res.bind_eq_ok] at h
      obtain ⟨cs', h1, h⟩ := h
      cases h
      cases k with
      | zero => simp at hk; rw [hk]; rfl
      | succ k => exact (List.getElem?_cons_succ ..).trans (cells_get h1 (by simpa using hk))
    | enc j =>
      unfold Sp.cells at h
      split at h
      · exact nomatch h
      · rw [Res.bind_eq_ok] at h
        obtain ⟨cs', h1, h⟩ := h
        cases h
        cases k with
        | zero => simp at hk
        | succ k => exact (List.getElem?_cons_succ ..).trans (cells_get h1 (by simpa using hk))

theorem closure_get {P} {r r' : Sp} {t base p enc black c} (h : r.step P (.closure t base p enc black) = .ok (.clo c, r')) :
    ∃ us, r'.ups c = .ok us ∧ (∀ k i : Nat, (P p)[k]? = some (.loc i) → us[k]? = some (r.cur t (base + i))) ∧ r'.ep = r.ep := by
  unfold Sp.step at h
  dsimp only at h
  have key : ∀ es, (r.cells t base es (P p) >>= fun cs => r.last p cs >>= fun old => (match old with
        | some c => (pure (.clo c, r) : Res (Out × Sp))
        | none => pure (.clo r.clos.length, { r with
            clos := r.clos ++ [some cs]
            cap := fun x => r.cap x || x ∈ locs t base r (P p)
            cache := if black then r.cache else fun q => if q = p then some r.clos.length else r.cache q }))) = .ok (.clo c, r') →
      ∃ us, r'.ups c = .ok us ∧ (∀ k i : Nat, (P p)[k]? = some (.loc i) → us[k]? = some (r.cur t (base + i))) ∧ r'.ep = r.ep := by
    intro es h
    rw [Res.bind_eq_ok] at h
    obtain ⟨cs, hcs, h⟩ := h
    rw [Res.bind_eq_ok] at h
    obtain ⟨old, ho, h⟩ := h
    cases old with
    | some c =>
      cases h
      unfold Sp.last at ho
      split at ho
      · exact nomatch ho
      · rw [Res.bind_eq_ok] at ho
        obtain ⟨us, h1, h2⟩ := ho
        simp only [Res.pure_eq, Res.ok.injEq] at h2
        split at h2
        · rename_i e
          cases h2
          subst e
          exact ⟨us, h1, fun k i hk => cells_get hcs hk, rfl⟩
        · exact nomatch h2
    | none =>
      cases h
      refine ⟨cs, ups_of ?_, fun k i hk => cells_get hcs hk, rfl⟩
      show (r.clos ++ [some cs])[r.clos.length]? = _
      simp
  cases enc with
  | none => exact key _ h
  | some c' =>
    dsimp only at h
    rw [Res.bind_eq_ok] at h
    obtain ⟨es, _, h⟩ := h
    exact key _ h

/-- A function captures a local variable of the slot `base + i`, and another one, later, of the slot `base' + j`: they have the same variable (as `debug.upvalueid`
tells) if and only if it is the same slot of the same thread, and its scope has not ended in between. -/
theorem same_variable_iff {P s s1 s2 s3 t base p enc black c os out t' base' p' enc' black' c' k i k' j}
    (hs : Reach P s) (h1 : step P s (.closure t base p enc black) = .ok (.clo c, s1))
    (h2 : run P os s1 = .ok (out, s2)) (hk : ∀ o ∈ os, keeps c o = true)
    (h3 : step P s2 (.closure t' base' p' enc' black') = .ok (.clo c', s3))
    (hi : (P p)[k]? = some (.loc i)) (hj : (P p')[k']? = some (.loc j)) :
    step P s3 (.upvalueid c k c' k') = .ok (.bool (decide ((t = t' ∧ base + i = base' + j) ∧ ∀ o ∈ os, closes t (base + i) o = false)), s3) := by
  obtain ⟨r, hr⟩ := hs.rel
  obtain ⟨⟨x1, r1⟩, e1, q1⟩ := sim_ok (step_R hr _) h1
  obtain ⟨rfl, hr1⟩ := q1
  obtain ⟨⟨x2, r2⟩, e2, q2⟩ := sim_ok (run_R os hr1) h2
  obtain ⟨rfl, hr2⟩ := q2
  obtain ⟨⟨x3, r3⟩, e3, q3⟩ := sim_ok (step_R hr2 _) h3
  obtain ⟨rfl, hr3⟩ := q3
  dsimp only at e1 e2 e3 hr1 hr2 hr3
  obtain ⟨us, hu, hg, hep⟩ := closure_get e1
  obtain ⟨us', hu', hg', hep'⟩ := closure_get e3
  obtain ⟨a1, a2, a3⟩ := run_keep t (base + i) os e2 hk hu
  have hu3 : r3.ups c = .ok us := ups_keep e3 rfl a1
  have s1 : r3.up c k = .ok (r.cur t (base + i)) := by
    unfold Sp.up
    rw [hu3, Res.bind_ok, hg k i hi]
    rfl
  have s2 : r3.up c' k' = .ok (r2.cur t' (base' + j)) := by
    unfold Sp.up
    rw [hu', Res.bind_ok, hg' k' j hj]
    rfl
  have hs : r3.step P (.upvalueid c k c' k') = .ok (.bool (decide (r.cur t (base + i) = r2.cur t' (base' + j))), r3) := by
    unfold Sp.step
    dsimp only
    rw [s1, s2]
    rfl
  obtain ⟨⟨x4, s4⟩, e4, q4⟩ := sim_ok' (step_R hr3 _) hs
  have q4 : x4 = _ := q4.1
  have hsame : s4 = s3 := by
    unfold step at e4
    rw [Res.bind_eq_ok] at e4
    obtain ⟨_, _, e4⟩ := e4
    rw [Res.bind_eq_ok] at e4
    obtain ⟨_, _, e4⟩ := e4
    cases e4
    rfl
  rw [e4, q4, hsame]
  refine congrArg (fun b => Res.ok (Out.bool b, s3)) (decide_eq_decide.2 ?_)
  unfold Sp.cur
  rw [Cell.stk.injEq]
  constructor
  · rintro ⟨e5, e6, e7⟩
    refine ⟨⟨e5, e6⟩, a3.1 ?_⟩
    subst e5
    rw [← e6] at e7
    rw [hep, e7]
  · rintro ⟨⟨rfl, e6⟩, e7⟩
    have := a3.2 e7
    rw [hep] at this
    exact ⟨rfl, e6, by rw [← e6, this]⟩

/-- The variable does not change as long as the function lives (and `debug.upvaluejoin` does not replace it): whether two functions share is decided once. -/
theorem sharing_kept {P s s1 os out c k c' k' b} (hs : Reach P s) (h : step P s (.upvalueid c k c' k') = .ok (.bool b, s))
    (h1 : run P os s = .ok (out, s1)) (hk : ∀ o ∈ os, keeps c o = true ∧ keeps c' o = true) : step P s1 (.upvalueid c k c' k') = .ok (.bool b, s1) := by
  obtain ⟨r, hr⟩ := hs.rel
  obtain ⟨⟨x0, r0⟩, e0, q0⟩ := sim_ok (step_R hr _) h
  obtain ⟨⟨x1, r1⟩, e1, q1⟩ := sim_ok (run_R os hr) h1
  obtain ⟨rfl, hr1⟩ := q1
  unfold Sp.step at e0
  rw [Res.bind_eq_ok] at e0
  obtain ⟨x, hx, e0⟩ := e0
  rw [Res.bind_eq_ok] at e0
  obtain ⟨y, hy, e0⟩ := e0
  cases e0
  have hb : Out.bool b = Out.bool (decide (x = y)) := q0.1
  have keep : ∀ c k x, (∀ o ∈ os, keeps c o = true) → r.up c k = .ok x → r1.up c k = .ok x := by
    intro c k x hk hx
    unfold Sp.up at hx ⊢
    rw [Res.bind_eq_ok] at hx
    obtain ⟨us, hu, hx⟩ := hx
    rw [(run_keep 0 0 os e1 hk hu).1]
    exact hx
  have hs : r1.step P (.upvalueid c k c' k') = .ok (.bool b, r1) := by
    unfold Sp.step
    dsimp only
    rw [keep c k x (fun o ho => (hk o ho).1) hx, keep c' k' y (fun o ho => (hk o ho).2) hy, hb]
    rfl
  obtain ⟨⟨x4, s4⟩, e4, q4⟩ := sim_ok' (step_R hr1 _) hs
  have q4 : x4 = _ := q4.1
  have hsame : s4 = s1 := by
    unfold step at e4
    rw [Res.bind_eq_ok] at e4
    obtain ⟨_, _, e4⟩ := e4
    rw [Res.bind_eq_ok] at e4
    obtain ⟨_, _, e4⟩ := e4
    cases e4
    rfl
  rw [e4, q4, hsame]

/-- A write through a function is seen by the functions that share the variable, and by no other. -/
theorem write_seen {P s s1 c k c' k' b v o} (hs : Reach P s) (h : step P s (.upvalueid c k c' k') = .ok (.bool b, s))
    (h1 : step P s (.setup c k v) = .ok (o, s1)) :
    ∃ w, step P s (.getup c' k') = .ok (.val w, s) ∧ step P s1 (.getup c' k') = .ok (.val (if b then v else w), s1) := by
  obtain ⟨r, hr⟩ := hs.rel
  obtain ⟨⟨x0, r0⟩, e0, q0⟩ := sim_ok (step_R hr _) h
  obtain ⟨⟨x1, r1⟩, e1, q1⟩ := sim_ok (step_R hr _) h1
  unfold Sp.step at e0 e1
  rw [Res.bind_eq_ok] at e0 e1
  obtain ⟨x, hx, e0⟩ := e0
  obtain ⟨x', hx', e1⟩ := e1
  rw [hx] at hx'
  cases hx'
  rw [Res.bind_eq_ok] at e0
  obtain ⟨y, hy, e0⟩ := e0
  cases e0
  cases e1
  have hb : Out.bool b = Out.bool (decide (x = y)) := q0.1
  have hr1 : R P s1 (r.set x v) := q1.2
  have get : ∀ s r, R P s r → r.up c' k' = .ok y → step P s (.getup c' k') = .ok (.val (r.val y), s) := by
    intro s r hr hy
    have hs : r.step P (.getup c' k') = .ok (.val (r.val y), r) := by unfold Sp.step; dsimp only; rw [hy]; rfl
    obtain ⟨⟨x4, s4⟩, e4, q4⟩ := sim_ok' (step_R hr _) hs
    have q4 : x4 = _ := q4.1
    have hsame : s4 = s := by
      unfold step at e4
      rw [Res.bind_eq_ok] at e4
      obtain ⟨_, _, e4⟩ := e4
      rw [Res.bind_eq_ok] at e4
      obtain ⟨_, _, e4⟩ := e4
      cases e4
      rfl
    rw [e4, q4, hsame]
  refine ⟨r.val y, get s r hr hy, ?_⟩
  rw [get s1 _ hr1 hy]
  injection hb with hb
  subst hb
  show Res.ok (Out.val (if y = x then v else r.val y), s1) = _
  by_cases e : x = y
  · rw [if_pos e.symm, if_pos (by simpa using e)]
  · rw [if_neg (fun h => e h.symm), if_neg (by simpa using e)]

/-- While its scope lasts, a captured local variable and the function's variable are one: what is assigned to either is read from both. After the scope
has ended, what the slot is used for does not concern the function, nor the other way round. -/
theorem local_shared_iff {P s s1 s2 t base p enc black c os out k i} (hs : Reach P s) (h1 : step P s (.closure t base p enc black) = .ok (.clo c, s1))
    (h2 : run P os s1 = .ok (out, s2)) (hk : ∀ o ∈ os, keeps c o = true) (hi : (P p)[k]? = some (.loc i)) :
    ∃ b, (b = true ↔ ∀ o ∈ os, closes t (base + i) o = false) ∧
      ∃ v w, step P s2 (.getup c k) = .ok (.val v, s2) ∧ step P s2 (.get t (base + i)) = .ok (.val w, s2) ∧ (b = true → v = w) ∧
        ∀ n, (∃ s3, step P s2 (.set t (base + i) n) = .ok (.none, s3) ∧ step P s3 (.getup c k) = .ok (.val (if b then n else v), s3)) ∧
          (∃ s3, step P s2 (.setup c k n) = .ok (.none, s3) ∧ step P s3 (.get t (base + i)) = .ok (.val (if b then n else w), s3)) := by
  obtain ⟨r, hr⟩ := hs.rel
  obtain ⟨⟨x1, r1⟩, e1, q1⟩ := sim_ok (step_R hr _) h1
  obtain ⟨rfl, hr1⟩ := q1
  obtain ⟨⟨x2, r2⟩, e2, q2⟩ := sim_ok (run_R os hr1) h2
  obtain ⟨rfl, hr2⟩ := q2
  dsimp only at e1 e2 hr1 hr2
  obtain ⟨us, hu, hg, hep⟩ := closure_get e1
  obtain ⟨a1, a2, a3⟩ := run_keep t (base + i) os e2 hk hu
  have hup : r2.up c k = .ok (r.cur t (base + i)) := by
    unfold Sp.up
    rw [a1, Res.bind_ok, hg k i hi]
    rfl
  have get : ∀ s q x, R P s q → q.up c k = .ok x → step P s (.getup c k) = .ok (.val (q.val x), s) := by
    intro s q x hr hy
    have hs : q.step P (.getup c k) = .ok (.val (q.val x), q) := by unfold Sp.step; dsimp only; rw [hy]; rfl
    obtain ⟨⟨x4, s4⟩, e4, q4⟩ := sim_ok' (step_R hr _) hs
    have q4 : x4 = _ := q4.1
    have hsame : s4 = s := by
      unfold step at e4
      rw [Res.bind_eq_ok] at e4
      obtain ⟨_, _, e4⟩ := e4
      rw [Res.bind_eq_ok] at e4
      obtain ⟨_, _, e4⟩ := e4
      cases e4
      rfl
    rw [e4, q4, hsame]
  have slot : ∀ s q, R P s q → step P s (.get t (base + i)) = .ok (.val (q.val (q.cur t (base + i))), s) := by
    intro s q hr
    obtain ⟨γ, hH, _⟩ := hr
    show Res.ok (Out.val (s.stack t (base + i)), s) = _
    rw [hH.stack]
  have hiff : r.cur t (base + i) = r2.cur t (base + i) ↔ ∀ o ∈ os, closes t (base + i) o = false := by
    rw [← a3]
    unfold Sp.cur
    rw [Cell.stk.injEq, hep]
    constructor
    · rintro ⟨_, _, e⟩; exact e.symm
    · exact fun e => ⟨rfl, rfl, e.symm⟩
  refine ⟨decide (r.cur t (base + i) = r2.cur t (base + i)), by rw [decide_eq_true_iff]; exact hiff, _, _, get s2 r2 _ hr2 hup, slot s2 r2 hr2,
    fun hb => by rw [of_decide_eq_true hb], fun n => ⟨?_, ?_⟩⟩
  · obtain ⟨⟨x3, s3⟩, e3, q3⟩ := sim_ok' (step_R hr2 (.set t (base + i) n)) (b := (.none, r2.set (r2.cur t (base + i)) n)) rfl
    obtain ⟨q3, hr3⟩ := q3
    dsimp only at q3 hr3
    subst q3
    refine ⟨s3, e3, ?_⟩
    rw [get s3 _ _ hr3 hup]
    show Res.ok (Out.val (if r.cur t (base + i) = r2.cur t (base + i) then n else r2.val (r.cur t (base + i))), s3) = _
    by_cases e : r.cur t (base + i) = r2.cur t (base + i)
    · rw [if_pos e, if_pos (by simpa using e)]
    · rw [if_neg e, if_neg (by simpa using e)]
  · have hs : r2.step P (.setup c k n) = .ok (.none, r2.set (r.cur t (base + i)) n) := by unfold Sp.step; dsimp only; rw [hup]; rfl
    obtain ⟨⟨x3, s3⟩, e3, q3⟩ := sim_ok' (step_R hr2 _) hs
    obtain ⟨q3, hr3⟩ := q3
    dsimp only at q3 hr3
    subst q3
    refine ⟨s3, e3, ?_⟩
    rw [slot s3 _ hr3]
    show Res.ok (Out.val (if r2.cur t (base + i) = r.cur t (base + i) then n else r2.val (r2.cur t (base + i))), s3) = _
    by_cases e : r.cur t (base + i) = r2.cur t (base + i)
    · rw [if_pos e.symm, if_pos (by simpa using e)]
    · rw [if_neg (fun h => e h.symm), if_neg (by simpa using e)]

/-- Ending a scope changes no variable of any function. -/
theorem close_keeps {P s s1 c k t level v} (hs : Reach P s) (h : step P s (.getup c k) = .ok (.val v, s)) (h1 : step P s (.close t level) = .ok (.none, s1)) :
    step P s1 (.getup c k) = .ok (.val v, s1) := by
  obtain ⟨r, γ, hH, hC⟩ := hs.rel
  obtain ⟨s', e, h2, hcl, hca⟩ := close_R t level hH
  unfold step at h h1
  dsimp only at h1
  rw [e] at h1
  cases h1
  rw [Res.bind_eq_ok] at h
  obtain ⟨u, hu, h⟩ := h
  rw [Res.bind_eq_ok] at h
  obtain ⟨w, hw, h⟩ := h
  cases h
  have hup : s1.up c k = .ok u := by
    unfold St.up St.ups at hu ⊢
    rw [hcl]
    exact hu
  have hmem : u ∈ refs s.clos := by
    obtain ⟨_, _, _, us, hc, hi⟩ := sim_ok (up_R hC c k) hu
    exact mem_refs hc u (List.mem_of_getElem? hi)
  unfold step
  dsimp only
  rw [hup, Res.bind_ok, rd_R h2 hmem, Res.bind_ok]
  rw [rd_R hH hmem] at hw
  cases hw
  refine congrArg (fun v => Res.ok (Out.val v, s1)) ?_
  obtain ⟨x, hx⟩ := hH.live u hmem
  have fx := hH.unflag hmem hx
  rcases x with ⟨⟨t', a⟩ | w, n, f⟩ <;> dsimp only at fx <;> subst fx
  · rw [hH.cur u t' a n hx]
    unfold Sp.close Sp.cur
    dsimp only
    rw [if_neg (fun hh => by omega)]
  · have ho := (hH.old u w n false hx).2.2.2
    cases hg : γ u with
    | own i => rfl
    | stk t' a k =>
      rw [hg] at ho
      have ho : k < r.ep t' a := ho
      unfold Sp.close
      dsimp only
      rw [if_neg (fun hh => by omega)]

/-! ## Examples -/

/-- Three prototypes: one captures slots 0 and 1, the next slot 1, the last the second variable of the enclosing function. -/
def exP : Nat → List Desc
  | 0 => [.loc 0, .loc 1]
  | 1 => [.loc 1]
  | _ => [.enc 1]

/-- Two functions share slot 1, a third inside the first one too; the loop body is left, and entered again. -/
example : shown (run exP [.set 0 5 10, .set 0 6 11, .closure 0 5 0 none true, .closure 0 5 1 none true, .closure 0 9 2 (some 0) true,
      .upvalueid 0 1 1 0, .upvalueid 0 0 1 0, .setup 1 0 20, .get 0 6, .getup 2 0, .close 0 6, .set 0 6 30, .getup 0 1, .setup 2 0 40, .getup 1 0, .get 0 6,
      .closure 0 5 1 none true, .upvalueid 1 0 3 0, .upvalueid 0 0 3 0, .getup 3 0, .free 0, .free 1, .getup 2 0, .close 0 0, .getup 3 0] init)
    = .ok [.none, .none, .clo 0, .clo 1, .clo 2, .bool true, .bool false, .none, .val 20, .val 20, .none, .none, .val 20, .none, .val 40, .val 30,
      .clo 3, .bool false, .bool false, .val 30, .none, .none, .val 40, .none, .val 30] := by decide +kernel

/-- The cache: the same function again when the variables are the same, another one after the scope has ended; deferred slots are no variables of functions. -/
example : shown (run exP [.closure 0 5 1 none false, .closure 0 5 1 none false, .close 0 6, .closure 0 5 1 none false, .closure 1 5 1 none false, .defer 0 8, .closure 0 7 1 none false,
      .upvalueid 3 0 0 0, .defer 0 8]
      init) = .err "slot in use" := by decide +kernel
example : shown (run exP [.closure 0 5 1 none false, .closure 0 5 1 none false, .close 0 6, .closure 0 5 1 none false, .closure 1 5 1 none false, .defer 0 8, .closure 0 7 1 none false,
      .join 1 0 0 0, .upvalueid 1 0 0 0, .load 2, .setup 4 1 7, .join 4 0 4 1, .getup 4 0] init)
    = .ok [.clo 0, .clo 0, .none, .clo 1, .clo 2, .none, .clo 3, .none, .bool true, .clo 4, .none, .none, .val 7] := by decide +kernel

theorem ex_reach : Reach exP init := ⟨[], [], rfl⟩

/-- The hypotheses of `same_variable_iff`, `local_shared_iff`. -/
example : ∃ s1 s2 s3 out, step exP init (.closure 0 5 0 none true) = .ok (.clo 0, s1) ∧
    run exP [.setup 0 1 3, .set 0 6 2, .defer 0 9, .close 0 7] s1 = .ok (out, s2) ∧ (∀ o ∈ [Op.setup 0 1 3, .set 0 6 2, .defer 0 9, .close 0 7], keeps 0 o = true) ∧
    step exP s2 (.closure 0 5 1 none true) = .ok (.clo 1, s3) ∧ (exP 0)[1]? = some (.loc 1) ∧ (exP 1)[0]? = some (.loc 1) :=
  ⟨_, _, _, _, rfl, rfl, by decide, rfl, rfl, rfl⟩

/-- … and of `sharing_kept`, `write_seen`, `close_keeps`. -/
example : ∃ s out, Reach exP s ∧ run exP [.closure 0 5 0 none true, .closure 0 5 1 none true, .setup 1 0 4] init = .ok (out, s) ∧
    step exP s (.upvalueid 0 1 1 0) = .ok (.bool true, s) ∧ step exP s (.getup 0 1) = .ok (.val 4, s) ∧ ∃ s1, step exP s (.close 0 0) = .ok (.none, s1) :=
  ⟨_, _, ⟨[.closure 0 5 0 none true, .closure 0 5 1 none true, .setup 1 0 4], _, rfl⟩, rfl, rfl, rfl, _, rfl⟩

end Verif.Upval
