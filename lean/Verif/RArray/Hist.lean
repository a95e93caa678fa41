import Verif.RArray.Sim
/-! Histories of array operations. -/
namespace Verif.RArray
open Verif.Arith (LInt)
variable {E : Type}

/-- Run a list of operations, collecting the result of each.  An operation that raises an error leaves
the state unchanged; after undefined behaviour nothing more is known. -/
def exec {S O R : Type} (f : S → O → Res (S × R)) : S → List O → S × List (Res R)
  | s, [] => (s, [])
  | s, op :: ops => match f s op with
    | .ok (s', o) => ((exec f s' ops).1, .ok o :: (exec f s' ops).2)
    | .err m => ((exec f s ops).1, .err m :: (exec f s ops).2)
    | .ub => (s, [.ub])

/-- Side conditions of an operation: it uses a live object; `unsigned int` arguments; the
collector frees an array only when no live slice refers to it; `next` is not called with the
largest integer (see `next_maxint_is_ub`). -/
def AllowedC (h : Heap E) : Op E → Prop
  | .newDyn => True
  | .newFixed n _ => n < 2 ^ 32
  | .newSlice p start len => h.objs p ≠ none ∧ start < 2 ^ 32 ∧ len < 2 ^ 32
  | .get x _ => h.objs x ≠ none
  | .rawgeti x _ => h.objs x ≠ none
  | .set x _ _ => h.objs x ≠ none
  | .len x => h.objs x ≠ none
  | .next x k => h.objs x ≠ none ∧ k ≠ some (BitVec.intMax 64)
  | .free x => h.objs x ≠ none ∧ ∀ y a, h.objs y = some a → a.parent ≠ some x

/-- every operation of the history meets its side conditions in the state where it is executed -/
def Legal (z : E) : Heap E → List (Op E) → Prop
  | _, [] => True
  | h, op :: ops => AllowedC h op ∧ match step z h op with
    | .ok (h', _) => Legal z h' ops
    | .err _ => Legal z h ops
    | .ub => True

/-- the states a program can reach -/
def Reach (z : E) (h : Heap E) : Prop := ∃ ops, Legal z empty ops ∧ (exec (step z) empty ops).1 = h

theorem allowed_iff {h : Heap E} {s : Abs E} (r : Rel h s) (op : Op E) : AllowedC h op → Allowed s op := by
  have hd : ∀ x, h.objs x ≠ none → s.objs x ≠ none := fun x hx e => hx ((r.dom x).2 e)
  cases op with
  | newDyn => exact id
  | newFixed n v => exact id
  | newSlice p start len => exact fun ⟨h1, h2⟩ => ⟨hd p h1, h2⟩
  | get x i => exact hd x
  | rawgeti x i => exact hd x
  | set x i v => exact hd x
  | len x => exact hd x
  | next x k => exact fun ⟨h1, h2⟩ => ⟨hd x h1, h2⟩
  | free x =>
    refine fun ⟨h1, h2⟩ => ⟨hd x h1, fun y o hy => ?_⟩
    obtain ⟨a, o', k, t1, t2, t3⟩ := r.get (x := y) (by rw [hy]; simp)
    rw [hy] at t2; cases t2
    rw [t3.par]; exact h2 y a t1

theorem exec_sim (z : E) (ops : List (Op E)) : ∀ (h : Heap E) (s : Abs E), Rel h s → Legal z h ops →
    Rel (exec (step z) h ops).1 (exec (astep actual z) s ops).1 ∧
    (exec (step z) h ops).2 = (exec (astep actual z) s ops).2 ∧ Res.ub ∉ (exec (step z) h ops).2 := by
  induction ops with
  | nil => intro h s r _; exact ⟨r, rfl, by simp [exec]⟩
  | cons op ops ih =>
    intro h s r hl
    obtain ⟨h1, h2⟩ := hl
    rcases step_sim r z op (allowed_iff r op h1) with ⟨m, e1, e2⟩ | ⟨h', s', o, e1, e2, r'⟩
    · rw [e1] at h2
      obtain ⟨q1, q2, q3⟩ := ih h s r h2
      simp only [exec, e1, e2]
      exact ⟨q1, by rw [q2], by simpa using q3⟩
    · rw [e1] at h2
      obtain ⟨q1, q2, q3⟩ := ih h' s' r' h2
      simp only [exec, e1, e2]
      exact ⟨q1, by rw [q2], by simpa using q3⟩

theorem reach_rel {z : E} {h : Heap E} : Reach z h → ∃ s, Rel h s := by
  rintro ⟨ops, hl, rfl⟩
  exact ⟨_, (exec_sim z ops empty (Abs.empty z) (Rel.init z) hl).1⟩

/-- what a successful operation can do to the specified state -/
inductive Change (s : Abs E) : Op E → Abs E → Prop
  | same (op : Op E) : Change s op s
  | new (op : Op E) (o : AObj) (cell : Nat → E) (n : Nat) (h1 : s.ncell ≤ n) (h2 : ∀ c, c < s.ncell → cell c = s.cell c) :
      Change s op ({ s with cell := cell, ncell := n }.add o)
  | store (y : Nat) (i : LInt) (v : E) (o : AObj) (c : Nat) (h1 : s.objs y = some o)
      (h2 : o.cells[i.toNat % 2 ^ 32]? = some c) : Change s (.set y i v) { s with cell := upd s.cell c v }
  | append (y : Nat) (i : LInt) (v : E) (o : AObj) (h1 : s.objs y = some o) (h2 : i.toNat % 2 ^ 32 = o.cells.length)
      (h3 : o.cells.length < o.cap) : Change s (.set y i v)
        { s with objs := upd s.objs y (some { o with cells := o.cells ++ [s.ncell] })
                 cell := upd s.cell s.ncell v, ncell := s.ncell + 1 }
  | free (y : Nat) : Change s (.free y) { s with objs := upd s.objs y none }

theorem astep_change {s s' : Abs E} {z : E} {op : Op E} {out : Out E}
    (hs : astep actual z s op = .ok (s', out)) : Change s op s' := by
  cases op with
  | newDyn =>
    simp only [astep, Res.ok.injEq, Prod.mk.injEq] at hs
    rw [← hs.1]
    exact .new _ _ _ _ (by omega) (fun c hc => by simp only [upd]; rw [if_neg (by omega)])
  | newFixed n v =>
    unfold astep at hs
    dsimp only at hs
    split at hs
    · cases hs
    · simp only [Res.ok.injEq, Prod.mk.injEq] at hs
      rw [← hs.1]
      exact .new _ _ _ _ (by omega) (fun c hc => by rw [if_pos hc])
  | newSlice p start len =>
    unfold astep awith at hs
    dsimp only at hs
    split at hs
    · cases hs
    · split at hs
      · cases hs
      · split at hs
        · cases hs
        · simp only [Res.ok.injEq, Prod.mk.injEq] at hs
          rw [← hs.1]
          exact .new _ _ s.cell s.ncell (Nat.le_refl _) (fun _ _ => rfl)
  | get y i =>
    unfold astep awith at hs
    dsimp only at hs
    split at hs
    · cases hs
    · cases hg : aget actual s _ i with
      | ok e => rw [hg] at hs; simp only [Res.bind_ok, Res.pure_eq, Res.ok.injEq, Prod.mk.injEq] at hs; rw [← hs.1]; exact .same _
      | err m => rw [hg] at hs; cases hs
      | ub => rw [hg] at hs; cases hs
  | rawgeti y i =>
    unfold astep awith at hs
    dsimp only at hs
    split at hs
    · cases hs
    · split at hs
      · cases hg : aget actual s _ i with
        | ok e => rw [hg] at hs; simp only [Res.bind_ok, Res.pure_eq, Res.ok.injEq, Prod.mk.injEq] at hs; rw [← hs.1]; exact .same _
        | err m => rw [hg] at hs; cases hs
        | ub => rw [hg] at hs; cases hs
      · simp only [Res.pure_eq, Res.ok.injEq, Prod.mk.injEq] at hs; rw [← hs.1]; exact .same _
  | set y i v =>
    unfold astep awith at hs
    dsimp only at hs
    split at hs
    · cases hs
    · rename_i o' hy
      cases hg : aset actual s y o' i v with
      | ok s1 =>
        rw [hg] at hs; simp only [Res.bind_ok, Res.pure_eq, Res.ok.injEq, Prod.mk.injEq] at hs; rw [← hs.1]
        unfold aset actual at hg
        dsimp only at hg
        split at hg
        · rename_i c hc
          cases hg; exact .store y i v o' c hy hc
        · split at hg
          · split at hg
            · rename_i hc1 hc2
              cases hg
              exact .append y i v o' hy hc1 (by rw [← hc1]; exact hc2)
            · cases hg
          · cases hg
      | err m => rw [hg] at hs; cases hs
      | ub => rw [hg] at hs; cases hs
  | len y =>
    unfold astep awith at hs
    dsimp only at hs
    split at hs
    · cases hs
    · simp only [Res.ok.injEq, Prod.mk.injEq] at hs; rw [← hs.1]; exact .same _
  | next y k =>
    unfold astep awith at hs
    dsimp only at hs
    split at hs
    · cases hs
    · split at hs
      · simp only [Res.pure_eq, Res.ok.injEq, Prod.mk.injEq] at hs; rw [← hs.1]; exact .same _
      · cases hg : aget actual s _ (k.getD 0 + 1) with
        | ok e => rw [hg] at hs; simp only [Res.bind_ok, Res.pure_eq, Res.ok.injEq, Prod.mk.injEq] at hs; rw [← hs.1]; exact .same _
        | err m => rw [hg] at hs; cases hs
        | ub => rw [hg] at hs; cases hs
  | free y =>
    unfold astep awith at hs
    dsimp only at hs
    split at hs
    · cases hs
    · simp only [Res.ok.injEq, Prod.mk.injEq] at hs; rw [← hs.1]; exact .free y

theorem Change.nobj {s s' : Abs E} {op : Op E} (c : Change s op s') : s.nobj ≤ s'.nobj := by
  cases c <;> simp [Abs.add]

/-- how an operation can change an existing object -/
theorem Change.evolve {s s' : Abs E} {op : Op E} (hc : Change s op s') {x : Nat} {o : AObj} (ho : s.objs x = some o)
    (hx : x < s.nobj) :
    (op = .free x ∧ s'.objs x = none) ∨ s'.objs x = some o ∨
      (o.cells.length < o.cap ∧ s'.objs x = some { o with cells := o.cells ++ [s.ncell] }) := by
  have hne : x ≠ s.nobj := by omega
  cases hc with
  | same => exact .inr (.inl ho)
  | new => right; left; simp [Abs.add, upd, hne, ho]
  | store y i v o' c h1 h2 => exact .inr (.inl ho)
  | append y i v o' h1 h2 h3 =>
    by_cases hxy : x = y
    · subst hxy
      rw [ho] at h1; cases h1
      exact .inr (.inr ⟨h3, by simp [upd]⟩)
    · exact .inr (.inl (by simp [upd, hxy, ho]))
  | free y =>
    by_cases hxy : x = y
    · left; simp [upd, hxy]
    · right; left; simp [upd, hxy, ho]

/-- a freed name is never used again -/
theorem Change.dead {s s' : Abs E} {op : Op E} (hc : Change s op s') {x : Nat} (ho : s.objs x = none)
    (hx : x < s.nobj) : s'.objs x = none := by
  have hne : x ≠ s.nobj := by omega
  cases hc with
  | same => exact ho
  | new => simp [Abs.add, upd, hne, ho]
  | store y i v o' c h1 h2 => exact ho
  | append y i v o' h1 h2 h3 =>
    have hxy : x ≠ y := by intro e; subst e; rw [ho] at h1; cases h1
    simp [upd, hxy, ho]
  | free y => simp [upd, ho]

/-- An invariant kept by every step (in related states) holds along every legal history. -/
theorem along {z : E} (I : Abs E → Prop)
    (hI : ∀ (h : Heap E) (s s' : Abs E) (op : Op E), Rel h s → Change s op s' → I s → I s')
    (ops : List (Op E)) : ∀ (h : Heap E) (s : Abs E), Rel h s → Legal z h ops → I s →
      I (exec (astep actual z) s ops).1 := by
  induction ops with
  | nil => intro h s r _ hi; exact hi
  | cons op ops ih =>
    intro h s r hl hi
    obtain ⟨h1, h2⟩ := hl
    rcases step_sim r z op (allowed_iff r op h1) with ⟨m, e1, e2⟩ | ⟨h', s', out, e1, e2, r'⟩
    · rw [e1] at h2
      simp only [exec, e2]
      exact ih h s r h2 hi
    · rw [e1] at h2
      simp only [exec, e2]
      exact ih h' s' r' h2 (hI h s s' op r (astep_change e2) hi)

end Verif.RArray
