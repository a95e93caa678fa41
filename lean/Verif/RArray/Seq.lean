import Verif.RArray.Hist
/-! A dynamic array, seen alone, is a growable sequence. -/
namespace Verif.RArray
open Verif.Arith (LInt)
variable {E : Type}

/-- operations that use array `x` -/
def uses (x : Nat) : Op E → Bool
  | .newDyn => false
  | .newFixed _ _ => false
  | .newSlice p _ _ => p == x
  | .get y _ => y == x
  | .rawgeti y _ => y == x
  | .set y _ _ => y == x
  | .len y => y == x
  | .next y _ => y == x
  | .free y => y == x

/-- reading index `i` of the list `l` (element 0 is the hidden element); `ix` interprets the index -/
def seqGet (ix : LInt → Option Nat) (l : List E) (i : LInt) : Res E :=
  match ix i with
  | none => .err "array out of bounds"
  | some u => match l[u]? with
    | none => .err "array out of bounds"
    | some e => .ok e

/-- A growable sequence: what a dynamic array should be. -/
def seqStep (ix : LInt → Option Nat) (l : List E) : Op E → Res (List E × Out E)
  | .get _ i => do let e ← seqGet ix l i; return (l, .val e)
  | .rawgeti _ i => if i.toInt ≤ (l.length - 1 : Nat) then do let e ← seqGet ix l i; return (l, .val e) else return (l, .nil)
  | .set _ i v => match ix i with
    | none => .err "array out of bounds"
    | some u =>
      if u < l.length then return (l.set u v, .unit)
      else if u = l.length then
        if l.length < 2 ^ 32 - 3 then return (l ++ [v], .unit) else .err "array cannot be resized"
      else .err "array out of bounds"
  | .len _ => return (l, .num (l.length - 1))
  | .next _ k =>
    if (l.length : Int) ≤ (k.getD 0 + 1).toInt then return (l, .nil)
    else do let e ← seqGet ix l (k.getD 0 + 1); return (l, .kv (k.getD 0 + 1) e)
  | .newSlice _ start len =>
    if start < 1 ∨ len < 1 ∨ l.length < start + len then .err "cannot create a slice of given bounds"
    else .err "cannot create slice from dynamic integer[] or number[] array"
  | _ => .ub

/-- the results of those operations of a history that use `x` -/
def resultsOn (x : Nat) (ops : List (Op E)) (outs : List (Res (Out E))) : List (Res (Out E)) :=
  ((ops.zip outs).filter (fun p => uses x p.1)).map (·.2)

structure IsSeq (s : Abs E) (x : Nat) (o : AObj) (l : List E) : Prop where
  obj : s.objs x = some o
  dyn : o.sliceable = false
  cap : o.cap = dynCap
  val : o.cells.map s.cell = l

theorem nodup {h : Heap E} {s : Abs E} (r : Rel h s) {x : Nat} {o : AObj} (ho : s.objs x = some o) {i j c : Nat}
    (hi : o.cells[i]? = some c) (hj : o.cells[j]? = some c) : i = j := by
  obtain ⟨a, o', k, h1, h2, _⟩ := r.get (x := x) (by rw [ho]; simp)
  rw [ho] at h2; cases h2
  have := (r.loc x x a a o o i j c c h1 h1 ho ho hi hj).1 rfl
  omega

theorem alone {h : Heap E} {s : Abs E} (r : Rel h s) {x y : Nat} {o o' : AObj} (ho : s.objs x = some o)
    (hd : o.sliceable = false) (hy : s.objs y = some o') (hxy : y ≠ x) {i j c : Nat}
    (hi : o.cells[i]? = some c) : o'.cells[j]? ≠ some c := by
  intro hj
  obtain ⟨a, o1, k, h1, h2, ok⟩ := r.get (x := x) (by rw [ho]; simp)
  rw [ho] at h2; cases h2
  obtain ⟨b, o2, k', h3, h4, _⟩ := r.get (x := y) (by rw [hy]; simp)
  rw [hy] at h4; cases h4
  have := (r.loc x y a b o o' i j c c h1 h3 ho hy hi hj).1 rfl
  have hf : a.fixed = false := by rw [← ok.sl]; exact hd
  have hs : a.slice = false := by
    cases e : a.slice with
    | false => rfl
    | true => rw [(ok.sf e).1] at hf; cases hf
  rcases r.inRoot x y a b h1 h3 hs this.1 with e | ⟨e, _⟩
  · exact hxy e.symm
  · rw [hf] at e; cases e

theorem IsSeq.frame {h : Heap E} {s s' : Abs E} (r : Rel h s) {x : Nat} {o : AObj} {l : List E} (q : IsSeq s x o l)
    {op : Op E} (hu : uses x op = false) (hc : Change s op s') : IsSeq s' x o l := by
  have hx : x < s.nobj := by
    obtain ⟨a, _, _, t, _⟩ := r.get (x := x) (by rw [q.obj]; simp)
    rw [← r.nobj]; exact r.lt x a t
  have hne : x ≠ s.nobj := by omega
  cases hc with
  | same => exact q
  | new op o' cell n h1 h2 =>
    refine ⟨by simp [Abs.add, upd, hne, q.obj], q.dyn, q.cap, ?_⟩
    rw [← q.val]
    apply List.map_congr_left
    intro c hc
    exact h2 c (r.cfresh x o c q.obj hc)
  | store y i v o' c h1 h2 =>
    simp only [uses, beq_eq_false_iff_ne] at hu
    refine ⟨q.obj, q.dyn, q.cap, ?_⟩
    rw [← q.val]
    apply List.map_congr_left
    intro c' hc'
    obtain ⟨j, hj⟩ := List.mem_iff_getElem?.1 hc'
    have : c' ≠ c := fun e => alone r q.obj q.dyn h1 hu (e ▸ hj) h2
    simp [upd, this]
  | append y i v o' h1 h2 h3 =>
    simp only [uses, beq_eq_false_iff_ne] at hu
    refine ⟨by simp [upd, Ne.symm hu, q.obj], q.dyn, q.cap, ?_⟩
    rw [← q.val]
    apply List.map_congr_left
    intro c hc
    have := r.cfresh x o c q.obj hc
    have : c ≠ s.ncell := by omega
    simp [upd, this]
  | free y =>
    simp only [uses, beq_eq_false_iff_ne] at hu
    exact ⟨by simp [upd, Ne.symm hu, q.obj], q.dyn, q.cap, q.val⟩

theorem IsSeq.get {s : Abs E} {x : Nat} {o : AObj} {l : List E} (q : IsSeq s x o l) (i : LInt) :
    aget actual s o i = seqGet actual.ix l i := by
  unfold aget seqGet
  dsimp only [actual]
  rw [← q.val, List.getElem?_map]
  cases o.cells[i.toNat % 2 ^ 32]? <;> rfl

theorem seqGet_ne_ub {ix : LInt → Option Nat} {l : List E} {i : LInt} : seqGet ix l i ≠ .ub := by
  unfold seqGet
  split
  · simp
  · split <;> simp

theorem IsSeq.step {h : Heap E} {s : Abs E} (r : Rel h s) {x : Nat} {o : AObj} {l : List E} (q : IsSeq s x o l) (z : E)
    {op : Op E} (hu : uses x op = true) (hf : op ≠ .free x) :
    (∃ m, astep actual z s op = .err m ∧ seqStep actual.ix l op = .err m) ∨
    ∃ s' o' l' out, astep actual z s op = .ok (s', out) ∧ seqStep actual.ix l op = .ok (l', out) ∧ IsSeq s' x o' l' := by
  have hlen : l.length = o.cells.length := by rw [← q.val, List.length_map]
  cases op with
  | newDyn => cases hu
  | newFixed n v => cases hu
  | newSlice p start len =>
    simp only [uses, beq_iff_eq] at hu; subst hu
    simp only [astep, awith, seqStep, q.obj, hlen, q.dyn]
    left
    split
    · exact ⟨_, rfl, rfl⟩
    · exact ⟨_, rfl, rfl⟩
  | get y i =>
    simp only [uses, beq_iff_eq] at hu; subst hu
    simp only [astep, awith, seqStep, q.obj, q.get]
    cases hg : seqGet actual.ix l i with
    | ok e => exact .inr ⟨s, o, l, _, rfl, rfl, q⟩
    | err m => exact .inl ⟨m, rfl, rfl⟩
    | ub => exact absurd hg seqGet_ne_ub
  | rawgeti y i =>
    simp only [uses, beq_iff_eq] at hu; subst hu
    simp only [astep, awith, seqStep, q.obj, q.get, hlen]
    split
    · cases hg : seqGet actual.ix l i with
      | ok e => exact .inr ⟨s, o, l, _, rfl, rfl, q⟩
      | err m => exact .inl ⟨m, rfl, rfl⟩
      | ub => exact absurd hg seqGet_ne_ub
    · exact .inr ⟨s, o, l, _, rfl, rfl, q⟩
  | set y i v =>
    simp only [uses, beq_iff_eq] at hu; subst hu
    simp only [astep, awith, seqStep, q.obj, aset, actual]
    by_cases h1 : i.toNat % 2 ^ 32 < l.length
    · rw [if_pos h1]
      obtain ⟨c0, hc⟩ : ∃ c, o.cells[i.toNat % 2 ^ 32]? = some c :=
        ⟨_, List.getElem?_eq_getElem (by rw [← hlen]; exact h1)⟩
      rw [hc]
      refine .inr ⟨_, o, _, _, rfl, rfl, ⟨q.obj, q.dyn, q.cap, ?_⟩⟩
      apply List.ext_getElem?
      intro j
      rw [List.getElem?_map, List.getElem?_set]
      have hv := q.val
      subst hv
      rw [List.getElem?_map]
      by_cases hj : i.toNat % 2 ^ 32 = j
      · rw [if_pos hj, ← hj, hc]
        rw [if_pos (by rw [List.length_map, ← hlen]; exact h1)]
        simp [upd]
      · rw [if_neg hj]
        cases hcj : o.cells[j]? with
        | none => rfl
        | some c' =>
          have : c' ≠ c0 := by
            intro e
            rw [e] at hcj
            exact hj (nodup r q.obj hc hcj)
          simp [upd, this]
    · rw [if_neg h1]
      rw [List.getElem?_eq_none (by omega)]
      dsimp only
      rw [hlen]
      by_cases h2 : i.toNat % 2 ^ 32 = o.cells.length
      · simp only [h2, if_true, q.cap, dynCap]
        by_cases h3 : o.cells.length < 2 ^ 32 - 3
        · rw [if_pos h3, if_pos h3]
          refine .inr ⟨_, { o with cells := o.cells ++ [s.ncell] }, _, _, rfl, rfl, ⟨by simp [upd]; rw [q.cap]; rfl, q.dyn, q.cap, ?_⟩⟩
          dsimp only
          rw [List.map_append, ← q.val]
          congr 1
          · apply List.map_congr_left
            intro c hc
            have := r.cfresh y o c q.obj hc
            have : c ≠ s.ncell := by omega
            simp [upd, this]
          · simp [upd]
        · rw [if_neg h3, if_neg h3]; exact .inl ⟨_, rfl, rfl⟩
      · rw [if_neg h2, if_neg h2]; exact .inl ⟨_, rfl, rfl⟩
  | len y =>
    simp only [uses, beq_iff_eq] at hu; subst hu
    simp only [astep, awith, seqStep, q.obj, hlen]
    exact .inr ⟨s, o, l, _, rfl, rfl, q⟩
  | next y k =>
    simp only [uses, beq_iff_eq] at hu; subst hu
    simp only [astep, awith, seqStep, q.obj, q.get, hlen]
    split
    · exact .inr ⟨s, o, l, _, rfl, rfl, q⟩
    · cases hg : seqGet actual.ix l (k.getD 0 + 1) with
      | ok e => exact .inr ⟨s, o, l, _, rfl, rfl, q⟩
      | err m => exact .inl ⟨m, rfl, rfl⟩
      | ub => exact absurd hg seqGet_ne_ub
  | free y => simp only [uses, beq_iff_eq] at hu; subst hu; exact absurd rfl hf

theorem seq_exec (z : E) (x : Nat) (ops : List (Op E)) : ∀ (h : Heap E) (s : Abs E) (o : AObj) (l : List E), Rel h s →
    Legal z h ops → IsSeq s x o l → .free x ∉ ops →
    resultsOn x ops (exec (step z) h ops).2 = (exec (seqStep actual.ix) l (ops.filter (uses x))).2 := by
  induction ops with
  | nil => intros; rfl
  | cons op ops ih =>
    intro h s o l r hl q hf
    obtain ⟨h1, h2⟩ := hl
    simp only [List.mem_cons, not_or] at hf
    cases hu : uses x op with
    | true =>
      rcases step_sim r z op (allowed_iff r op h1) with ⟨m, e1, e2⟩ | ⟨h', s', out, e1, e2, r'⟩
      · rcases q.step r z hu (Ne.symm hf.1) with ⟨m', e3, e4⟩ | ⟨_, _, _, _, e3, _⟩
        · rw [e2] at e3; cases e3
          rw [e1] at h2
          have := ih h s o l r h2 q hf.2
          simp only [resultsOn, exec, e1, List.filter_cons, hu, if_true, e4, List.zip_cons_cons, List.map_cons] at this ⊢
          rw [this]
        · rw [e2] at e3; cases e3
      · rcases q.step r z hu (Ne.symm hf.1) with ⟨m', e3, e4⟩ | ⟨s1, o', l', out', e3, e4, q'⟩
        · rw [e2] at e3; cases e3
        · rw [e2] at e3; cases e3
          rw [e1] at h2
          have := ih h' s' o' l' r' h2 q' hf.2
          simp only [resultsOn, exec, e1, List.filter_cons, hu, if_true, e4, List.zip_cons_cons, List.map_cons] at this ⊢
          rw [this]
    | false =>
      rcases step_sim r z op (allowed_iff r op h1) with ⟨m, e1, e2⟩ | ⟨h', s', out, e1, e2, r'⟩
      · rw [e1] at h2
        have := ih h s o l r h2 q hf.2
        simp only [resultsOn, exec, e1, List.filter_cons, hu, List.zip_cons_cons, Bool.false_eq_true, if_false] at this ⊢
        exact this
      · rw [e1] at h2
        have := ih h' s' o l r' h2 (q.frame r hu (astep_change e2)) hf.2
        simp only [resultsOn, exec, e1, List.filter_cons, hu, List.zip_cons_cons, Bool.false_eq_true, if_false] at this ⊢
        exact this

end Verif.RArray
