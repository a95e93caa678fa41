import Verif.RArray.Seq
/-!
Properties C14-C17: typed arrays and slices.

A history is any list of operations starting from the empty heap; `Legal` says that it uses live
objects only, that the collector does not free an array that a live slice refers to, that
`unsigned int` arguments fit, and that `next` is not called with the largest integer.
-/
namespace Verif.RArray
open Verif.Arith (LInt)
variable {E : Type}

/-! ### C14: memory safety -/

/-- **C14.** No legal history of creations, reads, writes, slices, traversals and frees has undefined behaviour:
no access outside an allocated block, to a freed block, or to an uninitialised element. -/
theorem typed_arrays_memory_safe (z : E) (ops : List (Op E)) (hl : Legal z empty ops) :
    Res.ub ∉ (exec (step z) empty ops).2 ∧ (exec (step z) empty ops).2.length = ops.length := by
  refine ⟨(exec_sim z ops empty (Abs.empty z) (Rel.init z) hl).2.2, ?_⟩
  have key : ∀ (ops : List (Op E)) (h : Heap E), Res.ub ∉ (exec (step z) h ops).2 →
      (exec (step z) h ops).2.length = ops.length := by
    intro ops
    induction ops with
    | nil => intros; rfl
    | cons op ops ih =>
      intro h hn
      unfold exec at hn ⊢
      split at hn <;> simp_all
  exact key ops empty (exec_sim z ops empty (Abs.empty z) (Rel.init z) hl).2.2

/-- **C14 / C15 / C16.** Every legal history gives exactly the results (values, lengths, errors) of the specification in
which an array is a sequence of variables and a slice is a sub-sequence of the same variables
(index taken modulo 2^32). -/
theorem typed_arrays_match_spec (z : E) (ops : List (Op E)) (hl : Legal z empty ops) :
    (exec (step z) empty ops).2 = (exec (astep actual z) (Abs.empty z) ops).2 :=
  (exec_sim z ops empty (Abs.empty z) (Rel.init z) hl).2.1

/-- **C14.** A value read is the value last stored there: right after a successful store, the same index reads it back, in
every reachable state. -/
theorem get_after_set {z : E} {h h' : Heap E} (hr : Reach z h) {x : Nat} {i : LInt} {v : E} {out : Out E}
    (hs : step z h (.set x i v) = .ok (h', out)) (hx : h.objs x ≠ none) :
    step z h' (.get x i) = .ok (h', .val v) := by
  obtain ⟨s, r⟩ := reach_rel hr
  rcases step_sim r z (.set x i v) (allowed_iff r _ hx) with ⟨m, e1, _⟩ | ⟨h1, s', out', e1, e2, r'⟩
  · rw [hs] at e1; cases e1
  · rw [hs] at e1; cases e1
    have hch := astep_change e2
    have fin : ∀ o c, s'.objs x = some o → o.cells[i.toNat % 2 ^ 32]? = some c → s'.cell c = v →
        step z h' (.get x i) = .ok (h', .val v) := by
      intro o c ho hc hv
      obtain ⟨a, o', k, t1, t2, t3⟩ := r'.get (x := x) (by rw [ho]; simp)
      rw [ho] at t2; cases t2
      simp only [step, withObj, t1, sim_get t3, aget, actual, hc, Res.bind_ok, Res.pure_eq, hv]
    cases hch with
    | same =>
      -- a store always goes to a cell
      obtain ⟨a, o, k, t1, t2, t3⟩ := r.get (x := x) (fun e => hx ((r.dom x).2 e))
      simp only [astep, awith, t2, aset, actual] at e2
      cases hc : o.cells[i.toNat % 2 ^ 32]? with
      | some c =>
        simp only [hc, Res.bind_ok, Res.pure_eq, Res.ok.injEq, Prod.mk.injEq] at e2
        refine fin o c t2 hc ?_
        rw [← e2.1]; simp [upd]
      | none =>
        rw [hc] at e2
        dsimp only at e2
        split at e2
        · split at e2
          · simp only [Res.bind_ok, Res.pure_eq, Res.ok.injEq, Prod.mk.injEq] at e2
            have := congrArg Abs.ncell e2.1
            dsimp only at this
            omega
          · cases e2
        · cases e2
    | new o' cell n h1 h2 =>
      obtain ⟨a, o, k, t1, t2, t3⟩ := r.get (x := x) (fun e => hx ((r.dom x).2 e))
      simp only [astep, awith, t2, aset, actual] at e2
      cases hc : o.cells[i.toNat % 2 ^ 32]? with
      | some c =>
        simp only [hc, Res.bind_ok, Res.pure_eq, Res.ok.injEq, Prod.mk.injEq] at e2
        have := congrArg Abs.nobj e2.1
        simp [Abs.add] at this
      | none =>
        rw [hc] at e2
        dsimp only at e2
        split at e2
        · split at e2
          · simp only [Res.bind_ok, Res.pure_eq, Res.ok.injEq, Prod.mk.injEq] at e2
            have := congrArg Abs.nobj e2.1
            simp [Abs.add] at this
          · cases e2
        · cases e2
    | store y i' v' o c h1 h2 => exact fin o c h1 h2 (by simp [upd])
    | append y i' v' o h1 h2 h3 =>
      refine fin { o with cells := o.cells ++ [s.ncell] } s.ncell (by simp [upd]) ?_ (by simp [upd])
      dsimp only
      rw [h2, List.getElem?_append_right (Nat.le_refl _)]
      simp

/-- **C14.** What a store does, by index, in every reachable state: inside the array it succeeds and keeps the
length; exactly one past the end it appends one element or (fixed arrays, slices, arrays of maximal length) reports that
the array cannot be resized; anywhere else it reports out of bounds. -/
theorem set_by_index {z : E} {h : Heap E} (hr : Reach z h) {x n : Nat} (hx : step z h (.len x) = .ok (h, .num n))
    (i : LInt) (v : E) :
    (i.toNat % 2 ^ 32 ≤ n → ∃ h', step z h (.set x i v) = .ok (h', .unit) ∧ step z h' (.len x) = .ok (h', .num n)) ∧
    (i.toNat % 2 ^ 32 = n + 1 →
      (∃ h', step z h (.set x i v) = .ok (h', .unit) ∧ step z h' (.len x) = .ok (h', .num (n + 1))) ∨
      step z h (.set x i v) = .err "array cannot be resized") ∧
    (n + 1 < i.toNat % 2 ^ 32 → step z h (.set x i v) = .err "array out of bounds") := by
  obtain ⟨s, r⟩ := reach_rel hr
  have hxn : h.objs x ≠ none := by
    intro e; simp only [step, withObj, e] at hx; cases hx
  obtain ⟨a, o, k, t1, t2, t3⟩ := r.get (x := x) (fun e => hxn ((r.dom x).2 e))
  have q1 := t3.pos; have q2 := t3.lesz; have q3 := t3.sz; have q4 := t3.llen
  have hn : n = o.cells.length - 1 := by
    simp only [step, withObj, t1, Res.ok.injEq, Prod.mk.injEq, Out.num.injEq, true_and] at hx
    omega
  have hlen : ∀ (h' : Heap E) (s' : Abs E) (o' : AObj), Rel h' s' → s'.objs x = some o' →
      step z h' (.len x) = .ok (h', .num (o'.cells.length - 1)) := by
    intro h' s' o' r' ho'
    obtain ⟨a', o1, k', u1, u2, u3⟩ := r'.get (x := x) (by rw [ho']; simp)
    rw [ho'] at u2; cases u2
    have p1 := u3.pos; have p2 := u3.lesz; have p3 := u3.sz; have p4 := u3.llen
    have hn : (a'.len + (2 ^ 32 - 1)) % 2 ^ 32 = o'.cells.length - 1 := by omega
    simp only [step, withObj, u1, hn]
  have hsim := step_sim r z (.set x i v) (allowed_iff r _ hxn)
  refine ⟨fun hi => ?_, fun hi => ?_, fun hi => ?_⟩
  · have hlt : i.toNat % 2 ^ 32 < o.cells.length := by omega
    have e3 : astep actual z s (.set x i v) = .ok ({ s with cell := upd s.cell o.cells[i.toNat % 2 ^ 32] v }, .unit) := by
      simp only [astep, awith, t2, aset, actual, List.getElem?_eq_getElem hlt, Res.bind_ok, Res.pure_eq]
    rcases hsim with ⟨m, _, e2⟩ | ⟨h1, s', out', e1, e2, r'⟩
    · rw [e3] at e2; cases e2
    · rw [e3] at e2; cases e2
      refine ⟨h1, e1, ?_⟩
      rw [hn]; exact hlen h1 _ o r' t2
  · have hge : i.toNat % 2 ^ 32 = o.cells.length := by omega
    rcases hsim with ⟨m, e1, e2⟩ | ⟨h1, s', out', e1, e2, r'⟩
    · right
      simp only [astep, awith, t2, aset, actual, hge, List.getElem?_eq_none (Nat.le_refl _), if_true] at e2
      split at e2
      · cases e2
      · cases e2; exact e1
    · left
      simp only [astep, awith, t2, aset, actual, hge, List.getElem?_eq_none (Nat.le_refl _), if_true] at e2
      split at e2
      · simp only [Res.bind_ok, Res.pure_eq, Res.ok.injEq, Prod.mk.injEq] at e2
        obtain ⟨e2, e3⟩ := e2
        subst e3
        refine ⟨h1, e1, ?_⟩
        have := hlen h1 s' { o with cells := o.cells ++ [s.ncell] } r' (by rw [← e2]; simp [upd])
        rw [this]
        simp; omega
      · cases e2
  · have e3 : astep actual z s (.set x i v) = .err "array out of bounds" := by
      simp only [astep, awith, t2, aset, actual, List.getElem?_eq_none (show o.cells.length ≤ i.toNat % 2 ^ 32 by omega)]
      rw [if_neg (by omega)]; rfl
    rcases hsim with ⟨m, e1, e2⟩ | ⟨h1, s', out', e1, e2, r'⟩
    · rw [e3] at e2; cases e2; exact e1
    · rw [e3] at e2; cases e2

/-- `next(a, math.maxinteger)` on a typed array computes `i + 1` with signed overflow: undefined behaviour
(ltable.c 261-262).  This is why `Legal` excludes that key. -/
theorem next_maxint_is_ub (z : E) (h : Heap E) (x : Nat) (a : Arr) (hx : h.objs x = some a) :
    step z h (.next x (some (BitVec.intMax 64))) = .ub := by
  have : Arith.cAddS (BitVec.intMax 64) 1 = .ub := by decide
  simp only [step, withObj, hx, next]
  rw [this]; rfl

/-! ### C15: a dynamic array is a growable sequence -/

/-- **C15.** Seen alone, a dynamic array behaves under every history of operations on all arrays as a list that
starts as `[z]` (the hidden element 0), with indexes taken modulo 2^32: its elements are those stored last, it grows by
one exactly at `#a+1`, growing keeps all elements, and operations on other arrays do not affect it. -/
theorem dynamic_array_is_sequence_mod32 (z : E) (h h1 : Heap E) (hr : Reach z h) (x : Nat)
    (hn : step z h .newDyn = .ok (h1, .obj x)) (ops : List (Op E)) (hl : Legal z h1 ops) (hf : .free x ∉ ops) :
    resultsOn x ops (exec (step z) h1 ops).2 =
      (exec (seqStep (fun i => some (i.toNat % 2 ^ 32))) [z] (ops.filter (uses x))).2 := by
  obtain ⟨s, r⟩ := reach_rel hr
  rcases step_sim r z .newDyn (allowed_iff r _ trivial) with ⟨m, e1, e2⟩ | ⟨h', s', out, e1, e2, r'⟩
  · cases e2
  · rw [hn] at e1; cases e1
    simp only [astep, Res.ok.injEq, Prod.mk.injEq, Out.obj.injEq] at e2
    obtain ⟨e2, rfl⟩ := e2
    refine seq_exec z _ ops h1 s' ⟨[s.ncell], false, dynCap, none⟩ [z] r' hl ?_ hf
    rw [← e2]
    exact ⟨by simp [Abs.add, upd], rfl, rfl, by simp [Abs.add, upd]⟩

/-- the integer indexes an operation uses -/
def indexOf : Op E → Option LInt
  | .get _ i => some i
  | .rawgeti _ i => some i
  | .set _ i _ => some i
  | .next _ k => some (k.getD 0 + 1)
  | _ => none

/-- **C15 (partial).** The same with indexes meaning the integers themselves (negative or too large = out of bounds), for
histories whose indexes on `x` lie in `0 .. 2^32-1`.  What is missing, other indexes, is false:
`typed_array_index_wraps`. -/
theorem dynamic_array_is_sequence_partial (z : E) (h h1 : Heap E) (hr : Reach z h) (x : Nat)
    (hn : step z h .newDyn = .ok (h1, .obj x)) (ops : List (Op E)) (hl : Legal z h1 ops) (hf : .free x ∉ ops)
    (hix : ∀ op ∈ ops, uses x op = true → ∀ i, indexOf op = some i → 0 ≤ i.toInt ∧ i.toInt < 2 ^ 32) :
    resultsOn x ops (exec (step z) h1 ops).2 =
      (exec (seqStep (fun i => if 0 ≤ i.toInt then some i.toInt.toNat else none)) [z] (ops.filter (uses x))).2 := by
  rw [dynamic_array_is_sequence_mod32 z h h1 hr x hn ops hl hf]
  have hi : ∀ i : LInt, 0 ≤ i.toInt ∧ i.toInt < 2 ^ 32 →
      (if 0 ≤ i.toInt then some i.toInt.toNat else none) = (some (i.toNat % 2 ^ 32) : Option Nat) := by
    intro i ⟨h1, h2⟩
    rw [if_pos h1]
    have := i.isLt
    have : i.toInt = i.toNat := by
      rw [BitVec.toInt_eq_toNat_cond] at h1 ⊢
      split at h1 <;> simp_all
      omega
    rw [this]
    congr 1
    rw [Int.toNat_natCast]
    exact (Nat.mod_eq_of_lt (by omega)).symm
  have hstep : ∀ (l : List E) op, (∀ i, indexOf op = some i → 0 ≤ i.toInt ∧ i.toInt < 2 ^ 32) →
      seqStep (fun i => some (i.toNat % 2 ^ 32)) l op =
      seqStep (fun i => if 0 ≤ i.toInt then some i.toInt.toNat else none) l op := by
    intro l op hop
    cases op with
    | get y i => simp only [seqStep, seqGet, hi i (hop i rfl)]
    | rawgeti y i => simp only [seqStep, seqGet, hi i (hop i rfl)]
    | set y i v => simp only [seqStep, hi i (hop i rfl)]
    | next y k => simp only [seqStep, seqGet, hi _ (hop _ rfl)]
    | _ => rfl
  have key : ∀ (ops : List (Op E)) (l : List E), (∀ op ∈ ops, ∀ i, indexOf op = some i → 0 ≤ i.toInt ∧ i.toInt < 2 ^ 32) →
      exec (seqStep (fun i => some (i.toNat % 2 ^ 32))) l ops =
      exec (seqStep (fun i => if 0 ≤ i.toInt then some i.toInt.toNat else none)) l ops := by
    intro ops
    induction ops with
    | nil => intros; rfl
    | cons op ops ih =>
      intro l hop
      have ih' := fun l => ih l (fun op' hm => hop op' (List.mem_cons_of_mem _ hm))
      simp only [exec, hstep l op (hop op (List.mem_cons_self ..)), ih']
  rw [key]
  intro op hm
  simp only [List.mem_filter] at hm
  exact hix op hm.1 hm.2

/-- **C15, counterexample.** Indexes wrap at 2^32: `local a: integer[] = {}; a[1] = 7; return a[4294967297]`
returns 7 instead of raising an error, so the restriction in `dynamic_array_is_sequence_partial` cannot be removed. -/
theorem typed_array_index_wraps :
    ¬ ∀ (z : Nat) (h h1 : Heap Nat) (_ : Reach z h) (x : Nat)
      (_ : step z h .newDyn = .ok (h1, .obj x)) (ops : List (Op Nat)) (_ : Legal z h1 ops) (_ : .free x ∉ ops),
      resultsOn x ops (exec (step z) h1 ops).2 =
        (exec (seqStep (fun i => if 0 ≤ i.toInt then some i.toInt.toNat else none)) [z] (ops.filter (uses x))).2 := by
  intro hall
  have h0 : Reach 0 (empty : Heap Nat) := ⟨[], trivial, rfl⟩
  have := hall 0 empty _ h0 0 rfl [.set 0 1 7, .get 0 4294967297] ⟨by simp [AllowedC, empty, upd], by
    refine ⟨by simp [AllowedC, empty, upd, setObj], trivial⟩⟩ (by simp)
  revert this
  simp [resultsOn, exec, step, withObj, uses, set, get, ukey, upd, fill, setObj, load, empty, seqStep, seqGet]

/-! ### C16: slices -/

/-- **C16.** When a slice can be created: exactly for `1 ≤ start`, `1 ≤ len`, `start + len - 1 ≤ #a` (with no wrap-around
of the 32-bit sum) from an array that is not dynamic. -/
theorem slice_created_iff {z : E} {h : Heap E} (hr : Reach z h) {p n : Nat} {a : Arr} (hp : h.objs p = some a)
    (hlen : step z h (.len p) = .ok (h, .num n)) (start len : Nat) (hs : start < 2 ^ 32) (hl : len < 2 ^ 32) :
    (∃ h' y, step z h (.newSlice p start len) = .ok (h', .obj y)) ↔
      1 ≤ start ∧ 1 ≤ len ∧ start + len - 1 ≤ n ∧ a.fixed = true := by
  obtain ⟨s, r⟩ := reach_rel hr
  have hpn : h.objs p ≠ none := by rw [hp]; simp
  obtain ⟨a', o, k, t1, t2, t3⟩ := r.get (x := p) (fun e => hpn ((r.dom p).2 e))
  rw [hp] at t1; cases t1
  have q1 := t3.pos; have q2 := t3.lesz; have q3 := t3.sz; have q4 := t3.llen
  have hn : n = o.cells.length - 1 := by
    simp only [step, withObj, hp, Res.ok.injEq, Prod.mk.injEq, Out.num.injEq, true_and] at hlen
    omega
  have hsim := step_sim r z (.newSlice p start len) (allowed_iff r _ ⟨hpn, hs, hl⟩)
  simp only [astep, awith, t2] at hsim
  by_cases hc : start < 1 ∨ len < 1 ∨ o.cells.length < start + len
  · simp only [hc, if_true] at hsim
    rcases hsim with ⟨m, e1, e2⟩ | ⟨_, _, _, _, e2, _⟩
    · rw [e1]
      constructor
      · rintro ⟨_, _, h⟩; cases h
      · intro h; omega
    · cases e2
  · simp only [hc, if_false] at hsim
    cases hf : a.fixed with
    | false =>
      rw [if_pos (by rw [t3.sl]; exact hf)] at hsim
      rcases hsim with ⟨m, e1, e2⟩ | ⟨_, _, _, _, e2, _⟩
      · rw [e1]
        constructor
        · rintro ⟨_, _, h⟩; cases h
        · rintro ⟨_, _, _, h⟩; cases h
      · cases e2
    | true =>
      rw [if_neg (by rw [t3.sl, hf]; simp)] at hsim
      rcases hsim with ⟨m, e1, e2⟩ | ⟨h', _, _, e1, e2, _⟩
      · cases e2
      · cases e2
        exact ⟨fun _ => ⟨by omega, by omega, by omega, rfl⟩, fun _ => ⟨h', _, e1⟩⟩

/-- **C16.** A slice `y = table.slice(p, start, len)` is an alias: after any further history, as long as the slice lives,
`y[i]` and `p[start+i-1]` are the same value for all `i` in `0..len`, whatever was stored through either of them (or through
other slices), and `#y` is still `len`. -/
theorem slice_aliases_parent {z : E} {h h1 : Heap E} (hr : Reach z h) {p start len y : Nat} (hp : h.objs p ≠ none)
    (hs : start < 2 ^ 32) (hl : len < 2 ^ 32)
    (hn : step z h (.newSlice p start len) = .ok (h1, .obj y)) (ops : List (Op E)) (hlg : Legal z h1 ops)
    (hy : (exec (step z) h1 ops).1.objs y ≠ none) :
    let h2 := (exec (step z) h1 ops).1
    step z h2 (.len y) = .ok (h2, .num len) ∧
    ∀ i, i ≤ len → ∃ e, step z h2 (.get y (BitVec.ofNat 64 i)) = .ok (h2, .val e) ∧
      step z h2 (.get p (BitVec.ofNat 64 (start - 1 + i))) = .ok (h2, .val e) := by
  obtain ⟨s, r⟩ := reach_rel hr
  rcases step_sim r z (.newSlice p start len) (allowed_iff r _ ⟨hp, hs, hl⟩) with ⟨m, e1, e2⟩ | ⟨h', s1, out, e1, e2, r1⟩
  · rw [hn] at e1; cases e1
  · rw [hn] at e1; cases e1
    obtain ⟨a0, o0, k0, t1, t2, t3⟩ := r.get (x := p) (fun e => hp ((r.dom p).2 e))
    have hplt := r.lt p a0 t1
    simp only [astep, awith, t2] at e2
    split at e2
    · cases e2
    · rename_i hb
      split at e2
      · cases e2
      · simp only [Res.ok.injEq, Prod.mk.injEq, Out.obj.injEq] at e2
        obtain ⟨e2, e3⟩ := e2
        rw [r.nobj] at hplt
        -- the invariant on the pair
        let I : Abs E → Prop := fun s => p < s.nobj ∧ y < s.nobj ∧ ∀ oy, s.objs y = some oy →
          oy.cap = len + 1 ∧ oy.cells.length = len + 1 ∧ oy.parent = some p ∧
          ∀ op, s.objs p = some op → start + len ≤ op.cells.length ∧
            ∀ i, i ≤ len → oy.cells[i]? = op.cells[start - 1 + i]?
        have hI : I (exec (astep actual z) s1 ops).1 := by
          refine along I ?_ ops h1 s1 r1 hlg ?_
          · intro h s s' op r hc ⟨i1, i2, i3⟩
            refine ⟨Nat.lt_of_lt_of_le i1 hc.nobj, Nat.lt_of_lt_of_le i2 hc.nobj, ?_⟩
            intro oy' hoy'
            cases hoy : s.objs y with
            | none => rw [hc.dead hoy i2] at hoy'; cases hoy'
            | some oy =>
              obtain ⟨j1, j2, j3, j4⟩ := i3 oy hoy
              rcases hc.evolve hoy i2 with ⟨_, q⟩ | q | ⟨q, _⟩
              · rw [q] at hoy'; cases hoy'
              · rw [q] at hoy'; cases hoy'
                refine ⟨j1, j2, j3, ?_⟩
                intro op' hop'
                cases hop : s.objs p with
                | none => rw [hc.dead hop i1] at hop'; cases hop'
                | some op =>
                  obtain ⟨l1, l2⟩ := j4 op hop
                  rcases hc.evolve hop i1 with ⟨_, q⟩ | q | ⟨_, q⟩
                  · rw [q] at hop'; cases hop'
                  · rw [q] at hop'; cases hop'
                    exact ⟨l1, l2⟩
                  · rw [q] at hop'; cases hop'
                    refine ⟨by simp; omega, ?_⟩
                    intro i hi
                    dsimp only
                    rw [List.getElem?_append_left (by omega)]
                    exact l2 i hi
              · omega
          · rw [← e2]
            refine ⟨by simp [Abs.add]; omega, by simp [Abs.add]; omega, ?_⟩
            intro oy hoy
            rw [← e3] at hoy
            simp only [Abs.add, upd, if_true, Option.some.injEq] at hoy
            subst hoy
            refine ⟨rfl, by simp only [List.length_take, List.length_drop]; omega, rfl, ?_⟩
            intro op hop
            simp only [Abs.add, upd] at hop
            rw [if_neg (by omega), t2] at hop
            cases hop
            refine ⟨by omega, ?_⟩
            intro i hi
            dsimp only
            rw [List.getElem?_take, if_pos (by omega), List.getElem?_drop]
        obtain ⟨r2, _, _⟩ := exec_sim z ops h1 s1 r1 hlg
        revert hy hI r2
        generalize (exec (step z) h1 ops).1 = h2
        generalize (exec (astep actual z) s1 ops).1 = s2
        intro hy ⟨_, _, hI⟩ r2
        obtain ⟨ay, oy, ky, u1, u2, u3⟩ := r2.get (x := y) (fun e => hy ((r2.dom y).2 e))
        obtain ⟨j1, j2, j3, j4⟩ := hI oy u2
        have q1 := u3.pos; have q2 := u3.lesz; have q3 := u3.sz; have q4 := u3.llen
        have hsl : ay.slice = true := by
          cases e : ay.slice with
          | true => rfl
          | false => rw [u3.par, (u3.nons e).2.2] at j3; cases j3
        obtain ⟨p', ap, w1, _, w3, _⟩ := r2.par y ay u1 hsl
        have hpp : p' = p := by rw [← u3.par, j3] at w1; cases w1; rfl
        subst hpp
        obtain ⟨ap', op, kp, v1, v2, v3⟩ := r2.get (x := p') (fun e => by have := (r2.dom p').2 e; rw [w3] at this; cases this)
        obtain ⟨l1, l2⟩ := j4 op v2
        have p1 := v3.pos; have p2 := v3.lesz; have p3 := v3.sz; have p4 := v3.llen
        refine ⟨?_, ?_⟩
        · have hn : (ay.len + (2 ^ 32 - 1)) % 2 ^ 32 = len := by omega
          simp only [step, withObj, u1, hn]
        · intro i hi
          obtain ⟨c, hc⟩ : ∃ c, oy.cells[i]? = some c := ⟨_, List.getElem?_eq_getElem (by omega)⟩
          have hc2 := l2 i hi
          rw [hc] at hc2
          have k1 : (BitVec.ofNat 64 i).toNat % 2 ^ 32 = i := by
            rw [BitVec.toNat_ofNat]; omega
          have k2 : (BitVec.ofNat 64 (start - 1 + i)).toNat % 2 ^ 32 = start - 1 + i := by
            rw [BitVec.toNat_ofNat]; omega
          refine ⟨s2.cell c, ?_, ?_⟩
          · simp only [step, withObj, u1, sim_get u3, aget, actual, k1, hc, Res.bind_ok, Res.pure_eq]
          · simp only [step, withObj, v1, sim_get v3, aget, actual, k2, ← hc2, Res.bind_ok, Res.pure_eq]


theorem resize_objs {z : E} {h h' : Heap E} {x : Nat} {a a' : Arr} {n : Nat} {b : Bool}
    (hr : resizeArray z h x a n b = .ok (some (h', a'))) : h'.objs = upd h.objs x (some a') ∧ h'.nobj = h.nobj := by
  have fillo : ∀ (h h' : Heap E) b i n v, fill h b i n v = .ok h' → h'.objs = h.objs ∧ h'.nobj = h.nobj := by
    intro h h' b i n v hfl
    unfold fill at hfl
    split at hfl
    · cases hfl
    · split at hfl
      · cases hfl; exact ⟨rfl, rfl⟩
      · cases hfl
  have copyo : ∀ (h h' : Heap E) b b' n, copy h b b' n = .ok h' → h'.objs = h.objs ∧ h'.nobj = h.nobj := by
    intro h h' b b' n hfl
    unfold copy at hfl
    split at hfl
    · split at hfl
      · cases hfl; exact ⟨rfl, rfl⟩
      · cases hfl
    · cases hfl
  have freeo : ∀ (h h' : Heap E) b, freeBlk h b = .ok h' → h'.objs = h.objs ∧ h'.nobj = h.nobj := by
    intro h h' b hfl
    unfold freeBlk at hfl
    split at hfl
    · cases hfl
    · cases hfl; exact ⟨rfl, rfl⟩
  unfold resizeArray at hr
  split at hr
  · cases hr
  · rename_i size _
    simp only at hr
    obtain ⟨h1, c1, hr⟩ := Res.bind_eq_ok.1 hr
    obtain ⟨p1, p2⟩ := copyo _ _ _ _ _ c1
    simp only [alloc] at p1 p2
    have fin : ∀ (h2 h3 : Heap E) (c : Arr), h2.objs = h.objs → h2.nobj = h.nobj → h3.objs = h2.objs → h3.nobj = h2.nobj →
        some (setObj h3 x c, c) = some (h', a') → h'.objs = upd h.objs x (some a') ∧ h'.nobj = h.nobj := by
      intro h2 h3 c e1 e2 e3 e4 e
      cases e
      simp only [setObj]
      rw [e3, e1, e4, e2]
      exact ⟨rfl, rfl⟩
    split at hr
    · obtain ⟨h2, c2, hr⟩ := Res.bind_eq_ok.1 hr
      obtain ⟨q1, q2⟩ := freeo _ _ _ c2
      split at hr
      · obtain ⟨h3, c3, hr⟩ := Res.bind_eq_ok.1 hr
        obtain ⟨r1, r2⟩ := fillo _ _ _ _ _ _ c3
        simp only [Res.pure_eq, Res.ok.injEq] at hr
        exact fin h2 h3 _ (q1.trans p1) (q2.trans p2) r1 r2 hr
      · simp only [Res.bind_ok, Res.pure_eq, Res.ok.injEq] at hr
        exact fin h2 h2 _ (q1.trans p1) (q2.trans p2) rfl rfl hr
    · simp only [Res.bind_ok] at hr
      split at hr
      · obtain ⟨h3, c3, hr⟩ := Res.bind_eq_ok.1 hr
        obtain ⟨r1, r2⟩ := fillo _ _ _ _ _ _ c3
        simp only [Res.pure_eq, Res.ok.injEq] at hr
        exact fin h1 h3 _ p1 p2 r1 r2 hr
      · simp only [Res.pure_eq, Res.ok.injEq] at hr
        exact fin h1 h1 _ p1 p2 rfl rfl hr

/-- a fixed array (or a slice) keeps its data pointer in every step -/
theorem fixed_pinned {z : E} {h h' : Heap E} {op : Op E} {out : Out E} (hs : step z h op = .ok (h', out)) {x : Nat} {a : Arr}
    (hx : h.objs x = some a) (hlt : x < h.nobj) (hf : a.fixed = true) :
    h.nobj ≤ h'.nobj ∧ ∀ a', h'.objs x = some a' → a'.fixed = true ∧ a'.blk = a.blk ∧ a'.off = a.off ∧ a'.size = a.size := by
  have same : h.nobj ≤ h.nobj ∧ ∀ a', h.objs x = some a' → a'.fixed = true ∧ a'.blk = a.blk ∧ a'.off = a.off ∧ a'.size = a.size := by
    refine ⟨Nat.le_refl _, fun a' ha' => ?_⟩
    rw [hx] at ha'; cases ha'
    exact ⟨hf, rfl, rfl, rfl⟩
  have fillo : ∀ (h h' : Heap E) b i n v, fill h b i n v = .ok h' → h'.objs = h.objs ∧ h'.nobj = h.nobj := by
    intro h h' b i n v hfl
    unfold fill at hfl
    split at hfl
    · cases hfl
    · split at hfl
      · cases hfl; exact ⟨rfl, rfl⟩
      · cases hfl
  have hne : x ≠ h.nobj := by omega
  cases op with
  | newDyn =>
    obtain ⟨h2, w1, w2, w3, _⟩ := new_eq z h
    simp only [step] at hs
    rw [w1] at hs
    simp only [Res.bind_ok, Res.pure_eq, Res.ok.injEq, Prod.mk.injEq] at hs
    rw [← hs.1]
    refine ⟨by rw [w3]; omega, ?_⟩
    rw [w2]
    intro a' ha'
    rw [upd, if_neg hne, hx] at ha'; cases ha'
    exact ⟨hf, rfl, rfl, rfl⟩
  | newFixed n v =>
    obtain ⟨h2, w1, w2, w3, _⟩ := new_eq z h
    simp only [step, newFixed] at hs
    rw [w1] at hs
    simp only [Res.bind_ok] at hs
    split at hs
    · cases hs
    · cases hr : resizeArray z h2 h.nobj ⟨false, false, false, 1, 3, h.nblk, 0, none⟩ ((n + 1) % 2 ^ 32) false with
      | err m => rw [hr] at hs; cases hs
      | ub => rw [hr] at hs; cases hs
      | ok q =>
        rw [hr] at hs
        cases q with
        | none => cases hs
        | some q =>
          obtain ⟨h3, a3⟩ := q
          simp only [Res.bind_ok] at hs
          cases hf1 : fill h3 a3.blk a3.off 1 z with
          | err m => rw [hf1] at hs; cases hs
          | ub => rw [hf1] at hs; cases hs
          | ok h4 =>
            rw [hf1] at hs
            simp only [Res.bind_ok] at hs
            cases hf2 : fill h4 a3.blk (a3.off + 1) ((n + 1) % 2 ^ 32 - 1) v with
            | err m => rw [hf2] at hs; cases hs
            | ub => rw [hf2] at hs; cases hs
            | ok h5 =>
              rw [hf2] at hs
              simp only [Res.bind_ok, Res.pure_eq, Res.ok.injEq, Prod.mk.injEq] at hs
              obtain ⟨f1, f2⟩ := fillo _ _ _ _ _ _ hf1
              obtain ⟨g1, g2⟩ := fillo _ _ _ _ _ _ hf2
              obtain ⟨k1, k2⟩ := resize_objs hr
              rw [← hs.1]
              refine ⟨by simp only [setObj]; rw [g2, f2, k2, w3]; omega, ?_⟩
              intro a' ha'
              simp only [setObj] at ha'
              rw [upd, if_neg hne, g1, f1, k1, upd, if_neg hne, w2, upd, if_neg hne, hx] at ha'
              cases ha'
              exact ⟨hf, rfl, rfl, rfl⟩
  | newSlice p start len =>
    simp only [step, newSlice] at hs
    split at hs
    · cases hs
    · split at hs
      · cases hs
      · split at hs
        · cases hs
        · simp only [Res.bind_ok, Res.pure_eq, Res.ok.injEq, Prod.mk.injEq] at hs
          rw [← hs.1]
          refine ⟨by dsimp only; omega, ?_⟩
          intro a' ha'
          dsimp only at ha'
          rw [upd, if_neg hne, hx] at ha'; cases ha'
          exact ⟨hf, rfl, rfl, rfl⟩
  | get y i =>
    simp only [step, withObj] at hs
    split at hs
    · cases hs
    · rename_i b _
      cases hg : get h b i with
      | ok e => rw [hg] at hs; simp only [Res.bind_ok, Res.pure_eq, Res.ok.injEq, Prod.mk.injEq] at hs; rw [← hs.1]; exact same
      | err m => rw [hg] at hs; cases hs
      | ub => rw [hg] at hs; cases hs
  | rawgeti y i =>
    simp only [step, withObj] at hs
    split at hs
    · cases hs
    · rename_i b _
      cases hg : rawgeti h b i with
      | ok e =>
        rw [hg] at hs
        cases e <;> (simp only [Res.bind_ok, Res.pure_eq, Res.ok.injEq, Prod.mk.injEq] at hs; rw [← hs.1]; exact same)
      | err m => rw [hg] at hs; cases hs
      | ub => rw [hg] at hs; cases hs
  | len y =>
    simp only [step, withObj] at hs
    split at hs
    · cases hs
    · simp only [Res.ok.injEq, Prod.mk.injEq] at hs; rw [← hs.1]; exact same
  | next y k =>
    simp only [step, withObj] at hs
    split at hs
    · cases hs
    · rename_i b _
      cases hg : next h b k with
      | ok e =>
        rw [hg] at hs
        cases e <;> (simp only [Res.bind_ok, Res.pure_eq, Res.ok.injEq, Prod.mk.injEq] at hs; rw [← hs.1]; exact same)
      | err m => rw [hg] at hs; cases hs
      | ub => rw [hg] at hs; cases hs
  | free y =>
    simp only [step, withObj] at hs
    split at hs
    · cases hs
    · rename_i b _
      simp only [free] at hs
      have fin : ∀ h1 : Heap E, h1.objs = h.objs → h1.nobj = h.nobj →
          h.nobj ≤ h1.nobj ∧ ∀ a', upd h1.objs y none x = some a' → a'.fixed = true ∧ a'.blk = a.blk ∧ a'.off = a.off ∧ a'.size = a.size := by
        intro h1 e1 e2
        refine ⟨by rw [e2]; exact Nat.le_refl _, fun a' ha' => ?_⟩
        rw [e1] at ha'
        unfold upd at ha'
        split at ha'
        · cases ha'
        · rw [hx] at ha'; cases ha'; exact ⟨hf, rfl, rfl, rfl⟩
      cases hb : b.slice with
      | true =>
        simp only [hb, if_true, Res.bind_ok, Res.pure_eq, Res.ok.injEq, Prod.mk.injEq] at hs
        rw [← hs.1]; exact fin h rfl rfl
      | false =>
        simp only [hb, Bool.false_eq_true, if_false, freeBlk] at hs
        split at hs
        · cases hs
        · simp only [Res.bind_ok, Res.pure_eq, Res.ok.injEq, Prod.mk.injEq] at hs
          rw [← hs.1]; exact fin _ rfl rfl
  | set y i v =>
    simp only [step, withObj] at hs
    split at hs
    · cases hs
    · rename_i b hb
      have fin : ∀ (h1 : Heap E) (u : Nat) (c : Arr), fill h b.blk (b.off + u) 1 v = .ok h1 → c = { b with len := b.len + 1 } →
          h.nobj ≤ (setObj h1 y c).nobj ∧
          ∀ a', (setObj h1 y c).objs x = some a' → a'.fixed = true ∧ a'.blk = a.blk ∧ a'.off = a.off ∧ a'.size = a.size := by
        intro h1 u c hfl hc
        obtain ⟨e1, e2⟩ := fillo _ _ _ _ _ _ hfl
        refine ⟨by simp only [setObj]; rw [e2]; exact Nat.le_refl _, fun a' ha' => ?_⟩
        simp only [setObj] at ha'
        unfold upd at ha'
        split at ha'
        · rename_i e
          subst e
          rw [hx] at hb; cases hb
          cases ha'
          rw [hc]
          exact ⟨hf, rfl, rfl, rfl⟩
        · rw [e1, hx] at ha'; cases ha'; exact ⟨hf, rfl, rfl, rfl⟩
      unfold set at hs
      dsimp only at hs
      split at hs
      · cases hfl : fill h b.blk (b.off + ukey i) 1 v with
        | err m => rw [hfl] at hs; cases hs
        | ub => rw [hfl] at hs; cases hs
        | ok h1 =>
          obtain ⟨e1, e2⟩ := fillo _ _ _ _ _ _ hfl
          rw [hfl] at hs
          simp only [Res.bind_ok, Res.pure_eq, Res.ok.injEq, Prod.mk.injEq] at hs
          rw [← hs.1]
          refine ⟨by rw [e2]; exact Nat.le_refl _, fun a' ha' => ?_⟩
          rw [e1, hx] at ha'; cases ha'; exact ⟨hf, rfl, rfl, rfl⟩
      · split at hs
        · split at hs
          · cases hfl : fill h b.blk (b.off + ukey i) 1 v with
            | err m => rw [hfl] at hs; cases hs
            | ub => rw [hfl] at hs; cases hs
            | ok h1 =>
              rw [hfl] at hs
              simp only [Res.bind_ok, Res.pure_eq, Res.ok.injEq, Prod.mk.injEq] at hs
              rw [← hs.1]
              exact fin h1 _ _ hfl rfl
          · cases hr : resizeArray z h y b 0 true with
            | err m => rw [hr] at hs; cases hs
            | ub => rw [hr] at hs; cases hs
            | ok q =>
              rw [hr] at hs
              cases q with
              | none => cases hs
              | some q =>
                obtain ⟨h3, a3⟩ := q
                simp only [Res.bind_ok] at hs
                have hxy : x ≠ y := by
                  intro e; subst e
                  rw [hx] at hb; cases hb
                  unfold resizeArray newSize at hr
                  rw [if_pos (.inl hf)] at hr
                  cases hr
                obtain ⟨k1, k2⟩ := resize_objs hr
                cases hfl : fill h3 a3.blk (a3.off + ukey i) 1 v with
                | err m => rw [hfl] at hs; cases hs
                | ub => rw [hfl] at hs; cases hs
                | ok h1 =>
                  obtain ⟨e1, e2⟩ := fillo _ _ _ _ _ _ hfl
                  rw [hfl] at hs
                  simp only [Res.bind_ok, Res.pure_eq, Res.ok.injEq, Prod.mk.injEq] at hs
                  rw [← hs.1]
                  refine ⟨by simp only [setObj]; rw [e2, k2]; exact Nat.le_refl _, fun a' ha' => ?_⟩
                  simp only [setObj] at ha'
                  rw [upd, if_neg hxy, e1, k1, upd, if_neg hxy, hx] at ha'; cases ha'
                  exact ⟨hf, rfl, rfl, rfl⟩
        · cases hs


/-- **C16.** While a slice lives, its parent's storage is neither reallocated nor freed: parent and slice keep
pointing into the block the parent had when the slice was created, and that block stays allocated. -/
theorem slice_storage_pinned {z : E} {h h1 : Heap E} (hr : Reach z h) {p start len y : Nat} {a : Arr}
    (hp : h.objs p = some a) (hs : start < 2 ^ 32) (hl : len < 2 ^ 32)
    (hn : step z h (.newSlice p start len) = .ok (h1, .obj y)) (ops : List (Op E)) (hlg : Legal z h1 ops)
    (hy : (exec (step z) h1 ops).1.objs y ≠ none) :
    let h2 := (exec (step z) h1 ops).1
    ∃ ap ay, h2.objs p = some ap ∧ h2.objs y = some ay ∧ ap.blk = a.blk ∧ ap.off = a.off ∧ ay.blk = a.blk ∧
      ay.off = a.off + (start - 1) ∧ h2.blocks a.blk ≠ none := by
  obtain ⟨s, r⟩ := reach_rel hr
  have hpn : h.objs p ≠ none := by rw [hp]; simp
  rcases step_sim r z (.newSlice p start len) (allowed_iff r _ ⟨hpn, hs, hl⟩) with ⟨m, e1, e2⟩ | ⟨h', s1, out, e1, e2, r1⟩
  · rw [hn] at e1; cases e1
  rw [hn] at e1; cases e1
  clear e2
  have hplt := r.lt p a hp
  simp only [step, newSlice, hp] at hn
  split at hn
  · cases hn
  · split at hn
    · cases hn
    · rename_i hfx
      simp only [Res.bind_ok, Res.pure_eq, Res.ok.injEq, Prod.mk.injEq, Out.obj.injEq] at hn
      obtain ⟨e1, e2⟩ := hn
      have key : ∀ (ops : List (Op E)) (h1 : Heap E) (s1 : Abs E), Rel h1 s1 → Legal z h1 ops → p < h1.nobj → y < h1.nobj →
          (h1.objs p = none ∨ ∃ ap, h1.objs p = some ap ∧ ap.fixed = true ∧ ap.blk = a.blk ∧ ap.off = a.off) →
          (h1.objs y = none ∨ ∃ ay, h1.objs y = some ay ∧ ay.fixed = true ∧ ay.slice = true ∧ ay.parent = some p ∧ ay.blk = a.blk ∧ ay.off = a.off + (start - 1)) →
          ∃ s2, Rel (exec (step z) h1 ops).1 s2 ∧
          (let h1 := (exec (step z) h1 ops).1
          (h1.objs p = none ∨ ∃ ap, h1.objs p = some ap ∧ ap.fixed = true ∧ ap.blk = a.blk ∧ ap.off = a.off) ∧
          (h1.objs y = none ∨ ∃ ay, h1.objs y = some ay ∧ ay.fixed = true ∧ ay.slice = true ∧ ay.parent = some p ∧ ay.blk = a.blk ∧ ay.off = a.off + (start - 1))) := by
        intro ops
        induction ops with
        | nil => intro h1 s1 r1 _ _ _ i1 i2; exact ⟨s1, r1, i1, i2⟩
        | cons op ops ih =>
          intro h1 s1 r1 hl l1 l2 i1 i2
          obtain ⟨hl1, hl2⟩ := hl
          rcases step_sim r1 z op (allowed_iff r1 op hl1) with ⟨m, e1, e2⟩ | ⟨h', s', out, e1, e2, r'⟩
          · rw [e1] at hl2
            simp only [exec, e1]
            exact ih h1 s1 r1 hl2 l1 l2 i1 i2
          · rw [e1] at hl2
            simp only [exec, e1]
            have hch := astep_change e2
            have hnb : h1.nobj ≤ h'.nobj := by rw [r1.nobj, r'.nobj]; exact hch.nobj
            have dead : ∀ x, x < h1.nobj → h1.objs x = none → h'.objs x = none := by
              intro x hx hd
              exact (r'.dom x).2 (hch.dead ((r1.dom x).1 hd) (by rw [← r1.nobj]; exact hx))
            refine ih h' s' r' hl2 (by omega) (by omega) ?_ ?_
            · rcases i1 with q | ⟨ap, q1, q2, q3, q4⟩
              · exact .inl (dead p l1 q)
              · cases hpx : h'.objs p with
                | none => exact .inl rfl
                | some ap' =>
                  obtain ⟨_, w⟩ := fixed_pinned e1 q1 l1 q2
                  obtain ⟨w1, w2, w3, _⟩ := w ap' hpx
                  exact .inr ⟨ap', rfl, w1, w2.trans q3, w3.trans q4⟩
            · rcases i2 with q | ⟨ay, q1, q2, q5, q6, q3, q4⟩
              · exact .inl (dead y l2 q)
              · cases hpx : h'.objs y with
                | none => exact .inl rfl
                | some ay' =>
                  obtain ⟨_, w⟩ := fixed_pinned e1 q1 l2 q2
                  obtain ⟨w1, w2, w3, _⟩ := w ay' hpx
                  obtain ⟨b, o, k, u1, u2, u3⟩ := r1.get (x := y) (fun e => by have := (r1.dom y).2 e; rw [q1] at this; cases this)
                  rw [q1] at u1; cases u1
                  obtain ⟨b', o', k', v1, v2, v3⟩ := r'.get (x := y) (fun e => by have := (r'.dom y).2 e; rw [hpx] at this; cases this)
                  rw [hpx] at v1; cases v1
                  have hpar : ay'.parent = some p := by
                    rw [← v3.par]
                    rcases hch.evolve u2 (by rw [← r1.nobj]; exact l2) with ⟨_, c⟩ | c | ⟨_, c⟩
                    · rw [v2] at c; cases c
                    · rw [v2] at c; cases c; rw [u3.par]; exact q6
                    · rw [v2] at c; cases c; dsimp only; rw [u3.par]; exact q6
                  have hsl : ay'.slice = true := by
                    cases e : ay'.slice with
                    | true => rfl
                    | false => rw [(v3.nons e).2.2] at hpar; cases hpar
                  exact .inr ⟨ay', rfl, w1, hsl, hpar, w2.trans q3, w3.trans q4⟩
      obtain ⟨s2, r2, j1, j2⟩ := key ops h1 s1 r1 hlg (by rw [← e1]; dsimp only; omega) (by rw [← e1]; dsimp only; omega)
        (.inr ⟨a, by rw [← e1]; dsimp only; rw [upd, if_neg (by omega)]; exact hp, by simpa using hfx, rfl, rfl⟩)
        (.inr ⟨⟨true, true, false, (len + 1) % 2 ^ 32, (len + 1) % 2 ^ 32, a.blk, a.off + (start - 1), some p⟩,
          by rw [← e1]; dsimp only; rw [upd, if_pos e2.symm], rfl, rfl, rfl, rfl, rfl⟩)
      revert r2 j1 j2 hy
      generalize (exec (step z) h1 ops).1 = h2
      intro hy r2 j1 j2
      rcases j2 with q | ⟨ay, q1, q2, q5, q6, q3, q4⟩
      · exact absurd q hy
      · obtain ⟨p', b', v1, _, v3, _⟩ := r2.par y ay q1 q5
        rw [q6] at v1; cases v1
        rcases j1 with q | ⟨ap, c1, c2, c3, c4⟩
        · rw [q] at v3; cases v3
        · refine ⟨ap, ay, c1, q1, c3, c4, q3, q4, ?_⟩
          obtain ⟨b, o, k, u1, u2, u3⟩ := r2.get (x := y) (fun e => by have := (r2.dom y).2 e; rw [q1] at this; cases this)
          rw [q1] at u1; cases u1
          rw [← q3, u3.blk]; simp

/-! ### C17: arrays of fixed length -/

/-- **C17 (partial).** `table.intarray(n)` with `n ≥ 12` keeps `#a == n` for its whole life.  For every `n` the length never
shrinks and never exceeds `max 12 n`.  What is missing, no growth for `n < 12`, is false:
`small_fixed_array_grows`. -/
theorem fixed_length_kept_partial {z : E} {h h1 : Heap E} (hr : Reach z h) {n : Nat} (hn : n < 2 ^ 32) {v : E} {x : Nat}
    (hs : step z h (.newFixed n v) = .ok (h1, .obj x)) (ops : List (Op E)) (hl : Legal z h1 ops)
    (hx : (exec (step z) h1 ops).1.objs x ≠ none) :
    let h2 := (exec (step z) h1 ops).1
    ∃ m, step z h2 (.len x) = .ok (h2, .num m) ∧ n ≤ m ∧ m ≤ max 12 n ∧ (12 ≤ n → m = n) := by
  obtain ⟨s, r⟩ := reach_rel hr
  rcases step_sim r z (.newFixed n v) (allowed_iff r _ hn) with ⟨m, e1, e2⟩ | ⟨h', s1, out, e1, e2, r1⟩
  · rw [hs] at e1; cases e1
  rw [hs] at e1; cases e1
  simp only [astep] at e2
  split at e2
  · cases e2
  · simp only [Res.ok.injEq, Prod.mk.injEq, Out.obj.injEq] at e2
    obtain ⟨e2, e3⟩ := e2
    let I : Abs E → Prop := fun s => x < s.nobj ∧ ∀ o, s.objs x = some o →
      o.cap = max 13 (n + 1) ∧ n + 1 ≤ o.cells.length ∧ o.cells.length ≤ max 13 (n + 1)
    have hI : I (exec (astep actual z) s1 ops).1 := by
      refine along I ?_ ops h1 s1 r1 hl ?_
      · intro h s s' op r hc ⟨i1, i2⟩
        refine ⟨Nat.lt_of_lt_of_le i1 hc.nobj, ?_⟩
        intro o' ho'
        cases ho : s.objs x with
        | none => rw [hc.dead ho i1] at ho'; cases ho'
        | some o =>
          obtain ⟨j1, j2, j3⟩ := i2 o ho
          rcases hc.evolve ho i1 with ⟨_, q⟩ | q | ⟨q1, q⟩
          · rw [q] at ho'; cases ho'
          · rw [q] at ho'; cases ho'; exact ⟨j1, j2, j3⟩
          · rw [q] at ho'; cases ho'
            exact ⟨j1, by simp; omega, by simp; omega⟩
      · rw [← e2]
        refine ⟨by simp [Abs.add]; omega, ?_⟩
        intro o ho
        rw [← e3] at ho
        simp only [Abs.add, upd, if_true, Option.some.injEq] at ho
        subst ho
        exact ⟨rfl, by simp, by simp; omega⟩
    obtain ⟨r2, _, _⟩ := exec_sim z ops h1 s1 r1 hl
    revert hx hI r2
    generalize (exec (step z) h1 ops).1 = h2
    generalize (exec (astep actual z) s1 ops).1 = s2
    intro hx ⟨_, hI⟩ r2
    obtain ⟨a, o, k, u1, u2, u3⟩ := r2.get (x := x) (fun e => hx ((r2.dom x).2 e))
    obtain ⟨_, j2, j3⟩ := hI o u2
    have q1 := u3.pos; have q2 := u3.lesz; have q3 := u3.sz; have q4 := u3.llen
    refine ⟨o.cells.length - 1, ?_, by omega, by omega, by omega⟩
    have hn : (a.len + (2 ^ 32 - 1)) % 2 ^ 32 = o.cells.length - 1 := by omega
    simp only [step, withObj, u1, hn]

/-- **C17, counterexample.** A small fixed array grows: `a = table.intarray(1, 0); a[2] = 5; return #a` gives 2,
because the storage is over-allocated (ltable.c 815-821) and the store checks the capacity only. -/
theorem small_fixed_array_grows :
    (exec (step (0 : Nat)) empty [.newFixed 1 0, .set 0 2 5, .len 0, .get 0 2]).2 =
      [.ok (.obj 0), .ok .unit, .ok (.num 2), .ok (.val 5)] := by
  decide

/-! ### the hypotheses can be met -/

/-- a history with a dynamic array that grows past its inline storage, a fixed array, two nested slices, and a free -/
def demoOps : List (Op Nat) :=
  [.newDyn, .set 0 1 10, .set 0 2 20, .set 0 3 30, .get 0 1, .get 0 3, .set 0 5 9, .len 0,
   .newFixed 20 7, .newSlice 1 3 5, .newSlice 2 2 2, .set 3 1 99, .get 1 4, .set 1 5 88, .get 3 2, .get 2 9,
   .set 2 6 1, .next 0 none, .next 0 (some 3), .free 3, .free 0, .len 1]

/-- executable form of `Legal` -/
def legalB (z : Nat) : Heap Nat → List (Op Nat) → Bool
  | _, [] => true
  | h, op :: ops =>
    (match op with
      | .newDyn => true
      | .newFixed n _ => decide (n < 2 ^ 32)
      | .newSlice p start len => (h.objs p).isSome && decide (start < 2 ^ 32) && decide (len < 2 ^ 32)
      | .get x _ => (h.objs x).isSome
      | .rawgeti x _ => (h.objs x).isSome
      | .set x _ _ => (h.objs x).isSome
      | .len x => (h.objs x).isSome
      | .next x k => (h.objs x).isSome && decide (k ≠ some (BitVec.intMax 64))
      | .free x => (h.objs x).isSome && (List.range h.nobj).all fun y => match h.objs y with
        | some a => decide (a.parent ≠ some x)
        | none => true) &&
    match step z h op with
    | .ok (h', _) => legalB z h' ops
    | .err _ => legalB z h ops
    | .ub => true

theorem legal_of_check (z : Nat) (ops : List (Op Nat)) : ∀ (h : Heap Nat) (s : Abs Nat), Rel h s → legalB z h ops = true →
    Legal z h ops := by
  induction ops with
  | nil => intros; trivial
  | cons op ops ih =>
    intro h s r hb
    simp only [legalB, Bool.and_eq_true] at hb
    obtain ⟨h1, h2⟩ := hb
    have ha : AllowedC h op := by
      cases op with
      | newDyn => trivial
      | newFixed n v => exact (of_decide_eq_true h1 : n < 2 ^ 32)
      | newSlice p start len => simp at h1; exact ⟨by rw [← Option.isSome_iff_ne_none]; exact h1.1.1, h1.1.2, h1.2⟩
      | get x i => rw [AllowedC, ← Option.isSome_iff_ne_none]; exact h1
      | rawgeti x i => rw [AllowedC, ← Option.isSome_iff_ne_none]; exact h1
      | set x i v => rw [AllowedC, ← Option.isSome_iff_ne_none]; exact h1
      | len x => rw [AllowedC, ← Option.isSome_iff_ne_none]; exact h1
      | next x k => simp at h1; exact ⟨by rw [← Option.isSome_iff_ne_none]; exact h1.1, h1.2⟩
      | free x =>
        simp only [Bool.and_eq_true, List.all_eq_true, List.mem_range] at h1
        refine ⟨by rw [← Option.isSome_iff_ne_none]; exact h1.1, fun y a hy => ?_⟩
        have := h1.2 y (r.lt y a hy)
        rw [hy] at this
        simpa using this
    refine ⟨ha, ?_⟩
    rcases step_sim r z op (allowed_iff r op ha) with ⟨m, e1, e2⟩ | ⟨h', s', out, e1, e2, r'⟩
    · rw [e1] at h2 ⊢; exact ih h s r h2
    · rw [e1] at h2 ⊢; exact ih h' s' r' h2

theorem legal_after (ops ops' : List (Op Nat)) (h1 : legalB 0 empty ops = true)
    (h2 : legalB 0 (exec (step 0) empty ops).1 ops' = true) : Legal 0 (exec (step 0) empty ops).1 ops' :=
  legal_of_check 0 ops' _ _ (exec_sim 0 ops empty (Abs.empty 0) (Rel.init 0)
    (legal_of_check 0 ops empty (Abs.empty 0) (Rel.init 0) h1)).1 h2

/-- the demo history is legal, so C14 applies to it -/
theorem demo_legal : Legal 0 empty demoOps :=
  legal_of_check 0 demoOps empty (Abs.empty 0) (Rel.init 0) (by decide +kernel)

example : (exec (step 0) empty demoOps).2 =
    [.ok (.obj 0), .ok .unit, .ok .unit, .ok .unit, .ok (.val 10), .ok (.val 30), .err "array out of bounds", .ok (.num 3),
     .ok (.obj 1), .ok (.obj 2), .ok (.obj 3), .ok .unit, .ok (.val 99), .ok .unit, .ok (.val 88), .err "array out of bounds",
     .err "array cannot be resized", .ok (.kv 1 10), .ok .nil, .ok .unit, .ok .unit, .ok (.num 20)] := by
  decide +kernel

/-- hypotheses of `get_after_set` and `set_by_index` -/
example : ∃ h h', Reach 0 h ∧ step 0 h (.set 0 4 40) = .ok (h', .unit) ∧ step 0 h (.len 0) = .ok (h, .num 3) ∧ h.objs 0 ≠ none :=
  ⟨(exec (step 0) empty (demoOps.take 8)).1, _, ⟨_, legal_of_check 0 _ empty (Abs.empty 0) (Rel.init 0) (by decide +kernel), rfl⟩,
    rfl, rfl, by decide⟩

/-- hypotheses of the C15 theorems: a history after `newDyn` that mixes operations on the new array and on others -/
example : ∃ h1, Reach 0 (empty : Heap Nat) ∧ step 0 (empty : Heap Nat) .newDyn = .ok (h1, .obj 0) ∧ Legal 0 h1 ((demoOps.drop 1).take 19) ∧
    .free 0 ∉ (demoOps.drop 1).take 19 ∧ (∀ op ∈ (demoOps.drop 1).take 19, uses 0 op = true → ∀ i, indexOf op = some i → 0 ≤ i.toInt ∧ i.toInt < 2 ^ 32) := by
  refine ⟨(exec (step 0) empty [.newDyn]).1, ⟨[], trivial, rfl⟩, rfl,
    legal_after [.newDyn] _ (by decide +kernel) (by decide +kernel), by simp [demoOps], ?_⟩
  · simp [demoOps, uses, indexOf]

/-- hypotheses of the C16 theorems: an array, its slice, and a history after which the slice is still alive -/
example : ∃ h h1, Reach 0 h ∧ h.objs 0 ≠ none ∧ step 0 h (.newSlice 0 3 5) = .ok (h1, .obj 1) ∧
    Legal 0 h1 [.set 1 1 99, .get 0 3, .newSlice 1 2 2, .free 2] ∧
    (exec (step 0) h1 [.set 1 1 99, .get 0 3, .newSlice 1 2 2, .free 2]).1.objs 1 ≠ none := by
  have hr : Reach 0 (exec (step 0) (empty : Heap Nat) [.newFixed 20 7]).1 := ⟨_, legal_of_check 0 _ empty (Abs.empty 0) (Rel.init 0) (by decide +kernel), rfl⟩
  exact ⟨_, (exec (step 0) empty [.newFixed 20 7, .newSlice 0 3 5]).1, hr, by decide +kernel, rfl,
    legal_after [.newFixed 20 7, .newSlice 0 3 5] _ (by decide +kernel) (by decide +kernel), by decide +kernel⟩

/-- hypotheses of C17 -/
example : ∃ h1, step 0 (empty : Heap Nat) (.newFixed 20 7) = .ok (h1, .obj 0) ∧ Legal 0 h1 [.set 0 21 1, .set 0 20 1] ∧
    (exec (step 0) h1 [.set 0 21 1, .set 0 20 1]).1.objs 0 ≠ none := by
  exact ⟨(exec (step 0) empty [.newFixed 20 7]).1, rfl, legal_after [.newFixed 20 7] _ (by decide +kernel) (by decide +kernel),
    by decide +kernel⟩

end Verif.RArray
