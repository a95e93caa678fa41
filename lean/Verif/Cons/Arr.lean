import Verif.Cons.Lemmas
/-! Constructors of typed arrays: items only. -/
namespace Verif.Cons
variable {V X W : Type}

/-- the code that puts the values of `xs` into registers from `r` on -/
def loads : Nat → List X → List (Instr X)
  | _, [] => []
  | r, x :: xs => .load r x :: loads (r + 1) xs

theorem loads_snoc (r : Nat) (x : X) (ys : List X) :
    loads r (x :: ys).dropLast ++ [.load (r + ys.length) ((x :: ys).getLast (by simp))] = loads r (x :: ys) := by
  induction ys generalizing r x with
  | nil => rfl
  | cons y ys ih =>
    have := ih (r + 1) y
    simp only [List.dropLast_cons_cons, loads, List.cons_append, List.getLast_cons_cons, List.length_cons]
    simp only [loads] at this
    rw [show r + (ys.length + 1) = r + 1 + ys.length by omega, this]

theorem fields_append (t : Nat) (as bs : List (Field X)) (cc : CC X) :
    fields t (as ++ bs) cc = (fields t as cc >>= fields t bs) := by
  induction as generalizing cc with
  | nil => rfl
  | cons f as ih =>
    simp only [List.cons_append, fields, bind_assoc]
    congr 1; funext c; exact ih _

theorem fields_items (t : Nat) (ys : List X) : ∀ (x : X) (cc : CC X), cc.v = some x → cc.tostore + ys.length ≤ 50 →
    fields t (ys.map .item) cc = .ok
      { code := cc.code ++ loads cc.freereg (x :: ys).dropLast, freereg := cc.freereg + ys.length,
        v := some ((x :: ys).getLast (by simp)), na := cc.na + ys.length, tostore := cc.tostore + ys.length } := by
  induction ys with
  | nil => intro x cc h _; obtain ⟨c, f, v, n, s⟩ := cc; simp at h; subst h; simp [fields, loads]
  | cons y ys ih =>
    intro x cc h hl
    simp only [List.length_cons] at hl
    have hc : closelistfield t cc = .ok { cc with
        code := cc.code ++ [.load cc.freereg x], freereg := cc.freereg + 1, v := none } := by
      unfold closelistfield
      rw [h]
      dsimp only
      rw [if_neg (by simp only [flush]; omega)]
    simp only [List.map_cons, fields, hc, Res.bind_ok, field]
    rw [ih y _ rfl (by simp only; omega)]
    simp only [List.dropLast_cons_cons, loads, List.getLast_cons_cons, List.length_cons]
    simp only [List.append_assoc, List.cons_append, List.nil_append]
    congr 2 <;> omega

/-- the code for at most 50 items -/
theorem code_short (t : Nat) (x : X) (ys : List X) (h : ys.length < 50) (multi : Bool) :
    constructor t ((x :: ys).map .item) multi = .ok (if multi then
      loads (t + 1) (x :: ys).dropLast ++ [.loadm (t + 1 + ys.length) ((x :: ys).getLast (by simp)), .setlist t 0 1 none]
    else loads (t + 1) (x :: ys) ++ [.setlist t (ys.length + 1) 1 none]) := by
  have hc : (1 + ys.length - 1) / flush + 1 = 1 := by simp only [flush]; omega
  simp only [constructor, List.map_cons, fields, closelistfield, Res.bind_ok, field]
  rw [fields_items t ys x _ rfl (by simp; omega)]
  simp only [Res.bind_ok, lastlistfield, Nat.zero_add]
  rw [if_neg (by omega)]
  cases multi with
  | true => simp only [setlist, hc, maxC]; simp
  | false =>
    simp only [setlist, hc, maxC]
    simp [← loads_snoc (t + 1) x ys, Nat.add_comm 1]

/-- the code for 51 to 100 items -/
theorem code_long (t : Nat) (x : X) (xs : List X) (y : X) (ys : List X) (hx : xs.length = 49) (h : ys.length < 50) :
    constructor t ((x :: xs ++ y :: ys).map .item) false = .ok (loads (t + 1) (x :: xs) ++ [.setlist t 50 1 none] ++
      loads (t + 1) (y :: ys) ++ [.setlist t (ys.length + 1) 2 none]) := by
  have hc : (50 + 1 + ys.length - 1) / flush + 1 = 2 := by simp only [flush]; omega
  have hb : (50 - 1) / flush + 1 = 1 := by simp [flush]
  simp only [constructor, List.map_append, List.map_cons, List.cons_append, fields, closelistfield, Res.bind_ok, field]
  rw [fields_append, fields_items t xs x _ rfl (by simp; omega)]
  simp only [Res.bind_ok, fields, closelistfield, hx]
  rw [if_pos (by simp [flush])]
  simp only [setlist, Nat.zero_add, Nat.reduceAdd, hb]
  rw [if_pos (by simp [maxC])]
  simp only [Res.bind_ok, Res.pure_eq, field]
  rw [fields_items t ys y _ rfl (by simp; omega)]
  simp only [Res.bind_ok, lastlistfield, Nat.zero_add]
  rw [if_neg (by omega)]
  simp only [setlist, hc, Nat.reduceAdd]
  rw [if_pos (by simp only [flush, maxC]; omega)]
  have e : (51 + ys.length - 1) / flush + 1 = 2 := by simp only [flush]; omega
  simp only [Res.bind_ok, Option.getD_some, List.append_assoc, List.nil_append, e]
  have l1 := loads_snoc (t + 1) x xs
  have l2 := loads_snoc (t + 1) y ys
  rw [hx] at l1
  rw [← l1, ← l2]
  simp [Nat.add_comm 1]

/-- the values of a list of expressions -/
def evs (P : World V X W) : List X → W → Res (List V × W)
  | [], w => .ok ([], w)
  | x :: xs, w => do
    let (v, w) ← P.ev x w
    let (vs, w) ← evs P xs w
    return (v :: vs, w)

theorem values_false (P : World V X W) (xs : List X) (w : W) :
    values P false (xs.map .item) w = (evs P xs w >>= fun p => .ok ((p.1, []), p.2)) := by
  induction xs generalizing w with
  | nil => rfl
  | cons x xs ih =>
    cases xs with
    | nil =>
      simp only [List.map_cons, List.map_nil, values, evs, Bool.false_eq_true, if_false]
      cases P.ev x w <;> rfl
    | cons y ys =>
      have := ih
      simp only [List.map_cons] at this ⊢
      rw [values_item, evs]
      cases P.ev x w with
      | err e => rfl
      | ub => rfl
      | ok p =>
        simp only [Res.bind_ok, this]
        cases evs P (y :: ys) p.2 <;> rfl

theorem values_true (P : World V X W) (x : X) (ys : List X) (w : W) :
    values P true ((x :: ys).map .item) w = (evs P (x :: ys).dropLast w >>= fun p =>
      P.evm ((x :: ys).getLast (by simp)) p.2 >>= fun q => .ok ((p.1 ++ q.1, []), q.2)) := by
  induction ys generalizing x w with
  | nil =>
    simp only [List.map_cons, List.map_nil, values, if_true, List.dropLast_singleton, evs, Res.bind_ok, List.getLast_singleton]
    cases P.evm x w <;> rfl
  | cons y ys ih =>
    have := ih y
    simp only [List.map_cons] at this ⊢
    rw [values_item]
    simp only [List.dropLast_cons_cons, evs, List.getLast_cons_cons]
    cases P.ev x w with
    | err e => rfl
    | ub => rfl
    | ok p =>
      simp only [Res.bind_ok, this]
      cases evs P (y :: ys).dropLast p.2 with
      | err e => rfl
      | ub => rfl
      | ok q =>
        simp only [Res.bind_ok, Res.pure_eq]
        cases P.evm ((y :: ys).getLast (by simp)) q.2 <;> rfl

theorem runA_append (P : World V X W) (conv : V → Res V) (l l' : List (Instr X)) (s : StA V W) :
    runA P conv (l ++ l') s = (runA P conv l s >>= runA P conv l') := by
  induction l generalizing s with
  | nil => rfl
  | cons i l ih =>
    simp only [List.cons_append, runA, bind_assoc]
    congr 1; funext s'; exact ih s'

theorem runA_loads (P : World V X W) (conv : V → Res V) (xs : List X) : ∀ (r : Nat) (s : StA V W),
    match evs P xs s.w with
    | .ok (vs, w) => vs.length = xs.length ∧ ∃ R', runA P conv (loads r xs) s = .ok { s with R := R', w := w } ∧
        (∀ i, i < r → R' i = s.R i) ∧ (∀ j v, vs[j]? = some v → R' (r + j) = v) ∧
        (xs ≠ [] → ∀ i, r + xs.length ≤ i → R' i = P.junk i w)
    | .err e => runA P conv (loads r xs) s = .err e
    | .ub => runA P conv (loads r xs) s = .ub := by
  induction xs with
  | nil => intro r s; exact ⟨rfl, s.R, rfl, fun _ _ => rfl, by simp, fun h => absurd rfl h⟩
  | cons x xs ih =>
    intro r s
    cases he : P.ev x s.w with
    | err e => simp [evs, he, loads, runA, Instr.execA]
    | ub => simp [evs, he, loads, runA, Instr.execA]
    | ok p =>
      obtain ⟨v, w⟩ := p
      let s' : StA V W := { s with R := fun i => if i < r then s.R i else if i = r then v else P.junk i w, w := w }
      have hs : (Instr.load r x).execA P conv s = .ok s' := by simp [Instr.execA, he, s']
      have := ih (r + 1) s'
      rw [show s'.w = w from rfl] at this
      simp only [evs, he, Res.bind_ok, loads, runA, hs]
      cases hq : evs P xs w with
      | err e => rw [hq] at this; simpa using this
      | ub => rw [hq] at this; simpa using this
      | ok q =>
        obtain ⟨vs, w'⟩ := q
        rw [hq] at this
        obtain ⟨k0, R', k1, k2, k3, k4⟩ := this
        refine ⟨by simp [k0], R', k1, ?_, ?_, ?_⟩
        · intro i hi
          rw [k2 i (by omega)]
          simp [s', hi]
        · intro j u hj
          cases j with
          | zero => simp at hj; subst hj; rw [Nat.add_zero, k2 r (by omega)]; simp [s']
          | succ j => simp at hj; rw [show r + (j + 1) = r + 1 + j by omega]; exact k3 j u hj
        · intro _ i hi
          simp only [List.length_cons] at hi
          cases xs with
          | nil =>
            cases hq
            simp only [loads, runA] at k1
            have : R' = s'.R := by injection k1 with k1; rw [StA.mk.injEq] at k1; exact k1.1.symm
            rw [this]
            simp only [s']
            rw [if_neg (by simp at hi; omega), if_neg (by simp at hi; omega)]
          | cons y ys => exact k4 (by simp) i (by omega)

/-- the loop of `OP_SETLIST` for arrays that are as long as the index says -/
theorem storeArr_spec (conv : V → Res V) (R : Nat → V) (a : Nat) (vs : List V) : ∀ (i : Nat) (A : List V),
    i = A.length + 1 → (∀ j v, vs[j]? = some v → R (a + i + j) = v) →
    storeArr conv R a vs.length i A = (convAll conv vs >>= fun B => .ok (A ++ B)) := by
  induction vs with
  | nil => intro i A _ _; simp [storeArr, convAll]
  | cons v vs ih =>
    intro i A hi hR
    have h0 := hR 0 v (by simp)
    simp only [List.length_cons, storeArr, convAll]
    rw [Nat.add_zero] at h0
    rw [h0]
    cases conv v with
    | err e => rfl
    | ub => rfl
    | ok u =>
      simp only [Res.bind_ok, aset]
      rw [if_neg (by omega), if_neg (by omega), if_pos hi]
      simp only [Res.bind_ok]
      rw [ih (i + 1) (A ++ [u]) (by simp; omega) (fun j w hj => by
        rw [show a + (i + 1) + j = a + i + (j + 1) by omega]; exact hR (j + 1) w (by simpa using hj))]
      cases convAll conv vs <;> simp

theorem execA_setlist (P : World V X W) (conv : V → Res V) (s : StA V W) (t b c : Nat) (vs : List V)
    (hb : listN t b s.top = vs.length) (hc : 0 < c) (hA : s.A.length = (c - 1) * 50) (hl : (c - 1) * 50 + vs.length < 2 ^ 32)
    (hR : ∀ j v, vs[j]? = some v → s.R (t + s.A.length + 1 + j) = v) :
    (Instr.setlist t b c none).execA P conv s = (convAll conv vs >>= fun B => .ok { s with A := s.A ++ B }) := by
  have hL : listLast (listC c none) vs.length - vs.length + 1 = s.A.length + 1 := by
    simp only [listC]
    rw [if_neg (by omega)]
    simp only [listLast, flush]
    rw [Nat.mod_eq_of_lt hl]
    omega
  simp only [Instr.execA, hb, hL]
  rw [storeArr_spec conv s.R t vs _ s.A rfl (fun j v h => by
    rw [show t + (s.A.length + 1) + j = t + s.A.length + 1 + j by omega]; exact hR j v h)]
  cases convAll conv vs <;> simp

end Verif.Cons
