import Verif.Assign.Main
/-! C79: in a multiple assignment, everything is evaluated before anything is assigned. -/
namespace Verif.Assign
open Verif.ExpCode
variable {W : Type} {P : Ops W} {K : List Val}

/-- The code of a multiple assignment does what the reference manual says: it evaluates the tables and keys on the left and
the expressions on the right, each with the variables as they were, and then assigns the values, of which there are as many
as variables, nil for those missing.  No other local variable changes, and it fails when that fails.  The upvalues that are
indexed on the left (like `_ENV`) must not be changed by the operations of the statement itself, as the code reads them
later than the manual says (which leaves the order undefined). -/
theorem assign_does {n : Nat} {k : List Val} {vs : List Lhs} {es : List E} {e : E} {s : FS}
    (h : assignment P.F true vs es e (FS.start n k) = .ok s) (hvs : ∀ v ∈ vs, v.ok n)
    (hes : ∀ e' ∈ es ++ [e], e'.ok n) (hst : ∀ v ∈ vs, v.stable P) (hK : s.k <+: K) (R : Regs) (w : W) :
    match assign P vs (es ++ [e]) R w with
    | .ok (L, w') => ∃ R', run P K (dischargejpc s).code 0 R w = .ok (.fall R' w') ∧ ∀ x, x < n → R' x = L x
    | .err m => run P K (dischargejpc s).code 0 R w = .err m
    | .ub => run P K (dischargejpc s).code 0 R w = .ub := by
  obtain ⟨g, h1, h2⟩ := assignment_ext (P := P) (K := K) h (start_wf n k) (Nat.le_refl _) hvs hst hes
  have hm := h2 hK R w
  rw [start_ext h1]
  cases hg : g R w with
  | err m => rw [hg] at hm; rw [show assign P vs (es ++ [e]) R w = .err m from hm]
  | ub => rw [hg] at hm; rw [show assign P vs (es ++ [e]) R w = .ub from hm]
  | ok o =>
    rw [hg] at hm
    cases o with
    | exit j R1 w1 => exact hm.elim
    | fall R1 w1 =>
      obtain ⟨⟨L, w'⟩, ha, rfl, hL⟩ := hm
      rw [ha]
      exact ⟨R1, rfl, hL⟩

/-- The same if the last expression is a call, which gives all the values that are missing. -/
theorem assign_multi {n : Nat} {k : List Val} {vs : List Lhs} {as : E} {s : FS}
    (h : assignMulti P.F true vs as (FS.start n k) = .ok s) (hvs : ∀ v ∈ vs, v.ok n)
    (has : as.ok n) (hst : ∀ v ∈ vs, v.stable P) (hK : s.k <+: K) (R : Regs) (w : W) :
    match assignAll P vs as R w with
    | .ok (L, w') => ∃ R', run P K (dischargejpc s).code 0 R w = .ok (.fall R' w') ∧ ∀ x, x < n → R' x = L x
    | .err m => run P K (dischargejpc s).code 0 R w = .err m
    | .ub => run P K (dischargejpc s).code 0 R w = .ub := by
  obtain ⟨g, h1, h2⟩ := assignMulti_ext (P := P) (K := K) h (start_wf n k) (Nat.le_refl _) hvs hst has
  have hm := h2 hK R w
  rw [start_ext h1]
  cases hg : g R w with
  | err m => rw [hg] at hm; rw [show assignAll P vs as R w = .err m from hm]
  | ub => rw [hg] at hm; rw [show assignAll P vs as R w = .ub from hm]
  | ok o =>
    rw [hg] at hm
    cases o with
    | exit j R1 w1 => exact hm.elim
    | fall R1 w1 =>
      obtain ⟨⟨L, w'⟩, ha, rfl, hL⟩ := hm
      rw [ha]
      exact ⟨R1, rfl, hL⟩

/-! ### the code generator as it is -/

def Lhs.tame : Lhs → Prop
  | .index a b => (E.index a b).tame
  | _ => True

theorem genVars_tame {F : Fold.FOps} : ∀ (vs : List Lhs) (s : FS) (lh : List Kind), (∀ v ∈ vs, v.tame) →
    genVars F false vs s lh = genVars F true vs s lh := by
  intro vs
  induction vs with
  | nil => intro s lh _; rfl
  | cons v vs ih =>
    intro s lh h
    have hv : genLhs F false v s = genLhs F true v s := by
      cases v with
      | loc x => rfl
      | up u => rfl
      | index a b =>
        have ht : (E.index a b).tame := h _ (List.mem_cons_self ..)
        simp only [genLhs]
        rw [gen_tame _ s ht]
    simp only [genVars]
    rw [hv]
    simp only [ih _ _ fun v hv => h v (List.mem_cons_of_mem _ hv)]

theorem nil_tame : E.nil.tame := True.intro

theorem assignment_tame {F : Fold.FOps} {vs : List Lhs} {es : List E} {e : E} (s : FS) (hvs : ∀ v ∈ vs, v.tame)
    (hes : ∀ e' ∈ es ++ [e], e'.tame) : assignment F false vs es e s = assignment F true vs es e s := by
  unfold assignment
  rw [genVars_tame vs s [] hvs]
  have h1 : ∀ s, genList F false es s = genList F true es s := fun s =>
    genList_tame es s fun e' h => hes e' (List.mem_append_left _ h)
  have h2 : ∀ s, gen F false e s = gen F true e s := fun s =>
    gen_tame e s (hes e (List.mem_append_right _ (List.mem_singleton.2 rfl)))
  have h3 : ∀ s m, genList F false (es ++ [e] ++ List.replicate m .nil) s = genList F true (es ++ [e] ++ List.replicate m .nil) s := by
    intro s m
    refine genList_tame _ s fun e' h => ?_
    rcases List.mem_append.1 h with h | h
    · exact hes e' h
    · rw [(List.mem_replicate.1 h).2]; exact nil_tame
  simp only [h1, h2, h3]

/-- `assign_does` for the code generator as it is, for expressions that its short cut for `and` and `or` (C74) does not get
wrong.  (Missing: the other expressions, for which it does not hold, see `assign_fails`.) -/
theorem assign_does_partial {n : Nat} {k : List Val} {vs : List Lhs} {es : List E} {e : E} {s : FS}
    (h : assignment P.F false vs es e (FS.start n k) = .ok s) (hvs : ∀ v ∈ vs, v.ok n)
    (hes : ∀ e' ∈ es ++ [e], e'.ok n) (htv : ∀ v ∈ vs, v.tame) (hte : ∀ e' ∈ es ++ [e], e'.tame)
    (hst : ∀ v ∈ vs, v.stable P) (hK : s.k <+: K) (R : Regs) (w : W) :
    match assign P vs (es ++ [e]) R w with
    | .ok (L, w') => ∃ R', run P K (dischargejpc s).code 0 R w = .ok (.fall R' w') ∧ ∀ x, x < n → R' x = L x
    | .err m => run P K (dischargejpc s).code 0 R w = .err m
    | .ub => run P K (dischargejpc s).code 0 R w = .ub :=
  assign_does (by rw [← assignment_tame _ htv hte]; exact h) hvs hes hst hK R w

theorem assignMulti_tame {F : Fold.FOps} {vs : List Lhs} {as : E} (s : FS) (hvs : ∀ v ∈ vs, v.tame)
    (has : as.tame) : assignMulti F false vs as s = assignMulti F true vs as s := by
  unfold assignMulti
  rw [genVars_tame vs s [] hvs]
  simp only [genMulti_tame as _ _ has]

/-- `assign_multi` for the code generator as it is, with the same restriction -/
theorem assign_multi_partial {n : Nat} {k : List Val} {vs : List Lhs} {as : E} {s : FS}
    (h : assignMulti P.F false vs as (FS.start n k) = .ok s) (hvs : ∀ v ∈ vs, v.ok n)
    (has : as.ok n) (htv : ∀ v ∈ vs, v.tame) (hta : as.tame) (hst : ∀ v ∈ vs, v.stable P) (hK : s.k <+: K) (R : Regs) (w : W) :
    match assignAll P vs as R w with
    | .ok (L, w') => ∃ R', run P K (dischargejpc s).code 0 R w = .ok (.fall R' w') ∧ ∀ x, x < n → R' x = L x
    | .err m => run P K (dischargejpc s).code 0 R w = .err m
    | .ub => run P K (dischargejpc s).code 0 R w = .ub :=
  assign_multi (by rw [← assignMulti_tame _ htv hta]; exact h) hvs has hst hK R w

/-- `b, c = 1, ("x" .. "y") and 2`, with `a`, `b` and `c` in registers 0 to 2: `a` becomes `"xy"` -/
theorem assign_fails : ∃ s, assignment tiny.F false [.loc 1, .loc 2] [.int 1]
      (.and (.paren (.cat (.str [120]) (.str [121]))) (.int 2)) (FS.start 3 []) = .ok s ∧
    ∀ R : Regs, (∃ L, assign tiny [.loc 1, .loc 2] [.int 1, .and (.paren (.cat (.str [120]) (.str [121]))) (.int 2)] R () = .ok (L, ()) ∧
        L 0 = R 0) ∧
      ∃ R', run tiny s.k (dischargejpc s).code 0 R () = .ok (.fall R' ()) ∧ R' 0 = .str [120, 121] := by
  refine ⟨⟨[.set 3 (.loadk 0), .set 4 (.loadk 1), .set 5 (.loadk 2), .set 0 (.concat 4 5), .set 2 (.loadk 3), .set 1 (.move 3)],
    [], 4, 3, 3, [.num (.int 1), .str [120], .str [121], .num (.int 2)]⟩, rfl, fun R : Regs => ⟨⟨_, rfl, rfl⟩, ?_⟩⟩
  refine ⟨((((((R.set 3 (.num (.int 1))).set 4 (.str [120])).set 5 (.str [121])).set 0 (.str [120, 121])).set 2
    (.num (.int 2))).set 1 (.num (.int 1))), ?_, rfl⟩
  show run tiny [.num (.int 1), .str [120], .str [121], .num (.int 2)]
    [.set 3 (.loadk 0), .set 4 (.loadk 1), .set 5 (.loadk 2), .set 0 (.concat 4 5), .set 2 (.loadk 3), .set 1 (.move 3)] 0 R () = _
  rw [run_set (a := 3) (x := .loadk 0) rfl (v := .num (.int 1)) (w' := ()) rfl,
    run_set (a := 4) (x := .loadk 1) rfl (v := .str [120]) (w' := ()) rfl,
    run_set (a := 5) (x := .loadk 2) rfl (v := .str [121]) (w' := ()) rfl,
    run_set (a := 0) (x := .concat 4 5) rfl (v := .str [120, 121]) (w' := ()) rfl,
    run_set (a := 2) (x := .loadk 3) rfl (v := .num (.int 2)) (w' := ()) rfl,
    run_set (a := 1) (x := .move 3) rfl (v := .num (.int 1)) (w' := ()) rfl]
  exact run_end _ _ _

/-! ### what that means -/

/-- `a, b = b, a` exchanges two variables. -/
theorem swap {n a b : Nat} {k : List Val} {s : FS} (ha : a < n) (hb : b < n)
    (h : assignment P.F false [.loc a, .loc b] [.loc b] (.loc a) (FS.start n k) = .ok s) (hK : s.k <+: K) (R : Regs) (w : W) :
    ∃ R', run P K (dischargejpc s).code 0 R w = .ok (.fall R' w) ∧ R' a = R b ∧ R' b = R a ∧
      ∀ x, x < n → x ≠ a → x ≠ b → R' x = R x := by
  have := assign_does_partial h (by simp [Lhs.ok, ha, hb]) (by simp [E.ok, ha, hb]) (by simp [Lhs.tame]) (by simp [E.tame])
    (by simp [Lhs.indexes]) hK R w
  obtain ⟨R', h1, h2⟩ := this
  refine ⟨R', h1, ?_, ?_, ?_⟩
  · rw [h2 a ha]; simp
  · rw [h2 b hb]
    show (if b = a then R b else if b = b then R a else R b) = R a
    split
    · rename_i e; rw [e]
    · simp
  · intro x hx hxa hxb
    rw [h2 x hx]
    show (if x = a then _ else if x = b then _ else R x) = R x
    rw [if_neg hxa, if_neg hxb]

/-- `t[i], i, t = e1, e2, e3`: the field is that of the old `t` with the old `i`, for all expressions. -/
theorem field_first {n t i : Nat} {k : List Val} {s : FS} (ht : t < n) (hi : i < n) (hne : i ≠ t) {e1 e2 e3 : E}
    (h : assignment P.F true [.index (.loc t) (.loc i), .loc i, .loc t] [e1, e2] e3 (FS.start n k) = .ok s)
    (hes : ∀ e' ∈ [e1, e2, e3], e'.ok n) (hK : s.k <+: K) (R : Regs) (w w1 w2 w3 w4 : W) (v1 v2 v3 : Val)
    (he1 : eval P R e1 w = .ok (v1, w1)) (he2 : eval P R e2 w1 = .ok (v2, w2)) (he3 : eval P R e3 w2 = .ok (v3, w3))
    (hset : P.setindex (R t) (R i) v1 w3 = .ok w4) :
    ∃ R', run P K (dischargejpc s).code 0 R w = .ok (.fall R' w4) ∧ R' i = v2 ∧ R' t = v3 := by
  have := assign_does h (by simp [Lhs.ok, E.ok, ht, hi]) hes (by simp [Lhs.indexes]) hK R w
  have ha : assign P [.index (.loc t) (.loc i), .loc i, .loc t] ([e1, e2] ++ [e3]) R w =
      .ok (fun y => if y = i then v2 else if y = t then v3 else R y, w4) := by
    simp only [assign, evalVars, evalLhs, eval, evalList, List.cons_append, List.nil_append, he1, he2, he3, Res.bind_ok,
      Res.pure_eq, adjust, List.length_cons, List.length_nil, Nat.sub_self, List.replicate_zero, List.append_nil,
      List.take_succ_cons, List.take_zero, putAll, put, hset]
  rw [ha] at this
  obtain ⟨R', h1, h2⟩ := this
  refine ⟨R', h1, ?_, ?_⟩
  · rw [h2 i hi]; exact if_pos rfl
  · rw [h2 t ht]; exact (if_neg (Ne.symm hne)).trans (if_pos rfl)

/-! ### examples -/

/-- a world whose state is the list of stores -/
def logged : Ops (List (Val × Val × Val)) where
  F := tiny.F
  bin := fun _ _ _ _ => .err "arithmetic"
  un := fun _ _ _ => .err "arithmetic"
  len := fun _ _ => .err "length"
  cat := fun a b w => match a, b with | .str a, .str b => .ok (.str (a ++ b), w) | _, _ => .err "concatenate"
  index := fun _ _ w => .ok (.nil, w)
  setindex := fun t k v w => match t with | .obj _ => .ok ((t, k, v) :: w) | _ => .err "index"
  setup := fun _ _ w => w
  forprep := fun i l s => .ok (i, l, s)
  forloop := fun _ _ _ => none
  rel := fun _ _ _ _ => .err "compare"
  up := fun u _ => .obj u
  tnew := fun w => (.obj 9, w)
  func := fun i w => (.obj (i + 10), w)
  call := fun f vs w => match f with | .obj _ => .ok (vs, (f, .nil, .nil) :: w) | _ => .err "call"
  junk := fun r _ => .obj (r + 100)

/-- `t[i], _ENV.x, i, t = i, t`, with `t` and `i` in registers 0 and 1: two copies are made -/
def manyVars : List Lhs := [.index (.loc 0) (.loc 1), .index (.up 0) (.str [120]), .loc 1, .loc 0]

example : Stable logged 0 where
  bin := fun _ _ _ _ _ _ h => nomatch h
  un := fun _ _ _ _ _ h => nomatch h
  len := fun _ _ _ _ h => nomatch h
  cat := fun _ _ _ _ _ _ => rfl
  index := fun _ _ _ _ _ _ => rfl
  rel := fun _ _ _ _ _ _ h => nomatch h
  tnew := fun _ => rfl
  func := fun _ _ => rfl
  call := fun _ _ _ _ _ _ => rfl
  setindex := fun _ _ _ _ _ _ => rfl
  setup := fun _ _ _ _ => rfl

example : (∀ v ∈ manyVars, v.ok 2) ∧ (∀ v ∈ manyVars, v.tame) ∧
    ∃ s, assignment logged.F false manyVars [.loc 1] (.loc 0) (FS.start 2 []) = .ok s ∧
      s.code = [.set 2 (.move 1), .set 3 (.move 0), .set 4 (.move 1), .set 5 (.move 0), .loadnil 6 1,
        .set 0 (.move 7), .set 1 (.move 6), .eff (.settabup 0 (.const 0) (.reg 5)), .eff (.settable 3 (.reg 2) (.reg 4))] := by
  refine ⟨?_, ?_, ?_⟩
  · simp [manyVars, Lhs.ok, E.ok]
  · simp [manyVars, Lhs.tame, E.tame]
  · exact ⟨_, rfl, rfl⟩

example (R : Regs) (h0 : R 0 = .obj 5) : assign logged manyVars [.loc 1, .loc 0] R [] =
    .ok (fun y => if y = 1 then .nil else if y = 0 then .nil else R y, [(.obj 5, R 1, R 1), (.obj 0, .str [120], .obj 5)]) := by
  simp [assign, manyVars, evalVars, evalLhs, eval, evalList, adjust, putAll, put, logged, h0, Res.bind_ok]

/-- `t[i], _ENV.x, i, t = 1, t(i)`, with `t` and `i` in registers 0 and 1 -/
example : ∃ s, assignMulti logged.F false manyVars (.acons (.int 1) (.aopen (.loc 0) (.acons (.loc 1) .anil))) (FS.start 2 []) = .ok s ∧
    s.code = [.set 2 (.move 1), .set 3 (.move 0), .set 4 (.loadk 1), .set 5 (.move 0), .set 6 (.move 1), .call 5 1 [] 3,
      .set 0 (.move 7), .set 1 (.move 6), .eff (.settabup 0 (.const 0) (.reg 5)), .eff (.settable 3 (.reg 2) (.reg 4))] :=
  ⟨_, rfl, rfl⟩

end Verif.Assign
