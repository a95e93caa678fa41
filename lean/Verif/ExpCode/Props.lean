import Verif.ExpCode.Tm
/-! C74: the code of an expression computes its value. -/
namespace Verif.ExpCode
open Verif.Fold (FOps BOp UOp)
variable {W : Type} {P : Ops W} {K : List Val}

theorem start_wf (n : Nat) (k : List Val) : WF (FS.start n k) :=
  ⟨CodeWF.nil, (fun _ h => nomatch h), List.nodup_nil, (fun h => absurd rfl h)⟩

theorem handle_closing_nil (o : Res (Out W)) : handle (closing []) o = o := by
  have e : closing [] = fun _ => none := by
    funext j
    unfold closing
    rw [if_neg (fun h => nomatch h)]
  rw [e, handle_none]

theorem run_dischargejpc {s : FS} (h : WF s) (R : Regs) (w : W) :
    run P K (dischargejpc s).code 0 R w = H P K s R w := by
  have := (dischargejpc_ext (P := P) (K := K) h).step R w
  rw [show (andThen (H P K s R w) skipG) = H P K s R w from andThen_fall _] at this
  rw [← this]
  unfold H
  exact (handle_closing_nil _).symm

theorem start_H (n : Nat) (k : List Val) (R : Regs) (w : W) : H P K (FS.start n k) R w = .ok (.fall R w) := by
  unfold H
  rw [show (FS.start n k).code = [] from rfl]
  rw [show run P K [] 0 R w = .ok (.fall R w) from run_end [] R w]
  exact handle_closing_nil _

/-- code after the start of a function -/
theorem start_ext {n : Nat} {k : List Val} {s : FS} {g : Regs → W → Res (Out W)} (h : Ext P K (FS.start n k) s g)
    (R : Regs) (w : W) : run P K (dischargejpc s).code 0 R w = g R w := by
  rw [run_dischargejpc h.wf, h.step, start_H]
  rfl

/-! ### one expression -/

/-- The code that `luaK_exp2nextreg` leaves for an expression puts the value of the expression into the
next register and changes no register of a local variable; it fails when evaluation fails. -/
theorem exp_nextreg {n : Nat} {k : List Val} {e : E} (hok : e.ok n) {s1 : FS} {d1 : D}
    (h1 : gen P.F true e (FS.start n k) = .ok (s1, d1)) {s : FS} {d : D} {r : Nat}
    (h2 : exp2nextreg s1 d1 = .ok (s, d, r)) (hK : s.k <+: K) (R : Regs) (w : W) :
    r = n ∧ s.freereg = n + 1 ∧
    match eval P R e w with
    | .ok (v, w') => ∃ R', run P K (dischargejpc s).code 0 R w = .ok (.fall R' w') ∧ R' n = v ∧
        ∀ x, x < n → R' x = R x
    | .err m => run P K (dischargejpc s).code 0 R w = .err m
    | .ub => run P K (dischargejpc s).code 0 R w = .ub := by
  obtain ⟨⟨ha, hv, q, sem, g, hs⟩, _⟩ := gen_gs (P := P) (K := K) e _ _ _ h1 (start_wf n k) (Nat.le_refl _) hok
  obtain ⟨y1, y2, y3, y4, y5, y6, g', y7⟩ := exp2nextreg_spec hs (Nat.lt_irrefl _) (Nat.le_refl _) ha h2
  refine ⟨y1, y2, ?_⟩
  have hm := (y7.opd y4 y5).mat hK R w
  rw [start_ext y7.ext]
  cases hg : g' R w with
  | err m => rw [hg] at hm; rw [show eval P R e w = .err m from hm]
  | ub => rw [hg] at hm; rw [show eval P R e w = .ub from hm]
  | ok o =>
    cases o with
    | exit j R1 w1 =>
      rw [hg] at hm
      obtain ⟨_, v, _, h3, _⟩ := hm
      cases mem_lists h3
    | fall R1 w1 =>
      rw [hg] at hm
      obtain ⟨a1, a2⟩ := hm
      rw [← a2]
      exact ⟨R1, rfl, rfl, a1⟩

/-- The same for an assignment to a local variable: `x = e`. -/
theorem exp_storelocal {n : Nat} {k : List Val} {e : E} (hok : e.ok n) {s1 : FS} {d1 : D}
    (h1 : gen P.F true e (FS.start n k) = .ok (s1, d1)) {x : Nat}
    (hK : (storelocal s1 d1 x).k <+: K) (R : Regs) (w : W) :
    match eval P R e w with
    | .ok (v, w') => ∃ R', run P K (dischargejpc (storelocal s1 d1 x)).code 0 R w = .ok (.fall R' w') ∧ R' x = v ∧
        ∀ y, y < n → y ≠ x → R' y = R y
    | .err m => run P K (dischargejpc (storelocal s1 d1 x)).code 0 R w = .err m
    | .ub => run P K (dischargejpc (storelocal s1 d1 x)).code 0 R w = .ub := by
  obtain ⟨⟨ha, hv, q, sem, g, hs⟩, _⟩ := gen_gs (P := P) (K := K) e _ _ _ h1 (start_wf n k) (Nat.le_refl _) hok
  -- fewer registers are kept
  have hs' : Spec P K (fun r => r < n ∧ r ≠ x) (FS.start n k) s1 d1 (fun R w => eval P R e w) q sem g := by
    refine ⟨hs.pre, hs.ext, fun hK R w => ?_, hs.pend, hs.nodup⟩
    have := hs.mat hK R w
    cases hg : g R w with
    | err m => rw [hg] at this; exact this
    | ub => rw [hg] at this; exact this
    | ok o =>
      rw [hg] at this
      cases o with
      | fall R1 w1 => exact ⟨fun r hr => this.1 r hr.1, this.2⟩
      | exit j R1 w1 => exact ⟨fun r hr => this.1 r hr.1, this.2⟩
  have hs2 : Spec P K (fun r => r < n ∧ r ≠ x) (FS.start n k) (freeexp s1 d1) d1 (fun R w => eval P R e w)
      { q with freereg := (freeexp s1 d1).freereg } sem g := by
    rw [freeexp_eq s1 d1]
    exact hs'.freereg _
  unfold storelocal at hK ⊢
  generalize hse : freeexp s1 d1 = se at *
  obtain ⟨h1', h2', h3', h4', q1, h5, _⟩ := dischargevars_spec hs2
  have heq : exp2reg se d1 x = exp2reg (dischargevars se d1).1 (dischargevars se d1).2 x := by
    unfold exp2reg discharge2reg
    rw [dischargevars_id h1']
  rw [heq] at hK ⊢
  obtain ⟨z1, z2, z3, g', z4⟩ := exp2reg_spec h5 h1' (reg := x) (fun h => h.2 rfl)
  have hm := (z4.opd (by rw [z1]) (by rw [z1])).mat hK R w
  rw [start_ext z4.ext]
  cases hg : g' R w with
  | err m => rw [hg] at hm; rw [show eval P R e w = .err m from hm]
  | ub => rw [hg] at hm; rw [show eval P R e w = .ub from hm]
  | ok o =>
    cases o with
    | exit j R1 w1 =>
      rw [hg] at hm
      obtain ⟨_, v, _, h3, _⟩ := hm
      cases mem_lists h3
    | fall R1 w1 =>
      rw [hg] at hm
      obtain ⟨a1, a2⟩ := hm
      rw [← a2]
      exact ⟨R1, rfl, rfl, fun y hy hne => a1 y ⟨hy, hne⟩⟩

/-- A condition (`if e then`, `while e do`): the code goes on when the value is true, and otherwise
leaves by one of the jumps in the false list; no local variable changes and no register stays reserved. -/
theorem exp_goiftrue {n : Nat} {k : List Val} {e : E} (hok : e.ok n) {s1 : FS} {d1 : D}
    (h1 : gen P.F true e (FS.start n k) = .ok (s1, d1)) {s : FS} {d : D}
    (h2 : goiftrue true s1 d1 = .ok (s, d)) (hK : s.k <+: K) (R : Regs) (w : W) :
    s.freereg = n ∧ d.t = [] ∧
    match eval P R e w with
    | .ok (v, w') => ∃ R', (∀ x, x < n → R' x = R x) ∧
        if v.truthy then run P K (dischargejpc s).code 0 R w = .ok (.fall R' w')
        else ∃ j ∈ d.f, run P K (dischargejpc s).code 0 R w = .ok (.exit j R' w')
    | .err m => run P K (dischargejpc s).code 0 R w = .err m
    | .ub => run P K (dischargejpc s).code 0 R w = .ub := by
  obtain ⟨⟨ha, hv, q, sem, g, hs⟩, _⟩ := gen_gs (P := P) (K := K) e _ _ _ h1 (start_wf n k) (Nat.le_refl _) hok
  obtain ⟨y1, y2, y3, g', y4⟩ := goiftrue_spec hs (Nat.lt_irrefl _) (Nat.le_refl _) ha hv h2
  refine ⟨y1, y3, ?_⟩
  have hm := y4.mat hK R w
  rw [start_ext y4.ext]
  cases hg : g' R w with
  | err m => rw [hg] at hm; rw [show eval P R e w = .err m from hm]
  | ub => rw [hg] at hm; rw [show eval P R e w = .ub from hm]
  | ok o =>
    cases o with
    | exit j R1 w1 =>
      rw [hg] at hm
      obtain ⟨a1, v, a2, a3, a4, _⟩ := hm
      rw [a2]
      refine ⟨R1, a1, ?_⟩
      rw [if_neg (by rw [a3]; simp)]
      exact ⟨j, a4, rfl⟩
    | fall R1 w1 =>
      rw [hg] at hm
      obtain ⟨a1, v, a2, a3⟩ := hm
      rw [a2]
      refine ⟨R1, a1, ?_⟩
      rw [if_pos a3]

/-! ### lists of expressions -/

theorem evalList_congr {n : Nat} {R R' : Regs} (hR : ∀ r, r < n → R' r = R r) :
    ∀ (es : List E), (∀ e ∈ es, e.ok n) → ∀ w : W, evalList P R' es w = evalList P R es w := by
  intro es
  induction es with
  | nil => intro _ w; rfl
  | cons e es ih =>
    intro h w
    simp only [evalList]
    rw [eval_congr hR e (h e (List.mem_cons_self ..))]
    simp only [ih (fun e he => h e (List.mem_cons_of_mem _ he))]

theorem genList_ext : ∀ (es : List E) (s0 s : FS), genList P.F true es s0 = .ok s → WF s0 →
    s0.nactvar ≤ s0.freereg → (∀ e ∈ es, e.ok s0.nactvar) →
    s.freereg = s0.freereg + es.length ∧ ∃ g, Ext P K s0 s g ∧ (s.k <+: K → ∀ R w,
      match g R w with
      | .ok (.fall R' w') => (∀ r, r < s0.freereg → R' r = R r) ∧
          evalList P R es w = .ok ((List.range' s0.freereg es.length).map R', w')
      | .ok (.exit ..) => False
      | .err m => evalList P R es w = .err m
      | .ub => evalList P R es w = .ub) := by
  intro es
  induction es with
  | nil =>
    intro s0 s h hw _ _
    simp only [genList] at h
    cases h
    exact ⟨rfl, skipG, Ext.refl hw, fun _ R w => ⟨fun _ _ => rfl, rfl⟩⟩
  | cons e es ih =>
    intro s0 s h hw hna hok
    simp only [genList] at h
    obtain ⟨⟨s1, d1⟩, e1, h⟩ := Res.bind_eq_ok.1 h
    obtain ⟨⟨s2, d2, r⟩, e2, h⟩ := Res.bind_eq_ok.1 h
    obtain ⟨⟨ha, hv, q, sem, g, hs⟩, _⟩ := gen_gs (P := P) (K := K) e _ _ _ e1 hw hna (hok e (List.mem_cons_self ..))
    obtain ⟨y1, y2, y3, y4, y5, y6, g', y7⟩ := exp2nextreg_spec hs (Nat.lt_irrefl _) hna ha e2
    dsimp only at h
    have hn := y7.nact
    have hok' : ∀ e ∈ es, e.ok s0.nactvar := fun e he => hok e (List.mem_cons_of_mem _ he)
    obtain ⟨z1, g2, z2, z3⟩ := ih _ _ h y7.ext.wf (by omega) (by rw [hn]; exact hok')
    refine ⟨by rw [z1, y2, List.length_cons]; omega, _, y7.ext.trans z2, ?_⟩
    intro hK R w
    have m1 := (y7.opd y4 y5).mat (z2.k.trans hK) R w
    simp only [evalList]
    cases hg : g' R w with
    | err m => rw [hg] at m1; rw [show eval P R e w = .err m from m1]; exact rfl
    | ub => rw [hg] at m1; rw [show eval P R e w = .ub from m1]; exact rfl
    | ok o =>
      cases o with
      | exit j R1 w1 =>
        rw [hg] at m1
        obtain ⟨_, v, _, h3, _⟩ := m1
        cases mem_lists h3
      | fall R1 w1 =>
        rw [hg] at m1
        obtain ⟨a1, a2⟩ := m1
        rw [← a2]
        have m2 := z3 hK R1 w1
        have hc := evalList_congr (P := P) (R := R) (R' := R1) (n := s0.nactvar) (fun r hr => a1 r (by omega)) es hok' w1
        show match andThen (.ok (.fall R1 w1)) g2 with | _ => _
        show match g2 R1 w1 with
          | .ok (.fall R' w') => (∀ r, r < s0.freereg → R' r = R r) ∧ _ = Res.ok (_, w')
          | .ok (.exit ..) => False
          | .err m => _ = Res.err m
          | .ub => _ = Res.ub
        simp only [Res.bind_ok]
        rw [← hc]
        cases hg2 : g2 R1 w1 with
        | err m => rw [hg2] at m2; rw [show evalList P R1 es w1 = .err m from m2]; exact rfl
        | ub => rw [hg2] at m2; rw [show evalList P R1 es w1 = .ub from m2]; exact rfl
        | ok o =>
          cases o with
          | exit j R2 w2 => rw [hg2] at m2; exact m2.elim
          | fall R2 w2 =>
            rw [hg2] at m2
            obtain ⟨b1, b2⟩ := m2
            refine ⟨fun r hr => (b1 r (by omega)).trans (a1 r hr), ?_⟩
            rw [b2]
            show Res.ok (_, w2) = _
            rw [List.length_cons, List.range'_succ, List.map_cons, b1 _ (by omega), y2]

/-- Expressions in a list are evaluated from left to right into consecutive registers: `local a, b, c =
e1, e2, e3`. -/
theorem exp_list {n : Nat} {k : List Val} {es : List E} (hok : ∀ e ∈ es, e.ok n) {s : FS}
    (h : genList P.F true es (FS.start n k) = .ok s) (hK : s.k <+: K) (R : Regs) (w : W) :
    s.freereg = n + es.length ∧
    match evalList P R es w with
    | .ok (vs, w') => ∃ R', run P K (dischargejpc s).code 0 R w = .ok (.fall R' w') ∧
        (∀ i v, vs[i]? = some v → R' (n + i) = v) ∧ ∀ x, x < n → R' x = R x
    | .err m => run P K (dischargejpc s).code 0 R w = .err m
    | .ub => run P K (dischargejpc s).code 0 R w = .ub := by
  obtain ⟨z1, g, z2, z3⟩ := genList_ext (P := P) (K := K) es _ _ h (start_wf n k) (Nat.le_refl _) hok
  refine ⟨z1, ?_⟩
  have hm := z3 hK R w
  rw [start_ext z2]
  cases hg : g R w with
  | err m => rw [hg] at hm; rw [show evalList P R es w = .err m from hm]
  | ub => rw [hg] at hm; rw [show evalList P R es w = .ub from hm]
  | ok o =>
    cases o with
    | exit j R1 w1 => rw [hg] at hm; exact hm.elim
    | fall R1 w1 =>
      rw [hg] at hm
      obtain ⟨a1, a2⟩ := hm
      rw [a2]
      refine ⟨R1, rfl, ?_, a1⟩
      intro i v hi
      have hl : i < es.length := by
        have := (List.getElem?_eq_some_iff.1 hi).1
        simpa using this
      rw [List.getElem?_map, List.getElem?_range' hl] at hi
      simp only [Option.map_some, Option.some.injEq, Nat.one_mul] at hi
      exact hi

/-- The values of a list of expressions that ends with a call are put into the next `n` registers: the call gives all the
values that the other expressions do not, those missing are nil, and those too many are dropped; calls in the arguments
of a call do the same for these: `local a, b, c = x, f(y, g(z))`. -/
theorem exp_multi {n m : Nat} {k : List Val} {as : E} (hok : as.ok n) {s : FS}
    (h : genMulti P.F true as m (FS.start n k) = .ok s) (hK : s.k <+: K) (R : Regs) (w : W) :
    s.freereg = n + m ∧
    match evalArgs P R as w with
    | .ok (vs, w') => ∃ R', run P K (dischargejpc s).code 0 R w = .ok (.fall R' w') ∧
        (∀ i, i < m → R' (n + i) = vs.getD i .nil) ∧ ∀ x, x < n → R' x = R x
    | .err m => run P K (dischargejpc s).code 0 R w = .err m
    | .ub => run P K (dischargejpc s).code 0 R w = .ub := by
  obtain ⟨z1, g, z2, z3⟩ := genMulti_ext (P := P) (K := K) h (start_wf n k) (Nat.le_refl _) hok
  refine ⟨z1, ?_⟩
  have hm := z3 hK R w
  rw [start_ext z2]
  cases hg : g R w with
  | err m => rw [hg] at hm; rw [show evalArgs P R as w = .err m from hm]
  | ub => rw [hg] at hm; rw [show evalArgs P R as w = .ub from hm]
  | ok o =>
    cases o with
    | exit j R1 w1 => rw [hg] at hm; exact hm.elim
    | fall R1 w1 =>
      rw [hg] at hm
      obtain ⟨a1, vs, a2, a3⟩ := hm
      rw [a2]
      exact ⟨R1, rfl, a3, a1⟩

/-! ### the code generator as it is -/

/-- `exp_nextreg` for the code generator as it is, for expressions in which the first operand of `and`
may be false and that of `or` may be true.  (Missing: the other expressions, for which it does not hold, see
`and_leaks` and `and_clobbers`.) -/
theorem exp_nextreg_partial {n : Nat} {k : List Val} {e : E} (hok : e.ok n) (ht : e.tame) {s1 : FS} {d1 : D}
    (h1 : gen P.F false e (FS.start n k) = .ok (s1, d1)) {s : FS} {d : D} {r : Nat}
    (h2 : exp2nextreg s1 d1 = .ok (s, d, r)) (hK : s.k <+: K) (R : Regs) (w : W) :
    r = n ∧ s.freereg = n + 1 ∧
    match eval P R e w with
    | .ok (v, w') => ∃ R', run P K (dischargejpc s).code 0 R w = .ok (.fall R' w') ∧ R' n = v ∧
        ∀ x, x < n → R' x = R x
    | .err m => run P K (dischargejpc s).code 0 R w = .err m
    | .ub => run P K (dischargejpc s).code 0 R w = .ub := by
  rw [gen_tame e _ ht] at h1
  exact exp_nextreg hok h1 h2 hK R w

/-- `exp_storelocal` for the code generator as it is, with the same restriction -/
theorem exp_storelocal_partial {n : Nat} {k : List Val} {e : E} (hok : e.ok n) (ht : e.tame) {s1 : FS} {d1 : D}
    (h1 : gen P.F false e (FS.start n k) = .ok (s1, d1)) {x : Nat}
    (hK : (storelocal s1 d1 x).k <+: K) (R : Regs) (w : W) :
    match eval P R e w with
    | .ok (v, w') => ∃ R', run P K (dischargejpc (storelocal s1 d1 x)).code 0 R w = .ok (.fall R' w') ∧ R' x = v ∧
        ∀ y, y < n → y ≠ x → R' y = R y
    | .err m => run P K (dischargejpc (storelocal s1 d1 x)).code 0 R w = .err m
    | .ub => run P K (dischargejpc (storelocal s1 d1 x)).code 0 R w = .ub := by
  rw [gen_tame e _ ht] at h1
  exact exp_storelocal hok h1 hK R w

/-- `exp_goiftrue` for the code generator as it is, for such expressions that may be false themselves -/
theorem exp_goiftrue_partial {n : Nat} {k : List Val} {e : E} (hok : e.ok n) (ht : e.tame)
    (hm : e.may .f = true) {s1 : FS} {d1 : D}
    (h1 : gen P.F false e (FS.start n k) = .ok (s1, d1)) {s : FS} {d : D}
    (h2 : goiftrue false s1 d1 = .ok (s, d)) (hK : s.k <+: K) (R : Regs) (w : W) :
    s.freereg = n ∧ d.t = [] ∧
    match eval P R e w with
    | .ok (v, w') => ∃ R', (∀ x, x < n → R' x = R x) ∧
        if v.truthy then run P K (dischargejpc s).code 0 R w = .ok (.fall R' w')
        else ∃ j ∈ d.f, run P K (dischargejpc s).code 0 R w = .ok (.exit j R' w')
    | .err m => run P K (dischargejpc s).code 0 R w = .err m
    | .ub => run P K (dischargejpc s).code 0 R w = .ub := by
  rw [gen_tame e _ ht] at h1
  rw [goiftrue_same (Or.inl ((gen_tm e _ _ _ h1).2.1 hm))] at h2
  exact exp_goiftrue hok h1 h2 hK R w

theorem genList_tame {F : FOps} : ∀ (es : List E) (s : FS), (∀ e ∈ es, e.tame) →
    genList F false es s = genList F true es s := by
  intro es
  induction es with
  | nil => intro s _; rfl
  | cons e es ih =>
    intro s h
    simp only [genList]
    rw [gen_tame e s (h e (List.mem_cons_self ..))]
    simp only [ih _ (fun e he => h e (List.mem_cons_of_mem _ he))]

/-- `exp_list` for the code generator as it is, with the same restriction -/
theorem exp_list_partial {n : Nat} {k : List Val} {es : List E} (hok : ∀ e ∈ es, e.ok n) (ht : ∀ e ∈ es, e.tame) {s : FS}
    (h : genList P.F false es (FS.start n k) = .ok s) (hK : s.k <+: K) (R : Regs) (w : W) :
    s.freereg = n + es.length ∧
    match evalList P R es w with
    | .ok (vs, w') => ∃ R', run P K (dischargejpc s).code 0 R w = .ok (.fall R' w') ∧
        (∀ i v, vs[i]? = some v → R' (n + i) = v) ∧ ∀ x, x < n → R' x = R x
    | .err m => run P K (dischargejpc s).code 0 R w = .err m
    | .ub => run P K (dischargejpc s).code 0 R w = .ub := by
  rw [genList_tame es _ ht] at h
  exact exp_list hok h hK R w

theorem args_tame {F : FOps} (as : E) (s : FS) (h : as.tame) : genArgs F false as s = genArgs F true as s :=
  genArgs_tame as (fun a ha s => gen_tame a s (tame_args as h a ha)) s

theorem genMulti_tame {F : FOps} (as : E) (n : Nat) (s : FS) (h : as.tame) : genMulti F false as n s = genMulti F true as n s := by
  unfold genMulti
  rw [args_tame as s h]

/-- `exp_multi` for the code generator as it is, with the same restriction -/
theorem exp_multi_partial {n m : Nat} {k : List Val} {as : E} (hok : as.ok n) (ht : as.tame) {s : FS}
    (h : genMulti P.F false as m (FS.start n k) = .ok s) (hK : s.k <+: K) (R : Regs) (w : W) :
    s.freereg = n + m ∧
    match evalArgs P R as w with
    | .ok (vs, w') => ∃ R', run P K (dischargejpc s).code 0 R w = .ok (.fall R' w') ∧
        (∀ i, i < m → R' (n + i) = vs.getD i .nil) ∧ ∀ x, x < n → R' x = R x
    | .err m => run P K (dischargejpc s).code 0 R w = .err m
    | .ub => run P K (dischargejpc s).code 0 R w = .ub := by
  rw [genMulti_tame as m _ ht] at h
  exact exp_multi hok h hK R w

/-! ### where the code generator goes wrong -/

/-- a small world: no metamethods, concatenation of strings, one table, functions that return their arguments -/
def tiny : Ops Unit where
  F := { mul := fun x _ => x, div := fun x _ => x, pow := fun x _ => x, fmod := fun x _ => x }
  bin := fun _ _ _ _ => .err "arithmetic"
  un := fun _ _ _ => .err "arithmetic"
  len := fun v w => match v with | .str s => .ok (.num (.int (BitVec.ofNat 64 s.length)), w) | _ => .err "length"
  cat := fun a b w => match a, b with | .str a, .str b => .ok (.str (a ++ b), w) | _, _ => .err "concatenate"
  index := fun _ _ w => .ok (.nil, w)
  setindex := fun _ _ _ w => .ok w
  setup := fun _ _ w => w
  forprep := fun i l s => .ok (i, l, s)
  forloop := fun _ _ _ => none
  rel := fun o a b w => match o with | .eq => .ok (a == b, w) | _ => .err "compare"
  up := fun _ _ => .nil
  tnew := fun w => (.obj 0, w)
  func := fun i w => (.obj (i + 1), w)
  call := fun f vs w => match f with | .obj (_ + 1) => .ok (vs, w) | _ => .err "call"
  junk := fun r _ => .num (.int (BitVec.ofNat 64 r))

theorem run_set {c : List Instr} {pc a : Nat} {x : Src} (h : c[pc]? = some (.set a x)) {R : Regs} {w : W}
    {v : Val} {w' : W} (hv : x.value P K R w = .ok (v, w')) :
    run P K c pc R w = run P K c (pc + 1) (R.set a v) w' := by
  rw [run_exec h (fun _ e => nomatch e)]
  unfold Instr.exec
  dsimp only
  rw [hv]
  rfl

/-- `local t = {} and 5`: the value goes to register 1, and the variable, in register 0, is the table. -/
theorem and_leaks : ∃ s1 d1 s d, gen tiny.F false (.and .tnew (.int 5)) (FS.start 0 []) = .ok (s1, d1) ∧
    exp2nextreg s1 d1 = .ok (s, d, 1) ∧
    (∀ R, eval tiny R (.and .tnew (.int 5)) () = .ok (.num (.int 5), ())) ∧
    ∀ R, ∃ R', run tiny s.k (dischargejpc s).code 0 R () = .ok (.fall R' ()) ∧ R' 0 = .obj 0 := by
  refine ⟨_, _, ⟨[.set 0 .newtable, .set 1 (.loadk 0)], [], 1, 2, 0, [.num (.int 5)]⟩, _, rfl, rfl, fun R => rfl, fun R => ?_⟩
  refine ⟨(R.set 0 (.obj 0)).set 1 (.num (.int 5)), ?_, rfl⟩
  show run tiny [.num (.int 5)] [.set 0 .newtable, .set 1 (.loadk 0)] 0 R () = _
  rw [run_set (a := 0) (x := .newtable) rfl (v := .obj 0) (w' := ()) rfl,
    run_set (a := 1) (x := .loadk 0) rfl (v := .num (.int 5)) (w' := ()) rfl]
  exact run_end _ _ _

/-- `local b = ("x".."y") and 2`, with a variable in register 0: that variable becomes `"xy"`. -/
theorem and_clobbers : ∃ s1 d1 s d,
    gen tiny.F false (.and (.paren (.cat (.str [120]) (.str [121]))) (.int 2)) (FS.start 1 []) = .ok (s1, d1) ∧
    exp2nextreg s1 d1 = .ok (s, d, 1) ∧
    ∀ R, ∃ R', run tiny s.k (dischargejpc s).code 0 R () = .ok (.fall R' ()) ∧ R' 0 = .str [120, 121] := by
  refine ⟨_, _, ⟨[.set 1 (.loadk 0), .set 2 (.loadk 1), .set 0 (.concat 1 2), .set 1 (.loadk 2)], [], 3, 2, 1,
    [.str [120], .str [121], .num (.int 2)]⟩, _, rfl, rfl, fun R => ?_⟩
  refine ⟨(((R.set 1 (.str [120])).set 2 (.str [121])).set 0 (.str [120, 121])).set 1 (.num (.int 2)), ?_, rfl⟩
  show run tiny [.str [120], .str [121], .num (.int 2)]
    [.set 1 (.loadk 0), .set 2 (.loadk 1), .set 0 (.concat 1 2), .set 1 (.loadk 2)] 0 R () = _
  rw [run_set (a := 1) (x := .loadk 0) rfl (v := .str [120]) (w' := ()) rfl,
    run_set (a := 2) (x := .loadk 1) rfl (v := .str [121]) (w' := ()) rfl,
    run_set (a := 0) (x := .concat 1 2) rfl (v := .str [120, 121]) (w' := ()) rfl,
    run_set (a := 1) (x := .loadk 2) rfl (v := .num (.int 2)) (w' := ()) rfl]
  exact run_end _ _ _

/-- So the property fails for the code generator as it is. -/
theorem exp_nextreg_fails : ¬ ∀ (W : Type) (P : Ops W) (n : Nat) (k : List Val) (e : E), e.ok n →
    ∀ s1 d1, gen P.F false e (FS.start n k) = .ok (s1, d1) → ∀ s d r, exp2nextreg s1 d1 = .ok (s, d, r) →
    ∀ (R : Regs) (w w' : W) (v : Val), eval P R e w = .ok (v, w') →
    ∃ R', run P s.k (dischargejpc s).code 0 R w = .ok (.fall R' w') ∧ ∀ x, x < n → R' x = R x := by
  intro h
  obtain ⟨s1, d1, s, d, h1, h2, h3⟩ := and_clobbers
  obtain ⟨R', e1, e2⟩ := h Unit tiny 1 [] (.and (.paren (.cat (.str [120]) (.str [121]))) (.int 2))
    ⟨⟨True.intro, True.intro⟩, True.intro⟩ s1 d1 h1 s d 1 h2 (fun _ => .nil) () ()
    (.num (.int 2)) rfl
  obtain ⟨R'', e3, e4⟩ := h3 (fun _ => .nil)
  rw [e3] at e1
  cases e1
  rw [e2 0 (by omega)] at e4
  cases e4

/-! ### examples -/

/-- `not (x == 1 and y) or x .. "a" .. y`, `x` and `y` in registers 0 and 1 -/
def sample : E :=
  .or (.not (.and (.cmp .eq (.loc 0) (.int 1)) (.loc 1))) (.cat (.loc 0) (.cat (.str [97]) (.loc 1)))

example : sample.ok 2 ∧ sample.tame := by
  refine ⟨?_, ?_⟩
  · simp [sample, E.ok]
  · simp [sample, E.tame, E.may]

example : ∃ s1 d1 s d r, gen tiny.F false sample (FS.start 2 []) = .ok (s1, d1) ∧ exp2nextreg s1 d1 = .ok (s, d, r) :=
  ⟨_, _, _, _, _, rfl, rfl⟩

example : ∃ s1 d1 s d, gen tiny.F true sample (FS.start 2 []) = .ok (s1, d1) ∧ goiftrue true s1 d1 = .ok (s, d) :=
  ⟨_, _, _, _, rfl, rfl⟩

example : sample.may .f = true ∧
    ∃ s1 d1 s d, gen tiny.F false sample (FS.start 2 []) = .ok (s1, d1) ∧ goiftrue false s1 d1 = .ok (s, d) :=
  ⟨rfl, _, _, _, _, rfl, rfl⟩

example : ∃ s, genList tiny.F false [sample, .index (.up 0) (.str [97]), .un .unm (.int 3)] (FS.start 2 []) = .ok s :=
  ⟨_, rfl⟩

/-- `f(x, g(1, h(), y))`, `f`, `g`, `h`, `x` and `y` in registers 0 to 4 -/
def sampleCall : E :=
  .call (.loc 0) (.acons (.loc 3) (.aopen (.loc 1) (.acons (.int 1) (.acons (.call (.loc 2) .anil) (.acons (.loc 4) .anil)))))

example : sampleCall.ok 5 ∧ sampleCall.tame := by
  refine ⟨?_, ?_⟩
  · simp [sampleCall, E.ok]
  · simp [sampleCall, E.tame]

example : ∃ s1 d1 s d r, gen tiny.F false sampleCall (FS.start 5 []) = .ok (s1, d1) ∧ exp2nextreg s1 d1 = .ok (s, d, r) ∧
    s.code = [.set 5 (.move 0), .set 6 (.move 3), .set 7 (.move 1), .set 8 (.loadk 0), .set 9 (.move 2),
      .call 9 0 [] 1, .set 10 (.move 4), .call 7 3 [5] 1] :=
  ⟨_, _, _, _, _, rfl, rfl, rfl⟩

/-- its arguments are `x`, and the results of `g`: 1, the first result of `h`, or nil, and `y` -/
example : evalArgs tiny (fun r => if r < 3 then .obj (r + 1) else .str []) (match sampleCall with | .call _ as => as | e => e) () =
    .ok ([.str [], .num (.int 1), .nil, .str []], ()) := rfl

/-- `local a, b, c, d = x, g(1, h(), y)` -/
example : ∃ s, genMulti tiny.F false (match sampleCall with | .call _ as => as | e => e) 4 (FS.start 5 []) = .ok s ∧
    s.code = [.set 5 (.move 3), .set 6 (.move 1), .set 7 (.loadk 0), .set 8 (.move 2), .call 8 0 [] 1, .set 9 (.move 4),
      .call 6 3 [] 3] :=
  ⟨_, rfl, rfl⟩

/-- `x:m(1, y.p:n())`, `x` and `y` in registers 0 and 1 -/
def sampleMethod : E :=
  .mcall (.loc 0) [109] (.acons (.int 1) (.amopen (.index (.loc 1) (.str [112])) [110] .anil))

example : sampleMethod.ok 2 ∧ sampleMethod.tame := by
  refine ⟨?_, ?_⟩
  · simp [sampleMethod, E.ok]
  · simp [sampleMethod, E.tame]

example : ∃ s1 d1 s d r, gen tiny.F false sampleMethod (FS.start 2 []) = .ok (s1, d1) ∧ exp2nextreg s1 d1 = .ok (s, d, r) ∧
    s.k = [.str [109], .num (.int 1), .str [112], .str [110]] ∧
    s.code = [.self 2 0 (.const 0), .set 4 (.loadk 1), .set 5 (.gettable 1 (.const 2)), .self 5 5 (.const 3), .call 5 1 [2] 1] :=
  ⟨_, _, _, _, _, rfl, rfl, rfl, rfl⟩

/-- the object is the first argument of the method -/
example : eval { tiny with index := fun _ _ w => .ok (.obj 1, w) } (fun r => .obj (r + 7)) sampleMethod () = .ok (.obj 7, ()) := rfl

end Verif.ExpCode
