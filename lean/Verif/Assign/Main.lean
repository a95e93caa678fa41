import Verif.Assign.Store
/-! Multiple assignment: the statement. -/
namespace Verif.Assign
open Verif.ExpCode
variable {W : Type} {P : Ops W} {K : List Val}

theorem evalList_append (L : Nat → Val) (bs : List E) : ∀ (as : List E) (w : W),
    evalList P L (as ++ bs) w = (evalList P L as w).bind fun p => (evalList P L bs p.2).bind fun q => .ok (p.1 ++ q.1, q.2) := by
  intro as
  induction as with
  | nil =>
    intro w
    show evalList P L bs w = (evalList P L bs w).bind fun q => .ok ([] ++ q.1, q.2)
    cases evalList P L bs w <;> rfl
  | cons a as ih =>
    intro w
    show (eval P L a w).bind _ = ((eval P L a w).bind _).bind _
    cases eval P L a w with
    | err m => rfl
    | ub => rfl
    | ok p =>
      show (evalList P L (as ++ bs) p.2).bind _ = ((evalList P L as p.2).bind _).bind _
      rw [ih]
      cases evalList P L as p.2 with
      | err m => rfl
      | ub => rfl
      | ok q =>
        show ((evalList P L bs q.2).bind _).bind _ = (evalList P L bs q.2).bind _
        cases evalList P L bs q.2 <;> rfl

theorem evalList_nil (L : Nat → Val) : ∀ (m : Nat) (w : W),
    evalList P L (List.replicate m .nil) w = .ok (List.replicate m .nil, w) := by
  intro m
  induction m with
  | zero => intro w; rfl
  | succ m ih =>
    intro w
    show (evalList P L (List.replicate m .nil) w).bind _ = _
    rw [ih]; rfl

theorem evalList_length (L : Nat → Val) : ∀ (es : List E) (w : W) (p : List Val × W), evalList P L es w = .ok p →
    p.1.length = es.length := by
  intro es
  induction es with
  | nil => intro w p e; cases e; rfl
  | cons a es ih =>
    intro w p e
    simp only [evalList] at e
    obtain ⟨⟨x, w1⟩, e1, e⟩ := Res.bind_eq_ok.1 e
    obtain ⟨⟨y, w2⟩, e2, e⟩ := Res.bind_eq_ok.1 e
    cases e
    exact congrArg Nat.succ (ih _ _ e2)

theorem genList_does {es : List E} {s0 s : FS} (h : genList P.F true es s0 = .ok s) (hw : WF s0)
    (hna : s0.nactvar ≤ s0.freereg) (hok : ∀ e ∈ es, e.ok s0.nactvar) :
    s.freereg = s0.freereg + es.length ∧ ∃ g, Ext P K s0 s g ∧ (s.k <+: K → ∀ R w,
      Does (g R w) (evalList P R es w) fun R' w' p => (∀ r, r < s0.freereg → R' r = R r) ∧
        p = ((List.range' s0.freereg es.length).map R', w')) := by
  obtain ⟨h1, g, h2, h3⟩ := genList_ext (P := P) (K := K) es s0 s h hw hna hok
  refine ⟨h1, g, h2, fun hK R w => ?_⟩
  have := h3 hK R w
  cases hg : g R w with
  | err m => rw [hg] at this; exact this
  | ub => rw [hg] at this; exact this
  | ok o =>
    rw [hg] at this
    cases o with
    | exit j R1 w1 => exact this
    | fall R1 w1 => exact ⟨_, this.2, this.1, rfl⟩

theorem bind_bind {α β γ : Type} (x : Res α) (f : α → Res β) (g : β → Res γ) :
    (x.bind f).bind g = x.bind fun a => (f a).bind g := by
  cases x <;> rfl

theorem bind_pure {α β : Type} (x : Res α) (a : α) (h : x = .ok a) (f : α → Res β) : x.bind f = f a := by
  rw [h]; rfl

theorem evalVars_up {u : Nat} (h : Stable P u) (L : Nat → Val) : ∀ (vs : List Lhs) (w : W) (p : List Tgt × W),
    evalVars P L vs w = .ok p → P.up u p.2 = P.up u w := by
  intro vs
  induction vs with
  | nil => intro w p e; cases e; rfl
  | cons v vs ih =>
    intro w p e
    simp only [evalVars] at e
    obtain ⟨⟨x, w1⟩, e1, e⟩ := Res.bind_eq_ok.1 e
    obtain ⟨⟨y, w2⟩, e2, e⟩ := Res.bind_eq_ok.1 e
    cases e
    exact (ih _ _ e2).trans (evalLhs_up h e1)

theorem evalVars_length (L : Nat → Val) : ∀ (vs : List Lhs) (w : W) (p : List Tgt × W),
    evalVars P L vs w = .ok p → p.1.length = vs.length := by
  intro vs
  induction vs with
  | nil => intro w p e; cases e; rfl
  | cons v vs ih =>
    intro w p e
    simp only [evalVars] at e
    obtain ⟨⟨x, w1⟩, e1, e⟩ := Res.bind_eq_ok.1 e
    obtain ⟨⟨y, w2⟩, e2, e⟩ := Res.bind_eq_ok.1 e
    cases e
    exact congrArg Nat.succ (ih _ _ e2)

theorem take_temps (R : Regs) (n : Nat) (a b : Nat) (h : b ≤ a) :
    ((List.range' n a).map R).take b = (List.range' n b).map R := by
  refine List.ext_getElem? fun i => ?_
  rw [List.getElem?_take]
  split
  · rename_i hi
    rw [List.getElem?_map, List.getElem?_map, List.getElem?_range' (by omega), List.getElem?_range' hi]
  · rename_i hi
    rw [List.getElem?_eq_none]
    rw [List.length_map, List.length_range']
    omega

theorem assignment_ext {vs : List Lhs} {es : List E} {e : E} {s0 s : FS}
    (h : assignment P.F true vs es e s0 = .ok s) (hw : WF s0) (hna : s0.nactvar ≤ s0.freereg)
    (hvs : ∀ v ∈ vs, v.ok s0.nactvar) (hst : ∀ v ∈ vs, v.stable P) (hes : ∀ e' ∈ es ++ [e], e'.ok s0.nactvar) :
    ∃ g, Ext P K s0 s g ∧ (s.k <+: K → ∀ R w,
      Does (g R w) (assign P vs (es ++ [e]) R w) fun R' w' p => w' = p.2 ∧ ∀ x, x < s0.nactvar → R' x = p.1 x) := by
  unfold assignment at h
  obtain ⟨⟨s1, lh⟩, e1, h⟩ := Res.bind_eq_ok.1 h
  dsimp only at h
  obtain ⟨a1, a2, a3, g1, a4, a5⟩ := genVars_ext (K := K) vs _ _ _ _ e1 hw hna hvs hst ⟨(fun _ h => nomatch h), List.Pairwise.nil⟩
  have n1 := a4.nact
  rw [List.length_nil, Nat.add_zero] at a3
  split at h
  · rename_i hlen
    obtain ⟨s2, e2, h⟩ := Res.bind_eq_ok.1 h
    obtain ⟨⟨s3, d⟩, e3, h⟩ := Res.bind_eq_ok.1 h
    dsimp only at h
    have hes1 : ∀ e' ∈ es, e'.ok s1.nactvar := by rw [n1]; exact fun e' h => hes e' (List.mem_append_left _ h)
    have he1 : e.ok s1.nactvar := by rw [n1]; exact hes e (List.mem_append_right _ (List.mem_singleton.2 rfl))
    obtain ⟨b1, g2, b2, b3⟩ := genList_does (K := K) e2 a4.wf (by omega) hes1
    have n2 := b2.nact
    obtain ⟨⟨ha, hv, q, sem, g3, hs⟩, _⟩ := gen_gs (P := P) (K := K) e _ _ _ e3 b2.wf (by omega) (by rw [n2]; exact he1)
    cases lh with
    | nil => rw [List.length_nil] at a3; omega
    | cons v lh =>
      obtain ⟨s4, e4, h⟩ := Res.bind_eq_ok.1 h
      have hvv := a2.var v (List.mem_cons_self ..)
      rw [← n1, ← n2] at hvv
      obtain ⟨c1, g4, c2, c3⟩ := storevar_ext (P := P) (K := K) hs (by omega) ha (hvv.mono (by omega)) e4
      have n4 := c2.nact
      have hl' : Chain P s0.nactvar s1.freereg lh :=
        ⟨fun k hk => a2.var k (List.mem_cons_of_mem _ hk), (List.pairwise_cons.1 a2.apart).2⟩
      have hll : es.length = lh.length := by rw [List.length_cons] at a3; omega
      obtain ⟨d1, g5, d2, d3⟩ := storeRest_ext (P := P) (K := K) lh s4 s s1.freereg h c2.wf (by omega) (by omega)
        (by rw [n4, n2, n1]; exact hl')
      refine ⟨_, a4.trans (b2.trans (c2.trans d2)), ?_⟩
      intro hK R w
      have hK4 : s4.k <+: K := d2.k.trans hK
      have hK2 : s2.k <+: K := c2.k.trans hK4
      unfold assign
      refine Does.seq (a5 (b2.k.trans hK2) R w [] .nil) ?_
      rintro R1 w1 ⟨ts, w1'⟩ hp1 ⟨hR1, rfl, hts⟩
      rw [List.append_nil] at hts
      dsimp only at hts ⊢
      rw [evalList_append]
      rw [show (do let (xs, w) ← Res.bind (evalList P R es w1) fun p => (evalList P R [e] p.2).bind fun q => .ok (p.1 ++ q.1, q.2)
                   putAll P ts (adjust vs.length xs) R w) =
          (evalList P R es w1).bind fun p => (eval P R e p.2).bind fun q => putAll P ts (adjust vs.length (p.1 ++ [q.1])) R q.2 from by
        show Res.bind (Res.bind _ _) _ = _
        rw [bind_bind]
        congr 1
        funext p
        rw [bind_bind]
        show Res.bind (Res.bind _ _) _ = _
        rw [bind_bind]
        rfl]
      have hcg : evalList P R1 es w1 = evalList P R es w1 :=
        evalList_congr (fun r hr => hR1 r (by omega)) es hes1 w1
      rw [← hcg]
      refine Does.seq (b3 hK2 R1 w1) ?_
      rintro R2 w2 p hp2 ⟨hR2, rfl⟩
      dsimp only
      have hR12 : ∀ r, r < s0.freereg → R2 r = R r := fun r hr => (hR2 r (by omega)).trans (hR1 r hr)
      have hts2 : List.Forall₂ (Is P K R2 w2) (v :: lh) ts.reverse :=
        Is.congr_all (m := s0.nactvar) hR2 (fun u hu => evalList_up hu _ _ _ _ _ hp2) a2.var hts
      have hcg2 : eval P R2 e w2 = eval P R e w2 := eval_congr (fun r hr => hR12 r (by omega)) e he1 w2
      rw [← hcg2]
      generalize hrev : ts.reverse = tr at hts2
      cases hts2 with
      | cons ht htl =>
        rename_i t tl
        have hst2 := c3 hK4 R2 w2 R t ht (fun x hx => hR12 x (by omega)) (fun u hu x w' => eval_up hu R2 e w2 x w')
        -- the assignments
        have hput : ∀ q : Val × W, putAll P ts (adjust vs.length ((List.range' s1.freereg es.length).map R2 ++ [q.1])) R q.2 =
            (put P t q.1 R q.2).bind fun p => putRev P tl (temps R2 s1.freereg lh.length) p.1 p.2 := by
          intro q
          have hl1 := evalVars_length R vs w _ hp1
          dsimp only at hl1
          have hadj : adjust vs.length ((List.range' s1.freereg es.length).map R2 ++ [q.1]) =
              (List.range' s1.freereg es.length).map R2 ++ [q.1] := by
            unfold adjust
            rw [List.length_append, List.length_map, List.length_range', List.length_singleton, hlen, Nat.sub_self,
              List.replicate_zero, List.append_nil]
            refine List.take_of_length_le ?_
            rw [List.length_append, List.length_map, List.length_range', List.length_singleton, hlen]
            exact Nat.le_refl _
          rw [hadj, ← putAll_rev (by rw [List.length_append, List.length_map, List.length_range', List.length_singleton]; omega),
            hrev, List.reverse_append, ← temps_eq, hll]
          rfl
        rw [show (fun q : Val × W => putAll P ts (adjust vs.length ((List.range' s1.freereg es.length).map R2 ++ [q.1])) R q.2) =
          fun q => (put P t q.1 R q.2).bind fun p => putRev P tl (temps R2 s1.freereg lh.length) p.1 p.2 from funext hput]
        rw [← bind_bind]
        refine Does.seq hst2 ?_
        rintro R3 w3 ⟨L3, w3'⟩ hp3 ⟨rfl, f1, f2, f3⟩
        dsimp only at f1 ⊢
        rw [show temps R2 s1.freereg lh.length = temps R3 s1.freereg lh.length from
          (temps_congr fun r h1 h2 => f2 r (by omega) (by omega)).symm]
        have htl3 : List.Forall₂ (Is P K R3 w3) lh tl := by
          have hall : ∀ k ∈ lh, ∀ t, Is P K R2 w2 k t → Is P K R3 w3 k t := fun k hk t hi =>
            f3 k t (by rw [n2, n1]; exact (hl'.var k hk).mono (by omega)) ((List.pairwise_cons.1 a2.apart).1 k hk) hi
          have := forall₂_map (f := id) htl (r' := Is P K R3 w3) hall
          rwa [List.map_id] at this
        have := d3 hK R3 w3 L3 tl htl3 (by rw [n4]; exact f1)
        rw [n4, n2, n1] at this
        exact this
  · rename_i hlen
    obtain ⟨s2, e2, h⟩ := Res.bind_eq_ok.1 h
    have hes1 : ∀ e' ∈ es ++ [e] ++ List.replicate (vs.length - (es.length + 1)) .nil, e'.ok s1.nactvar := by
      rw [n1]
      intro e' h'
      rcases List.mem_append.1 h' with h' | h'
      · exact hes e' h'
      · rw [(List.mem_replicate.1 h').2]; trivial
    obtain ⟨b1, g2, b2, b3⟩ := genList_does (K := K) e2 a4.wf (by omega) hes1
    have n2 := b2.nact
    have hll : (es ++ [e] ++ List.replicate (vs.length - (es.length + 1)) E.nil).length =
        es.length + 1 + (vs.length - (es.length + 1)) := by simp; omega
    rw [hll] at b1
    have hx : Ext P K s2 { s2 with freereg := s2.freereg - (es.length + 1 - vs.length) } skipG :=
      Ext.of_same b2.wf rfl rfl rfl rfl (List.prefix_refl _)
    obtain ⟨d1, g5, d2, d3⟩ := storeRest_ext (P := P) (K := K) lh _ s s1.freereg h hx.wf (by dsimp only; omega)
      (by dsimp only; omega) (by dsimp only; rw [n2, n1]; exact a2)
    refine ⟨_, a4.trans ((b2.trans_skip hx).trans d2), ?_⟩
    intro hK R w
    have hK2 : s2.k <+: K := d2.k.trans hK
    unfold assign
    refine Does.seq (a5 (b2.k.trans hK2) R w [] .nil) ?_
    rintro R1 w1 ⟨ts, w1'⟩ hp1 ⟨hR1, rfl, hts⟩
    rw [List.append_nil] at hts
    dsimp only at hts ⊢
    have hl1 := evalVars_length R vs w _ hp1
    dsimp only at hl1
    rw [show (do let (xs, w) ← evalList P R (es ++ [e]) w1
                 putAll P ts (adjust vs.length xs) R w) =
        (evalList P R (es ++ [e] ++ List.replicate (vs.length - (es.length + 1)) .nil) w1).bind fun p =>
          putAll P ts (p.1.take vs.length) R p.2 from by
      rw [evalList_append R _ (es ++ [e])]
      cases hx : evalList P R (es ++ [e]) w1 with
      | err m => rfl
      | ub => rfl
      | ok p =>
        have hl := evalList_length R _ _ _ hx
        rw [List.length_append, List.length_singleton] at hl
        show putAll P ts (adjust vs.length p.1) R p.2 = ((evalList P R _ p.2).bind _).bind _
        rw [evalList_nil]
        show _ = putAll P ts ((p.1 ++ List.replicate _ Val.nil).take vs.length) R p.2
        unfold adjust
        rw [hl]]
    have hcg : evalList P R1 (es ++ [e] ++ List.replicate (vs.length - (es.length + 1)) .nil) w1 =
        evalList P R (es ++ [e] ++ List.replicate (vs.length - (es.length + 1)) .nil) w1 :=
      evalList_congr (fun r hr => hR1 r (by omega)) _ hes1 w1
    rw [← hcg]
    refine Does.seq (b3 hK2 R1 w1) ?_
    rintro R2 w2 p hp2 ⟨hR2, rfl⟩
    dsimp only
    have hR12 : ∀ r, r < s0.freereg → R2 r = R r := fun r hr => (hR2 r (by omega)).trans (hR1 r hr)
    have hts2 : List.Forall₂ (Is P K R2 w2) lh ts.reverse :=
      Is.congr_all (m := s0.nactvar) hR2 (fun u hu => evalList_up hu _ _ _ _ _ hp2) a2.var hts
    have htake : ((List.range' s1.freereg (es ++ [e] ++ List.replicate (vs.length - (es.length + 1)) E.nil).length).map R2).take
        vs.length = (List.range' s1.freereg lh.length).map R2 := by
      rw [hll, a3]
      exact take_temps R2 _ _ _ (by omega)
    rw [htake, ← putAll_rev (by rw [List.length_map, List.length_range']; omega), ← temps_eq]
    have := d3 hK R2 w2 R ts.reverse hts2 (fun x hx => hR12 x (by have : x < s2.nactvar := hx; omega))
    rw [show ({ s2 with freereg := s2.freereg - (es.length + 1 - vs.length) } : FS).nactvar = s0.nactvar from n2.trans n1] at this
    exact this

theorem adjust_getD {n : Nat} {vs : List Val} {i : Nat} (h : i < n) : (adjust n vs)[i]? = some (vs.getD i .nil) := by
  unfold adjust
  rw [List.getElem?_take, if_pos h, List.getD_eq_getElem?_getD]
  by_cases hi : i < vs.length
  · rw [List.getElem?_append_left hi, List.getElem?_eq_getElem hi]; rfl
  · rw [List.getElem?_append_right (by omega), List.getElem?_replicate, if_pos (by omega), List.getElem?_eq_none (l := vs) (by omega)]; rfl

theorem adjust_length (n : Nat) (vs : List Val) : (adjust n vs).length = n := by
  unfold adjust
  rw [List.length_take, List.length_append, List.length_replicate]
  omega

theorem assignMulti_ext {vs : List Lhs} {as : E} {s0 s : FS}
    (h : assignMulti P.F true vs as s0 = .ok s) (hw : WF s0) (hna : s0.nactvar ≤ s0.freereg)
    (hvs : ∀ v ∈ vs, v.ok s0.nactvar) (hst : ∀ v ∈ vs, v.stable P) (has : as.ok s0.nactvar) :
    ∃ g, Ext P K s0 s g ∧ (s.k <+: K → ∀ R w,
      Does (g R w) (assignAll P vs as R w) fun R' w' p => w' = p.2 ∧ ∀ x, x < s0.nactvar → R' x = p.1 x) := by
  unfold assignMulti at h
  obtain ⟨⟨s1, lh⟩, e1, h⟩ := Res.bind_eq_ok.1 h
  dsimp only at h
  obtain ⟨a1, a2, a3, g1, a4, a5⟩ := genVars_ext (K := K) vs _ _ _ _ e1 hw hna hvs hst ⟨(fun _ h => nomatch h), List.Pairwise.nil⟩
  have n1 := a4.nact
  rw [List.length_nil, Nat.add_zero] at a3
  split at h
  · cases h
  obtain ⟨s2, e2, h⟩ := Res.bind_eq_ok.1 h
  obtain ⟨b1, g2, b2, b3⟩ := genMulti_ext (P := P) (K := K) e2 a4.wf (by omega) (by rw [n1]; exact has)
  have n2 := b2.nact
  obtain ⟨d1, g5, d2, d3⟩ := storeRest_ext (P := P) (K := K) lh _ s s1.freereg h b2.wf (by omega)
    (by omega) (by rw [n2, n1]; exact a2)
  refine ⟨_, a4.trans (b2.trans d2), ?_⟩
  intro hK R w
  have hK2 : s2.k <+: K := d2.k.trans hK
  unfold assignAll
  refine Does.seq (a5 (b2.k.trans hK2) R w [] .nil) ?_
  rintro R1 w1 ⟨ts, w1'⟩ hp1 ⟨hR1, rfl, hts⟩
  rw [List.append_nil] at hts
  dsimp only at hts ⊢
  have hl1 := evalVars_length R vs w _ hp1
  dsimp only at hl1
  have hcg : evalArgs P R1 as w1 = evalArgs P R as w1 := evalArgs_local (fun r hr => hR1 r (by omega)) as has w1
  rw [← hcg]
  have hm : Does (g2 R1 w1) (evalArgs P R1 as w1) fun R2 w2 p => w2 = p.2 ∧ (∀ r, r < s1.freereg → R2 r = R1 r) ∧
      ∀ i, i < vs.length → R2 (s1.freereg + i) = p.1.getD i .nil := by
    have hm := b3 hK2 R1 w1
    cases hg : g2 R1 w1 with
    | err m => rw [hg] at hm; exact hm
    | ub => rw [hg] at hm; exact hm
    | ok o =>
      rw [hg] at hm
      cases o with
      | exit j R2 w2 => exact hm.elim
      | fall R2 w2 =>
        obtain ⟨c1, xs, c2, c3⟩ := hm
        exact ⟨_, c2, rfl, c1, c3⟩
  refine Does.seq hm ?_
  rintro R2 w2 ⟨xs, w2'⟩ hp2 ⟨rfl, hR2, hx⟩
  dsimp only at hx ⊢
  have hR12 : ∀ r, r < s0.freereg → R2 r = R r := fun r hr => (hR2 r (by omega)).trans (hR1 r hr)
  have hts2 : List.Forall₂ (Is P K R2 w2) lh ts.reverse :=
    Is.congr_all (m := s0.nactvar) hR2 (fun u hu => evalArgs_up hu _ as (fun a _ => eval_up hu _ a) _ _ _ hp2) a2.var hts
  have hadj : adjust vs.length xs = (List.range' s1.freereg lh.length).map R2 := by
    apply List.ext_getElem?
    intro i
    by_cases hi : i < vs.length
    · rw [adjust_getD hi, List.getElem?_map, List.getElem?_range' (by omega), Option.map_some, Nat.one_mul, hx i hi]
    · rw [List.getElem?_eq_none (by rw [adjust_length]; omega), List.getElem?_eq_none (by simp; omega)]
  rw [hadj, ← putAll_rev (by rw [List.length_map, List.length_range']; omega), ← temps_eq]
  have := d3 hK R2 w2 R ts.reverse hts2 (fun x hx => hR12 x (by omega))
  rw [n2, n1] at this
  exact this

end Verif.Assign
