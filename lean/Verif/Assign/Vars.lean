import Verif.Assign.Lemmas
/-! Multiple assignment: conflicts between the variables on the left. -/
namespace Verif.Assign
open Verif.ExpCode
variable {W : Type} {P : Ops W} {K : List Val}

/-- a variable that is not a field -/
def Plain : Kind → Prop
  | .loc _ | .up _ => True
  | _ => False

/-- the value of such a variable -/
def valOf (P : Ops W) (R : Regs) (w : W) : Kind → Val
  | .loc x => R x
  | .up u => P.up u w
  | _ => .nil

theorem conflict_apart {v : Kind} {n m : Nat} (hp : Plain v) (hv : Var P m n v) (hn : m ≤ n) {k : Kind} :
    Apart v (conflict v n k).1 := by
  cases v with
  | loc x =>
    have hx : x < n := Nat.lt_of_lt_of_le hv hn
    cases k with
    | indexed t i =>
      refine ⟨?_, ?_⟩
      · split
        · omega
        · assumption
      · split
        · intro e; cases e; omega
        · assumption
    | indexup u i =>
      show (if i = .reg x then _ else _) ≠ _
      split
      · intro e; cases e; omega
      · assumption
    | _ => exact True.intro
  | up u =>
    cases k with
    | indexup u' i =>
      show Apart _ (Prod.fst (if u' = u then _ else _))
      split
      · exact True.intro
      · assumption
    | _ => exact True.intro
  | _ => exact hp.elim

theorem conflict_var {v : Kind} {n m : Nat} {k : Kind} (hk : Var P m n k) : Var P m (n + 1) (conflict v n k).1 := by
  have hk' : Var P m (n + 1) k := hk.mono (Nat.le_succ _)
  cases v with
  | loc x =>
    cases k with
    | indexed t i =>
      refine ⟨?_, ?_⟩
      · split
        · omega
        · exact hk'.1
      · split
        · exact Nat.lt_succ_self _
        · exact hk'.2
    | indexup u i =>
      refine ⟨?_, hk.2⟩
      split
      · exact Nat.lt_succ_self _
      · exact hk'.1
    | _ => exact hk'
  | up u =>
    cases k with
    | indexup u' i =>
      show Var P m (n + 1) (Prod.fst (if u' = u then _ else _))
      split
      · exact ⟨Nat.lt_succ_self _, hk'.1⟩
      · exact hk'
    | _ => exact hk'
  | _ => exact hk'

theorem conflict_false {v : Kind} {n : Nat} {k : Kind} (h : (conflict v n k).2 = false) : (conflict v n k).1 = k := by
  cases v with
  | loc x =>
    cases k with
    | indexed t i =>
      have h : (decide (t = x) || decide (i = .reg x)) = false := h
      simp only [Bool.or_eq_false_iff, decide_eq_false_iff_not] at h
      show Kind.indexed _ _ = _
      rw [if_neg h.1, if_neg h.2]
    | indexup u i =>
      have h : decide (i = .reg x) = false := h
      simp only [decide_eq_false_iff_not] at h
      show Kind.indexup _ _ = _
      rw [if_neg h]
    | _ => rfl
  | up u =>
    cases k with
    | indexup u' i =>
      have h : (Prod.snd (if u' = u then _ else _)) = false := h
      split at h
      · cases h
      · rename_i hu
        show Prod.fst (if u' = u then _ else _) = _
        rw [if_neg hu]
    | _ => rfl
  | _ => rfl

theorem conflict_is {v : Kind} {n m : Nat} {k : Kind} (hk : Var P m n k) {R R' : Regs} {w : W} (hR : ∀ r, r < n → R' r = R r)
    (hn : R' n = valOf P R w v) {t : Tgt} (h : Is P K R w k t) : Is P K R' w (conflict v n k).1 t := by
  have h' : Is P K R' w k t := h.congr hR (fun _ _ => rfl) hk
  cases v with
  | loc x =>
    have hn : R' n = R x := hn
    cases k with
    | indexed t' i =>
      cases t with
      | field a b =>
        refine ⟨?_, ?_⟩
        · split
          · rename_i e; subst e; exact hn.trans h.1
          · exact h'.1
        · split
          · rename_i e; subst e; exact hn.trans h.2
          · exact h'.2
      | _ => exact h
    | indexup u i =>
      cases t with
      | field a b =>
        refine ⟨h.1, ?_⟩
        split
        · rename_i e; subst e; exact hn.trans h.2
        · exact h'.2
      | _ => exact h
    | _ => exact h'
  | up u =>
    have hn : R' n = P.up u w := hn
    cases k with
    | indexup u' i =>
      show Is P K R' w (Prod.fst (if u' = u then _ else _)) t
      split
      · rename_i e
        subst e
        cases t with
        | field a b => exact ⟨hn.trans h.1, h'.2⟩
        | _ => exact h
      · exact h'
    | _ => exact h'
  | _ => exact h'

theorem conflict_plain (v : Kind) (n : Nat) (k : Kind) (h : Plain k) : (conflict v n k).1 = k := by
  cases k <;> first | exact h.elim | (cases v <;> rfl)

theorem conflict_field (v : Kind) (n : Nat) (k : Kind) (h : ¬ Plain k) : ¬ Plain (conflict v n k).1 := by
  intro h'
  cases k with
  | loc x => exact h True.intro
  | up u => exact h True.intro
  | indexed t i => cases v <;> exact h'
  | indexup u i =>
    cases v with
    | up u' =>
      have h' : Plain (Prod.fst (if u = u' then _ else _)) := h'
      split at h' <;> exact h'
    | _ => exact h'
  | _ => cases v <;> exact h'

theorem apart_field {v k : Kind} (h : ¬ Plain v) : Apart v k := by
  cases v with
  | loc x => exact (h True.intro).elim
  | up u => exact (h True.intro).elim
  | _ => exact True.intro

/-- replacing registers by a new one does not bring about conflicts -/
theorem conflict_keep {v v' k : Kind} {m n : Nat} (hn : m ≤ n) (hv : Var P m n v') (h : Apart v' k) :
    Apart (conflict v n v').1 (conflict v n k).1 := by
  by_cases hp : Plain v'
  · rw [conflict_plain v n v' hp]
    cases v' with
    | loc y =>
      have hy : y < n := Nat.lt_of_lt_of_le hv hn
      cases k with
      | indexed t i =>
        cases v with
        | loc x =>
          refine ⟨?_, ?_⟩
          · split
            · omega
            · exact h.1
          · split
            · intro e; cases e; omega
            · exact h.2
        | _ => exact h
      | indexup u i =>
        cases v with
        | loc x =>
          show (if i = .reg x then _ else _) ≠ _
          split
          · intro e; cases e; omega
          · exact h
        | up u' =>
          show Apart _ (Prod.fst (if u = u' then _ else _))
          split
          · exact ⟨by omega, h⟩
          · exact h
        | _ => exact h
      | _ => cases v <;> exact True.intro
    | up u =>
      cases k with
      | indexed t i => cases v <;> exact True.intro
      | indexup u' i =>
        cases v with
        | up u'' =>
          show Apart _ (Prod.fst (if u' = u'' then _ else _))
          split
          · exact True.intro
          · exact h
        | _ => exact h
      | _ => cases v <;> exact True.intro
    | _ => exact hp.elim
  · exact apart_field (conflict_field v n v' hp)

/-- what is known about the chain of variables -/
structure Chain (P : Ops W) (m n : Nat) (lh : List Kind) : Prop where
  var : ∀ k ∈ lh, Var P m n k
  apart : lh.Pairwise Apart

theorem Chain.mono {m n n' : Nat} (h : n ≤ n') {lh : List Kind} (hl : Chain P m n lh) : Chain P m n' lh :=
  ⟨fun k hk => (hl.var k hk).mono h, hl.apart⟩

theorem forall₂_map {α β : Type} {r r' : α → β → Prop} {f : α → α} {l : List α} {l' : List β} (h : List.Forall₂ r l l')
    (h' : ∀ a ∈ l, ∀ b, r a b → r' (f a) b) : List.Forall₂ r' (l.map f) l' := by
  induction h with
  | nil => exact .nil
  | cons h _ ih =>
    exact .cons (h' _ (List.mem_cons_self ..) _ h) (ih fun a ha => h' a (List.mem_cons_of_mem _ ha))

theorem checkConflict_ext {s s' : FS} {lh lh' : List Kind} {v : Kind} (hp : Plain v)
    (h : checkConflict s lh v = .ok (s', lh')) (hw : WF s) (hna : s.nactvar ≤ s.freereg)
    (hv : Var P s.nactvar s.freereg v) (hl : Chain P s.nactvar s.freereg lh) :
    s.freereg ≤ s'.freereg ∧ Chain P s.nactvar s'.freereg (v :: lh') ∧ ∃ g, Ext P K s s' g ∧ ∀ R w, ∃ R',
      g R w = .ok (.fall R' w) ∧ (∀ r, r < s.freereg → R' r = R r) ∧
      ∀ ts, List.Forall₂ (Is P K R w) lh ts → List.Forall₂ (Is P K R' w) lh' ts := by
  unfold checkConflict at h
  split at h
  · obtain ⟨s1, e1, h⟩ := Res.bind_eq_ok.1 h
    cases h
    have hfr := reserve_lt e1
    have hfr' : s'.freereg = s.freereg + 1 := hfr
    refine ⟨by omega, ⟨?_, ?_⟩, _, (emit_ext hw ?_).trans (reserve_ext (emit_ext (P := P) (K := K) hw ?_).wf e1), ?_⟩
    · intro k hk
      rcases List.mem_cons.1 hk with rfl | hk
      · exact hv.mono (by omega)
      · obtain ⟨k', hk', rfl⟩ := List.mem_map.1 hk
        rw [hfr']
        exact conflict_var (hl.var k' hk')
    · refine List.pairwise_cons.2 ⟨?_, ?_⟩
      · intro k hk
        obtain ⟨k, hk, rfl⟩ := List.mem_map.1 hk
        exact conflict_apart hp hv hna
      · rw [List.pairwise_map]
        refine hl.apart.imp_of_mem ?_
        intro a b ha hb hab
        exact conflict_keep hna (hl.var a ha) hab
    · cases v <;> rfl
    · cases v <;> rfl
    · intro R w
      refine ⟨R.set s.freereg (valOf P R w v), ?_, ?_, ?_⟩
      · cases v with
        | loc x => rfl
        | up u => rfl
        | _ => exact hp.elim
      · intro r hr
        unfold Regs.set
        rw [if_neg (by omega)]
      · intro ts hts
        refine forall₂_map hts ?_
        intro k hk t ht
        refine conflict_is (hl.var k hk) (fun r hr => ?_) ?_ ht
        · unfold Regs.set
          rw [if_neg (by omega)]
        · unfold Regs.set
          rw [if_pos rfl]
  · rename_i hc
    cases h
    have hid : (lh.map fun k => (conflict v s.freereg k).1) = lh := by
      refine (List.map_congr_left ?_).trans (List.map_id _)
      intro k hk
      refine conflict_false ?_
      cases hf : (conflict v s.freereg k).2 with
      | false => rfl
      | true => exact absurd (List.any_eq_true.2 ⟨k, hk, hf⟩) hc
    refine ⟨Nat.le_refl _, ⟨?_, ?_⟩, skipG, Ext.refl hw, fun R w => ⟨R, rfl, fun _ _ => rfl, fun ts h => by rw [hid]; exact h⟩⟩
    · rw [hid]
      intro k hk
      rcases List.mem_cons.1 hk with rfl | hk
      · exact hv
      · exact hl.var k hk
    · refine List.pairwise_cons.2 ⟨?_, by rw [hid]; exact hl.apart⟩
      intro k hk
      obtain ⟨k, hk, rfl⟩ := List.mem_map.1 hk
      exact conflict_apart hp hv hna

theorem checkVar_ext {s s' : FS} {lh lh' : List Kind} {v : Kind}
    (h : checkVar s lh v = .ok (s', lh')) (hw : WF s) (hna : s.nactvar ≤ s.freereg)
    (hv : Var P s.nactvar s.freereg v) (hl : Chain P s.nactvar s.freereg lh) :
    s.freereg ≤ s'.freereg ∧ Chain P s.nactvar s'.freereg (v :: lh') ∧ ∃ g, Ext P K s s' g ∧ ∀ R w, ∃ R',
      g R w = .ok (.fall R' w) ∧ (∀ r, r < s.freereg → R' r = R r) ∧
      ∀ ts, List.Forall₂ (Is P K R w) lh ts → List.Forall₂ (Is P K R' w) lh' ts := by
  have field : ¬ Plain v → s' = s → lh' = lh →
      s.freereg ≤ s'.freereg ∧ Chain P s.nactvar s'.freereg (v :: lh') ∧ ∃ g, Ext P K s s' g ∧ ∀ R w, ∃ R',
      g R w = .ok (.fall R' w) ∧ (∀ r, r < s.freereg → R' r = R r) ∧
      ∀ ts, List.Forall₂ (Is P K R w) lh ts → List.Forall₂ (Is P K R' w) lh' ts := by
    rintro hp rfl rfl
    refine ⟨Nat.le_refl _, ⟨?_, ?_⟩, skipG, Ext.refl hw, fun R w => ⟨R, rfl, fun _ _ => rfl, fun ts h => h⟩⟩
    · intro k hk
      rcases List.mem_cons.1 hk with rfl | hk
      · exact hv
      · exact hl.var k hk
    · exact List.pairwise_cons.2 ⟨fun k _ => apart_field hp, hl.apart⟩
  cases v with
  | loc x => exact checkConflict_ext True.intro h hw hna hv hl
  | up u => exact checkConflict_ext True.intro h hw hna hv hl
  | indexed t i => cases h; exact field (fun h => h) rfl rfl
  | indexup u i => cases h; exact field (fun h => h) rfl rfl
  | _ => exact hv.elim

theorem evalLhs_up {u : Nat} (h : Stable P u) {L : Nat → Val} {v : Lhs} {w : W} {p : Tgt × W}
    (e : evalLhs P L v w = .ok p) : P.up u p.2 = P.up u w := by
  cases v with
  | loc x => cases e; rfl
  | up u' => cases e; rfl
  | index a b =>
    simp only [evalLhs] at e
    obtain ⟨⟨x, w1⟩, e1, e⟩ := Res.bind_eq_ok.1 e
    obtain ⟨⟨y, w2⟩, e2, e⟩ := Res.bind_eq_ok.1 e
    cases e
    exact (eval_up h L b _ _ _ e2).trans (eval_up h L a _ _ _ e1)

theorem evalLhs_congr {n : Nat} {R R' : Regs} (hR : ∀ r, r < n → R' r = R r) {v : Lhs} (h : v.ok n) (w : W) :
    evalLhs P R' v w = evalLhs P R v w := by
  cases v with
  | loc x => rfl
  | up u => rfl
  | index a b => simp only [evalLhs, eval_congr hR a h.1, eval_congr hR b h.2]

theorem evalVars_congr {n : Nat} {R R' : Regs} (hR : ∀ r, r < n → R' r = R r) : ∀ (vs : List Lhs), (∀ v ∈ vs, v.ok n) →
    ∀ w : W, evalVars P R' vs w = evalVars P R vs w := by
  intro vs
  induction vs with
  | nil => intro _ w; rfl
  | cons v vs ih =>
    intro h w
    simp only [evalVars, evalLhs_congr hR (h v (List.mem_cons_self ..)), ih fun v hv => h v (List.mem_cons_of_mem _ hv)]

theorem genVars_ext : ∀ (vs : List Lhs) (s0 s : FS) (lh lh' : List Kind), genVars P.F true vs s0 lh = .ok (s, lh') →
    WF s0 → s0.nactvar ≤ s0.freereg → (∀ v ∈ vs, v.ok s0.nactvar) → (∀ v ∈ vs, v.stable P) →
    Chain P s0.nactvar s0.freereg lh →
    s0.freereg ≤ s.freereg ∧ Chain P s0.nactvar s.freereg lh' ∧ lh'.length = vs.length + lh.length ∧
    ∃ g, Ext P K s0 s g ∧ (s.k <+: K → ∀ R w ts,
      List.Forall₂ (Is P K R w) lh ts →
      Does (g R w) (evalVars P R vs w) fun R' w' p => (∀ r, r < s0.freereg → R' r = R r) ∧ w' = p.2 ∧
        List.Forall₂ (Is P K R' w') lh' (p.1.reverse ++ ts)) := by
  intro vs
  induction vs with
  | nil =>
    intro s0 s lh lh' h hw hna _ _ hl
    simp only [genVars] at h
    cases h
    exact ⟨Nat.le_refl _, hl, by simp, skipG, Ext.refl hw, fun _ R w ts h => ⟨_, rfl, fun _ _ => rfl, rfl, h⟩⟩
  | cons v vs ih =>
    intro s0 s lh lh' h hw hna hok hst hl
    simp only [genVars] at h
    obtain ⟨⟨s1, k⟩, e1, h⟩ := Res.bind_eq_ok.1 h
    obtain ⟨⟨s2, lh1⟩, e2, h⟩ := Res.bind_eq_ok.1 h
    dsimp only at e1 e2 h
    obtain ⟨a1, a2, g1, a3, a4⟩ := genLhs_ext (K := K) e1 hw hna (hok v (List.mem_cons_self ..)) (hst v (List.mem_cons_self ..))
    have n1 := a3.nact
    obtain ⟨b1, b2, g2, b3, b4⟩ := checkVar_ext (K := K) e2 a3.wf (by omega) (by rw [n1]; exact a2) (by rw [n1]; exact hl.mono a1)
    have n2 := b3.nact
    rw [n1] at b2
    obtain ⟨c1, c2, c3, g3, c4, c5⟩ := ih _ _ _ _ h b3.wf (by omega) (by rw [n2, n1]; exact fun v hv => hok v (List.mem_cons_of_mem _ hv))
      (fun v hv => hst v (List.mem_cons_of_mem _ hv)) (by rw [n2, n1]; exact b2)
    rw [n2, n1] at c2
    have hlen : lh1.length = lh.length := by
      cases k with
      | indexed t i => cases e2; rfl
      | indexup u i => cases e2; rfl
      | loc x =>
        simp only [checkVar, checkConflict] at e2
        split at e2
        · obtain ⟨_, _, e2⟩ := Res.bind_eq_ok.1 e2
          cases e2; simp
        · cases e2; simp
      | up x =>
        simp only [checkVar, checkConflict] at e2
        split at e2
        · obtain ⟨_, _, e2⟩ := Res.bind_eq_ok.1 e2
          cases e2; simp
        · cases e2; simp
      | _ => exact a2.elim
    refine ⟨by omega, c2, by rw [c3, List.length_cons, List.length_cons, hlen]; omega, _, (a3.trans b3).trans c4, ?_⟩
    intro hK R w ts hts
    have hk1 : s1.k <+: K := b3.k.trans (c4.k.trans hK)
    simp only [evalVars]
    show Does (andThen (andThen (g1 R w) g2) g3) _ _
    rw [andThen_assoc]
    refine Does.seq (a4 hk1 R w) ?_
    rintro R1 w1 ⟨t, w1'⟩ hp ⟨hR1, rfl, ht⟩
    obtain ⟨R2, hg2, hR2, hts2⟩ := b4 R1 w1
    rw [hg2]
    show Does (g3 R2 w1) _ _
    have hts1 : List.Forall₂ (Is P K R1 w1) lh ts :=
      Is.congr_all (m := s0.nactvar) (n := s0.freereg) hR1 (fun u hu => evalLhs_up hu hp) hl.var hts
    have ht2 : Is P K R2 w1 k t := ht.congr hR2 (fun _ _ => rfl) a2
    have hR : ∀ r, r < s0.freereg → R2 r = R r := fun r hr => (hR2 r (by omega)).trans (hR1 r hr)
    have hcg := evalVars_congr (P := P) (n := s0.nactvar) (fun r hr => hR r (by omega)) vs
      (fun v hv => hok v (List.mem_cons_of_mem _ hv)) w1
    dsimp only
    rw [← hcg]
    refine Does.map (c5 hK R2 w1 (t :: ts) (.cons ht2 (hts2 ts hts1))) _ ?_
    rintro R3 w3 ⟨ts', w3'⟩ hp3 ⟨hR3, rfl, hts3⟩
    refine ⟨_, rfl, fun r hr => (hR3 r (by omega)).trans (hR r hr), rfl, ?_⟩
    rw [List.reverse_cons, List.append_assoc]
    exact hts3

end Verif.Assign
