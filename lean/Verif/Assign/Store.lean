import Verif.Assign.Vars
/-! Multiple assignment: the stores. -/
namespace Verif.Assign
open Verif.ExpCode
variable {W : Type} {P : Ops W} {K : List Val}

/-- what a store to `v` leaves: the locals are as they should be, the temporaries below `n` are the same, and so is what
the other variables stand for -/
def Stored (P : Ops W) (K : List Val) (m n : Nat) (v : Kind) (R : Regs) (w : W) (R' : Regs) (w' : W)
    (p : (Nat → Val) × W) : Prop :=
  w' = p.2 ∧ (∀ x, x < m → R' x = p.1 x) ∧ (∀ r, m ≤ r → r < n → R' r = R r) ∧
  ∀ k t, Var P m n k → Apart v k → Is P K R w k t → Is P K R' w' k t

theorem is_loc {R : Regs} {w : W} {x : Nat} {t : Tgt} (h : Is P K R w (.loc x) t) : t = .loc x := by
  cases t with
  | loc y => exact congrArg Tgt.loc (Eq.symm h)
  | _ => exact h.elim

theorem is_up {R : Regs} {w : W} {u : Nat} {t : Tgt} (h : Is P K R w (.up u) t) : t = .up u := by
  cases t with
  | up y => exact congrArg Tgt.up (Eq.symm h)
  | _ => exact h.elim

theorem is_indexed {R : Regs} {w : W} {r : Nat} {i : RK} {t : Tgt} (h : Is P K R w (.indexed r i) t) :
    t = .field (R r) (i.get K R) := by
  cases t with
  | field x y => rw [h.1, h.2]
  | _ => exact h.elim

theorem is_indexup {R : Regs} {w : W} {u : Nat} {i : RK} {t : Tgt} (h : Is P K R w (.indexup u i) t) :
    t = .field (P.up u w) (i.get K R) := by
  cases t with
  | field x y => rw [h.1, h.2]
  | _ => exact h.elim

/-- the other variables, when a local variable changes -/
theorem is_setloc {m n : Nat} {x : Nat} {R R' : Regs} {w w' : W} (hR : ∀ r, r < n → r ≠ x → R' r = R r)
    (hu : ∀ u, Stable P u → P.up u w' = P.up u w) {k : Kind} {t : Tgt} (hk : Var P m n k) (ha : Apart (.loc x) k)
    (h : Is P K R w k t) : Is P K R' w' k t := by
  have key : ∀ i : RK, RK.in n i → i ≠ .reg x → i.get K R' = i.get K R := by
    intro i hi hne
    cases i with
    | reg r => exact hR r hi (fun e => hne (by rw [e]))
    | const c => rfl
  cases k with
  | loc y => cases t <;> exact h
  | up u => cases t <;> exact h
  | indexed t' i =>
    cases t with
    | field a b => exact ⟨(hR _ hk.1 ha.1).trans h.1, (key i hk.2 ha.2).trans h.2⟩
    | _ => exact h
  | indexup u i =>
    cases t with
    | field a b => exact ⟨(hu _ hk.2).trans h.1, (key i hk.1 ha).trans h.2⟩
    | _ => exact h
  | _ => exact hk.elim

/-- the other variables, when an upvalue changes -/
theorem is_setup {m n : Nat} {u : Nat} {v : Val} {R : Regs} {w : W} {k : Kind} {t : Tgt} (hk : Var P m n k)
    (ha : Apart (.up u) k) (h : Is P K R w k t) : Is P K R (P.setup u v w) k t := by
  cases k with
  | indexup u' i =>
    cases t with
    | field a b => exact ⟨(hk.2.setup u v w (Ne.symm ha)).trans h.1, h.2⟩
    | _ => exact h
  | loc y => cases t <;> exact h
  | up u => cases t <;> exact h
  | indexed t' i => cases t <;> exact h
  | _ => exact hk.elim

theorem execG_eff (x : Eff) (R : Regs) (w : W) :
    execG P K (.eff x) R w = match x.effect P K R w with
      | .ok w => .ok (.fall R w)
      | .err m => .err m
      | .ub => .ub := by
  unfold execG
  simp only [Instr.exec]
  cases x.effect P K R w <;> rfl

theorem freeexp_fits {nact n0 : Nat} {s : FS} {d : D} {rk : RK} (hf : Fits d rk) (hs : s.nactvar = nact) (hna : nact ≤ n0)
    (h : RKAt nact n0 rk s.freereg) : (freeexp s d).freereg = n0 := by
  unfold freeexp
  cases rk with
  | reg r => rw [show d.kind = .nonreloc r from hf.2.2]; exact freeReg_freereg hs hna h
  | const i => rw [show d.kind = .k i from hf.2.2.1]; exact h

/-- the registers of an expression are free when it is stored in a local variable -/
theorem storelocal_freereg {nact n0 : Nat} {s : FS} {d : D} (hs : s.nactvar = nact) (hna : nact ≤ n0)
    (ha : Acc nact n0 s d.kind) : (dischargevars (freeexp s d) d).1.freereg = n0 := by
  obtain ⟨k, a, b, c⟩ := d
  have h1 := dischargevars_acc (d := ⟨k, a, b, c⟩) hs hna ha
  cases k with
  | nonreloc r => exact freeReg_freereg hs hna ha
  | loc r => exact ha.2
  | up u => exact h1.1
  | indexed x i => exact h1.1
  | indexup u i => exact h1.1
  | reloc pc => exact h1.1
  | _ => exact h1

theorem storevar_ext {s0 s : FS} {d : D} {ev : Regs → W → Res (Val × W)} {q : FS} {sem : Regs → W → Res (Val × W)}
    {g : Regs → W → Res (Out W)} {n0 : Nat} (hs : Spec P K (fun r => r < n0) s0 s d ev q sem g) (hna : s0.nactvar ≤ n0)
    (ha : Acc s0.nactvar n0 s d.kind) {v : Kind} (hv : Var P s0.nactvar n0 v) {s' : FS} (h : storevar s v d = .ok s') :
    s'.freereg = n0 ∧ ∃ g', Ext P K s0 s' g' ∧ (s'.k <+: K → ∀ R w L t, Is P K R w v t → (∀ x, x < s0.nactvar → R x = L x) →
      (∀ u, Stable P u → ∀ x w', ev R w = .ok (x, w') → P.up u w' = P.up u w) →
      Does (g' R w) ((ev R w).bind fun p => put P t p.1 L p.2) (Stored P K s0.nactvar n0 v R w)) := by
  cases v with
  | loc x =>
    cases h
    have hx : x < s0.nactvar := hv
    have hs' : Spec P K (fun r => r < n0 ∧ r ≠ x) s0 s d ev q sem g := by
      refine ⟨hs.pre, hs.ext, fun hK R w => ?_, hs.pend, hs.nodup⟩
      have := hs.mat hK R w
      cases hg : g R w with
      | err m => rw [hg] at this; exact this
      | ub => rw [hg] at this; exact this
      | ok o =>
        rw [hg] at this
        cases o with
        | fall R1 w1 => exact ⟨fun r hr => this.1 r hr.1, this.2⟩
        | exit j R1 w1 => exact ⟨fun r hr => this.1 r hr.1, this.2⟩
    have hs2 : Spec P K (fun r => r < n0 ∧ r ≠ x) s0 (freeexp s d) d ev
        { q with freereg := (freeexp s d).freereg } sem g := by
      rw [freeexp_eq s d]
      exact hs'.freereg _
    have hfr := storelocal_freereg hs.nact hna ha
    unfold storelocal
    generalize hse : freeexp s d = se at *
    obtain ⟨h1', h2', h3', h4', q1, h5, _⟩ := dischargevars_spec hs2
    have heq : exp2reg se d x = exp2reg (dischargevars se d).1 (dischargevars se d).2 x := by
      unfold exp2reg discharge2reg
      rw [dischargevars_id h1']
    rw [heq]
    obtain ⟨z1, z2, z3, g', z4⟩ := exp2reg_spec h5 h1' (reg := x) (fun h => h.2 rfl)
    have ho := z4.opd (by rw [z1]) (by rw [z1])
    refine ⟨z3.trans hfr, g', ho.ext, ?_⟩
    intro hK R w L t ht hL hu
    rw [is_loc ht]
    refine Does.map (opd_does ho hK R w) _ ?_
    rintro R' w' p hp ⟨hR, rfl⟩
    refine ⟨_, rfl, rfl, ?_, ?_, ?_⟩
    · intro y hy
      show R' y = if y = x then R' x else L y
      split
      · rename_i e; rw [e]
      · rename_i e; exact (hR y ⟨by omega, e⟩).trans (hL y hy)
    · intro r h1 h2
      exact hR r ⟨h2, by omega⟩
    · intro k t' hk hap hi
      exact is_setloc (fun r h1 h2 => hR r ⟨h1, h2⟩) (fun u hs => hu u hs _ _ hp) hk hap hi
  | up u =>
    simp only [storevar] at h
    obtain ⟨⟨s1, d1, r⟩, e1, h⟩ := Res.bind_eq_ok.1 h
    cases h
    obtain ⟨y1, y2, y3, y4, y5, g', y6⟩ := exp2anyreg_spec hs (Nat.lt_irrefl _) hna ha e1
    have ho := y6.opd y3 y4
    have he := emit_ext (P := P) (K := K) ho.ext.wf (i := .eff (.setupval u r)) rfl
    have hf := freeexp_ext (P := P) (K := K) he.wf d1
    refine ⟨?_, _, (ho.ext.trans he).trans_skip hf, ?_⟩
    · exact freeexp_fits (rk := .reg r) ⟨y3, y4, y2⟩ (he.nact.trans y6.nact) hna y1
    · intro hK R w L t ht hL hu
      rw [is_up ht]
      refine Does.seq (opd_does ho ((he.k.trans hf.k).trans hK) R w) ?_
      rintro R' w' p hp ⟨hR, rfl⟩
      refine ⟨_, rfl, rfl, fun y hy => (hR y (by omega)).trans (hL y hy), fun r _ h2 => hR r h2, ?_⟩
      intro k t' hk hap hi
      exact is_setup hk hap (hi.congr hR (fun u hs => hu u hs _ _ hp) hk)
  | indexed t i =>
    simp only [storevar] at h
    obtain ⟨⟨s1, d1, r⟩, e1, h⟩ := Res.bind_eq_ok.1 h
    cases h
    obtain ⟨y1, y2, y3, y4, y5, g', ho⟩ := exp2RK_spec hs (Nat.lt_irrefl _) hna ha e1
    have he := emit_ext (P := P) (K := K) ho.ext.wf (i := .eff (.settable t i r)) rfl
    have hf := freeexp_ext (P := P) (K := K) he.wf d1
    refine ⟨?_, _, (ho.ext.trans he).trans_skip hf, ?_⟩
    · exact freeexp_fits y2 (he.nact.trans y4) hna y1
    · intro hK R w L t' ht hL hu
      refine Does.seq (opd_does ho ((he.k.trans hf.k).trans hK) R w) ?_
      rintro R' w' p hp ⟨hR, rfl⟩
      have ht1 := ht.congr hR (fun u hs => hu u hs _ _ hp) hv
      rw [is_indexed ht1]
      rw [execG_eff]
      simp only [Eff.effect, put]
      cases hset : P.setindex (R' t) (i.get K R') (r.get K R') w' with
      | err m => rfl
      | ub => rfl
      | ok w2 =>
        refine ⟨_, rfl, rfl, fun y hy => (hR y (by omega)).trans (hL y hy), fun r _ h2 => hR r h2, ?_⟩
        intro k t' hk hap hi
        refine hi.congr hR (fun u hs => ?_) hk
        exact (hs.setindex _ _ _ _ _ hset).trans (hu u hs _ _ hp)
  | indexup t i =>
    simp only [storevar] at h
    obtain ⟨⟨s1, d1, r⟩, e1, h⟩ := Res.bind_eq_ok.1 h
    cases h
    obtain ⟨y1, y2, y3, y4, y5, g', ho⟩ := exp2RK_spec hs (Nat.lt_irrefl _) hna ha e1
    have he := emit_ext (P := P) (K := K) ho.ext.wf (i := .eff (.settabup t i r)) rfl
    have hf := freeexp_ext (P := P) (K := K) he.wf d1
    refine ⟨?_, _, (ho.ext.trans he).trans_skip hf, ?_⟩
    · exact freeexp_fits y2 (he.nact.trans y4) hna y1
    · intro hK R w L t' ht hL hu
      refine Does.seq (opd_does ho ((he.k.trans hf.k).trans hK) R w) ?_
      rintro R' w' p hp ⟨hR, rfl⟩
      have ht1 := ht.congr hR (fun u hs => hu u hs _ _ hp) hv
      rw [is_indexup ht1]
      rw [execG_eff]
      simp only [Eff.effect, put]
      cases hset : P.setindex (P.up t w') (i.get K R') (r.get K R') w' with
      | err m => rfl
      | ub => rfl
      | ok w2 =>
        refine ⟨_, rfl, rfl, fun y hy => (hR y (by omega)).trans (hL y hy), fun r _ h2 => hR r h2, ?_⟩
        intro k t' hk hap hi
        refine hi.congr hR (fun u hs => ?_) hk
        exact (hs.setindex _ _ _ _ _ hset).trans (hu u hs _ _ hp)
  | _ => exact hv.elim

/-- assignments from left to right (of the reversed lists) -/
def putRev (P : Ops W) : List Tgt → List Val → (Nat → Val) → W → Res ((Nat → Val) × W)
  | t :: ts, v :: vs, L, w => do
    let (L, w) ← put P t v L w
    putRev P ts vs L w
  | _, _, L, w => .ok (L, w)

theorem putRev_append {ts : List Tgt} : ∀ {vs : List Val} {t : Tgt} {v : Val} {L : Nat → Val} {w : W}, ts.length = vs.length →
    putRev P (ts ++ [t]) (vs ++ [v]) L w = (putRev P ts vs L w).bind fun p => put P t v p.1 p.2 := by
  induction ts with
  | nil =>
    intro vs t v L w h
    cases vs with
    | nil =>
      show (put P t v L w).bind (fun p => .ok (p.1, p.2)) = put P t v L w
      cases put P t v L w <;> rfl
    | cons x vs => cases h
  | cons a ts ih =>
    intro vs t v L w h
    cases vs with
    | nil => cases h
    | cons x vs =>
      show (put P a x L w).bind _ = ((put P a x L w).bind _).bind _
      cases put P a x L w with
      | ok p => exact ih (Nat.succ.inj h)
      | err m => rfl
      | ub => rfl

theorem putAll_rev : ∀ {ts : List Tgt} {vs : List Val} {L : Nat → Val} {w : W}, ts.length = vs.length →
    putRev P ts.reverse vs.reverse L w = putAll P ts vs L w := by
  intro ts
  induction ts with
  | nil => intro vs L w h; cases vs with
    | nil => rfl
    | cons x vs => cases h
  | cons t ts ih =>
    intro vs L w h
    cases vs with
    | nil => cases h
    | cons v vs =>
      rw [List.reverse_cons, List.reverse_cons, putRev_append (by simpa using Nat.succ.inj h), ih (Nat.succ.inj h)]
      rfl

/-- the values in the registers from `n` on, the last one first -/
def temps (R : Regs) (n : Nat) : Nat → List Val
  | 0 => []
  | j + 1 => R (n + j) :: temps R n j

theorem temps_congr {R R' : Regs} {n : Nat} : ∀ {j : Nat}, (∀ r, n ≤ r → r < n + j → R' r = R r) →
    temps R' n j = temps R n j := by
  intro j
  induction j with
  | zero => intro _; rfl
  | succ j ih =>
    intro h
    show R' (n + j) :: _ = R (n + j) :: _
    rw [h (n + j) (by omega) (by omega), ih fun r h1 h2 => h r h1 (by omega)]

theorem temps_eq (R : Regs) (n : Nat) : ∀ j, temps R n j = ((List.range' n j).map R).reverse := by
  intro j
  induction j with
  | zero => rfl
  | succ j ih =>
    show R (n + j) :: temps R n j = _
    rw [ih, List.range'_concat, List.map_append, List.reverse_append, Nat.one_mul]
    rfl

theorem storeRest_ext : ∀ (lh : List Kind) (s0 s : FS) (n : Nat), storeRest lh s0 = .ok s → WF s0 →
    s0.freereg = n + lh.length → s0.nactvar ≤ n → Chain P s0.nactvar n lh →
    s.freereg = n ∧ ∃ g, Ext P K s0 s g ∧ (s.k <+: K → ∀ R w L ts, List.Forall₂ (Is P K R w) lh ts →
      (∀ x, x < s0.nactvar → R x = L x) →
      Does (g R w) (putRev P ts (temps R n lh.length) L w) fun R' w' p =>
        w' = p.2 ∧ ∀ x, x < s0.nactvar → R' x = p.1 x) := by
  intro lh
  induction lh with
  | nil =>
    intro s0 s n h hw hf hna hl
    cases h
    refine ⟨hf, skipG, Ext.refl hw, fun _ R w L ts hts hL => ?_⟩
    cases hts
    exact ⟨_, rfl, rfl, hL⟩
  | cons v lh ih =>
    intro s0 s n h hw hf hna hl
    simp only [storeRest] at h
    obtain ⟨s1, e1, h⟩ := Res.bind_eq_ok.1 h
    rw [List.length_cons] at hf
    have hr : s0.freereg - 1 = n + lh.length := by omega
    rw [hr] at e1
    have hsp : Spec P K (fun r => r < n + lh.length) s0 s0 { kind := .nonreloc (n + lh.length), tm := Typed.tANY }
        (fun R w => .ok (R (n + lh.length), w)) s0 (fun R w => .ok (R (n + lh.length), w)) skipG :=
      Spec.triv hw ⟨rfl, rfl⟩ rfl rfl
    obtain ⟨a1, g1, a2, a3⟩ := storevar_ext hsp (by omega) (Or.inr ⟨rfl, by omega⟩)
      ((hl.var v (List.mem_cons_self ..)).mono (by omega)) e1
    have hn := a2.nact
    have hl' : Chain P s0.nactvar n lh := ⟨fun k hk => hl.var k (List.mem_cons_of_mem _ hk), (List.pairwise_cons.1 hl.apart).2⟩
    obtain ⟨b1, g2, b2, b3⟩ := ih _ _ n h a2.wf a1 (by omega) (by rw [hn]; exact hl')
    refine ⟨b1, _, a2.trans b2, ?_⟩
    intro hK R w L ts hts hL
    cases hts with
    | cons ht hts =>
      rename_i t ts
      have hst := a3 (b2.k.trans hK) R w L t ht hL (fun u hu x w' e => by cases e; rfl)
      refine Does.seq (ev := put P t (R (n + lh.length)) L w) (Q := Stored P K s0.nactvar (n + lh.length) v R w) ?_ ?_
      · exact hst
      · rintro R1 w1 ⟨L1, w1'⟩ hp ⟨rfl, c2, c3, c4⟩
        dsimp only at c2 ⊢
        rw [show temps R n lh.length = temps R1 n lh.length from
          (temps_congr fun r h1 h2 => (c3 r (by omega) h2)).symm]
        have hts1 : List.Forall₂ (Is P K R1 w1) lh ts := by
          have hall : ∀ k ∈ lh, ∀ t, Is P K R w k t → Is P K R1 w1 k t := fun k hk t hi =>
            c4 k t ((hl'.var k hk).mono (by omega)) ((List.pairwise_cons.1 hl.apart).1 k hk) hi
          have := forall₂_map (f := id) hts (r' := Is P K R1 w1) hall
          rwa [List.map_id] at this
        have := b3 hK R1 w1 L1 ts hts1 (by rw [hn]; exact c2)
        rw [hn] at this
        exact this

end Verif.Assign
