import Verif.ExpCode.Opd
/-! Conditions: `luaK_goiftrue`, `luaK_goiffalse`. -/
namespace Verif.ExpCode
variable {W : Type} {P : Ops W} {K : List Val}

/-- code that jumps when the value of the descriptor is true (`c`) or false (not `c`) -/
structure CondStep (P : Ops W) (K : List Val) (keep : Nat → Prop) (c : Bool) (q s : FS) (j : Nat)
    (sem : Regs → W → Res (Val × W)) (h : Regs → W → Res (Out W)) : Prop where
  ext : Ext P K q s h
  pend : Pend s j
  ge : q.code.length ≤ j
  mat : s.k <+: K → ∀ R w, match sem R w with
    | .ok (v, w') =>
      if v.truthy = c then ∃ R2, h R w = .ok (.exit j R2 w') ∧ (∀ r, keep r → R2 r = R r) ∧ JV s.code j R2 v
      else ∃ R2, h R w = .ok (.fall R2 w') ∧ (∀ r, keep r → R2 r = R r)
    | .err m => h R w = .err m
    | .ub => h R w = .ub

/-- after the code of a condition: it falls through when the value is `b`, and otherwise jumps -/
structure Cond (P : Ops W) (K : List Val) (keep : Nat → Prop) (s0 s : FS) (b : Bool) (l : List Nat)
    (ev : Regs → W → Res (Val × W)) (g : Regs → W → Res (Out W)) : Prop where
  ext : Ext P K s0 s g
  mat : s.k <+: K → ∀ R w, match g R w with
    | .ok (.fall R' w') => (∀ r, keep r → R' r = R r) ∧ ∃ v, ev R w = .ok (v, w') ∧ v.truthy = b
    | .ok (.exit j R' w') => (∀ r, keep r → R' r = R r) ∧
        ∃ v, ev R w = .ok (v, w') ∧ v.truthy = !b ∧ j ∈ l ∧ JV s.code j R' v
    | .err m => ev R w = .err m
    | .ub => ev R w = .ub
  pend : ∀ j ∈ l, Pend s j ∧ s0.code.length ≤ j
  nodup : l.Nodup

/-- the list of jumps for a truth value -/
def D.lst (d : D) (b : Bool) : List Nat := if b then d.t else d.f

theorem lst_mem {d : D} {b : Bool} {j : Nat} (h : j ∈ d.lst b) : j ∈ d.t ++ d.f := by
  unfold D.lst at h
  split at h
  · exact List.mem_append_left _ h
  · exact List.mem_append_right _ h

theorem lst_nodup {d : D} (h : (d.t ++ d.f).Nodup) (b : Bool) : (d.lst b).Nodup := by
  obtain ⟨h1, h2, _⟩ := List.nodup_append.1 h
  unfold D.lst
  split
  · exact h1
  · exact h2

theorem lst_disj {d : D} (h : (d.t ++ d.f).Nodup) {b : Bool} {j : Nat} (h1 : j ∈ d.lst b) : j ∉ d.lst (!b) := by
  obtain ⟨_, _, h3⟩ := List.nodup_append.1 h
  intro h2
  cases b with
  | true => exact h3 j h1 j h2 rfl
  | false => exact h3 j h2 j h1 rfl

/-- a condition with a jump -/
theorem cond_of_step {keep : Nat → Prop} {s0 s : FS} {d : D} {ev : Regs → W → Res (Val × W)} {q : FS}
    {sem : Regs → W → Res (Val × W)} {g : Regs → W → Res (Out W)} (hs : Spec P K keep s0 s d ev q sem g)
    {c : Bool} {s' : FS} {j : Nat} {h : Regs → W → Res (Out W)} (hc : CondStep P K keep c q s' j sem h)
    (hk : s.k <+: s'.k) :
    ∃ g', Cond P K keep s0 (patchtohere s' (d.lst (!c))) (!c) (d.lst c ++ [j]) ev g' := by
  have hpl : ∀ i ∈ d.t ++ d.f, Pend s' i ∧ s0.code.length ≤ i ∧ i < q.code.length ∧ ctl s'.code i = ctl q.code i :=
    fun i hi => ⟨(hc.ext.frame i (hs.pend i hi).1).1, (hs.pend i hi).2, (hs.pend i hi).1.lt,
      (hc.ext.frame i (hs.pend i hi).1).2⟩
  have he := hs.ext.trans hc.ext
  have hj0 : s0.code.length ≤ j := Nat.le_trans hs.ext.len hc.ge
  have hjn : j ∉ d.t ++ d.f := fun hm => by have := (hpl j hm).2.2.1; have := hc.ge; omega
  have hp := patchtohere_ext he (l := d.lst (!c))
    (fun i hi => ⟨(hpl i (lst_mem hi)).1, fun hn => by
      have := (hpl i (lst_mem hi)).2.1; have := hn.lt; omega⟩) (lst_nodup hs.nodup _)
  refine ⟨_, hp, ?_, ?_, ?_⟩
  · intro hK R w
    have hm := hs.mat (hk.trans hK) R w
    cases hg : g R w with
    | err m => rw [hg] at hm; exact hm
    | ub => rw [hg] at hm; exact hm
    | ok o =>
      rw [hg] at hm
      cases o with
      | fall R1 w1 =>
        obtain ⟨m1, m2⟩ := hm
        have hst := hc.mat hK R1 w1
        rw [m2] at hst
        simp only [andThen]
        cases hev : ev R w with
        | err m => rw [hev] at hst; dsimp only at hst; rw [hst]; rfl
        | ub => rw [hev] at hst; dsimp only at hst; rw [hst]; rfl
        | ok p =>
          obtain ⟨v, w2⟩ := p
          rw [hev] at hst
          dsimp only at hst
          by_cases hv : v.truthy = c
          · rw [if_pos hv] at hst
            obtain ⟨R2, e1, e2, e3⟩ := hst
            rw [e1]
            simp only [handle, closing]
            rw [if_neg (fun hm => hjn (lst_mem hm))]
            exact ⟨fun r hr => (e2 r hr).trans (m1 r hr), v, rfl, by rw [hv]; simp, by simp, e3⟩
          · rw [if_neg hv] at hst
            obtain ⟨R2, e1, e2⟩ := hst
            rw [e1]
            simp only [handle]
            refine ⟨fun r hr => (e2 r hr).trans (m1 r hr), v, rfl, ?_⟩
            cases hvt : v.truthy <;> cases c <;> simp_all
      | exit i R1 w1 =>
        obtain ⟨m1, v, m2, m3, m4⟩ := hm
        have hil : i ∈ d.lst v.truthy := m3
        have him := mem_lists m3
        simp only [andThen, handle, closing]
        by_cases hv : v.truthy = c
        · rw [hv] at hil
          rw [if_neg (lst_disj hs.nodup hil)]
          refine ⟨m1, v, m2, by rw [hv]; simp, List.mem_append_left _ hil, ?_⟩
          exact JV_congr (hpl i him).2.2.2 m4
        · have hv' : v.truthy = !c := by cases hvt : v.truthy <;> cases c <;> simp_all
          rw [hv'] at hil
          rw [if_pos hil]
          exact ⟨m1, v, m2, hv'⟩
  · intro i hi
    rcases List.mem_append.1 hi with hi | hi
    · refine ⟨⟨(hpl i (lst_mem hi)).1.1, ?_⟩, (hpl i (lst_mem hi)).2.1⟩
      intro hm
      rcases List.mem_append.1 hm with hm | hm
      · exact (hpl i (lst_mem hi)).1.2 hm
      · exact lst_disj hs.nodup hi hm
    · have e : i = j := by simpa using hi
      subst e
      refine ⟨⟨hc.pend.1, ?_⟩, hj0⟩
      intro hm
      rcases List.mem_append.1 hm with hm | hm
      · exact hc.pend.2 hm
      · exact hjn (lst_mem hm)
  · refine List.nodup_append.2 ⟨lst_nodup hs.nodup _, by simp, ?_⟩
    intro a ha b hb e
    have : b = j := by simpa using hb
    subst this; subst e
    exact hjn (lst_mem ha)

/-- a condition that is known -/
theorem cond_const {keep : Nat → Prop} {s0 s : FS} {d : D} {ev : Regs → W → Res (Val × W)}
    {sem : Regs → W → Res (Val × W)} {g : Regs → W → Res (Out W)} (hs : Spec P K keep s0 s d ev s sem g)
    {c : Bool} (hc : s.k <+: K → ∃ v, v.truthy = !c ∧ ∀ R w, sem R w = .ok (v, w)) :
    ∃ g', Cond P K keep s0 (patchtohere s (d.lst (!c))) (!c) (d.lst c) ev g' := by
  have hp := patchtohere_ext hs.ext (l := d.lst (!c))
    (fun i hi => ⟨(hs.pend i (lst_mem hi)).1, fun hn => by
      have := (hs.pend i (lst_mem hi)).2; have := hn.lt; omega⟩) (lst_nodup hs.nodup _)
  refine ⟨_, hp, ?_, ?_, lst_nodup hs.nodup _⟩
  · intro hK R w
    have hm := hs.mat hK R w
    cases hg : g R w with
    | err m => rw [hg] at hm; exact hm
    | ub => rw [hg] at hm; exact hm
    | ok o =>
      rw [hg] at hm
      cases o with
      | fall R1 w1 =>
        obtain ⟨m1, m2⟩ := hm
        obtain ⟨v, hv, hsem⟩ := hc hK
        exact ⟨m1, v, by rw [← m2, hsem], hv⟩
      | exit i R1 w1 =>
        obtain ⟨m1, v, m2, m3, m4⟩ := hm
        have hil : i ∈ d.lst v.truthy := m3
        simp only [handle, closing]
        by_cases hv : v.truthy = c
        · rw [hv] at hil
          rw [if_neg (lst_disj hs.nodup hil)]
          exact ⟨m1, v, m2, by rw [hv]; simp, hil, m4⟩
        · have hv' : v.truthy = !c := by cases hvt : v.truthy <;> cases c <;> simp_all
          rw [hv'] at hil
          rw [if_pos hil]
          exact ⟨m1, v, m2, hv'⟩
  · intro i hi
    refine ⟨⟨(hs.pend i (lst_mem hi)).1.1, ?_⟩, (hs.pend i (lst_mem hi)).2⟩
    intro hm
    rcases List.mem_append.1 hm with hm | hm
    · exact (hs.pend i (lst_mem hi)).1.2 hm
    · exact lst_disj hs.nodup hi hm

/-! ### the jumps -/

theorem condjump_pend (s : FS) (i : Instr) : Pend (condjump s i).1 (s.code.length + 1) := by
  rw [condjump_eq]
  constructor
  · show ((dischargejpc s).code ++ [i, .jmp none])[s.code.length + 1]? = _
    rw [← dischargejpc_length s]
    simp
  · show _ ∉ (dischargejpc s).jpc
    rw [dischargejpc_jpc]; simp

theorem condjump_ctl (s : FS) (i : Instr) : ctl (condjump s i).1.code (s.code.length + 1) =
    match i with
    | .testset _ b _ => some b
    | _ => none := by
  rw [condjump_eq]
  unfold ctl
  dsimp only
  have : (addCode (dischargejpc s) [i, .jmp none]).code[s.code.length]? = some i := by
    show ((dischargejpc s).code ++ [i, .jmp none])[s.code.length]? = _
    rw [← dischargejpc_length s]
    simp
  rw [this]
  cases i <;> rfl

theorem condjump_same (s : FS) (i : Instr) : (condjump s i).1.freereg = s.freereg ∧ (condjump s i).1.k = s.k ∧
    (condjump s i).1.nactvar = s.nactvar := ⟨rfl, rfl, rfl⟩

/-- `TESTSET` on a register -/
theorem testset_step {keep : Nat → Prop} {q sA : FS} {sem : Regs → W → Res (Val × W)} {r : Nat}
    {h : Regs → W → Res (Out W)} (he : Ext P K q sA h)
    (hh : sA.k <+: K → ∀ R w, match sem R w with
      | .ok (v, w') => ∃ R2, h R w = .ok (.fall R2 w') ∧ (∀ x, keep x → R2 x = R x) ∧ R2 r = v
      | .err m => h R w = .err m
      | .ub => h R w = .ub) (c : Bool) :
    ∃ h', CondStep P K keep c q (condjump sA (.testset none r c)).1 (sA.code.length + 1) sem h' := by
  have hc := condjump_ext (P := P) (K := K) he.wf (i := .testset none r c) rfl (fun _ _ _ e => by cases e; rfl)
  refine ⟨_, he.trans hc, condjump_pend .., Nat.le_succ_of_le he.len, ?_⟩
  intro hK R w
  have := hh hK R w
  cases hsm : sem R w with
  | err m => rw [hsm] at this; dsimp only at this ⊢; rw [this]; rfl
  | ub => rw [hsm] at this; dsimp only at this ⊢; rw [this]; rfl
  | ok p =>
    obtain ⟨v, w'⟩ := p
    rw [hsm] at this
    obtain ⟨R2, e1, e2, e3⟩ := this
    dsimp only
    rw [e1]
    simp only [andThen, testG, Instr.exec]
    rw [e3]
    by_cases hv : v.truthy = c
    · rw [if_pos hv, if_pos hv]
      refine ⟨R2, rfl, e2, ?_⟩
      unfold JV
      rw [condjump_ctl]
      exact e3
    · rw [if_neg hv, if_neg hv]
      exact ⟨R2, rfl, e2⟩

theorem freeexp_dd (s : FS) (d d' : D) (h : d'.kind = d.kind) : freeexp s d' = freeexp s d := by
  unfold freeexp; rw [h]

theorem jumponcond_spec {keep : Nat → Prop} {s0 s : FS} {d : D} {ev : Regs → W → Res (Val × W)} {q : FS}
    {sem : Regs → W → Res (Val × W)} {g : Regs → W → Res (Out W)} {n0 : Nat}
    (hs : Spec P K keep s0 s d ev q sem g) (hn : ¬ keep n0) (hna : s0.nactvar ≤ n0)
    (hd : d.kind.disch = true) (hnj : ∀ j, d.kind ≠ .jmp j)
    (ha : Acc s0.nactvar n0 s d.kind) {c : Bool} {s' : FS} {d' : D} {l : List Nat}
    (h : jumponcond s d c = .ok (s', d', l)) :
    s'.freereg = n0 ∧ d'.t = d.t ∧ d'.f = d.f ∧ d'.tm = d.tm ∧ s.k <+: s'.k ∧
    ∃ j h', l = [j] ∧ CondStep P K keep c q s' j sem h' := by
  unfold jumponcond at h
  dsimp only at h
  split at h
  · -- a NOT is removed
    rename_i b hrm
    cases h
    split at hrm
    rotate_left
    · cases hrm
    rename_i pc hk
    rw [hk] at ha
    have hp := hs.pre
    rw [hk] at hp
    obtain ⟨x, hse, hpc, hjpc, hsem⟩ := hp
    have hx : s.code[pc]? = some (.set 0 x) := by rw [hse, hpc]; simp [addCode]
    rw [hx] at hrm
    split at hrm
    rotate_left
    · cases hrm
    rename_i a' b' e
    cases hrm
    cases e
    have hq : ({ s with code := s.code.dropLast } : FS) = q := by
      rw [hse]
      unfold addCode
      simp
    rw [hq]
    have hqf : q.freereg = s.freereg := (pre_k hs.pre).2.1
    have hc := condjump_ext (P := P) (K := K) hs.ext.wf (i := .test b (!c)) rfl (fun _ _ _ e => nomatch e)
    refine ⟨?_, rfl, rfl, rfl, ?_, _, _, ?_, hc, condjump_pend .., by omega, ?_⟩
    · exact hqf.trans ha.1
    · show s.k <+: q.k
      rw [(pre_k hs.pre).1]; exact List.prefix_refl _
    · rw [condjump_eq]
    · intro hK R w
      rw [hsem]
      simp only [Src.value, testG, Instr.exec]
      by_cases hv : (R b).truthy = !c
      · have : (Val.bool (!(R b).truthy)).truthy = c := by rw [hv]; cases c <;> rfl
        rw [if_pos this, if_pos hv]
        refine ⟨R, rfl, fun _ _ => rfl, ?_⟩
        unfold JV
        rw [condjump_ctl]
        dsimp only
        cases (R b).truthy <;> rfl
      · have : ¬ (Val.bool (!(R b).truthy)).truthy = c := by
          cases hb : (R b).truthy <;> cases c <;> simp_all [Val.truthy]
        rw [if_neg this, if_neg hv]
        exact ⟨R, rfl, fun _ _ => rfl⟩
  · obtain ⟨⟨s1, d1, r⟩, e1, h⟩ := Res.bind_eq_ok.1 h
    dsimp only at h
    cases h
    unfold discharge2anyreg at e1
    split at e1
    · -- already in a register
      rename_i r1 hk
      cases e1
      have hp := hs.pre
      rw [hk] at hp
      obtain ⟨rfl, rfl⟩ := hp
      have hf := freeexp_ext (P := P) (K := K) hs.ext.wf d
      obtain ⟨h', hst⟩ := testset_step (keep := keep) (sem := fun R w => .ok (R r, w)) (r := r) hf
        (fun _ R w => ⟨R, rfl, fun _ _ => rfl, rfl⟩) c
      refine ⟨?_, rfl, rfl, rfl, ?_, _, h', ?_, hst⟩
      · exact freeexp_freereg hs.nact hna hd ha
      · show q.k <+: (freeexp q d).k
        rw [(freeexp_same q d).2.1]; exact List.prefix_refl _
      · rw [condjump_eq]
    · rename_i hnr
      obtain ⟨s2, e2, e1⟩ := Res.bind_eq_ok.1 e1
      have hr := reserve_ok e2
      rcases acc_disch hd ha with ⟨r', hk, _⟩ | ⟨_, hfr⟩
      · exact absurd hk (hnr r')
      rw [hfr] at hr
      have hs2 : Spec P K keep s0 s2 d ev { q with freereg := n0 + 1 } sem g := by
        rw [hr]; exact hs.freereg (n0 + 1)
      have hr2 : s2.freereg = n0 + 1 := by rw [hr]
      have hreg : s2.freereg - 1 = n0 := by omega
      dsimp only at e1
      rw [hreg] at e1
      obtain ⟨y1, y2, y3, h0, y4, y5⟩ := discharge2reg_ext hs2.pre hs2.ext.wf hd hnj n0
      generalize discharge2reg s2 d n0 = x at *
      obtain ⟨s3, d3⟩ := x
      dsimp only at *
      cases e1
      subst y1
      have hq2 : Ext P K q { q with freereg := n0 + 1 } skipG :=
        Ext.of_same hs.ext.wf rfl rfl rfl rfl (List.prefix_refl _)
      have hx := hq2.skip_trans y4
      have hf := freeexp_ext (P := P) (K := K) hx.wf { d with kind := .nonreloc n0 }
      have hx' := hx.trans_skip hf
      obtain ⟨h', hst⟩ := testset_step (keep := keep) (sem := sem) (r := n0) hx' (fun hK R w => by
        rw [(freeexp_same _ _).2.1] at hK
        rw [y5 hK]
        unfold setG
        cases sem R w with
        | err m => rfl
        | ub => rfl
        | ok p =>
          refine ⟨_, rfl, fun x hx => ?_, Regs.set_self ..⟩
          exact Regs.set_ne _ _ (fun e => hn (e ▸ hx))) c
      refine ⟨?_, rfl, rfl, rfl, ?_, _, h', ?_, hst⟩
      · refine freeexp_freereg (nact := s0.nactvar) ?_ hna rfl (Or.inr ⟨rfl, y3.trans hr2⟩)
        rw [hx.nact]; exact hs.ext.nact
      · rw [(condjump_same _ _).2.1, (freeexp_same _ _).2.1]
        have : s2.k = s.k := by rw [hr]
        rw [← this]; exact y2
      · rw [condjump_eq]

/-! ### negating a comparison -/

theorem modify_rel (c : List Instr) (x y : Instr) (f : Instr → Instr) :
    (c ++ [x, y]).modify c.length f = c ++ [f x, y] := by
  induction c with
  | nil => rfl
  | cons a c ih => simp only [List.cons_append, List.length_cons, List.modify_succ_cons, ih]

theorem negate_eq (q : FS) (o : Rel) (a : Bool) (x y : RK) :
    negatecondition (addCode q [.rel o a x y, .jmp none]) (q.code.length + 1) =
      addCode q [.rel o (!a) x y, .jmp none] := by
  unfold negatecondition addCode
  dsimp only
  rw [Nat.add_sub_cancel, modify_rel]

theorem rel_ext {q : FS} (hw : WF q) (hj : q.jpc = []) (o : Rel) (a : Bool) (x y : RK) :
    Ext P K q (addCode q [.rel o a x y, .jmp none]) (testG P K (.rel o a x y) (q.code.length + 1)) :=
  addCode_ext hw hj (Block.cond (i := .rel o a x y) rfl (fun _ _ _ e => nomatch e)) (fun R w => run_cond rfl R w)

theorem rel_pend {q : FS} (hj : q.jpc = []) (o : Rel) (a : Bool) (x y : RK) :
    Pend (addCode q [.rel o a x y, .jmp none]) (q.code.length + 1) ∧
    ctl (addCode q [.rel o a x y, .jmp none]).code (q.code.length + 1) = none := by
  refine ⟨⟨by simp [addCode], ?_⟩, ?_⟩
  · show _ ∉ q.jpc
    rw [hj]; simp
  · unfold ctl
    have : (addCode q [.rel o a x y, .jmp none]).code[q.code.length]? = some (.rel o a x y) := by simp [addCode]
    dsimp only
    rw [this]

/-- the jump of a comparison, as it is (`c`) or negated -/
theorem rel_step {keep : Nat → Prop} {q : FS} (hw : WF q) (hj : q.jpc = []) (o : Rel) (a : Bool) (x y : RK) (c : Bool) :
    CondStep P K keep c q (addCode q [.rel o (a == c) x y, .jmp none]) (q.code.length + 1) (relSem P K o a x y)
      (testG P K (.rel o (a == c) x y) (q.code.length + 1)) := by
  obtain ⟨hp, hc⟩ := rel_pend hj o (a == c) x y
  refine ⟨rel_ext hw hj .., hp, by omega, ?_⟩
  intro hK R w
  simp only [relSem, testG, Instr.exec]
  cases P.rel o (x.get K R) (y.get K R) w with
  | err m => rfl
  | ub => rfl
  | ok p =>
    obtain ⟨r, w'⟩ := p
    dsimp only
    have ht : (Val.bool (r == a)).truthy = (r == a) := by cases (r == a) <;> rfl
    rw [ht]
    by_cases hv : (r == a) = c
    · have hr : r = (a == c) := by cases r <;> cases a <;> cases c <;> simp_all
      rw [if_pos hv, if_pos hr]
      refine ⟨R, rfl, fun _ _ => rfl, ?_⟩
      unfold JV
      rw [hc]
      dsimp only
      rw [ht]
    · have hr : ¬ r = (a == c) := by cases r <;> cases a <;> cases c <;> simp_all
      rw [if_neg hv, if_neg hr]
      exact ⟨R, rfl, fun _ _ => rfl⟩

/-! ### goiftrue, goiffalse -/

theorem dischargevars_tm_t (s : FS) (d : D) : (dischargevars s d).2.t = d.t ∧ (dischargevars s d).2.f = d.f := by
  unfold dischargevars
  split <;> exact ⟨rfl, rfl⟩

theorem dischargevars_kinv {s : FS} {d : D} (h : KInv s d.kind) : KInv (dischargevars s d).1 (dischargevars s d).2.kind := by
  unfold dischargevars
  split
  · unfold KInv; dsimp only
  · unfold KInv; dsimp only
  · unfold KInv; dsimp only
  · unfold KInv; dsimp only
  · exact h

/-- the cases of `luaK_goiftrue` -/
theorem goiftrueJump_cases {s : FS} {d : D} {r : FS × D × List Nat} (h : goiftrueJump true s d = .ok r) :
    (∃ j, d.kind = .jmp j ∧ r = (negatecondition s j, d, [j])) ∨
    (((∃ i, d.kind = .k i) ∨ (∃ x, d.kind = .kflt x) ∨ (∃ x, d.kind = .kint x) ∨ d.kind = .tru) ∧ r = (s, d, [])) ∨
    ((∀ j, d.kind ≠ .jmp j) ∧ jumponcond s d false = .ok r) := by
  unfold goiftrueJump at h
  cases hk : d.kind with
  | jmp j => rw [hk] at h; cases h; exact Or.inl ⟨j, rfl, rfl⟩
  | k i => rw [hk] at h; cases h; exact Or.inr (Or.inl ⟨Or.inl ⟨i, rfl⟩, rfl⟩)
  | kflt i => rw [hk] at h; cases h; exact Or.inr (Or.inl ⟨Or.inr (Or.inl ⟨i, rfl⟩), rfl⟩)
  | kint i => rw [hk] at h; cases h; exact Or.inr (Or.inl ⟨Or.inr (Or.inr (Or.inl ⟨i, rfl⟩)), rfl⟩)
  | tru => rw [hk] at h; cases h; exact Or.inr (Or.inl ⟨Or.inr (Or.inr (Or.inr rfl)), rfl⟩)
  | _ => rw [hk] at h; exact Or.inr (Or.inr ⟨(fun _ e => nomatch e), h⟩)

theorem goiftrue_spec {keep : Nat → Prop} {s0 s : FS} {d : D} {ev : Regs → W → Res (Val × W)} {q : FS}
    {sem : Regs → W → Res (Val × W)} {g : Regs → W → Res (Out W)} {n0 : Nat}
    (hs : Spec P K keep s0 s d ev q sem g) (hn : ¬ keep n0) (hna : s0.nactvar ≤ n0)
    (ha : Acc s0.nactvar n0 s d.kind) (hv : KInv s d.kind) {s' : FS} {d' : D}
    (h : goiftrue true s d = .ok (s', d')) :
    s'.freereg = n0 ∧ s'.nactvar = s0.nactvar ∧ d'.t = [] ∧ ∃ g', Cond P K keep s0 s' true d'.f ev g' := by
  obtain ⟨h1, h2, h3, h4, q1, h5, _⟩ := dischargevars_spec hs
  have ha1 := dischargevars_acc hs.nact hna ha
  have hv1 := dischargevars_kinv hv
  clear hv
  unfold goiftrue at h
  generalize dischargevars s d = x at h h1 h2 h3 h4 h5 ha1 hv1
  obtain ⟨s1, d1⟩ := x
  dsimp only at h h1 h2 h3 h4 h5 ha1 hv1
  obtain ⟨⟨s2, d2, l⟩, e2, h⟩ := Res.bind_eq_ok.1 h
  cases h
  dsimp only
  have const : ∀ (v : Val), q1 = s1 → s1.freereg = n0 → v.truthy = true → (s1.k <+: K → ∀ R w, sem R w = .ok (v, w)) →
      s1.freereg = n0 ∧ s1.nactvar = s0.nactvar ∧ ([] : List Nat) = [] ∧
      ∃ g', Cond P K keep s0 (patchtohere s1 d1.t) true (d1.f ++ []) ev g' := by
    intro v hq hfr hvt hsem
    subst hq
    rw [List.append_nil]
    obtain ⟨g', hc⟩ := cond_const h5 (c := false) (fun hK => ⟨v, hvt, hsem hK⟩)
    exact ⟨hfr, h5.nact, rfl, g', hc⟩
  rcases goiftrueJump_cases e2 with ⟨j, hk, e⟩ | ⟨hk, e⟩ | ⟨hnj, e⟩
  · cases e
    have hp := h5.pre
    rw [hk] at hp ha1
    obtain ⟨o, a, x, y, rfl, rfl, hjpc, rfl⟩ := hp
    rw [negate_eq]
    have hst := rel_step (P := P) (K := K) (keep := keep) h5.ext.wf hjpc o a x y false
    have hba : (a == false) = !a := by cases a <;> rfl
    rw [hba] at hst
    obtain ⟨g', hc⟩ := cond_of_step h5 hst (List.prefix_refl _)
    exact ⟨ha1, h5.nact, rfl, g', hc⟩
  · cases e
    have hp := h5.pre
    rcases hk with ⟨i, hk⟩ | ⟨i, hk⟩ | ⟨i, hk⟩ | hk
    · rw [hk] at hp ha1 hv1
      obtain ⟨v, hv2, hv3⟩ := hv1
      exact const v hp.1 ha1 hv3 (fun hK R w => by rw [hp.2.2, prefix_getD hK hv2])
    · rw [hk] at hp ha1
      exact const _ hp.1 ha1 rfl (fun hK R w => by rw [hp.2])
    · rw [hk] at hp ha1
      exact const _ hp.1 ha1 rfl (fun hK R w => by rw [hp.2])
    · rw [hk] at hp ha1
      exact const _ hp.1 ha1 rfl (fun hK R w => by rw [hp.2])
  · obtain ⟨y1, y2, y3, y4, y5, j, h', rfl, hst⟩ := jumponcond_spec h5 hn hna h1 hnj ha1 e
    obtain ⟨g', hc⟩ := cond_of_step h5 hst y5
    rw [y2, y3]
    exact ⟨y1, hc.ext.nact, rfl, g', hc⟩

theorem goiffalse_spec {keep : Nat → Prop} {s0 s : FS} {d : D} {ev : Regs → W → Res (Val × W)} {q : FS}
    {sem : Regs → W → Res (Val × W)} {g : Regs → W → Res (Out W)} {n0 : Nat}
    (hs : Spec P K keep s0 s d ev q sem g) (hn : ¬ keep n0) (hna : s0.nactvar ≤ n0)
    (ha : Acc s0.nactvar n0 s d.kind) {s' : FS} {d' : D}
    (h : goiffalse true s d = .ok (s', d')) :
    s'.freereg = n0 ∧ s'.nactvar = s0.nactvar ∧ d'.f = [] ∧ ∃ g', Cond P K keep s0 s' false d'.t ev g' := by
  obtain ⟨h1, h2, h3, h4, q1, h5, _⟩ := dischargevars_spec hs
  have ha1 := dischargevars_acc hs.nact hna ha
  unfold goiffalse at h
  generalize dischargevars s d = x at *
  obtain ⟨s1, d1⟩ := x
  dsimp only at *
  obtain ⟨⟨s2, d2, l⟩, e2, h⟩ := Res.bind_eq_ok.1 h
  cases h
  dsimp only
  have const : ∀ (v : Val), q1 = s1 → s1.freereg = n0 → v.truthy = false → (s1.k <+: K → ∀ R w, sem R w = .ok (v, w)) →
      s1.freereg = n0 ∧ s1.nactvar = s0.nactvar ∧ ([] : List Nat) = [] ∧
      ∃ g', Cond P K keep s0 (patchtohere s1 d1.f) false (d1.t ++ []) ev g' := by
    intro v hq hfr hvt hsem
    subst hq
    rw [List.append_nil]
    obtain ⟨g', hc⟩ := cond_const h5 (c := true) (fun hK => ⟨v, hvt, hsem hK⟩)
    exact ⟨hfr, h5.nact, rfl, g', hc⟩
  unfold goiffalseJump at e2
  split at e2
  · rename_i j hk
    cases e2
    have hp := h5.pre
    rw [hk] at hp ha1
    obtain ⟨o, a, x, y, rfl, rfl, hjpc, rfl⟩ := hp
    have hst := rel_step (P := P) (K := K) (keep := keep) h5.ext.wf hjpc o a x y true
    have hba : (a == true) = a := by cases a <;> rfl
    rw [hba] at hst
    obtain ⟨g', hc⟩ := cond_of_step h5 hst (List.prefix_refl _)
    exact ⟨ha1, h5.nact, rfl, g', hc⟩
  · rename_i hk
    cases e2
    have hp := h5.pre
    rw [hk] at hp ha1
    exact const _ hp.1 ha1 rfl (fun hK R w => by rw [hp.2])
  · rename_i hk
    cases e2
    have hp := h5.pre
    rw [hk] at hp ha1
    exact const _ hp.1 ha1 rfl (fun hK R w => by rw [hp.2])
  · rename_i hnj _ _
    rw [if_pos (by simp)] at e2
    obtain ⟨y1, y2, y3, y4, y5, j, h', rfl, hst⟩ := jumponcond_spec h5 hn hna h1 hnj ha1 e2
    obtain ⟨g', hc⟩ := cond_of_step h5 hst y5
    rw [y2, y3]
    exact ⟨y1, hc.ext.nact, rfl, g', hc⟩

end Verif.ExpCode
