import Verif.ExpCode.Cond
/-! `not`. -/
namespace Verif.ExpCode
variable {W : Type} {P : Ops W} {K : List Val}

/-! ### removevalues -/

/-- one round of `removevalues` -/
def rm1 (c : List Instr) (j : Nat) : List Instr := (patchtestreg c j none).1

theorem rm1_none {c : List Instr} {j : Nat} (h : ctl c j = none) : rm1 c j = c := by
  unfold rm1; rw [patchtestreg_none h]

theorem rm1_some {c : List Instr} {p : Nat} {a : Option Nat} {b : Nat} {cc : Bool}
    (h : c[p]? = some (.testset a b cc)) : rm1 c (p + 1) = c.set p (.test b cc) := by
  unfold rm1; rw [patchtestreg_some h]; rfl

theorem rm1_length (c : List Instr) (j : Nat) : (rm1 c j).length = c.length := by
  cases h : ctl c j with
  | none => rw [rm1_none h]
  | some b =>
    obtain ⟨p, a, cc, rfl, e⟩ := ctl_some h
    rw [rm1_some e, List.length_set]

/-- tests that are changed behave as before -/
theorem run_same {c c' : List Instr} (hlen : c'.length = c.length)
    (h : ∀ (i : Nat) (x : Instr), c[i]? = some x → ∃ x' : Instr, c'[i]? = some x' ∧ (x' = x ∨
      ((∀ t, x ≠ .jmp t) ∧ (∀ t, x' ≠ .jmp t) ∧ ∀ R w, x'.exec P K R w = x.exec P K R w))) :
    ∀ (m pc : Nat), c.length - pc ≤ m → ∀ (R : Regs) (w : W), run P K c' pc R w = run P K c pc R w := by
  intro m
  induction m with
  | zero =>
    intro pc h1 R w
    rw [run, run, dif_neg (by omega), dif_neg (by omega), hlen]
  | succ m ih =>
    intro pc h1 R w
    rcases Nat.lt_or_ge pc c.length with hl | hl
    · have hx := List.getElem?_eq_getElem hl
      generalize c[pc] = x at hx
      obtain ⟨x', hx', he⟩ := h pc x hx
      rcases isJmp_or x with rfl | ⟨t, rfl⟩ | hnj
      · rcases he with rfl | ⟨h2, _⟩
        · rw [run_jmp_none hx, run_jmp_none hx']
        · exact absurd rfl (h2 _)
      · rcases he with rfl | ⟨h2, _⟩
        · rw [run, run, dif_pos hl, dif_pos (by omega)]
          rw [(List.getElem?_eq_some_iff.1 hx).2, (List.getElem?_eq_some_iff.1 hx').2]
          dsimp only
          split
          · exact ih t (by omega) R w
          · rfl
        · exact absurd rfl (h2 _)
      · have hnj' : ∀ t, x' ≠ .jmp t := by
          rcases he with rfl | ⟨_, h2, _⟩
          · exact hnj
          · exact h2
        have hex : x'.exec P K R w = x.exec P K R w := by
          rcases he with rfl | ⟨_, _, h3⟩
          · rfl
          · exact h3 R w
        rw [run_exec hx hnj, run_exec hx' hnj', hex]
        unfold cont
        split
        · exact ih _ (by omega) _ _
        · rfl
        · rfl
    · rw [run, run, dif_neg (by omega), dif_neg (by omega), hlen]

theorem rm1_spec {c : List Instr} {L : Nat} (hw : CodeWF c L) {j : Nat} (hj : c[j]? = some (Instr.jmp none)) :
    CodeWF (rm1 c j) L ∧ (∀ R w, run P K (rm1 c j) 0 R w = run P K c 0 R w) ∧
    (∀ i : Nat, (∀ t, c[i]? = some (Instr.jmp t) → (rm1 c j)[i]? = some (Instr.jmp t)) ∧
      (i ≠ j → c[i]? = some (Instr.jmp none) → ctl (rm1 c j) i = ctl c i)) ∧ ctl (rm1 c j) j = none := by
  cases h : ctl c j with
  | none =>
    rw [rm1_none h]
    exact ⟨hw, fun _ _ => rfl, fun i => ⟨fun _ h => h, fun _ _ => rfl⟩, h⟩
  | some b =>
    obtain ⟨p, a, cc, rfl, e⟩ := ctl_some h
    have ha : a = none := hw.ts p a b cc e hj
    subst ha
    rw [rm1_some e]
    have hp := getElem?_lt e
    have get : ∀ i, i ≠ p → (c.set p (.test b cc))[i]? = c[i]? := fun i hi => List.getElem?_set_ne (Ne.symm hi)
    have getp : (c.set p (.test b cc))[p]? = some (.test b cc) := List.getElem?_set_self hp
    have jm : ∀ (i : Nat) (t : Option Nat), c[i]? = some (Instr.jmp t) → (c.set p (.test b cc))[i]? = some (.jmp t) := by
      intro i t hi
      rw [get i]
      · exact hi
      · intro e'; subst e'; rw [e] at hi; cases hi
    have back : ∀ (i : Nat) (x : Instr), (c.set p (.test b cc))[i]? = some x → c[i]? = some x ∨ (i = p ∧ x = .test b cc) := by
      intro i x hi
      by_cases hip : i = p
      · subst hip; rw [getp] at hi; cases hi; exact Or.inr ⟨rfl, rfl⟩
      · rw [get i hip] at hi; exact Or.inl hi
    refine ⟨⟨?_, ?_, ?_, ?_, ?_⟩, ?_, ?_, ?_⟩
    · intro i x hi ht
      rcases back i x hi with h1 | ⟨rfl, _⟩
      · obtain ⟨t, h2⟩ := hw.test i x h1 ht
        exact ⟨t, jm _ _ h2⟩
      · exact ⟨none, jm _ _ hj⟩
    · intro i a' b' hi
      rcases back i _ hi with h1 | ⟨_, h1⟩
      · obtain ⟨a2, b2, h2⟩ := hw.skip i a' b' h1
        refine ⟨a2, b2, ?_⟩
        rw [get]
        · exact h2
        · intro e'; rw [e', e] at h2; cases h2
      · cases h1
    · intro i t hi
      rcases back i _ hi with h1 | ⟨_, h1⟩
      · obtain ⟨h2, h3, h4⟩ := hw.tgt i t h1
        refine ⟨h2, h3, ?_⟩
        intro x hx
        rcases back _ x hx with h5 | ⟨h5, rfl⟩
        · exact h4 x h5
        · rw [← h5] at e
          exact absurd (h4 _ e) (by simp [Instr.isTest])
      · cases h1
    · intro i a' b' cc' hi hn
      rcases back i _ hi with h1 | ⟨_, h1⟩
      · refine hw.ts i a' b' cc' h1 ?_
        rcases back _ _ hn with h2 | ⟨_, h2⟩
        · exact h2
        · cases h2
      · cases h1
    · rw [List.length_set]; exact hw.le
    · intro R w
      refine run_same (List.length_set ..) ?_ _ 0 (Nat.le_refl _) R w
      intro i x hx
      by_cases hip : i = p
      · subst hip
        rw [e] at hx
        cases hx
        refine ⟨_, getp, Or.inr ⟨(fun t h => nomatch h), (fun t h => nomatch h), ?_⟩⟩
        intro R w
        simp only [Instr.exec]
        split <;> rfl
      · exact ⟨x, by rw [get i hip]; exact hx, Or.inl rfl⟩
    · intro i
      refine ⟨jm i, fun hne hi => ?_⟩
      cases i with
      | zero => rfl
      | succ i =>
        unfold ctl
        dsimp only
        rw [get i (by omega)]
    · unfold ctl
      dsimp only
      rw [getp]

theorem removevalues_spec {s : FS} (hw : WF s) (l : List Nat) (hl : ∀ j ∈ l, s.code[j]? = some (Instr.jmp none)) :
    WF (removevalues s l) ∧ (∀ R w, H P K (removevalues s l) R w = H P K s R w) ∧
    (∀ j, Pend s j → Pend (removevalues s l) j ∧ (j ∉ l → ctl (removevalues s l).code j = ctl s.code j) ∧
      (j ∈ l ∨ ctl s.code j = none → ctl (removevalues s l).code j = none)) ∧
    (removevalues s l).code.length = s.code.length := by
  induction l generalizing s with
  | nil =>
    exact ⟨hw, fun _ _ => rfl, fun j hj => ⟨hj, fun _ => rfl, fun h => h.elim (fun h => nomatch h) id⟩, rfl⟩
  | cons a l ih =>
    have ha := hl a (List.mem_cons_self ..)
    obtain ⟨h1, h2, h3, h4⟩ := rm1_spec (P := P) (K := K) hw.code ha
    have hw1 : WF { s with code := rm1 s.code a } :=
      ⟨h1, fun j hj => (h3 j).1 _ (hw.jpc j hj), hw.nodup, fun hne => by
        show s.lasttarget = (rm1 s.code a).length
        rw [rm1_length]; exact hw.here hne⟩
    obtain ⟨i1, i2, i3, i4⟩ := ih hw1 (fun j hj => (h3 j).1 _ (hl j (List.mem_cons_of_mem _ hj)))
    have he : removevalues { s with code := rm1 s.code a } l = removevalues s (a :: l) := rfl
    rw [he] at i1 i2 i3 i4
    refine ⟨i1, ?_, ?_, i4.trans (rm1_length ..)⟩
    · intro R w
      rw [i2]
      unfold H
      dsimp only
      rw [h2]
    · intro j hj
      have hj1 : Pend { s with code := rm1 s.code a } j := ⟨(h3 j).1 _ hj.1, hj.2⟩
      obtain ⟨k1, k2, k3⟩ := i3 j hj1
      refine ⟨k1, ?_, ?_⟩
      · intro hn
        rw [List.mem_cons] at hn
        rw [k2 (fun h => hn (Or.inr h))]
        exact (h3 j).2 (fun h => hn (Or.inl h)) hj.1
      · intro h
        refine k3 ?_
        by_cases hja : j = a
        · subst hja; exact Or.inr h4
        · rcases h with h | h
          · exact Or.inl ((List.mem_cons.1 h).resolve_left hja)
          · refine Or.inr ?_
            rw [← h]
            exact (h3 j).2 hja hj.1

theorem rm1_append {c : List Instr} (d : List Instr) {j : Nat} (h : j ≤ c.length) :
    rm1 (c ++ d) j = rm1 c j ++ d := by
  cases hc : ctl c j with
  | none => rw [rm1_none hc, rm1_none (by rw [ctl_append d h]; exact hc)]
  | some b =>
    obtain ⟨p, a, cc, rfl, e⟩ := ctl_some hc
    have hp := getElem?_lt e
    rw [rm1_some e, rm1_some (a := a) (b := b) (cc := cc) (by rw [List.getElem?_append_left hp]; exact e)]
    rw [List.set_append_left _ _ hp]

theorem removevalues_append (s : FS) (d : List Instr) (l : List Nat) (h : ∀ j ∈ l, j ≤ s.code.length) :
    removevalues (addCode s d) l = addCode (removevalues s l) d := by
  induction l generalizing s with
  | nil => rfl
  | cons a l ih =>
    have e1 : removevalues (addCode s d) (a :: l) = removevalues { addCode s d with code := rm1 (s.code ++ d) a } l := rfl
    have e2 : removevalues s (a :: l) = removevalues { s with code := rm1 s.code a } l := rfl
    rw [e1, e2, rm1_append d (h a (List.mem_cons_self ..))]
    exact ih { s with code := rm1 s.code a } (fun j hj => by
      dsimp only
      rw [rm1_length]; exact h j (List.mem_cons_of_mem _ hj))

/-- both lists -/
def rmBoth (s : FS) (t f : List Nat) : FS := removevalues (removevalues s t) f

theorem rmBoth_ext {s0 q : FS} {g : Regs → W → Res (Out W)} (he : Ext P K s0 q g) {t f : List Nat}
    (hp : ∀ j ∈ t ++ f, Pend q j ∧ s0.code.length ≤ j) :
    Ext P K s0 (rmBoth q t f) g ∧
    (∀ j ∈ t ++ f, Pend (rmBoth q t f) j ∧ ctl (rmBoth q t f).code j = none) := by
  obtain ⟨a1, a2, a3, a4⟩ := removevalues_spec (P := P) (K := K) he.wf t
    (fun j hj => (hp j (List.mem_append_left _ hj)).1.1)
  obtain ⟨b1, b2, b3, b4⟩ := removevalues_spec (P := P) (K := K) a1 f
    (fun j hj => (a3 j (hp j (List.mem_append_right _ hj)).1).1.1)
  refine ⟨⟨b1, ?_, ?_, he.k, he.nact, ?_⟩, ?_⟩
  · intro R w
    unfold rmBoth
    rw [b2, a2]; exact he.step R w
  · intro j hj
    obtain ⟨h1, h2⟩ := he.frame j hj
    have hn : ∀ l : List Nat, (∀ i ∈ l, i ∈ t ++ f) → j ∉ l := fun l hl h => by
      have := (hp j (hl j h)).2
      have := hj.lt
      omega
    obtain ⟨c1, c2, _⟩ := a3 j h1
    obtain ⟨d1, d2, _⟩ := b3 j c1
    refine ⟨d1, ?_⟩
    show ctl (removevalues (removevalues q t) f).code j = _
    rw [d2 (hn f (fun i hi => List.mem_append_right _ hi)), c2 (hn t (fun i hi => List.mem_append_left _ hi))]
    exact h2
  · show _ ≤ (removevalues (removevalues q t) f).code.length
    rw [b4, a4]; exact he.len
  · intro j hj
    obtain ⟨c1, c2, c3⟩ := a3 j (hp j hj).1
    obtain ⟨d1, d2, d3⟩ := b3 j c1
    refine ⟨d1, d3 ?_⟩
    rcases List.mem_append.1 hj with h | h
    · exact Or.inr (c3 (Or.inl h))
    · exact Or.inl h

theorem rmBoth_append (s : FS) (d : List Instr) (t f : List Nat) (h : ∀ j ∈ t ++ f, j ≤ s.code.length) :
    rmBoth (addCode s d) t f = addCode (rmBoth s t f) d := by
  unfold rmBoth
  rw [removevalues_append s d t (fun j hj => h j (List.mem_append_left _ hj))]
  refine removevalues_append _ d f (fun j hj => ?_)
  have : (removevalues s t).code.length = s.code.length := by
    unfold removevalues
    dsimp only
    generalize s.code = c
    clear h hj
    induction t generalizing c with
    | nil => rfl
    | cons a t ih => rw [List.foldl_cons, ih]; exact rm1_length c a
  rw [this]
  exact h j (List.mem_append_right _ hj)

/-! ### the register of an operand -/

theorem discharge2anyreg_spec {keep : Nat → Prop} {s0 s : FS} {d : D} {ev : Regs → W → Res (Val × W)} {q : FS}
    {sem : Regs → W → Res (Val × W)} {g : Regs → W → Res (Out W)} {n0 : Nat}
    (hs : Spec P K keep s0 s d ev q sem g) (hn : ¬ keep n0) (hna : s0.nactvar ≤ n0)
    (hd : d.kind.disch = true) (hnj : ∀ j, d.kind ≠ .jmp j)
    (ha : Acc s0.nactvar n0 s d.kind) {s' : FS} {d' : D} {r : Nat}
    (h : discharge2anyreg s d = .ok (s', d', r)) :
    (freeexp s' d').freereg = n0 ∧ s.k <+: s'.k ∧
    ∃ h', Ext P K q (freeexp s' d') h' ∧ (s'.k <+: K → ∀ R w, match sem R w with
      | .ok (v, w') => ∃ R2, h' R w = .ok (.fall R2 w') ∧ (∀ x, keep x → R2 x = R x) ∧ R2 r = v
      | .err m => h' R w = .err m
      | .ub => h' R w = .ub) := by
  unfold discharge2anyreg at h
  split at h
  · rename_i r1 hk
    cases h
    have hp := hs.pre
    rw [hk] at hp
    obtain ⟨rfl, rfl⟩ := hp
    exact ⟨freeexp_freereg hs.nact hna hd ha, List.prefix_refl _, _, freeexp_ext hs.ext.wf d,
      fun _ R w => ⟨R, rfl, fun _ _ => rfl, rfl⟩⟩
  · rename_i hnr
    obtain ⟨s2, e2, h⟩ := Res.bind_eq_ok.1 h
    have hr := reserve_ok e2
    rcases acc_disch hd ha with ⟨r', hk, _⟩ | ⟨_, hfr⟩
    · exact absurd hk (hnr r')
    rw [hfr] at hr
    have hs2 : Spec P K keep s0 s2 d ev { q with freereg := n0 + 1 } sem g := by
      rw [hr]; exact hs.freereg (n0 + 1)
    have hr2 : s2.freereg = n0 + 1 := by rw [hr]
    have hk2 : s2.k = s.k := by rw [hr]
    have hreg : s2.freereg - 1 = n0 := by omega
    dsimp only at h
    rw [hreg] at h
    obtain ⟨y1, y2, y3, h0, y4, y5⟩ := discharge2reg_ext hs2.pre hs2.ext.wf hd hnj n0
    generalize discharge2reg s2 d n0 = x at *
    obtain ⟨s3, d3⟩ := x
    dsimp only at *
    cases h
    subst y1
    have hq2 : Ext P K q { q with freereg := n0 + 1 } skipG :=
      Ext.of_same hs.ext.wf rfl rfl rfl rfl (List.prefix_refl _)
    have hx := hq2.skip_trans y4
    have hf := freeexp_ext (P := P) (K := K) hx.wf { d with kind := .nonreloc n0 }
    refine ⟨?_, by rw [← hk2]; exact y2, _, hx.trans_skip hf, fun hK R w => ?_⟩
    · refine freeexp_freereg (nact := s0.nactvar) ?_ hna rfl (Or.inr ⟨rfl, y3.trans hr2⟩)
      rw [hx.nact]; exact hs.ext.nact
    · rw [y5 hK]
      unfold setG
      cases sem R w with
      | err m => rfl
      | ub => rfl
      | ok p =>
        refine ⟨_, rfl, fun x hx => ?_, Regs.set_self ..⟩
        exact Regs.set_ne _ _ (fun e => hn (e ▸ hx))

/-! ### codenot -/

/-- the value of `not` -/
def notR : Res (Val × W) → Res (Val × W)
  | .ok (v, w) => .ok (.bool (!v.truthy), w)
  | .err m => .err m
  | .ub => .ub

theorem relSem_not (o : Rel) (a : Bool) (x y : RK) (R : Regs) (w : W) :
    relSem P K o (!a) x y R w = notR (relSem P K o a x y R w) := by
  unfold relSem
  cases P.rel o (x.get K R) (y.get K R) w with
  | err m => rfl
  | ub => rfl
  | ok p =>
    obtain ⟨r, w'⟩ := p
    unfold notR
    dsimp only
    congr 3
    cases r <;> cases a <;> rfl

/-- the end of `codenot` -/
theorem not_finish {keep : Nat → Prop} {s0 s q : FS} {t f : List Nat} {k : Kind} {tm : Verif.Typed.TM}
    {ev : Regs → W → Res (Val × W)} {sem : Regs → W → Res (Val × W)} {g : Regs → W → Res (Out W)}
    (hpre' : Pre P K (rmBoth s t f) k (rmBoth q t f) sem) (he : Ext P K s0 q g)
    (hm : s.k <+: K → ∀ R w, match g R w with
      | .ok (.fall R' w') => (∀ r, keep r → R' r = R r) ∧ sem R' w' = notR (ev R w)
      | .ok (.exit j R' w') => (∀ r, keep r → R' r = R r) ∧
          ∃ v, ev R w = .ok (v, w') ∧ (j ∈ if v.truthy then t else f)
      | .err m => ev R w = .err m
      | .ub => ev R w = .ub)
    (hp : ∀ j ∈ t ++ f, Pend q j ∧ s0.code.length ≤ j) (hn : (t ++ f).Nodup) :
    Spec P K keep s0 (rmBoth s t f) { kind := k, t := f, f := t, tm := tm } (fun R w => notR (ev R w))
      (rmBoth q t f) sem g := by
  obtain ⟨e1, e2⟩ := rmBoth_ext he hp
  refine ⟨hpre', e1, ?_, ?_, ?_⟩
  · intro hK R w
    have := hm hK R w
    cases hg : g R w with
    | err m => rw [hg] at this; dsimp only at this ⊢; rw [this]; rfl
    | ub => rw [hg] at this; dsimp only at this ⊢; rw [this]; rfl
    | ok o =>
      rw [hg] at this
      cases o with
      | fall R' w' => exact this
      | exit j R' w' =>
        obtain ⟨h1, v, h2, h3⟩ := this
        refine ⟨h1, .bool (!v.truthy), by rw [h2]; rfl, ?_, ?_⟩
        · cases hv : v.truthy with
          | true => rw [hv] at h3; exact h3
          | false => rw [hv] at h3; exact h3
        · unfold JV
          rw [(e2 j (mem_lists h3)).2]
          dsimp only
          cases v.truthy <;> rfl
  · intro j hj
    have hj' : j ∈ t ++ f := by
      rcases List.mem_append.1 hj with h | h
      · exact List.mem_append_right _ h
      · exact List.mem_append_left _ h
    exact ⟨(e2 j hj').1, (hp j hj').2⟩
  · obtain ⟨h1, h2, h3⟩ := List.nodup_append.1 hn
    exact List.nodup_append.2 ⟨h2, h1, fun a ha b hb e => h3 b hb a ha e.symm⟩

theorem codenotKind_cases {s : FS} {d : D} {r : FS × Kind} (h : codenotKind s d = .ok r) :
    ((d.kind = .nil ∨ d.kind = .fls) ∧ r = (s, .tru)) ∨
    (((∃ i, d.kind = .k i) ∨ (∃ x, d.kind = .kflt x) ∨ (∃ x, d.kind = .kint x) ∨ d.kind = .tru) ∧ r = (s, .fls)) ∨
    (∃ j, d.kind = .jmp j ∧ r = (negatecondition s j, .jmp j)) ∨
    ((∀ j, d.kind ≠ .jmp j) ∧ ∃ s1 d1 x, discharge2anyreg s d = .ok (s1, d1, x) ∧
      r = (emit (freeexp s1 d1) (.set 0 (.not x)), .reloc (freeexp s1 d1).pc)) := by
  have last : (∀ j, d.kind ≠ .jmp j) → (do
      let (s, d, r) ← discharge2anyreg s d
      let s := freeexp s d
      return (emit s (.set 0 (.not r)), Kind.reloc s.pc)) = Res.ok r →
      ((d.kind = .nil ∨ d.kind = .fls) ∧ r = (s, .tru)) ∨
    (((∃ i, d.kind = .k i) ∨ (∃ x, d.kind = .kflt x) ∨ (∃ x, d.kind = .kint x) ∨ d.kind = .tru) ∧ r = (s, .fls)) ∨
    (∃ j, d.kind = .jmp j ∧ r = (negatecondition s j, .jmp j)) ∨
    ((∀ j, d.kind ≠ .jmp j) ∧ ∃ s1 d1 x, discharge2anyreg s d = .ok (s1, d1, x) ∧
      r = (emit (freeexp s1 d1) (.set 0 (.not x)), .reloc (freeexp s1 d1).pc)) := by
    intro hj h
    obtain ⟨⟨s1, d1, x⟩, e1, h⟩ := Res.bind_eq_ok.1 h
    cases h
    exact Or.inr (Or.inr (Or.inr ⟨hj, s1, d1, x, e1, rfl⟩))
  unfold codenotKind at h
  cases hk : d.kind with
  | nil => rw [hk] at h; cases h; exact Or.inl ⟨Or.inl rfl, rfl⟩
  | fls => rw [hk] at h; cases h; exact Or.inl ⟨Or.inr rfl, rfl⟩
  | jmp j => rw [hk] at h; cases h; exact Or.inr (Or.inr (Or.inl ⟨j, rfl, rfl⟩))
  | k i => rw [hk] at h; cases h; exact Or.inr (Or.inl ⟨Or.inl ⟨i, rfl⟩, rfl⟩)
  | kflt i => rw [hk] at h; cases h; exact Or.inr (Or.inl ⟨Or.inr (Or.inl ⟨i, rfl⟩), rfl⟩)
  | kint i => rw [hk] at h; cases h; exact Or.inr (Or.inl ⟨Or.inr (Or.inr (Or.inl ⟨i, rfl⟩)), rfl⟩)
  | tru => rw [hk] at h; cases h; exact Or.inr (Or.inl ⟨Or.inr (Or.inr (Or.inr rfl)), rfl⟩)
  | _ => rw [hk] at h last; exact last (fun _ e => nomatch e) h

theorem rmBoth_same (s : FS) (t f : List Nat) : (rmBoth s t f).freereg = s.freereg ∧ (rmBoth s t f).jpc = s.jpc ∧
    (rmBoth s t f).k = s.k := ⟨rfl, rfl, rfl⟩

theorem rmBoth_length (s : FS) (t f : List Nat) : (rmBoth s t f).code.length = s.code.length := by
  have one : ∀ (s : FS) l, (removevalues s l).code.length = s.code.length := by
    intro s l
    unfold removevalues
    dsimp only
    generalize s.code = c
    induction l generalizing c with
    | nil => rfl
    | cons a t ih => rw [List.foldl_cons, ih]; exact rm1_length c a
  unfold rmBoth
  rw [one, one]

theorem codenot_spec {keep : Nat → Prop} {s0 s : FS} {d : D} {ev : Regs → W → Res (Val × W)} {q : FS}
    {sem : Regs → W → Res (Val × W)} {g : Regs → W → Res (Out W)} {n0 : Nat}
    (hs : Spec P K keep s0 s d ev q sem g) (hn : ¬ keep n0) (hna : s0.nactvar ≤ n0)
    (ha : Acc s0.nactvar n0 s d.kind) (hv : KInv s d.kind) {s' : FS} {d' : D}
    (h : codenot s d = .ok (s', d')) :
    Acc s0.nactvar n0 s' d'.kind ∧ KInv s' d'.kind ∧
    ∃ q' sem' g', Spec P K keep s0 s' d' (fun R w => notR (ev R w)) q' sem' g' := by
  obtain ⟨h1, h2, h3, h4, q1, h5, _⟩ := dischargevars_spec hs
  have ha1 := dischargevars_acc hs.nact hna ha
  have hv1 := dischargevars_kinv hv
  unfold codenot at h
  generalize dischargevars s d = x at h h1 h2 h3 h4 h5 ha1 hv1
  obtain ⟨s1, d1⟩ := x
  dsimp only at h h1 h2 h3 h4 h5 ha1 hv1
  obtain ⟨⟨s2, k⟩, e2, h⟩ := Res.bind_eq_ok.1 h
  cases h
  have hexit : s1.k <+: K → ∀ R w, match g R w with
      | .ok (.exit j R' w') => (∀ r, keep r → R' r = R r) ∧
          ∃ v, ev R w = .ok (v, w') ∧ (j ∈ if v.truthy then d1.t else d1.f)
      | .err m => ev R w = .err m
      | .ub => ev R w = .ub
      | _ => True := by
    intro hK R w
    have := h5.mat hK R w
    cases hg : g R w with
    | err m => rw [hg] at this; exact this
    | ub => rw [hg] at this; exact this
    | ok o =>
      rw [hg] at this
      cases o with
      | fall R' w' => trivial
      | exit j R' w' =>
        obtain ⟨m1, v, m2, m3, m4⟩ := this
        exact ⟨m1, v, m2, m3⟩
  -- no code is added
  have same : ∀ (s2 : FS) (k : Kind) (sem' : Regs → W → Res (Val × W)), s2.k = s1.k → Pre P K (rmBoth s2 d1.t d1.f) k (rmBoth q1 d1.t d1.f) sem' →
      (s1.k <+: K → ∀ R w, sem' R w = notR (sem R w)) →
      Spec P K keep s0 (rmBoth s2 d1.t d1.f) { kind := k, t := d1.f, f := d1.t, tm := notTm d1.tm }
        (fun R w => notR (ev R w)) (rmBoth q1 d1.t d1.f) sem' g := by
    intro s2 k sem' hk2 hp' hsem
    refine not_finish hp' h5.ext ?_ h5.pend h5.nodup
    intro hK R w
    rw [hk2] at hK
    have hx := hexit hK R w
    have hm := h5.mat hK R w
    cases hg : g R w with
    | err m => rw [hg] at hx; exact hx
    | ub => rw [hg] at hx; exact hx
    | ok o =>
      rw [hg] at hx hm
      cases o with
      | fall R' w' => exact ⟨hm.1, by rw [hsem hK, hm.2]⟩
      | exit j R' w' => exact hx
  rcases codenotKind_cases e2 with ⟨hk, e⟩ | ⟨hk, e⟩ | ⟨j, hk, e⟩ | ⟨hnj, s3, d3, r, e3, e⟩
  · cases e
    have hp := h5.pre
    rcases hk with hk | hk
    · rw [hk] at hp ha1
      obtain ⟨rfl, rfl⟩ := hp
      exact ⟨ha1, True.intro, _, _, _, same q1 .tru (fun _ w => .ok (.bool true, w)) rfl ⟨rfl, rfl⟩
        (fun _ R w => rfl)⟩
    · rw [hk] at hp ha1
      obtain ⟨rfl, rfl⟩ := hp
      exact ⟨ha1, True.intro, _, _, _, same q1 .tru (fun _ w => .ok (.bool true, w)) rfl ⟨rfl, rfl⟩
        (fun _ R w => rfl)⟩
  · cases e
    have hp := h5.pre
    rcases hk with ⟨i, hk⟩ | ⟨i, hk⟩ | ⟨i, hk⟩ | hk
    · rw [hk] at hp ha1 hv1
      obtain ⟨rfl, _, rfl⟩ := hp
      obtain ⟨v, hv2, hv3⟩ := hv1
      refine ⟨ha1, True.intro, _, _, _, same q1 .fls (fun _ w => .ok (.bool false, w)) rfl ⟨rfl, rfl⟩
        (fun hK R w => ?_)⟩
      rw [prefix_getD hK hv2]
      unfold notR
      dsimp only
      rw [hv3]; rfl
    · rw [hk] at hp ha1
      obtain ⟨rfl, rfl⟩ := hp
      exact ⟨ha1, True.intro, _, _, _, same q1 .fls (fun _ w => .ok (.bool false, w)) rfl ⟨rfl, rfl⟩
        (fun _ R w => rfl)⟩
    · rw [hk] at hp ha1
      obtain ⟨rfl, rfl⟩ := hp
      exact ⟨ha1, True.intro, _, _, _, same q1 .fls (fun _ w => .ok (.bool false, w)) rfl ⟨rfl, rfl⟩
        (fun _ R w => rfl)⟩
    · rw [hk] at hp ha1
      obtain ⟨rfl, rfl⟩ := hp
      exact ⟨ha1, True.intro, _, _, _, same q1 .fls (fun _ w => .ok (.bool false, w)) rfl ⟨rfl, rfl⟩
        (fun _ R w => rfl)⟩
  · cases e
    have hp := h5.pre
    rw [hk] at hp ha1
    obtain ⟨o, a, x, y, rfl, rfl, hjpc, rfl⟩ := hp
    rw [negate_eq]
    refine ⟨ha1, True.intro, _, _, _, same (addCode q1 [.rel o (!a) x y, .jmp none]) (.jmp (q1.code.length + 1))
      (relSem P K o (!a) x y) rfl ⟨o, !a, x, y, ?_, ?_, hjpc, rfl⟩
      (fun _ R w => relSem_not o a x y R w)⟩
    · exact rmBoth_append _ _ _ _ (fun j hj => Nat.le_of_lt (h5.pend j hj).1.lt)
    · rw [rmBoth_length]
  · cases e
    obtain ⟨y1, y2, h', y3, y4⟩ := discharge2anyreg_spec h5 hn hna h1 hnj ha1 e3
    have hk3 : (freeexp s3 d3).k = s3.k := (freeexp_same s3 d3).2.1
    generalize freeexp s3 d3 = s4 at y1 y3 hk3 ⊢
    have hq := y3.trans_skip (dischargejpc_ext (P := P) (K := K) y3.wf)
    have hext := h5.ext.trans hq
    have hpend : ∀ j ∈ d1.t ++ d1.f, Pend (dischargejpc s4) j ∧ s0.code.length ≤ j :=
      fun j hj => ⟨(hq.frame j (h5.pend j hj).1).1, (h5.pend j hj).2⟩
    have hcode : rmBoth (emit s4 (.set 0 (.not r))) d1.t d1.f
        = addCode (rmBoth (dischargejpc s4) d1.t d1.f) [.set 0 (.not r)] := by
      rw [emit_eq]
      exact rmBoth_append _ _ _ _ (fun j hj => Nat.le_of_lt (hpend j hj).1.lt)
    have hpre' : Pre P K (rmBoth (emit s4 (.set 0 (.not r))) d1.t d1.f) (.reloc s4.pc)
        (rmBoth (dischargejpc s4) d1.t d1.f) ((Src.not r).value P K) := by
      refine ⟨.not r, hcode, ?_, rfl, rfl⟩
      rw [rmBoth_length, dischargejpc_length]; rfl
    refine ⟨⟨y1, ?_⟩, True.intro, _, _, _, not_finish (tm := notTm d1.tm) hpre' hext ?_ hpend h5.nodup⟩
    · intro a b c e
      have e' : (rmBoth (emit s4 (.set 0 (.not r))) d1.t d1.f).code[s4.pc]? = some (.set a (.concat b c)) := e
      rw [hcode] at e'
      have hl : s4.pc = (rmBoth (dischargejpc s4) d1.t d1.f).code.length := by
        rw [rmBoth_length, dischargejpc_length]; rfl
      unfold addCode at e'
      dsimp only at e'
      rw [hl] at e'
      simp at e'
    · intro hK R w
      have hK4 : s4.k <+: K := hK
      rw [hk3] at hK4
      have hK1 := y2.trans hK4
      have hx := hexit hK1 R w
      have hm := h5.mat hK1 R w
      cases hg : g R w with
      | err m => rw [hg] at hx; exact hx
      | ub => rw [hg] at hx; exact hx
      | ok o =>
        rw [hg] at hx hm
        cases o with
        | exit j R' w' => exact hx
        | fall R' w' =>
          have hst := y4 hK4 R' w'
          rw [hm.2] at hst
          simp only [andThen]
          cases hev : ev R w with
          | err m => rw [hev] at hst; dsimp only at hst; rw [hst]
          | ub => rw [hev] at hst; dsimp only at hst; rw [hst]
          | ok p =>
            obtain ⟨v, w2⟩ := p
            rw [hev] at hst
            obtain ⟨R2, k1, k2, k3⟩ := hst
            rw [k1]
            refine ⟨fun x hx => (k2 x hx).trans (hm.1 x hx), ?_⟩
            unfold Src.value notR
            dsimp only
            rw [k3]

end Verif.ExpCode
