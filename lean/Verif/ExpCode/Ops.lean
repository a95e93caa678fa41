import Verif.ExpCode.Gen
/-! The operators. -/
namespace Verif.ExpCode
open Verif.Fold (FOps BOp UOp)
open Verif.Float (Num)
variable {W : Type} {P : Ops W} {K : List Val}

theorem binV_fold {o : BOp} {x y r : Num} (h : Fold.constfolding P.F (.b o) x y = .ok (some r)) (w : W) :
    P.binV o (.num x) (.num y) w = .ok (.num r, w) := by
  unfold Ops.binV
  dsimp only
  rw [Fold.constfolding_bin h]
  rfl

theorem unV_fold {o : UOp} {x r : Num} (h : Fold.constfolding P.F (.u o) x (.int 0) = .ok (some r)) (w : W) :
    P.unV o (.num x) w = .ok (.num r, w) := by
  unfold Ops.unV
  dsimp only
  rw [Fold.constfolding_un h]
  rfl

theorem foldD_some {F : FOps} {o : Fold.Op} {d1 d2 : D} {r : Num} (h : foldD F o d1 d2 = .ok (some r)) :
    ∃ x y, d1.numeral = some x ∧ d2.numeral = some y ∧ Fold.constfolding F o x y = .ok (some r) := by
  unfold foldD at h
  split at h
  · rename_i x y hx hy
    exact ⟨x, y, hx, hy, h⟩
  · cases h

/-- arithmetic -/
theorem posfixArith_spec {s0 s1 s2 : FS} {d1 d2 : D} {ev1 ev2 ev : Regs → W → Res (Val × W)}
    (hna : s0.nactvar ≤ s0.freereg) (hn1 : s1.nactvar = s0.nactvar) {g1 : Regs → W → Res (Out W)}
    (h1 : (∃ x, d1.numeral = some x ∧ s1.freereg = s0.freereg ∧
      Opd P K (fun r => r < s0.freereg) s0 s1 (fun _ => .num x) ev1 g1) ∨
    (∃ rk, Fits d1 rk ∧ RKAt s0.nactvar s0.freereg rk s1.freereg ∧
      Opd P K (fun r => r < s0.freereg) s0 s1 (fun R => rk.get K R) ev1 g1))
    (h2 : GS P K s1 s2 d2 ev2)
    (he2 : ∀ (R R' : Regs) w, (∀ r, r < s0.freereg → R' r = R r) → ev2 R' w = ev2 R w)
    (o : BOp)
    (hev : ∀ R w, ev R w = (ev1 R w).bind fun p => (ev2 R p.2).bind fun p' => P.binV o p.1 p'.1 p'.2)
    {s : FS} {d : D} (h : posfixArith P.F s2 o d1 d2 = .ok (s, d)) :
    GS P K s0 s d ev ∧ ∀ u, d.kind ≠ .up u := by
  unfold posfixArith at h
  obtain ⟨r, e, h⟩ := Res.bind_eq_ok.1 h
  cases r with
  | none => exact codebin_spec hna hn1 h1 h2 he2 o hev h
  | some r =>
    obtain ⟨x, y, hx, hy, hc⟩ := foldD_some e
    cases h
    obtain ⟨n1, n2, n3, n4, n5, n6⟩ := numD_spec (P := P) (K := K) r s2
    refine ⟨?_, n6⟩
    rcases h1 with ⟨x', hx', hfr, h1⟩ | ⟨rk, hf, _⟩
    · rw [hx] at hx'
      cases hx'
      obtain ⟨ha2, _, q2, sem2, g2, hs2⟩ := h2
      have hf2 := (numeral_acc hy).1 ha2
      have ho2 := numeral_opd hy hs2
      refine ⟨n5 _ _ (by omega), n4, s2, _, _, Spec.mkNil n3 (h1.ext.trans ho2.ext) ?_ n1 n2⟩
      refine seqS h1 hs2.k ho2.mat (fun r hr => by omega) (fun _ _ _ => rfl) he2 (fun x y w => P.binV o x y w)
        (fun _ => hev) (fun _ R w => ?_)
      show _ = P.binV o (.num x) (.num y) w
      rw [binV_fold hc]
    · rw [fits_numeral hf] at hx; cases hx

/-- the end of an operator on one register -/
theorem reg_finish {keep : Nat → Prop} {s0 s1 : FS} {d1 : D} {ev1 ev : Regs → W → Res (Val × W)} {r : Nat}
    {g : Regs → W → Res (Out W)} (hs : Spec P K keep s0 s1 d1 ev1 s1 (regSem r) g) (ht : d1.t = []) (hf : d1.f = [])
    (hat : TempAt s0.nactvar s0.freereg r s1.freereg) (hk : d1.kind = .nonreloc r)
    (hna : s0.nactvar ≤ s0.freereg) (f : Val → W → Res (Val × W)) {x : Src}
    (hx : ∀ R w, x.value P K R w = f (R r) w) (hc : ∀ b c, x ≠ .concat b c)
    (hev : ∀ R w, ev R w = (ev1 R w).bind fun p => f p.1 p.2) {d : D}
    (hd : d.kind = .reloc (freeexp s1 d1).pc) (hdt : d.t = []) (hdf : d.f = []) :
    Acc s0.nactvar s0.freereg (emit (freeexp s1 d1) (.set 0 x)) d.kind ∧
    KInv (emit (freeexp s1 d1) (.set 0 x)) d.kind ∧
    ∃ q sem g', Spec P K keep s0 (emit (freeexp s1 d1) (.set 0 x)) d ev q sem g' := by
  have hm := seq1 (ev := ev) (sem := x.value P K) (hs.opd ht hf) f hev (fun _ R w => hx R w)
  refine ⟨?_, by rw [hd]; exact True.intro, _, _, _,
    emit_finish hs.ext (freeexp_ext hs.ext.wf d1) (freeexp_same s1 d1).2.1 hm hd hdt hdf⟩
  rw [hd]
  refine acc_emit ?_ hc
  have := (freeexp_tc (d := d1) (rk := .reg r) ⟨ht, hf, hk⟩ s1).1
  rw [this, hs.nact]
  have := rkAt_tc (rk := .reg r) hat hna
  omega

theorem codeun_spec {s0 s : FS} {d : D} {ev1 ev : Regs → W → Res (Val × W)} (hna : s0.nactvar ≤ s0.freereg)
    (h1 : GS P K s0 s d ev1) (o : UOp) (hev : ∀ R w, ev R w = (ev1 R w).bind fun p => P.unV o p.1 p.2)
    {s' : FS} {d' : D} (h : prefixUn P.F s o d = .ok (s', d')) :
    GS P K s0 s' d' ev ∧ ∀ u, d'.kind ≠ .up u := by
  obtain ⟨ha, hv, q, sem, g, hs⟩ := h1
  unfold prefixUn at h
  obtain ⟨r, e, h⟩ := Res.bind_eq_ok.1 h
  cases r with
  | none =>
    dsimp only at h
    unfold codeun at h
    obtain ⟨⟨s1, d1, r⟩, e1, h⟩ := Res.bind_eq_ok.1 h
    obtain ⟨y1, y2, y3, y4, y5, g', y6⟩ := exp2anyreg_spec hs (Nat.lt_irrefl _) hna ha e1
    cases h
    exact ⟨reg_finish y6 y3 y4 y1 y2 hna (fun v w => P.unV o v w) (x := .un o r) (fun _ _ => rfl) (fun _ _ e => nomatch e) hev rfl
      y3 y4, fun _ e => nomatch e⟩
  | some r =>
    obtain ⟨x, y, hx, hy, hc⟩ := foldD_some e
    cases h
    obtain ⟨n1, n2, n3, n4, n5, n6⟩ := numD_spec (P := P) (K := K) r s
    refine ⟨?_, n6⟩
    cases hy
    refine ⟨n5 _ _ ((numeral_acc hx).1 ha), n4, s, _, _, Spec.mkNil n3 (numeral_opd hx hs).ext ?_ n1 n2⟩
    refine seq1 (numeral_opd hx hs) (fun v w => P.unV o v w) hev (fun _ R w => ?_)
    show _ = P.unV o (.num x) w
    rw [unV_fold hc]

theorem codelen_spec {s0 s : FS} {d : D} {ev1 ev : Regs → W → Res (Val × W)} (hna : s0.nactvar ≤ s0.freereg)
    (h1 : GS P K s0 s d ev1) (hev : ∀ R w, ev R w = (ev1 R w).bind fun p => P.len p.1 p.2)
    {s' : FS} {d' : D} (h : codelen s d = .ok (s', d')) :
    GS P K s0 s' d' ev ∧ ∀ u, d'.kind ≠ .up u := by
  obtain ⟨ha, hv, q, sem, g, hs⟩ := h1
  unfold codelen at h
  obtain ⟨⟨s1, d1, r⟩, e1, h⟩ := Res.bind_eq_ok.1 h
  obtain ⟨y1, y2, y3, y4, y5, g', y6⟩ := exp2anyreg_spec hs (Nat.lt_irrefl _) hna ha e1
  dsimp only at h
  split at h
  · cases h
    exact ⟨reg_finish y6 y3 y4 y1 y2 hna (fun v w => P.len v w) (x := .len r) (fun _ _ => rfl) (fun _ _ e => nomatch e) hev rfl
      y3 y4, fun _ e => nomatch e⟩
  · split at h
    · cases h
    · cases h
      exact ⟨reg_finish y6 y3 y4 y1 y2 hna (fun v w => P.len v w) (x := .len r) (fun _ _ => rfl) (fun _ _ e => nomatch e) hev rfl
        y3 y4, fun _ e => nomatch e⟩

/-! ### comparison -/

/-- the value of a comparison -/
def cmpV (P : Ops W) (o : Cmp) (x y : Val) (w : W) : Res (Val × W) :=
  match o with
  | .eq => do let (r, w) ← P.rel .eq x y w; return (.bool r, w)
  | .ne => do let (r, w) ← P.rel .eq x y w; return (.bool (!r), w)
  | .lt => do let (r, w) ← P.rel .lt x y w; return (.bool r, w)
  | .le => do let (r, w) ← P.rel .le x y w; return (.bool r, w)
  | .gt => do let (r, w) ← P.rel .lt y x w; return (.bool r, w)
  | .ge => do let (r, w) ← P.rel .le y x w; return (.bool r, w)

theorem cmp_instr (o : Cmp) (x y : RK) : ∃ r a x' y', o.instr x y = .rel r a x' y' ∧
    ∀ (R : Regs) (w : W), relSem P K r a x' y' R w = cmpV P o (x.get K R) (y.get K R) w := by
  cases o with
  | eq => 
    refine ⟨_, _, _, _, rfl, fun R w => ?_⟩
    unfold relSem cmpV
    cases P.rel .eq (x.get K R) (y.get K R) w with
    | ok p => obtain ⟨r, w⟩ := p; cases r <;> rfl
    | err m => rfl
    | ub => rfl
  | ne => 
    refine ⟨_, _, _, _, rfl, fun R w => ?_⟩
    unfold relSem cmpV
    cases P.rel .eq (x.get K R) (y.get K R) w with
    | ok p => obtain ⟨r, w⟩ := p; cases r <;> rfl
    | err m => rfl
    | ub => rfl
  | lt => 
    refine ⟨_, _, _, _, rfl, fun R w => ?_⟩
    unfold relSem cmpV
    cases P.rel .lt (x.get K R) (y.get K R) w with
    | ok p => obtain ⟨r, w⟩ := p; cases r <;> rfl
    | err m => rfl
    | ub => rfl
  | le => 
    refine ⟨_, _, _, _, rfl, fun R w => ?_⟩
    unfold relSem cmpV
    cases P.rel .le (x.get K R) (y.get K R) w with
    | ok p => obtain ⟨r, w⟩ := p; cases r <;> rfl
    | err m => rfl
    | ub => rfl
  | gt => 
    refine ⟨_, _, _, _, rfl, fun R w => ?_⟩
    unfold relSem cmpV
    cases P.rel .lt (y.get K R) (x.get K R) w with
    | ok p => obtain ⟨r, w⟩ := p; cases r <;> rfl
    | err m => rfl
    | ub => rfl
  | ge => 
    refine ⟨_, _, _, _, rfl, fun R w => ?_⟩
    unfold relSem cmpV
    cases P.rel .le (y.get K R) (x.get K R) w with
    | ok p => obtain ⟨r, w⟩ := p; cases r <;> rfl
    | err m => rfl
    | ub => rfl

theorem codecomp_spec {s0 s1 s2 : FS} {d1 d2 : D} {ev1 ev2 ev : Regs → W → Res (Val × W)}
    (hna : s0.nactvar ≤ s0.freereg) (hn1 : s1.nactvar = s0.nactvar) {g1 : Regs → W → Res (Out W)} {rk : RK}
    (hf : Fits d1 rk) (hat : RKAt s0.nactvar s0.freereg rk s1.freereg)
    (h1 : Opd P K (fun r => r < s0.freereg) s0 s1 (fun R => rk.get K R) ev1 g1)
    (h2 : GS P K s1 s2 d2 ev2)
    (he2 : ∀ (R R' : Regs) w, (∀ r, r < s0.freereg → R' r = R r) → ev2 R' w = ev2 R w)
    (o : Cmp)
    (hev : ∀ R w, ev R w = (ev1 R w).bind fun p => (ev2 R p.2).bind fun p' => cmpV P o p.1 p'.1 p'.2)
    {s : FS} {d : D} (h : codecomp s2 o d1 rk d2 = .ok (s, d)) :
    GS P K s0 s d ev ∧ ∀ u, d.kind ≠ .up u := by
  obtain ⟨ha2, hv2, q2, sem2, g2, hs2⟩ := h2
  unfold codecomp at h
  obtain ⟨⟨s3, d2', rk2⟩, e3, h⟩ := Res.bind_eq_ok.1 h
  dsimp only at h
  cases h
  have hle := hat.le
  obtain ⟨y1, y2, y3, y4, y5, g3, y6⟩ := exp2RK_spec hs2 (Nat.lt_irrefl _) (by omega) ha2 e3
  have hk13 : s1.k <+: s3.k := hs2.k.trans y3
  obtain ⟨r, a, x', y', hi, hsem⟩ := cmp_instr (P := P) (K := K) o rk rk2
  have hm := seqS (ev := ev) (sem := relSem P K r a x' y') h1 hk13 y6.mat (fun r hr => by omega)
    (rk_dep hat hna) he2 (fun x y w => cmpV P o x y w) (fun _ => hev) (fun _ R w => hsem R w)
  refine ⟨⟨?_, True.intro, dischargejpc (freeexps s3 d1 d2'), relSem P K r a x' y', _, Spec.mkNil ?_
    (((h1.ext.trans y6.ext).trans_skip (freeexps_ext y6.ext.wf d1 d2')).trans_skip
      (dischargejpc_ext (freeexps_ext (P := P) (K := K) y6.ext.wf d1 d2').wf)) ?_ hf.1 hf.2.1⟩, fun u e => nomatch e⟩
  · show (condjump (freeexps s3 d1 d2') (o.instr rk rk2)).1.freereg = _
    rw [condjump_eq]
    show (freeexps s3 d1 d2').freereg = _
    rw [freeexps_tc hf y2, y4, hn1]
    rw [hn1] at y1
    have a1 := rkAt_tc y1 (by omega)
    have a2 := rkAt_tc hat hna
    omega
  · rw [condjump_eq, hi]
    exact ⟨r, a, x', y', rfl, by rw [dischargejpc_length]; rfl, rfl, rfl⟩
  · rw [condjump_eq]
    intro hK
    exact hm (by rw [← freeexps_k s3 d1 d2']; exact hK)

/-! ### `and` and `or` -/

theorem condSeq {keep : Nat → Prop} {s0 s1 s : FS} {d d' : D} {b : Bool} {l : List Nat}
    {ev1 ev2 ev : Regs → W → Res (Val × W)} {g1 g2 : Regs → W → Res (Out W)} {q : FS}
    {sem : Regs → W → Res (Val × W)}
    (h1 : Cond P K keep s0 s1 b l ev1 g1) (h2 : Spec P K keep s1 s d ev2 q sem g2)
    (he2 : ∀ (R R' : Regs) w, (∀ r, keep r → R' r = R r) → ev2 R' w = ev2 R w)
    (hev : ∀ R w, ev R w = (ev1 R w).bind fun p => if p.1.truthy = b then ev2 R p.2 else .ok p)
    (hk : d'.kind = d.kind) (ht : ∀ j ∈ d.t, j ∈ d'.t) (hf : ∀ j ∈ d.f, j ∈ d'.f)
    (hl : ∀ j ∈ l, j ∈ if !b then d'.t else d'.f) (hp : (d'.t ++ d'.f).Perm (d.t ++ d.f ++ l)) :
    Spec P K keep s0 s d' ev q sem (fun R w => andThen (g1 R w) g2) := by
  refine ⟨by rw [hk]; exact h2.pre, h1.ext.trans h2.ext, ?_, ?_, ?_⟩
  · intro hK R w
    have m1 := h1.mat (h2.k.trans hK) R w
    rw [hev]
    cases hg1 : g1 R w with
    | err m => rw [hg1] at m1; rw [show ev1 R w = .err m from m1]; exact rfl
    | ub => rw [hg1] at m1; rw [show ev1 R w = .ub from m1]; exact rfl
    | ok o =>
      cases o with
      | exit j R1 w1 =>
        rw [hg1] at m1
        obtain ⟨a1, v, a2, a3, a4, a5⟩ := m1
        rw [a2]
        unfold Res.bind
        dsimp only
        rw [if_neg (by rw [a3]; cases b <;> simp)]
        refine ⟨a1, v, rfl, by rw [a3]; exact hl j a4, ?_⟩
        exact JV_congr (h2.ext.frame j (h1.pend j a4).1).2 a5
      | fall R1 w1 =>
        rw [hg1] at m1
        obtain ⟨a1, v, a2, a3⟩ := m1
        rw [a2]
        unfold Res.bind
        dsimp only
        rw [if_pos a3, ← he2 R R1 w1 a1]
        have m2 := h2.mat hK R1 w1
        show Match _ _ _ _ _ _ _ (g2 R1 w1)
        cases hg2 : g2 R1 w1 with
        | err m => rw [hg2] at m2; exact m2
        | ub => rw [hg2] at m2; exact m2
        | ok o =>
          cases o with
          | fall R2 w2 =>
            rw [hg2] at m2
            exact ⟨fun r hr => (m2.1 r hr).trans (a1 r hr), m2.2⟩
          | exit j R2 w2 =>
            rw [hg2] at m2
            obtain ⟨c1, v2, c2, c3, c4⟩ := m2
            refine ⟨fun r hr => (c1 r hr).trans (a1 r hr), v2, c2, ?_, c4⟩
            split at c3
            · rename_i hv; rw [if_pos hv]; exact ht j c3
            · rename_i hv; rw [if_neg hv]; exact hf j c3
  · intro j hj
    rcases List.mem_append.1 (hp.mem_iff.1 hj) with hj | hj
    · obtain ⟨b1, b2⟩ := h2.pend j hj
      exact ⟨b1, Nat.le_trans h1.ext.len b2⟩
    · obtain ⟨b1, b2⟩ := h1.pend j hj
      exact ⟨(h2.ext.frame j b1).1, b2⟩
  · rw [hp.nodup_iff]
    refine List.nodup_append.2 ⟨h2.nodup, h1.nodup, ?_⟩
    intro a ha c hc e
    subst e
    have := (h2.pend a ha).2
    have := (h1.pend a hc).1.lt
    omega

/-! ### `..` -/

theorem catRange_succ (R : Regs) (b n : Nat) (w : W) :
    catRange P R b (n + 1) w = (catRange P R (b + 1) n w).bind fun p => P.cat (R b) p.1 p.2 := rfl

theorem posfixCat_spec {s0 s1 s2 : FS} {d1 d2 : D} {ev1 ev2 ev : Regs → W → Res (Val × W)}
    (hna : s0.nactvar ≤ s0.freereg) (hn1 : s1.nactvar = s0.nactvar) {g1 : Regs → W → Res (Out W)}
    (hd1 : d1.kind = .nonreloc s0.freereg) (ht1 : d1.t = []) (hf1 : d1.f = []) (hfr : s1.freereg = s0.freereg + 1)
    (h1 : Opd P K (fun r => r < s0.freereg) s0 s1 (fun R => R s0.freereg) ev1 g1)
    (h2 : GS P K s1 s2 d2 ev2)
    (he2 : ∀ (R R' : Regs) w, (∀ r, r < s0.freereg → R' r = R r) → ev2 R' w = ev2 R w)
    (hev : ∀ R w, ev R w = (ev1 R w).bind fun p => (ev2 R p.2).bind fun p' => P.cat p.1 p'.1 p'.2)
    {s : FS} {d : D} (h : posfixCat s2 d1 s0.freereg d2 = .ok (s, d)) :
    GS P K s0 s d ev ∧ ∀ u, d.kind ≠ .up u := by
  obtain ⟨ha2, hv2, q2, sem2, g2, hs2⟩ := h2
  unfold posfixCat at h
  obtain ⟨⟨s3, d3⟩, e3, h⟩ := Res.bind_eq_ok.1 h
  have hna1 : s1.nactvar ≤ s1.freereg := by omega
  obtain ⟨x1, x2, x3, x4, x5, q3, sem3, g3, x6⟩ := exp2val_spec hs2 (Nat.lt_irrefl _) hna1 ha2 e3
  have hk13 : s1.k <+: s3.k := hs2.k.trans x5
  dsimp only at h
  split at h
  · rename_i pc c hm
    split at hm
    · rename_i pc' hk
      split at hm
      · rename_i a b c' hc
        cases hm
        cases h
        have hp := x6.pre
        rw [hk] at hp x1
        obtain ⟨x, rfl, hpc, hq, rfl⟩ := hp
        subst hpc
        have hcx : (addCode q3 [Instr.set 0 x]).code[q3.code.length]? = some (Instr.set 0 x) := by
          unfold addCode
          simp
        obtain ⟨xa, xb⟩ := x1
        obtain ⟨xb1, xb2⟩ := xb _ _ _ hc
        rw [hcx] at hc
        cases hc
        have hfe : (freeexp q3 d1).freereg = s0.freereg := by
          have := (freeexp_tc (d := d1) (rk := .reg s0.freereg) ⟨ht1, hf1, hd1⟩ q3).1
          rw [this]
          unfold tc
          dsimp only
          have e1 : q3.freereg = s1.freereg := xa
          rw [if_pos (by rw [x6.ext.nact]; omega)]
          omega
        have hst : ({ freeexp (addCode q3 [Instr.set 0 (.concat b c)]) d1 with
            code := (freeexp (addCode q3 [Instr.set 0 (.concat b c)]) d1).code.modify q3.code.length (·.setB s0.freereg) } : FS) = addCode (freeexp q3 d1) [.set 0 (.concat s0.freereg c)] := by
          have e1 : freeexp (addCode q3 [Instr.set 0 (.concat b c)]) d1 = addCode (freeexp q3 d1) [Instr.set 0 (.concat b c)] := by
            unfold freeexp
            rw [hd1]
            dsimp only
            unfold freeReg addCode
            dsimp only
            split <;> rfl
          rw [e1]
          unfold addCode
          dsimp only
          congr 1
          rw [(freeexp_same q3 d1).1]
          rw [modify_last]
          rfl
        dsimp only at hst
        rw [hst]
        have hm := seqS (ev := ev) (sem := (Src.concat s0.freereg c).value P K) h1 hk13 (x6.mat_nil x3 x4)
          (fun r hr => by omega) (fun R R' hR => hR _ (by omega)) he2 (fun x y w => P.cat x y w) (fun _ => hev) (by
            intro _ R w
            show catRange P R s0.freereg (c - s0.freereg) w = (catRange P R b (c - b) w).bind _
            have : c - s0.freereg = (c - b) + 1 := by omega
            rw [this, catRange_succ, xb1, hfr])
        refine ⟨⟨⟨hfe, ?_⟩, True.intro, freeexp q3 d1, (Src.concat s0.freereg c).value P K, _, Spec.mkNil
          ⟨_, rfl, ?_, ?_, rfl⟩ ((h1.ext.trans x6.ext).trans_skip (freeexp_ext x6.ext.wf d1)) ?_ ht1 hf1⟩,
          fun u e => nomatch e⟩
        · intro a b' c' e
          unfold addCode at e
          dsimp only at e
          rw [(freeexp_same q3 d1).1] at e
          simp at e
          omega
        · rw [(freeexp_same q3 d1).1]
        · rw [(freeexp_same q3 d1).2.2.2]; exact hq
        · intro hK
          refine hm ?_
          have : (addCode (freeexp q3 d1) [Instr.set 0 (.concat s0.freereg c)]).k = q3.k := (freeexp_same q3 d1).2.1
          rw [this] at hK
          exact hK
      · cases hm
    · cases hm
  · obtain ⟨⟨s4, d4, r2⟩, e4, h⟩ := Res.bind_eq_ok.1 h
    obtain ⟨z1, z2, z3, z4, z5, z6, g4, z7⟩ := exp2nextreg_spec x6 (Nat.lt_irrefl _) hna1 x1 e4
    dsimp only at h
    cases h
    have ho := z7.opd z4 z5
    have hfit1 : Fits d1 (.reg s0.freereg) := ⟨ht1, hf1, hd1⟩
    have hfit2 : Fits d4 (.reg s1.freereg) := ⟨z4, z5, z3⟩
    have hm := seqS (ev := ev) (sem := (Src.concat s0.freereg r2).value P K) h1 (hk13.trans z6) ho.mat
      (fun r hr => by omega) (fun R R' hR => hR _ (by omega)) he2 (fun x y w => P.cat x y w) (fun _ => hev) (by
        intro _ R w
        show catRange P R s0.freereg (r2 - s0.freereg) w = _
        have : r2 - s0.freereg = 0 + 1 := by omega
        rw [this, catRange_succ]
        rw [← hfr]
        rfl)
    refine ⟨⟨?_, True.intro, _, _, _, emit_finish (h1.ext.trans z7.ext) (freeexps_ext z7.ext.wf d1 d4)
      (freeexps_k ..) hm rfl ht1 hf1⟩, fun u e => nomatch e⟩
    refine ⟨?_, ?_⟩
    · show (freeexps s4 d1 d4).freereg = _
      rw [freeexps_tc hfit1 hfit2, z7.nact]
      unfold tc
      dsimp only
      rw [if_pos (by omega), if_pos (by omega)]
      omega
    · intro a b c e
      rw [emit_getElem] at e
      cases e
      omega

/-! ### indexing -/

theorem index_spec {s0 s1 s2 : FS} {d1 d2 : D} {ev1 ev2 ev : Regs → W → Res (Val × W)}
    (hna : s0.nactvar ≤ s0.freereg) (hn1 : s1.nactvar = s0.nactvar) {g1 : Regs → W → Res (Out W)} {r : Nat}
    (hd1 : d1.kind = .nonreloc r) (ht1 : d1.t = []) (hf1 : d1.f = [])
    (hat : TempAt s0.nactvar s0.freereg r s1.freereg)
    (h1 : Opd P K (fun r => r < s0.freereg) s0 s1 (fun R => R r) ev1 g1)
    (h2 : GS P K s1 s2 d2 ev2)
    (he2 : ∀ (R R' : Regs) w, (∀ r, r < s0.freereg → R' r = R r) → ev2 R' w = ev2 R w)
    (hev : ∀ R w, ev R w = (ev1 R w).bind fun p => (ev2 R p.2).bind fun p' => P.index p.1 p'.1 p'.2)
    {s3 : FS} {d3 : D} (e3 : exp2val s2 d2 = .ok (s3, d3))
    {s : FS} {d : D} (h : indexed s3 d1 d3 = .ok (s, d)) :
    GS P K s0 s d ev ∧ ∀ u, d.kind ≠ .up u := by
  obtain ⟨ha2, hv2, q2, sem2, g2, hs2⟩ := h2
  have hle := hat.le
  have hna1 : s1.nactvar ≤ s1.freereg := by omega
  obtain ⟨x1, x2, x3, x4, x5, q3, sem3, g3, x6⟩ := exp2val_spec hs2 (Nat.lt_irrefl _) hna1 ha2 e3
  unfold indexed at h
  obtain ⟨⟨s4, d4, rk⟩, e4, h⟩ := Res.bind_eq_ok.1 h
  obtain ⟨y1, y2, y3, y4, y5, g4, y6⟩ := exp2RK_spec x6 (Nat.lt_irrefl _) hna1 x1 e4
  dsimp only at h
  rw [hd1] at h
  cases h
  have hm := seqS (ev := ev) (sem := fun R w => P.index (R r) (rk.get K R) w) h1 ((hs2.k.trans x5).trans y3) y6.mat
    (fun r hr => by omega) (fun R R' hR => hR _ (hat.lt hna)) he2 (fun x y w => P.index x y w) (fun _ => hev)
    (fun _ R w => rfl)
  rw [hn1] at y1
  exact ⟨⟨⟨_, hat, y1⟩, True.intro, s, _, _, Spec.mkNil ⟨rfl, rfl⟩ (h1.ext.trans y6.ext) hm ht1 hf1⟩,
    fun u e => nomatch e⟩

theorem indexup_spec {s0 s2 : FS} {d1 d2 : D} {ev2 ev : Regs → W → Res (Val × W)}
    (hna : s0.nactvar ≤ s0.freereg) {u : Nat}
    (hd1 : d1.kind = .up u) (ht1 : d1.t = []) (hf1 : d1.f = [])
    (h2 : GS P K s0 s2 d2 ev2)
    (hev : ∀ R w, ev R w = (ev2 R w).bind fun p' => P.index (P.up u p'.2) p'.1 p'.2)
    {s3 : FS} {d3 : D} (e3 : exp2val s2 d2 = .ok (s3, d3))
    {s : FS} {d : D} (h : indexed s3 d1 d3 = .ok (s, d)) :
    GS P K s0 s d ev ∧ ∀ u, d.kind ≠ .up u := by
  obtain ⟨ha2, hv2, q2, sem2, g2, hs2⟩ := h2
  obtain ⟨x1, x2, x3, x4, x5, q3, sem3, g3, x6⟩ := exp2val_spec hs2 (Nat.lt_irrefl _) hna ha2 e3
  unfold indexed at h
  obtain ⟨⟨s4, d4, rk⟩, e4, h⟩ := Res.bind_eq_ok.1 h
  obtain ⟨y1, y2, y3, y4, y5, g4, y6⟩ := exp2RK_spec x6 (Nat.lt_irrefl _) hna x1 e4
  dsimp only at h
  rw [hd1] at h
  cases h
  have hm := seq1 (ev := ev) (sem := fun R w => P.index (P.up u w) (rk.get K R) w) y6 (fun y w => P.index (P.up u w) y w)
    hev (fun _ R w => rfl)
  exact ⟨⟨y1, True.intro, s, _, _, Spec.mkNil ⟨rfl, rfl⟩ y6.ext hm ht1 hf1⟩,
    fun u e => nomatch e⟩

end Verif.ExpCode
