import Verif.ExpCode.Ops
/-! Calls. -/
namespace Verif.ExpCode
open Verif.Fold (FOps BOp UOp)
variable {W : Type} {P : Ops W} {K : List Val}

/-- what happens between the code of the arguments and the call: the calls at the end of the arguments -/
def opened (P : Ops W) (o : Option OpenCall) (R : Regs) (top : Nat) (w : W) : Res (Regs × Nat × W) :=
  match o with
  | none => .ok (R, top, w)
  | some (a, n, l) => callChain P a l R (a + 1 + n) w

theorem callChain_snoc (b : Nat) : ∀ (l : List Nat) (a : Nat) (R : Regs) (top : Nat) (w : W),
    callChain P a (l ++ [b]) R top w = (callChain P a l R top w).bind fun p => callAt P p.1 b p.2.1 p.2.2 := by
  intro l
  induction l with
  | nil =>
    intro a R top w
    simp only [List.nil_append, callChain]
    cases callAt P R a top w <;> rfl
  | cons c l ih =>
    intro a R top w
    simp only [List.cons_append, callChain]
    cases callAt P R a top w with
    | ok p => exact ih ..
    | err m => rfl
    | ub => rfl

theorem callAt_top {a : Nat} {R R' : Regs} {top top' : Nat} {w w' : W} (h : callAt P R a top w = .ok (R', top', w')) : a ≤ top' := by
  unfold callAt at h
  split at h
  · cases h; exact Nat.le_add_right ..
  · cases h
  · cases h

theorem callChain_top : ∀ {l : List Nat} {a : Nat} {R R' : Regs} {top top' : Nat} {w w' : W},
    callChain P a l R top w = .ok (R', top', w') → l.getLastD a ≤ top' := by
  intro l
  induction l with
  | nil => intro a R R' top top' w w' h; exact callAt_top h
  | cons b l ih =>
    intro a R R' top top' w w' h
    simp only [callChain] at h
    split at h
    · have := ih h
      cases l <;> exact this
    · cases h
    · cases h

theorem getLastD_snoc (l : List Nat) (a b : Nat) : (l ++ [b]).getLastD a = b := by
  rw [List.getLastD_eq_getLast?, List.getLast?_append]; rfl

/-- the calls with the one of the function in `base` -/
theorem opened_callOf {s : FS} {base : Nat} {o : Option OpenCall} (hb : base + 1 ≤ s.freereg) (R : Regs) (t : Nat) (w : W) :
    opened P (some (callOf s base o)) R t w =
      (opened P o R s.freereg w).bind fun p => callAt P p.1 base p.2.1 p.2.2 := by
  unfold opened callOf
  cases o with
  | none =>
    dsimp only
    rw [show base + 1 + (s.freereg - (base + 1)) = s.freereg from by omega]
    rfl
  | some o =>
    obtain ⟨a, n, l⟩ := o
    exact callChain_snoc ..

theorem callOf_last (s : FS) (base : Nat) (o : Option OpenCall) :
    (callOf s base o).2.2.getLastD (callOf s base o).1 = base := by
  cases o with
  | none => rfl
  | some o => exact getLastD_snoc ..

/-- the code of arguments computes their values, up to the calls at the end -/
def ArgsAt (P : Ops W) (K : List Val) (n0 : Nat) (s : FS) (o : Option OpenCall)
    (ev : Regs → W → Res (List Val × W)) (g : Regs → W → Res (Out W)) : Prop :=
  s.k <+: K → ∀ R w,
    match g R w with
    | .ok (.fall R' w') => (∀ r, r < n0 → R' r = R r) ∧
        match opened P o R' s.freereg w' with
        | .ok (R2, top, w2) => (∀ r, r < n0 → R2 r = R' r) ∧ n0 ≤ top ∧
            ev R w = .ok ((List.range' n0 (top - n0)).map R2, w2)
        | .err m => ev R w = .err m
        | .ub => ev R w = .ub
    | .ok (.exit ..) => False
    | .err m => ev R w = .err m
    | .ub => ev R w = .ub

/-- what is proved about arguments -/
def GA (P : Ops W) (K : List Val) (s0 s : FS) (o : Option OpenCall) (ev : Regs → W → Res (List Val × W)) : Prop :=
  s0.freereg ≤ s.freereg ∧ ∃ g, Ext P K s0 s g ∧ ArgsAt P K s0.freereg s o ev g

theorem getElem?_lt' {k : List Val} {i : Nat} {v : Val} (h : k[i]? = some v) : i < k.length := (List.getElem?_eq_some_iff.1 h).1

/-- an expression into the next register -/
def Next (P : Ops W) (K : List Val) (s0 s : FS) (ev : Regs → W → Res (Val × W)) : Prop :=
  s.freereg = s0.freereg + 1 ∧ ∃ g, Ext P K s0 s g ∧ (s.k <+: K → ∀ R w,
    match g R w with
    | .ok (.fall R' w') => (∀ r, r < s0.freereg → R' r = R r) ∧ ev R w = .ok (R' s0.freereg, w')
    | .ok (.exit ..) => False
    | .err m => ev R w = .err m
    | .ub => ev R w = .ub)

theorem gs_next {s0 s1 s : FS} {d1 d : D} {r : Nat} {ev : Regs → W → Res (Val × W)} (hg : GS P K s0 s1 d1 ev)
    (hna : s0.nactvar ≤ s0.freereg) (h : exp2nextreg s1 d1 = .ok (s, d, r)) : r = s0.freereg ∧ Next P K s0 s ev := by
  obtain ⟨ha, hv, q, sem, g, hs⟩ := hg
  obtain ⟨y1, y2, y3, y4, y5, y6, g', y7⟩ := exp2nextreg_spec hs (Nat.lt_irrefl _) hna ha h
  refine ⟨y1, y2, g', y7.ext, fun hK R w => ?_⟩
  have m1 := (y7.opd y4 y5).mat hK R w
  cases hg : g' R w with
  | err m => rw [hg] at m1; exact m1
  | ub => rw [hg] at m1; exact m1
  | ok o =>
    cases o with
    | exit j R1 w1 =>
      rw [hg] at m1
      obtain ⟨_, v, _, h3, _⟩ := m1
      cases mem_lists h3
    | fall R1 w1 =>
      rw [hg] at m1
      exact ⟨m1.1, m1.2.symm⟩

theorem GA.cons {s0 s1 s : FS} {o : Option OpenCall} {ev1 : Regs → W → Res (Val × W)}
    {ev2 ev : Regs → W → Res (List Val × W)} (h1 : Next P K s0 s1 ev1) (h2 : GA P K s1 s o ev2)
    (hc : ∀ (R R' : Regs) w, (∀ r, r < s0.freereg → R' r = R r) → ev2 R' w = ev2 R w)
    (hev : ∀ R w, ev R w = (ev1 R w).bind fun p => (ev2 R p.2).bind fun q => .ok (p.1 :: q.1, q.2)) :
    GA P K s0 s o ev := by
  obtain ⟨hf, g1, x1, m1⟩ := h1
  obtain ⟨hle, g2, x2, m2⟩ := h2
  refine ⟨by omega, _, x1.trans x2, fun hK R w => ?_⟩
  have m1 := m1 (x2.k.trans hK) R w
  rw [hev]
  cases hg : g1 R w with
  | err m => rw [hg] at m1; rw [show ev1 R w = .err m from m1]; exact rfl
  | ub => rw [hg] at m1; rw [show ev1 R w = .ub from m1]; exact rfl
  | ok o1 =>
    cases o1 with
    | exit j R1 w1 => rw [hg] at m1; exact m1.elim
    | fall R1 w1 =>
      rw [hg] at m1
      obtain ⟨a1, a2⟩ := m1
      have m2 := m2 hK R1 w1
      rw [a2]
      rw [show andThen (Res.ok (Out.fall R1 w1)) g2 = g2 R1 w1 from rfl]
      simp only [Res.bind]
      rw [← hc R R1 w1 a1]
      cases hg2 : g2 R1 w1 with
      | err m => rw [hg2] at m2; rw [show ev2 R1 w1 = .err m from m2]
      | ub => rw [hg2] at m2; rw [show ev2 R1 w1 = .ub from m2]
      | ok o2 =>
        cases o2 with
        | exit j R2 w2 => rw [hg2] at m2; exact m2.elim
        | fall R2 w2 =>
          rw [hg2] at m2
          obtain ⟨b1, b2⟩ := m2
          refine ⟨fun r hr => (b1 r (by omega)).trans (a1 r hr), ?_⟩
          cases ho : opened P o R2 s.freereg w2 with
          | err m => rw [ho] at b2; rw [show ev2 R1 w1 = .err m from b2]
          | ub => rw [ho] at b2; rw [show ev2 R1 w1 = .ub from b2]
          | ok p =>
            obtain ⟨R3, top, w3⟩ := p
            rw [ho] at b2
            obtain ⟨c1, c2, c3⟩ := b2
            refine ⟨fun r hr => c1 r (by omega), by omega, ?_⟩
            rw [c3]
            dsimp only
            rw [show top - s0.freereg = (top - s1.freereg) + 1 from by omega, List.range'_succ, List.map_cons,
              c1 _ (by omega), b1 _ (by omega), hf]

theorem map_range'_get (vs : List Val) (a : Nat) (f : Nat → Val) (h : ∀ i, i < vs.length → some (f (a + i)) = vs[i]?) :
    (List.range' a vs.length).map f = vs := by
  apply List.ext_getElem?
  intro i
  rw [List.getElem?_map]
  by_cases hi : i < vs.length
  · rw [List.getElem?_range' hi, Option.map_some, Nat.one_mul, h i hi]
  · rw [List.getElem?_eq_none (by simpa using hi), List.getElem?_eq_none (by omega)]; rfl

/-- the function of a call, and the arguments before those in parentheses, into the next registers -/
def Head (P : Ops W) (K : List Val) (s0 s : FS) (ev : Regs → W → Res ((Val × List Val) × W)) : Prop :=
  s0.freereg + 1 ≤ s.freereg ∧ ∃ g, Ext P K s0 s g ∧ (s.k <+: K → ∀ R w,
    match g R w with
    | .ok (.fall R' w') => (∀ r, r < s0.freereg → R' r = R r) ∧ ev R w =
        .ok ((R' s0.freereg, (List.range' (s0.freereg + 1) (s.freereg - (s0.freereg + 1))).map R'), w')
    | .ok (.exit ..) => False
    | .err m => ev R w = .err m
    | .ub => ev R w = .ub)

theorem Next.head {s0 s : FS} {ev : Regs → W → Res (Val × W)} (h : Next P K s0 s ev) :
    Head P K s0 s (fun R w => (ev R w).bind fun p => .ok ((p.1, []), p.2)) := by
  obtain ⟨hf, g, x, m⟩ := h
  refine ⟨by omega, g, x, fun hK R w => ?_⟩
  have m := m hK R w
  cases hg : g R w with
  | err m' => rw [hg] at m; dsimp only at m ⊢; rw [m]; exact rfl
  | ub => rw [hg] at m; dsimp only at m ⊢; rw [m]; exact rfl
  | ok o1 =>
    cases o1 with
    | exit j R1 w1 => rw [hg] at m; exact m
    | fall R1 w1 =>
      rw [hg] at m
      refine ⟨m.1, ?_⟩
      dsimp only
      rw [m.2, hf, Nat.sub_self]
      exact rfl

theorem pre_setk {s : FS} {kind : Kind} {q : FS} {sem : Regs → W → Res (Val × W)} (h : Pre P K s kind q sem)
    {k : List Val} (hk : s.k <+: k) : Pre P K { s with k := k } kind { q with k := k } sem := by
  cases kind with
  | reloc pc => obtain ⟨x, rfl, h1, h2, h3⟩ := h; exact ⟨x, rfl, h1, h2, h3⟩
  | jmp j => obtain ⟨o, a, x, y, rfl, h1, h2, h3⟩ := h; exact ⟨o, a, x, y, rfl, h1, h2, h3⟩
  | k i => obtain ⟨rfl, h1, h2⟩ := h; exact ⟨rfl, Nat.lt_of_lt_of_le h1 hk.length_le, h2⟩
  | _ => obtain ⟨rfl, h1⟩ := h; exact ⟨rfl, h1⟩

theorem addK_eq (s : FS) (v : Val) : (addK s v).1 = { s with k := (addK s v).1.k } := by
  unfold addK
  split <;> rfl

theorem Spec.addK {keep : Nat → Prop} {s0 s : FS} {d : D} {ev : Regs → W → Res (Val × W)} {q : FS}
    {sem : Regs → W → Res (Val × W)} {g : Regs → W → Res (Out W)} (hs : Spec P K keep s0 s d ev q sem g)
    (v : Val) : Spec P K keep s0 (addK s v).1 d ev { q with k := (ExpCode.addK s v).1.k } sem g := by
  have hk := (addK_spec s v).1
  rw [addK_eq]
  exact hs.same (pre_setk hs.pre hk)
    (Ext.of_same hs.ext.wf rfl rfl rfl rfl (by rw [(pre_k hs.pre).1]; exact hk)) hk rfl rfl

theorem Acc.addK {nact n0 : Nat} {s : FS} {kind : Kind} (h : Acc nact n0 s kind) (v : Val) : Acc nact n0 (addK s v).1 kind := by
  rw [addK_eq]
  cases kind <;> exact h

/-- the object and the function of a method call -/
theorem self_head {s0 s1 s : FS} {d1 : D} {ev1 : Regs → W → Res (Val × W)} {k : List UInt8} {base : Nat}
    (hg : GS P K s0 s1 d1 ev1) (hna : s0.nactvar ≤ s0.freereg)
    (h : selfOp (addK s1 (.str k)).1 d1 (addK s1 (.str k)).2 = .ok (s, base)) :
    base = s0.freereg ∧ s.freereg = s0.freereg + 2 ∧
    Head P K s0 s (fun R w => (ev1 R w).bind fun p => (P.index p.1 (.str k) p.2).bind fun q => .ok ((q.1, [p.1]), q.2)) := by
  obtain ⟨ha, hv, q, sem, g, hs⟩ := hg
  have hs := hs.addK (.str k)
  have ha := ha.addK (.str k)
  have hkey := (addK_spec s1 (.str k)).2
  generalize addK s1 (.str k) = p at *
  obtain ⟨s1, i⟩ := p
  dsimp only at h hs ha hkey
  unfold selfOp at h
  obtain ⟨⟨s2, d2, r⟩, e2, h⟩ := Res.bind_eq_ok.1 h
  dsimp only at h
  obtain ⟨s3, e3, h⟩ := Res.bind_eq_ok.1 h
  obtain ⟨⟨s4, d4, rk⟩, e4, h⟩ := Res.bind_eq_ok.1 h
  dsimp only at h
  obtain ⟨y1, y2, y3, y4, y5, g2, y6⟩ := exp2anyreg_spec hs (Nat.lt_irrefl _) hna ha e2
  have o2 := y6.opd y3 y4
  have hfe : (freeexp s2 d2).freereg = s0.freereg := by
    refine freeexp_freereg y6.nact hna (by rw [y2]; rfl) ?_
    rw [y2]; exact y1
  have hr3 := reserve_ok e3
  rw [hfe] at hr3
  have hs3 := freeexp_same s2 d2
  have x3 : Ext P K s2 s3 skipG := by
    rw [hr3, freeexp_eq]
    exact Ext.of_same o2.ext.wf rfl rfl rfl rfl (List.prefix_refl _)
  have hn3 : s3.nactvar = s0.nactvar := x3.nact.trans o2.ext.nact
  have hf3 : s3.freereg = s0.freereg + 2 := by rw [hr3]
  have hk3 : s3.k[i]? = some (.str k) := by
    obtain ⟨t, ht⟩ := y5.trans x3.k
    rw [← ht]
    rw [List.getElem?_append_left (getElem?_lt' hkey)]
    exact hkey
  obtain ⟨z1, z2, z3, z4, z5, g4, z6⟩ := exp2RK_spec (P := P) (K := K) (keep := fun r => r < s0.freereg + 2) (s0 := s3) (s := s3)
    (d := { kind := .k i, tm := Typed.tSTR }) (ev := fun _ w => .ok (.str k, w)) (n0 := s0.freereg + 2)
    (q := s3) (sem := fun _ w => .ok (K.getD i .nil, w)) (g := skipG)
    (Spec.mkNil ⟨rfl, getElem?_lt' hk3, rfl⟩ (Ext.refl x3.wf)
      (fun hK R w => ⟨fun _ _ => rfl, by rw [prefix_getD hK hk3]⟩) rfl rfl)
    (Nat.lt_irrefl _) (by omega) hf3 e4
  have xe := emit_ext (P := P) (K := K) z6.ext.wf (i := .self s0.freereg r rk) rfl
  rw [hfe] at h
  cases h
  have hf4 : (freeexp (emit s4 (.self s0.freereg r rk)) d4).freereg = s0.freereg + 2 := by
    refine freeexp_freereg (nact := s3.nactvar) z4 (by omega) ?_ ?_
    · cases rk with
      | reg r' => rw [z2.2.2]; rfl
      | const j => rw [z2.2.2.1]; rfl
    · cases rk with
      | reg r' => rw [z2.2.2]; exact z1
      | const j => rw [z2.2.2.1]; exact z1
  refine ⟨rfl, hf4, by omega, _, (((o2.ext.trans_skip x3).trans z6.ext).trans xe).trans_skip (by
    rw [freeexp_eq]; exact Ext.of_same xe.wf rfl rfl rfl rfl (List.prefix_refl _)), fun hK R w => ?_⟩
  have hK4 : s4.k <+: K := by
    have := (freeexp_same (emit s4 (.self s0.freereg r rk)) d4).2.1
    rw [this] at hK
    exact hK
  have m1 := o2.mat (x3.k.trans (z6.ext.k.trans hK4)) R w
  dsimp only
  cases hg : g2 R w with
  | err m => rw [hg] at m1; rw [show ev1 R w = .err m from m1]; exact rfl
  | ub => rw [hg] at m1; rw [show ev1 R w = .ub from m1]; exact rfl
  | ok o =>
    cases o with
    | exit j R1 w1 =>
      rw [hg] at m1
      obtain ⟨_, v, _, h3, _⟩ := m1
      cases mem_lists h3
    | fall R1 w1 =>
      rw [hg] at m1
      obtain ⟨a1, a2⟩ := m1
      rw [← a2]
      have m2 := z6.mat hK4 R1 w1
      rw [show andThen (Res.ok (Out.fall R1 w1)) g4 = g4 R1 w1 from rfl]
      cases hg4 : g4 R1 w1 with
      | err m => rw [hg4] at m2; cases m2
      | ub => rw [hg4] at m2; cases m2
      | ok o =>
        cases o with
        | exit j R2 w2 =>
          rw [hg4] at m2
          obtain ⟨_, v, _, h3, _⟩ := m2
          cases mem_lists h3
        | fall R2 w2 =>
          rw [hg4] at m2
          obtain ⟨b1, b2⟩ := m2
          injection b2 with b2
          injection b2 with b2 b3
          subst b3
          rw [show andThen (Res.ok (Out.fall R2 w2)) (execG P K (.self s0.freereg r rk)) = execG P K (.self s0.freereg r rk) R2 w2 from rfl]
          have hr : r < s0.freereg + 2 := by
            rcases y1 with ⟨h1, _⟩ | ⟨h1, _⟩ <;> omega
          unfold execG Instr.exec
          dsimp only [Res.bind]
          rw [b2, b1 r hr]
          cases P.index (R1 r) (.str k) w2 with
          | err m => exact rfl
          | ub => exact rfl
          | ok p =>
            obtain ⟨v, w3⟩ := p
            refine ⟨fun x hx => ?_, ?_⟩
            · rw [Regs.set_ne _ _ (by omega), Regs.set_ne _ _ (by omega), b1 x (by omega), a1 x hx]
            · dsimp only
              rw [hf4, show s0.freereg + 2 - (s0.freereg + 1) = 1 from by omega]
              simp only [List.range'_one, List.map_cons, List.map_nil]
              rw [Regs.set_self, Regs.set_ne _ _ (by omega), Regs.set_self]

/-- a call, made with all results: the function, the arguments, and the call -/
theorem call_opened {s0 s1 s : FS} {o : Option OpenCall} {ev1 : Regs → W → Res ((Val × List Val) × W)}
    {ev2 : Regs → W → Res (List Val × W)} (h1 : Head P K s0 s1 ev1) (h2 : GA P K s1 s o ev2)
    (hc : ∀ (R R' : Regs) w, (∀ r, r < s0.freereg → R' r = R r) → ev2 R' w = ev2 R w) :
    ∃ g, Ext P K s0 s g ∧ (s.k <+: K → ∀ R w,
      match g R w with
      | .ok (.fall R' w') => (∀ r, r < s0.freereg → R' r = R r) ∧
          match opened P (some (callOf s s0.freereg o)) R' (s0.freereg + 1) w' with
          | .ok (R2, top, w2) => (∀ r, r < s0.freereg → R2 r = R' r) ∧ ∃ vs, top = s0.freereg + vs.length ∧
              (∀ i, i < vs.length → some (R2 (s0.freereg + i)) = vs[i]?) ∧
              ((ev1 R w).bind fun p => (ev2 R p.2).bind fun q => P.call p.1.1 (p.1.2 ++ q.1) q.2) = .ok (vs, w2)
          | .err m => ((ev1 R w).bind fun p => (ev2 R p.2).bind fun q => P.call p.1.1 (p.1.2 ++ q.1) q.2) = .err m
          | .ub => ((ev1 R w).bind fun p => (ev2 R p.2).bind fun q => P.call p.1.1 (p.1.2 ++ q.1) q.2) = .ub
      | .ok (.exit ..) => False
      | .err m => ((ev1 R w).bind fun p => (ev2 R p.2).bind fun q => P.call p.1.1 (p.1.2 ++ q.1) q.2) = .err m
      | .ub => ((ev1 R w).bind fun p => (ev2 R p.2).bind fun q => P.call p.1.1 (p.1.2 ++ q.1) q.2) = .ub) := by
  obtain ⟨hf, g1, x1, m1⟩ := h1
  obtain ⟨hle, g2, x2, m2⟩ := h2
  refine ⟨_, x1.trans x2, fun hK R w => ?_⟩
  have m1 := m1 (x2.k.trans hK) R w
  cases hg : g1 R w with
  | err m => rw [hg] at m1; rw [show ev1 R w = .err m from m1]; exact rfl
  | ub => rw [hg] at m1; rw [show ev1 R w = .ub from m1]; exact rfl
  | ok o1 =>
    cases o1 with
    | exit j R1 w1 => rw [hg] at m1; exact m1.elim
    | fall R1 w1 =>
      rw [hg] at m1
      obtain ⟨a1, a2⟩ := m1
      have m2 := m2 hK R1 w1
      rw [a2]
      rw [show andThen (Res.ok (Out.fall R1 w1)) g2 = g2 R1 w1 from rfl]
      simp only [Res.bind]
      rw [← hc R R1 w1 a1]
      cases hg2 : g2 R1 w1 with
      | err m => rw [hg2] at m2; rw [show ev2 R1 w1 = .err m from m2]
      | ub => rw [hg2] at m2; rw [show ev2 R1 w1 = .ub from m2]
      | ok o2 =>
        cases o2 with
        | exit j R2 w2 => rw [hg2] at m2; exact m2.elim
        | fall R2 w2 =>
          rw [hg2] at m2
          obtain ⟨b1, b2⟩ := m2
          refine ⟨fun r hr => (b1 r (by omega)).trans (a1 r hr), ?_⟩
          rw [opened_callOf (by omega)]
          cases ho : opened P o R2 s.freereg w2 with
          | err m => rw [ho] at b2; rw [show ev2 R1 w1 = .err m from b2]; exact rfl
          | ub => rw [ho] at b2; rw [show ev2 R1 w1 = .ub from b2]; exact rfl
          | ok p =>
            obtain ⟨R3, top, w3⟩ := p
            rw [ho] at b2
            obtain ⟨c1, c2, c3⟩ := b2
            rw [c3]
            have e0 : R1 s0.freereg = R3 s0.freereg := by
              rw [c1 _ (by omega), b1 _ (by omega)]
            have e1 : (List.range' (s0.freereg + 1) (s1.freereg - (s0.freereg + 1))).map R1 ++
                (List.range' s1.freereg (top - s1.freereg)).map R3 =
                (List.range' (s0.freereg + 1) (top - (s0.freereg + 1))).map R3 := by
              rw [show top - (s0.freereg + 1) = (s1.freereg - (s0.freereg + 1)) + (top - s1.freereg) from by omega,
                ← List.range'_append_1, List.map_append,
                show s0.freereg + 1 + (s1.freereg - (s0.freereg + 1)) = s1.freereg from by omega]
              congr 1
              refine List.map_congr_left fun x hx => ?_
              rw [List.mem_range'_1] at hx
              rw [c1 x (by omega), b1 x (by omega)]
            simp only [Res.bind, callAt]
            rw [e0, e1]
            cases hp : P.call (R3 s0.freereg) ((List.range' (s0.freereg + 1) (top - (s0.freereg + 1))).map R3) w3 with
            | err m => exact rfl
            | ub => exact rfl
            | ok p =>
              obtain ⟨vs, w4⟩ := p
              refine ⟨fun r hr => ?_, vs, rfl, fun i hi => ?_, rfl⟩
              · dsimp only
                rw [if_pos hr, c1 r (by omega)]
              · dsimp only
                rw [if_neg (by omega), Nat.add_sub_cancel_left, List.getD_eq_getElem?_getD,
                  List.getElem?_eq_getElem hi]
                rfl

theorem GA.open {s0 s1 s : FS} {o : Option OpenCall} {ev1 : Regs → W → Res ((Val × List Val) × W)}
    {ev2 ev : Regs → W → Res (List Val × W)} (h1 : Head P K s0 s1 ev1) (h2 : GA P K s1 s o ev2)
    (hc : ∀ (R R' : Regs) w, (∀ r, r < s0.freereg → R' r = R r) → ev2 R' w = ev2 R w)
    (hev : ∀ R w, ev R w = (ev1 R w).bind fun p => (ev2 R p.2).bind fun q => P.call p.1.1 (p.1.2 ++ q.1) q.2) :
    GA P K s0 { s with freereg := s0.freereg + 1 } (some (callOf s s0.freereg o)) ev := by
  obtain ⟨g, x, m⟩ := call_opened h1 h2 hc
  refine ⟨by dsimp only; omega, g, x.trans_skip (Ext.of_same x.wf rfl rfl rfl rfl (List.prefix_refl _)), fun hK R w => ?_⟩
  have m := m hK R w
  rw [hev]
  cases hg : g R w with
  | err e => rw [hg] at m; exact m
  | ub => rw [hg] at m; exact m
  | ok o1 =>
    cases o1 with
    | exit j R1 w1 => rw [hg] at m; exact m.elim
    | fall R1 w1 =>
      rw [hg] at m
      obtain ⟨a1, a2⟩ := m
      refine ⟨a1, ?_⟩
      dsimp only
      cases ho : opened P (some (callOf s s0.freereg o)) R1 (s0.freereg + 1) w1 with
      | err e => rw [ho] at a2; exact a2
      | ub => rw [ho] at a2; exact a2
      | ok p =>
        obtain ⟨R3, top, w3⟩ := p
        rw [ho] at a2
        obtain ⟨b1, vs, rfl, b2, b3⟩ := a2
        refine ⟨b1, by omega, ?_⟩
        rw [b3, Nat.add_sub_cancel_left, map_range'_get vs _ _ b2]

/-- the results of a call in registers -/
theorem results_spec {R : Regs} {b top want : Nat} {w : W} {vs : List Val} (h1 : top = b + vs.length)
    (h2 : ∀ i, i < vs.length → some (R (b + i)) = vs[i]?) :
    (∀ r, r < b → results P R b top want w r = R r) ∧
    ∀ i, i < want → results P R b top want w (b + i) = vs.getD i .nil := by
  refine ⟨fun r hr => if_pos hr, fun i hi => ?_⟩
  unfold results
  rw [if_neg (by omega), if_pos (by omega), List.getD_eq_getElem?_getD]
  by_cases h : i < vs.length
  · rw [if_pos (by omega), ← h2 i h]; rfl
  · rw [if_neg (by omega), List.getElem?_eq_none (by omega)]; rfl

/-- a call with one result -/
theorem call_ext {s0 s1 s : FS} {o : Option OpenCall} {ev1 : Regs → W → Res ((Val × List Val) × W)}
    {ev2 : Regs → W → Res (List Val × W)} (h1 : Head P K s0 s1 ev1) (h2 : GA P K s1 s o ev2)
    (hc : ∀ (R R' : Regs) w, (∀ r, r < s0.freereg → R' r = R r) → ev2 R' w = ev2 R w) :
    ∃ g, Ext P K s0 (endcall s s0.freereg o).1 g ∧ ((endcall s s0.freereg o).1.k <+: K → ∀ R w,
      match g R w with
      | .ok (.fall R' w') => (∀ r, r < s0.freereg → R' r = R r) ∧ ∃ vs,
          ((ev1 R w).bind fun p => (ev2 R p.2).bind fun q => P.call p.1.1 (p.1.2 ++ q.1) q.2) = .ok (vs, w') ∧
          R' s0.freereg = vs.headD .nil
      | .ok (.exit ..) => False
      | .err m => ((ev1 R w).bind fun p => (ev2 R p.2).bind fun q => P.call p.1.1 (p.1.2 ++ q.1) q.2) = .err m
      | .ub => ((ev1 R w).bind fun p => (ev2 R p.2).bind fun q => P.call p.1.1 (p.1.2 ++ q.1) q.2) = .ub) := by
  obtain ⟨g, x, m⟩ := call_opened h1 h2 hc
  have hl := callOf_last s s0.freereg o
  unfold endcall
  generalize hco : callOf s s0.freereg o = co at *
  obtain ⟨a, n, l⟩ := co
  dsimp only at hl ⊢
  have xe := emit_ext (P := P) (K := K) x.wf (i := .call a n l 1) rfl
  refine ⟨_, (x.trans xe).trans_skip (Ext.of_same xe.wf rfl rfl rfl rfl (List.prefix_refl _)), fun hK R w => ?_⟩
  have m := m hK R w
  cases hg : g R w with
  | err e => rw [hg] at m; exact m
  | ub => rw [hg] at m; exact m
  | ok o1 =>
    cases o1 with
    | exit j R1 w1 => rw [hg] at m; exact m.elim
    | fall R1 w1 =>
      rw [hg] at m
      obtain ⟨a1, a2⟩ := m
      rw [show andThen (Res.ok (Out.fall R1 w1)) (execG P K (.call a n l 1)) = execG P K (.call a n l 1) R1 w1 from rfl]
      unfold execG Instr.exec
      dsimp only
      unfold opened at a2
      dsimp only at a2
      cases ho : callChain P a l R1 (a + 1 + n) w1 with
      | err e => rw [ho] at a2; exact a2
      | ub => rw [ho] at a2; exact a2
      | ok p =>
        obtain ⟨R3, top, w3⟩ := p
        rw [ho] at a2
        obtain ⟨b1, vs, c0, b2, b3⟩ := a2
        dsimp only
        rw [hl]
        obtain ⟨c1, c2⟩ := results_spec (P := P) (want := 1) (w := w3) c0 b2
        refine ⟨fun r hr => by rw [c1 r hr, b1 r hr, a1 r hr], vs, b3, ?_⟩
        have := c2 0 (by omega)
        rw [Nat.add_zero] at this
        rw [this]
        cases vs <;> rfl

/-- a list of expressions of which the last one, a call, gives the rest of `n` values -/
theorem multi_ext {s0 s : FS} {a k : Nat} {l : List Nat} {ev : Regs → W → Res (List Val × W)}
    (h : GA P K s0 s (some (a, k, l)) ev) (hl : l.getLastD a + 1 = s.freereg) (n : Nat) (hle : s0.freereg < s.freereg) :
    ∃ g, Ext P K s0 (emit s (.call a k l (s0.freereg + n - (s.freereg - 1)))) g ∧ (s.k <+: K → ∀ R w,
      match g R w with
      | .ok (.fall R' w') => (∀ r, r < s0.freereg → R' r = R r) ∧ ∃ vs, ev R w = .ok (vs, w') ∧
          ∀ i, i < n → R' (s0.freereg + i) = vs.getD i .nil
      | .ok (.exit ..) => False
      | .err m => ev R w = .err m
      | .ub => ev R w = .ub) := by
  obtain ⟨_, g, x, m⟩ := h
  generalize hwn : s0.freereg + n - (s.freereg - 1) = want
  have xe := emit_ext (P := P) (K := K) x.wf (i := .call a k l want) rfl
  refine ⟨_, x.trans xe, fun hK R w => ?_⟩
  have m := m hK R w
  cases hg : g R w with
  | err e => rw [hg] at m; exact m
  | ub => rw [hg] at m; exact m
  | ok o1 =>
    cases o1 with
    | exit j R1 w1 => rw [hg] at m; exact m.elim
    | fall R1 w1 =>
      rw [hg] at m
      obtain ⟨a1, a2⟩ := m
      rw [show andThen (Res.ok (Out.fall R1 w1)) (execG P K (.call a k l want)) = execG P K (.call a k l want) R1 w1 from rfl]
      unfold execG Instr.exec
      dsimp only
      unfold opened at a2
      dsimp only at a2
      cases ho : callChain P a l R1 (a + 1 + k) w1 with
      | err e => rw [ho] at a2; exact a2
      | ub => rw [ho] at a2; exact a2
      | ok p =>
        obtain ⟨R3, top, w3⟩ := p
        rw [ho] at a2
        obtain ⟨b1, b2, b3⟩ := a2
        dsimp only
        refine ⟨fun r hr => ?_, _, b3, fun i hi => ?_⟩
        · unfold results
          rw [if_pos (by omega), b1 r hr, a1 r hr]
        · rw [List.getD_eq_getElem?_getD, List.getElem?_map]
          unfold results
          by_cases hi2 : s0.freereg + i < l.getLastD a
          · have htop := callChain_top ho
            rw [if_pos hi2, List.getElem?_range' (by omega)]
            simp
          · rw [if_neg hi2, if_pos (by omega)]
            by_cases ht : s0.freereg + i < top
            · rw [if_pos ht, List.getElem?_range' (by omega)]
              simp
            · rw [if_neg ht, List.getElem?_eq_none (by simp; omega)]
              rfl

theorem evalArgs_local {n : Nat} {R R' : Regs} (h : ∀ r, r < n → R' r = R r) (as : E) (hok : as.ok n) (w : W) :
    evalArgs P R' as w = evalArgs P R as w :=
  evalArgs_congr as (fun a ha w => eval_congr h a (ok_args as hok a ha) w) w

/-- the arguments, given that the expressions in them are compiled right -/
theorem genArgs_ga : ∀ (as : E), (∀ a ∈ as.args, ∀ (s0 s : FS) (d : D), gen P.F true a s0 = .ok (s, d) → WF s0 →
      s0.nactvar ≤ s0.freereg → a.ok s0.nactvar → GS P K s0 s d (fun R w => eval P R a w)) →
    ∀ (s0 s : FS) (o : Option OpenCall), genArgs P.F true as s0 = .ok (s, o) → WF s0 →
    s0.nactvar ≤ s0.freereg → as.ok s0.nactvar → GA P K s0 s o (fun R w => evalArgs P R as w) ∧ s.freereg = s0.freereg + as.exps := by
  intro as
  induction as using E.indArgs with
  | anil =>
    intro _ s0 s o h hw hna hok
    simp only [genArgs] at h
    cases h
    refine ⟨⟨Nat.le_refl _, _, Ext.refl hw, fun hK R w => ⟨fun _ _ => rfl, ⟨fun _ _ => rfl, Nat.le_refl _, ?_⟩⟩⟩, rfl⟩
    rw [Nat.sub_self]
    simp only [evalArgs]
    rfl
  | acons a r ih =>
    intro hi s0 s o h hw hna hok
    simp only [genArgs] at h
    obtain ⟨⟨s1, d1⟩, e1, h⟩ := Res.bind_eq_ok.1 h
    obtain ⟨⟨s2, d2, b⟩, e2, h⟩ := Res.bind_eq_ok.1 h
    obtain ⟨_, hn⟩ := gs_next (hi a (by simp [E.args]) _ _ _ e1 hw hna hok.1) hna e2
    obtain ⟨hf, g, x, _⟩ := id hn
    obtain ⟨hga, hfr⟩ := ih (fun a ha => hi a (by simp [E.args, ha])) _ _ _ h x.wf (by rw [x.nact]; dsimp only; omega) (by rw [x.nact]; exact hok.2)
    refine ⟨GA.cons hn hga (fun R R' w hR => evalArgs_local (fun r hr => hR r (by omega)) r hok.2 w) fun R w => ?_,
      by rw [hfr, hf]; simp only [E.exps]; omega⟩
    simp only [evalArgs]
    cases eval P R a w with
    | ok p =>
      simp only [Res.bind_ok, Res.bind]
      cases evalArgs P R r p.2 <;> rfl
    | err m => rfl
    | ub => rfl
  | aopen f as ih =>
    intro hi s0 s o h hw hna hok
    simp only [genArgs] at h
    obtain ⟨⟨s1, d1⟩, e1, h⟩ := Res.bind_eq_ok.1 h
    obtain ⟨⟨s2, d2, b⟩, e2, h⟩ := Res.bind_eq_ok.1 h
    obtain ⟨⟨s3, o3⟩, e3, h⟩ := Res.bind_eq_ok.1 h
    cases h
    obtain ⟨rfl, hn⟩ := gs_next (hi f (by simp [E.args]) _ _ _ e1 hw hna hok.1) hna e2
    obtain ⟨hf, g, x, _⟩ := id hn
    obtain ⟨hga, hfr⟩ := ih (fun a ha => hi a (by simp [E.args, ha])) _ _ _ e3 x.wf (by rw [x.nact]; dsimp only; omega) (by rw [x.nact]; exact hok.2)
    refine ⟨GA.open hn.head hga (fun R R' w hR => evalArgs_local (fun r hr => hR r (by omega)) as hok.2 w) fun R w => ?_, rfl⟩
    simp only [evalArgs]
    cases eval P R f w with
    | ok p =>
      simp only [Res.bind_ok, Res.bind]
      cases evalArgs P R as p.2 <;> rfl
    | err m => rfl
    | ub => rfl
  | amopen e k as ih =>
    intro hi s0 s o h hw hna hok
    simp only [genArgs] at h
    obtain ⟨⟨s1, d1⟩, e1, h⟩ := Res.bind_eq_ok.1 h
    dsimp only at h
    obtain ⟨⟨s2, b⟩, e2, h⟩ := Res.bind_eq_ok.1 h
    obtain ⟨⟨s3, o3⟩, e3, h⟩ := Res.bind_eq_ok.1 h
    cases h
    obtain ⟨rfl, hf, hn⟩ := self_head (hi e (by simp [E.args]) _ _ _ e1 hw hna hok.1) hna e2
    obtain ⟨_, g, x, _⟩ := id hn
    obtain ⟨hga, hfr⟩ := ih (fun a ha => hi a (by simp [E.args, ha])) _ _ _ e3 x.wf (by rw [x.nact]; dsimp only; omega) (by rw [x.nact]; exact hok.2)
    refine ⟨GA.open hn hga (fun R R' w hR => evalArgs_local (fun r hr => hR r (by omega)) as hok.2 w) fun R w => ?_, rfl⟩
    simp only [evalArgs]
    cases eval P R e w with
    | ok p =>
      simp only [Res.bind_ok, Res.bind]
      cases P.index p.1 (.str k) p.2 with
      | ok f =>
        simp only [Res.bind_ok]
        cases evalArgs P R as f.2 <;> rfl
      | err m => rfl
      | ub => rfl
    | err m => rfl
    | ub => rfl
  | other e h1 h2 h3 h4 =>
    intro _ s0 s o h
    exfalso
    cases e <;> first | exact h1 rfl | exact h2 _ _ rfl | exact h3 _ _ rfl | exact h4 _ _ _ rfl | (simp only [genArgs] at h; cases h)

/-- the registers of a list of expressions -/
theorem genArgs_free {F : FOps} {fixed : Bool} : ∀ (as : E) (s0 s : FS) (o : Option OpenCall), genArgs F fixed as s0 = .ok (s, o) →
    ∀ c, o = some c → c.2.2.getLastD c.1 + 1 = s.freereg := by
  intro as
  induction as using E.indArgs with
  | anil => intro s0 s o h c hc; simp only [genArgs] at h; cases h; cases hc
  | acons a r ih =>
    intro s0 s o h c hc
    simp only [genArgs] at h
    obtain ⟨⟨s1, d1⟩, e1, h⟩ := Res.bind_eq_ok.1 h
    obtain ⟨⟨s2, d2, b⟩, e2, h⟩ := Res.bind_eq_ok.1 h
    exact ih _ _ _ h c hc
  | aopen f as ih =>
    intro s0 s o h c hc
    simp only [genArgs] at h
    obtain ⟨⟨s1, d1⟩, e1, h⟩ := Res.bind_eq_ok.1 h
    obtain ⟨⟨s2, d2, b⟩, e2, h⟩ := Res.bind_eq_ok.1 h
    obtain ⟨⟨s3, o3⟩, e3, h⟩ := Res.bind_eq_ok.1 h
    cases h
    cases hc
    rw [callOf_last]
  | amopen f k as ih =>
    intro s0 s o h c hc
    simp only [genArgs] at h
    obtain ⟨⟨s1, d1⟩, e1, h⟩ := Res.bind_eq_ok.1 h
    dsimp only at h
    obtain ⟨⟨s2, b⟩, e2, h⟩ := Res.bind_eq_ok.1 h
    obtain ⟨⟨s3, o3⟩, e3, h⟩ := Res.bind_eq_ok.1 h
    cases h
    cases hc
    rw [callOf_last]
  | other e h1 h2 h3 h4 =>
    intro s0 s o h
    exfalso
    cases e <;> first | exact h1 rfl | exact h2 _ _ rfl | exact h3 _ _ rfl | exact h4 _ _ _ rfl | (simp only [genArgs] at h; cases h)

end Verif.ExpCode
