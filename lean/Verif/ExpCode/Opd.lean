import Verif.ExpCode.Exp2reg
/-! Operands: which registers they take, and their values. -/
namespace Verif.ExpCode
variable {W : Type} {P : Ops W} {K : List Val}

/-- `r` is a local variable, or the first free register, which is then taken -/
def TempAt (nact n0 r n1 : Nat) : Prop := (r < nact ∧ n1 = n0) ∨ (r = n0 ∧ n1 = n0 + 1)

def RKAt (nact n0 : Nat) (x : RK) (n1 : Nat) : Prop :=
  match x with
  | .reg r => TempAt nact n0 r n1
  | .const _ => n1 = n0

/-- the registers a descriptor takes, above `n0` -/
def Acc (nact n0 : Nat) (s : FS) (kind : Kind) : Prop :=
  match kind with
  | .nonreloc r => TempAt nact n0 r s.freereg
  | .loc r => r < nact ∧ s.freereg = n0
  | .indexed t x => ∃ m, TempAt nact n0 t m ∧ RKAt nact m x s.freereg
  | .indexup _ x => RKAt nact n0 x s.freereg
  | .reloc pc => s.freereg = n0 ∧ ∀ a b c, s.code[pc]? = some (.set a (.concat b c)) → b = n0 ∧ b ≤ c
  | _ => s.freereg = n0

/-- constants of descriptors are true -/
def KInv (s : FS) (kind : Kind) : Prop :=
  match kind with
  | .k i => ∃ v, s.k[i]? = some v ∧ v.truthy = true
  | _ => True

theorem Spec.nact {keep : Nat → Prop} {s0 s : FS} {d : D} {ev : Regs → W → Res (Val × W)} {q : FS}
    {sem : Regs → W → Res (Val × W)} {g : Regs → W → Res (Out W)} (hs : Spec P K keep s0 s d ev q sem g) :
    s.nactvar = s0.nactvar := (pre_k hs.pre).2.2.symm.trans hs.ext.nact

theorem Spec.k {keep : Nat → Prop} {s0 s : FS} {d : D} {ev : Regs → W → Res (Val × W)} {q : FS}
    {sem : Regs → W → Res (Val × W)} {g : Regs → W → Res (Out W)} (hs : Spec P K keep s0 s d ev q sem g) :
    s0.k <+: s.k := by rw [← (pre_k hs.pre).1]; exact hs.ext.k

theorem freeReg_freereg {nact n0 r : Nat} {s : FS} (hs : s.nactvar = nact) (hna : nact ≤ n0)
    (h : TempAt nact n0 r s.freereg) : (freeReg s r).freereg = n0 := by
  unfold freeReg
  rcases h with ⟨h1, h2⟩ | ⟨h1, h2⟩
  · rw [if_neg (by omega)]; exact h2
  · rw [if_pos (by omega)]
    show s.freereg - 1 = n0
    omega

theorem freeReg_nact (s : FS) (r : Nat) : (freeReg s r).nactvar = s.nactvar := by
  unfold freeReg; split <;> rfl

theorem freeRK_nact (s : FS) (x : RK) : (freeRK s x).nactvar = s.nactvar := by
  cases x
  · exact freeReg_nact ..
  · rfl

theorem freeRK_freereg {nact n0 : Nat} {x : RK} {s : FS} (hs : s.nactvar = nact) (hna : nact ≤ n0)
    (h : RKAt nact n0 x s.freereg) : (freeRK s x).freereg = n0 := by
  cases x with
  | reg r => exact freeReg_freereg hs hna h
  | const i => exact h

theorem TempAt.le {nact n0 r n1 : Nat} (h : TempAt nact n0 r n1) : n0 ≤ n1 := by
  rcases h with ⟨_, h⟩ | ⟨_, h⟩ <;> omega

theorem TempAt.lt {nact n0 r n1 : Nat} (h : TempAt nact n0 r n1) (hn : nact ≤ n0) : r < n1 := by
  rcases h with ⟨_, h⟩ | ⟨_, h⟩ <;> omega

theorem RKAt.le {nact n0 : Nat} {x : RK} {n1 : Nat} (h : RKAt nact n0 x n1) : n0 ≤ n1 := by
  cases x with
  | reg r => exact TempAt.le h
  | const i => exact Nat.le_of_eq h.symm

theorem emit_getElem (s : FS) (i : Instr) : (emit s i).code[s.pc]? = some i := by
  rw [emit_eq]
  unfold addCode FS.pc
  dsimp only
  rw [← dischargejpc_length s]
  simp

theorem emit_same (s : FS) (i : Instr) : (emit s i).freereg = s.freereg ∧ (emit s i).nactvar = s.nactvar := ⟨rfl, rfl⟩

theorem acc_emit {nact n0 : Nat} {s : FS} {x : Src} (h : s.freereg = n0) (hx : ∀ b c, x ≠ .concat b c) :
    Acc nact n0 (emit s (.set 0 x)) (.reloc s.pc) := by
  refine ⟨h, fun a b c e => ?_⟩
  rw [emit_getElem] at e
  cases e
  exact absurd rfl (hx b c)

theorem dischargevars_acc {nact n0 : Nat} {s : FS} {d : D} (hs : s.nactvar = nact) (hna : nact ≤ n0)
    (h : Acc nact n0 s d.kind) : Acc nact n0 (dischargevars s d).1 (dischargevars s d).2.kind := by
  unfold dischargevars
  cases hk : d.kind with
  | loc r => rw [hk] at h; exact Or.inl h
  | up u => rw [hk] at h; exact acc_emit h (fun _ _ e => nomatch e)
  | indexed t x =>
    rw [hk] at h
    obtain ⟨m, h1, h2⟩ := h
    refine acc_emit ?_ (fun _ _ e => nomatch e)
    have : (freeRK s x).freereg = m := freeRK_freereg hs (by have := h1.le; omega) h2
    exact freeReg_freereg (by rw [freeRK_nact]; exact hs) hna (by rw [this]; exact h1)
  | indexup u x =>
    rw [hk] at h
    refine acc_emit ?_ (fun _ _ e => nomatch e)
    exact freeRK_freereg hs hna h
  | _ => simp only [hk]; rw [hk] at h; exact h

/-- the registers of a descriptor that is no variable -/
theorem acc_disch {nact n0 : Nat} {s : FS} {kind : Kind} (hd : kind.disch = true) (h : Acc nact n0 s kind) :
    (∃ r, kind = .nonreloc r ∧ TempAt nact n0 r s.freereg) ∨ ((∀ r, kind ≠ .nonreloc r) ∧ s.freereg = n0) := by
  cases kind with
  | nonreloc r => exact Or.inl ⟨r, rfl, h⟩
  | reloc pc => exact Or.inr ⟨(fun _ e => nomatch e), h.1⟩
  | loc _ => cases hd
  | up _ => cases hd
  | indexed _ _ => cases hd
  | indexup _ _ => cases hd
  | _ => exact Or.inr ⟨(fun _ e => nomatch e), h⟩

theorem freeexp_freereg {nact n0 : Nat} {s : FS} {d : D} (hs : s.nactvar = nact) (hna : nact ≤ n0)
    (hd : d.kind.disch = true) (h : Acc nact n0 s d.kind) : (freeexp s d).freereg = n0 := by
  unfold freeexp
  rcases acc_disch hd h with ⟨r, e, h1⟩ | ⟨h1, h2⟩
  · rw [e]; exact freeReg_freereg hs hna h1
  · split
    · rename_i r e; exact absurd e (h1 r)
    · exact h2

theorem freeexp_same (s : FS) (d : D) : (freeexp s d).code = s.code ∧ (freeexp s d).k = s.k ∧
    (freeexp s d).nactvar = s.nactvar ∧ (freeexp s d).jpc = s.jpc := by
  unfold freeexp
  split
  · unfold freeReg; split <;> exact ⟨rfl, rfl, rfl, rfl⟩
  · exact ⟨rfl, rfl, rfl, rfl⟩

/-- the descriptor does not depend on the number of free registers -/
theorem pre_freereg {s : FS} {kind : Kind} {q : FS} {sem : Regs → W → Res (Val × W)} (h : Pre P K s kind q sem)
    (n : Nat) : Pre P K { s with freereg := n } kind { q with freereg := n } sem := by
  cases kind with
  | reloc pc => obtain ⟨x, rfl, h1, h2, h3⟩ := h; exact ⟨x, rfl, h1, h2, h3⟩
  | jmp j => obtain ⟨o, a, x, y, rfl, h1, h2, h3⟩ := h; exact ⟨o, a, x, y, rfl, h1, h2, h3⟩
  | k i => obtain ⟨rfl, h1, h2⟩ := h; exact ⟨rfl, h1, h2⟩
  | _ => obtain ⟨rfl, h1⟩ := h; exact ⟨rfl, h1⟩

theorem Spec.freereg {keep : Nat → Prop} {s0 s : FS} {d : D} {ev : Regs → W → Res (Val × W)} {q : FS}
    {sem : Regs → W → Res (Val × W)} {g : Regs → W → Res (Out W)} (hs : Spec P K keep s0 s d ev q sem g)
    (n : Nat) : Spec P K keep s0 { s with freereg := n } d ev { q with freereg := n } sem g :=
  hs.same (pre_freereg hs.pre n) (Ext.of_same hs.ext.wf rfl rfl rfl rfl (List.prefix_refl _)) (List.prefix_refl _)
    rfl rfl

theorem freeexp_eq (s : FS) (d : D) : freeexp s d = { s with freereg := (freeexp s d).freereg } := by
  unfold freeexp
  split
  · unfold freeReg; split <;> rfl
  · rfl

theorem reserve_lt {s s' : FS} {n : Nat} (h : reserve s n = .ok s') : s'.freereg = s.freereg + n := by
  rw [reserve_ok h]

theorem exp2nextreg_spec {keep : Nat → Prop} {s0 s : FS} {d : D} {ev : Regs → W → Res (Val × W)} {q : FS}
    {sem : Regs → W → Res (Val × W)} {g : Regs → W → Res (Out W)} {n0 : Nat}
    (hs : Spec P K keep s0 s d ev q sem g) (hn : ¬ keep n0) (hna : s0.nactvar ≤ n0)
    (ha : Acc s0.nactvar n0 s d.kind) {s' : FS} {d' : D} {r : Nat} (h : exp2nextreg s d = .ok (s', d', r)) :
    r = n0 ∧ s'.freereg = n0 + 1 ∧ d'.kind = .nonreloc n0 ∧ d'.t = [] ∧ d'.f = [] ∧ s.k <+: s'.k ∧
    ∃ g', Spec P K keep s0 s' d' ev s' (regSem n0) g' := by
  obtain ⟨h1, h2, h3, h4, q1, h5, _⟩ := dischargevars_spec hs
  have ha1 := dischargevars_acc hs.nact hna ha
  unfold exp2nextreg at h
  generalize dischargevars s d = x at *
  obtain ⟨s1, d1⟩ := x
  dsimp only at *
  obtain ⟨s2, e2, h⟩ := Res.bind_eq_ok.1 h
  have hf := freeexp_freereg h5.nact hna h1 ha1
  have hr := reserve_ok e2
  rw [freeexp_eq, hf] at hr
  dsimp only at hr
  have hs2 : Spec P K keep s0 s2 d1 ev { q1 with freereg := n0 + 1 } sem g := by
    rw [hr]; exact h5.freereg (n0 + 1)
  have hfr : s2.freereg = n0 + 1 := by rw [hr]
  have hk2 : s2.k = s1.k := by rw [hr]
  have hreg : s2.freereg - 1 = n0 := by omega
  rw [hreg] at h
  obtain ⟨y1, y2, y3, g', y4⟩ := exp2reg_spec hs2 h1 hn
  generalize exp2reg s2 d1 n0 = x at *
  obtain ⟨s3, d3⟩ := x
  dsimp only at *
  cases h
  subst y1
  exact ⟨rfl, y3.trans hfr, rfl, rfl, rfl, by rw [← hk2] at h4; exact h4.trans y2, g', y4⟩

theorem exp2anyreg_spec {keep : Nat → Prop} {s0 s : FS} {d : D} {ev : Regs → W → Res (Val × W)} {q : FS}
    {sem : Regs → W → Res (Val × W)} {g : Regs → W → Res (Out W)} {n0 : Nat}
    (hs : Spec P K keep s0 s d ev q sem g) (hn : ¬ keep n0) (hna : s0.nactvar ≤ n0)
    (ha : Acc s0.nactvar n0 s d.kind) {s' : FS} {d' : D} {r : Nat} (h : exp2anyreg s d = .ok (s', d', r)) :
    TempAt s0.nactvar n0 r s'.freereg ∧ d'.kind = .nonreloc r ∧ d'.t = [] ∧ d'.f = [] ∧ s.k <+: s'.k ∧
    ∃ g', Spec P K keep s0 s' d' ev s' (regSem r) g' := by
  obtain ⟨h1, h2, h3, h4, q1, h5, _⟩ := dischargevars_spec hs
  have ha1 := dischargevars_acc hs.nact hna ha
  unfold exp2anyreg at h
  generalize dischargevars s d = x at *
  obtain ⟨s1, d1⟩ := x
  dsimp only at *
  have next : exp2nextreg s1 d1 = .ok (s', d', r) → TempAt s0.nactvar n0 r s'.freereg ∧ d'.kind = .nonreloc r ∧
      d'.t = [] ∧ d'.f = [] ∧ s.k <+: s'.k ∧ ∃ g', Spec P K keep s0 s' d' ev s' (regSem r) g' := by
    intro e
    obtain ⟨y1, y2, y3, y4, y5, y6, y7⟩ := exp2nextreg_spec h5 hn hna ha1 e
    subst y1
    exact ⟨Or.inr ⟨rfl, y2⟩, y3, y4, y5, h4.trans y6, y7⟩
  split at h
  · rename_i r1 hk
    rw [hk] at ha1
    split at h
    · rename_i hj
      cases h
      have hj' : d'.t = [] ∧ d'.f = [] := by simpa [D.hasjumps] using hj
      refine ⟨ha1, hk, hj'.1, hj'.2, h4, g, ?_⟩
      have hp := h5.pre
      rw [hk] at hp
      obtain ⟨rfl, rfl⟩ := hp
      exact h5
    · split at h
      · rename_i hge
        rw [h5.nact] at hge
        have hr1 : r1 = n0 ∧ s1.freereg = n0 + 1 := by
          rcases ha1 with ⟨x1, x2⟩ | h
          · omega
          · exact h
        obtain ⟨rfl, hfr⟩ := hr1
        obtain ⟨y1, y2, y3, g', y4⟩ := exp2reg_spec h5 h1 hn
        generalize exp2reg s1 d1 r1 = x at *
        obtain ⟨s3, d3⟩ := x
        dsimp only at *
        cases h
        subst y1
        exact ⟨Or.inr ⟨rfl, y3.trans hfr⟩, rfl, rfl, rfl, h4.trans y2, g', y4⟩
      · exact next h
  · exact next h

theorem exp2val_spec {keep : Nat → Prop} {s0 s : FS} {d : D} {ev : Regs → W → Res (Val × W)} {q : FS}
    {sem : Regs → W → Res (Val × W)} {g : Regs → W → Res (Out W)} {n0 : Nat}
    (hs : Spec P K keep s0 s d ev q sem g) (hn : ¬ keep n0) (hna : s0.nactvar ≤ n0)
    (ha : Acc s0.nactvar n0 s d.kind) {s' : FS} {d' : D} (h : exp2val s d = .ok (s', d')) :
    Acc s0.nactvar n0 s' d'.kind ∧ d'.kind.disch = true ∧ d'.t = [] ∧ d'.f = [] ∧ s.k <+: s'.k ∧
    ∃ q' sem' g', Spec P K keep s0 s' d' ev q' sem' g' := by
  unfold exp2val at h
  split at h
  · obtain ⟨⟨s1, d1, r⟩, e1, h⟩ := Res.bind_eq_ok.1 h
    obtain ⟨y1, y2, y3, y4, y5, g', y6⟩ := exp2anyreg_spec hs hn hna ha e1
    cases h
    exact ⟨by rw [y2]; exact y1, by rw [y2]; rfl, y3, y4, y5, _, _, g', y6⟩
  · rename_i hj
    have hj' : d.t = [] ∧ d.f = [] := by simpa [D.hasjumps] using hj
    obtain ⟨h1, h2, h3, h4, q1, h5, _⟩ := dischargevars_spec hs
    have ha1 := dischargevars_acc hs.nact hna ha
    generalize dischargevars s d = x at *
    cases h
    exact ⟨ha1, h1, h2.trans hj'.1, h3.trans hj'.2, h4, q1, sem, g, h5⟩

/-- an operand with its value -/
structure Opd (P : Ops W) (K : List Val) (keep : Nat → Prop) (s0 s : FS) (v : Regs → Val)
    (ev : Regs → W → Res (Val × W)) (g : Regs → W → Res (Out W)) : Prop where
  ext : Ext P K s0 s g
  mat : s.k <+: K → ∀ R w, Match keep [] [] [] (fun R w => .ok (v R, w)) R (ev R w) (g R w)

theorem Match.nil {keep : Nat → Prop} {c c' : List Instr} {sem : Regs → W → Res (Val × W)} {R : Regs}
    {ev : Res (Val × W)} {o : Res (Out W)} (h : Match keep c [] [] sem R ev o) : Match keep c' [] [] sem R ev o := by
  rcases o with ⟨⟨R', w'⟩ | ⟨j, R', w'⟩⟩ | m | _
  · exact h
  · obtain ⟨_, v, _, h3, _⟩ := h
    have := mem_lists h3
    cases this
  · exact h
  · exact h

theorem Spec.opd {keep : Nat → Prop} {s0 s : FS} {d : D} {ev : Regs → W → Res (Val × W)} {r : Nat}
    {g : Regs → W → Res (Out W)} (hs : Spec P K keep s0 s d ev s (regSem r) g) (ht : d.t = []) (hf : d.f = []) :
    Opd P K keep s0 s (fun R => R r) ev g := by
  refine ⟨hs.ext, fun hK R w => ?_⟩
  have := hs.mat hK R w
  rw [ht, hf] at this
  exact this.nil

/-- a descriptor that is an operand -/
def Fits (d : D) (rk : RK) : Prop :=
  d.t = [] ∧ d.f = [] ∧ match rk with
    | .reg r => d.kind = .nonreloc r
    | .const i => d.kind = .k i ∧ i ≤ 127

theorem addK_pre {s : FS} {v : Val} :
    Pre P K (addK s v).1 (.k (addK s v).2) (addK s v).1 (fun _ w => .ok (K.getD (addK s v).2 .nil, w)) :=
  ⟨rfl, (List.getElem?_eq_some_iff.1 (addK_spec s v).2).1, rfl⟩

theorem constOf_spec {keep : Nat → Prop} {s0 s : FS} {d : D} {ev : Regs → W → Res (Val × W)} {q : FS}
    {sem : Regs → W → Res (Val × W)} {g : Regs → W → Res (Out W)}
    (hs : Spec P K keep s0 s d ev q sem g) {s1 : FS} {i : Nat} (h : constOf s d = some (s1, i)) :
    s1.freereg = s.freereg ∧ s.k <+: s1.k ∧ i < s1.k.length ∧
    Spec P K keep s0 s1 { d with kind := .k i } ev s1 (fun _ w => .ok (K.getD i .nil, w)) g := by
  have add : ∀ v, (∀ R w, sem R w = .ok (v, w)) → q = s → some (addK s v) = some (s1, i) →
      s1.freereg = s.freereg ∧ s.k <+: s1.k ∧ i < s1.k.length ∧
      Spec P K keep s0 s1 { d with kind := .k i } ev s1 (fun _ w => .ok (K.getD i .nil, w)) g := by
    intro v hv hq e
    subst hq
    have e' := Option.some.inj e
    have h1 := addK_spec q v
    have h2 := addK_same q v
    have h3 := addK_ext (P := P) (K := K) hs.ext.wf v
    rw [e'] at h1 h2 h3
    dsimp only at h1 h2 h3
    have hi := (List.getElem?_eq_some_iff.1 h1.2).1
    refine ⟨h2.2.2.2.2, h1.1, hi, ?_⟩
    have := hs.next (s' := s1) (q' := s1) (d' := { d with kind := .k i })
      (sem' := fun _ w => .ok (K.getD i .nil, w)) ⟨rfl, hi, rfl⟩ h3 h1.1 rfl rfl
      (fun hK R R' w' ha => ⟨ha, by rw [hv, prefix_getD hK h1.2]⟩)
    have e : (fun R w => andThen (g R w) skipG) = g := by funext R w; exact andThen_fall _
    rwa [e] at this
  have hp := hs.pre
  unfold constOf at h
  cases hk : d.kind with
  | tru => rw [hk] at h hp; exact add _ (fun R w => by rw [hp.2]) hp.1 h
  | fls => rw [hk] at h hp; exact add _ (fun R w => by rw [hp.2]) hp.1 h
  | nil => rw [hk] at h hp; exact add _ (fun R w => by rw [hp.2]) hp.1 h
  | kint x => rw [hk] at h hp; exact add _ (fun R w => by rw [hp.2]) hp.1 h
  | kflt x => rw [hk] at h hp; exact add _ (fun R w => by rw [hp.2]) hp.1 h
  | k j =>
    rw [hk] at h hp
    obtain ⟨rfl, h1, rfl⟩ := hp
    cases h
    exact ⟨rfl, List.prefix_refl _, h1, hs.same ⟨rfl, h1, rfl⟩ (Ext.refl hs.ext.wf) (List.prefix_refl _) rfl rfl⟩
  | _ => rw [hk] at h; cases h

theorem constOf_disch {nact n0 : Nat} {s s1 : FS} {d : D} {i : Nat} (ha : Acc nact n0 s d.kind)
    (h : constOf s d = some (s1, i)) : s.freereg = n0 := by
  unfold constOf at h
  cases hk : d.kind with
  | tru => rw [hk] at ha; exact ha
  | fls => rw [hk] at ha; exact ha
  | nil => rw [hk] at ha; exact ha
  | kint x => rw [hk] at ha; exact ha
  | kflt x => rw [hk] at ha; exact ha
  | k j => rw [hk] at ha; exact ha
  | _ => rw [hk] at h; cases h

theorem exp2RK_spec {keep : Nat → Prop} {s0 s : FS} {d : D} {ev : Regs → W → Res (Val × W)} {q : FS}
    {sem : Regs → W → Res (Val × W)} {g : Regs → W → Res (Out W)} {n0 : Nat}
    (hs : Spec P K keep s0 s d ev q sem g) (hn : ¬ keep n0) (hna : s0.nactvar ≤ n0)
    (ha : Acc s0.nactvar n0 s d.kind) {s' : FS} {d' : D} {rk : RK} (h : exp2RK s d = .ok (s', d', rk)) :
    RKAt s0.nactvar n0 rk s'.freereg ∧ Fits d' rk ∧ s.k <+: s'.k ∧ s'.nactvar = s0.nactvar ∧
    (∀ i, rk = .const i → i < s'.k.length) ∧
    ∃ g', Opd P K keep s0 s' (fun R => rk.get K R) ev g' := by
  unfold exp2RK at h
  obtain ⟨⟨s1, d1⟩, e1, h⟩ := Res.bind_eq_ok.1 h
  obtain ⟨x1, x2, x3, x4, x5, q1, sem1, g1, x6⟩ := exp2val_spec hs hn hna ha e1
  dsimp only at h
  split at h
  · rename_i s2 i hc
    obtain ⟨c1, c2, c3, c4⟩ := constOf_spec x6 hc
    have hfr := constOf_disch x1 hc
    split at h
    · rename_i hi
      cases h
      refine ⟨c1.trans hfr, ⟨x3, x4, rfl, hi⟩, x5.trans c2, c4.nact, fun j e => by cases e; exact c3, g1, c4.ext, ?_⟩
      intro hK R w
      have := c4.mat hK R w
      dsimp only at this
      rw [x3, x4] at this
      exact this.nil
    · obtain ⟨⟨s3, d3, r⟩, e3, h⟩ := Res.bind_eq_ok.1 h
      obtain ⟨y1, y2, y3, y4, y5, g', y6⟩ := exp2anyreg_spec (n0 := n0) c4 hn hna (c1.trans hfr) e3
      cases h
      exact ⟨y1, ⟨y3, y4, y2⟩, x5.trans (c2.trans y5), y6.nact, (fun j e => nomatch e), g', y6.opd y3 y4⟩
  · obtain ⟨⟨s3, d3, r⟩, e3, h⟩ := Res.bind_eq_ok.1 h
    obtain ⟨y1, y2, y3, y4, y5, g', y6⟩ := exp2anyreg_spec (n0 := n0) x6 hn hna x1 e3
    cases h
    exact ⟨y1, ⟨y3, y4, y2⟩, x5.trans y5, y6.nact, (fun j e => nomatch e), g', y6.opd y3 y4⟩

end Verif.ExpCode
