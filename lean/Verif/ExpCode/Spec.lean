import Verif.ExpCode.Ext
/-! What an expression descriptor means, and loading it into a register. -/
namespace Verif.ExpCode
open Verif.Float (Num)
variable {W : Type} {P : Ops W} {K : List Val}

/-- the value of a comparison -/
def relSem (P : Ops W) (K : List Val) (o : Rel) (a : Bool) (x y : RK) (R : Regs) (w : W) : Res (Val × W) :=
  match P.rel o (x.get K R) (y.get K R) w with
  | .ok (r, w) => .ok (.bool (r == a), w)
  | .err m => .err m
  | .ub => .ub

/-- `q` is the state before the instructions that belong to the descriptor itself, `sem` its value there -/
def Pre (P : Ops W) (K : List Val) (s : FS) (kind : Kind) (q : FS) (sem : Regs → W → Res (Val × W)) : Prop :=
  match kind with
  | .nil => q = s ∧ sem = fun _ w => .ok (.nil, w)
  | .tru => q = s ∧ sem = fun _ w => .ok (.bool true, w)
  | .fls => q = s ∧ sem = fun _ w => .ok (.bool false, w)
  | .k i => q = s ∧ i < s.k.length ∧ sem = fun _ w => .ok (K.getD i .nil, w)
  | .kflt x => q = s ∧ sem = fun _ w => .ok (.num (.flt x), w)
  | .kint i => q = s ∧ sem = fun _ w => .ok (.num (.int i), w)
  | .nonreloc r | .loc r => q = s ∧ sem = fun R w => .ok (R r, w)
  | .up u => q = s ∧ sem = fun _ w => .ok (P.up u w, w)
  | .indexed t x => q = s ∧ sem = fun R w => P.index (R t) (x.get K R) w
  | .indexup u x => q = s ∧ sem = fun R w => P.index (P.up u w) (x.get K R) w
  | .reloc pc => ∃ x, s = addCode q [.set 0 x] ∧ pc = q.code.length ∧ q.jpc = [] ∧ sem = x.value P K
  | .jmp j => ∃ o a x y, s = addCode q [.rel o a x y, .jmp none] ∧ j = q.code.length + 1 ∧ q.jpc = [] ∧
      sem = relSem P K o a x y

/-- the value when the jump at `j` is taken: in the register that its `TESTSET` tests, or else a boolean -/
def JV (c : List Instr) (j : Nat) (R : Regs) (v : Val) : Prop :=
  match ctl c j with
  | some b => R b = v
  | none => v = .bool v.truthy

/-- an outcome stands for the value `ev`; registers in `keep` have not changed since `R` -/
def Match (keep : Nat → Prop) (c : List Instr) (t f : List Nat) (sem : Regs → W → Res (Val × W)) (R : Regs)
    (ev : Res (Val × W)) (o : Res (Out W)) : Prop :=
  match o with
  | .ok (.fall R' w') => (∀ r, keep r → R' r = R r) ∧ sem R' w' = ev
  | .ok (.exit j R' w') => (∀ r, keep r → R' r = R r) ∧
      ∃ v, ev = .ok (v, w') ∧ (j ∈ if v.truthy then t else f) ∧ JV c j R' v
  | .err m => ev = .err m
  | .ub => ev = .ub

/-- the descriptor `d` in state `s` stands for `ev`, evaluated in state `s0` -/
structure Spec (P : Ops W) (K : List Val) (keep : Nat → Prop) (s0 s : FS) (d : D)
    (ev : Regs → W → Res (Val × W)) (q : FS) (sem : Regs → W → Res (Val × W))
    (g : Regs → W → Res (Out W)) : Prop where
  pre : Pre P K s d.kind q sem
  ext : Ext P K s0 q g
  mat : s.k <+: K → ∀ R w, Match keep q.code d.t d.f sem R (ev R w) (g R w)
  pend : ∀ j ∈ d.t ++ d.f, Pend q j ∧ s0.code.length ≤ j
  nodup : (d.t ++ d.f).Nodup

theorem pre_k {s : FS} {kind : Kind} {q : FS} {sem : Regs → W → Res (Val × W)} (h : Pre P K s kind q sem) :
    q.k = s.k ∧ q.freereg = s.freereg ∧ q.nactvar = s.nactvar := by
  cases kind with
  | reloc pc => obtain ⟨x, rfl, _⟩ := h; exact ⟨rfl, rfl, rfl⟩
  | jmp j => obtain ⟨o, a, x, y, rfl, _⟩ := h; exact ⟨rfl, rfl, rfl⟩
  | _ => obtain ⟨rfl, _⟩ := h; exact ⟨rfl, rfl, rfl⟩

theorem JV_congr {c c' : List Instr} {j : Nat} (h : ctl c' j = ctl c j) {R : Regs} {v : Val}
    (hj : JV c j R v) : JV c' j R v := by
  unfold JV at *; rw [h]; exact hj

theorem mem_lists {t f : List Nat} {v : Val} {j : Nat} (h : j ∈ if v.truthy then t else f) : j ∈ t ++ f := by
  split at h
  · exact List.mem_append_left _ h
  · exact List.mem_append_right _ h

/-- continue: code `h` after the descriptor -/
theorem Match.next {keep : Nat → Prop} {c c' : List Instr} {t f t' f' : List Nat}
    {sem sem' : Regs → W → Res (Val × W)} {R : Regs} {ev : Res (Val × W)} {o : Res (Out W)}
    (hm : Match keep c t f sem R ev o) (hc : ∀ j ∈ t ++ f, ctl c' j = ctl c j)
    (ht : ∀ j ∈ t, j ∈ t') (hf : ∀ j ∈ f, j ∈ f') {h : Regs → W → Res (Out W)}
    (hh : ∀ R' w', (∀ r, keep r → R' r = R r) → sem R' w' = ev →
      Match keep c' t' f' sem' R (sem R' w') (h R' w')) :
    Match keep c' t' f' sem' R ev (andThen o h) := by
  rcases o with ⟨⟨R', w'⟩ | ⟨j, R', w'⟩⟩ | m | _
  · have := hh R' w' hm.1 hm.2
    rw [hm.2] at this
    exact this
  · obtain ⟨h1, v, h2, h3, h4⟩ := hm
    refine ⟨h1, v, h2, ?_, JV_congr (hc j (mem_lists h3)) h4⟩
    split
    · rename_i hv; rw [if_pos hv] at h3; exact ht j h3
    · rename_i hv; rw [if_neg hv] at h3; exact hf j h3
  · exact hm
  · exact hm

theorem Spec.frame_ctl {keep : Nat → Prop} {s0 s : FS} {d : D} {ev : Regs → W → Res (Val × W)} {q : FS}
    {sem : Regs → W → Res (Val × W)} {g : Regs → W → Res (Out W)} (hs : Spec P K keep s0 s d ev q sem g)
    {q' : FS} {h : Regs → W → Res (Out W)} (he : Ext P K q q' h) :
    ∀ j ∈ d.t ++ d.f, ctl q'.code j = ctl q.code j := fun j hj => (he.frame j (hs.pend j hj).1).2

/-- continue with a descriptor that has the same jumps -/
theorem Spec.next {keep : Nat → Prop} {s0 s : FS} {d : D} {ev : Regs → W → Res (Val × W)} {q : FS}
    {sem : Regs → W → Res (Val × W)} {g : Regs → W → Res (Out W)} (hs : Spec P K keep s0 s d ev q sem g)
    {s' q' : FS} {d' : D} {sem' : Regs → W → Res (Val × W)} {h : Regs → W → Res (Out W)}
    (hp : Pre P K s' d'.kind q' sem') (he : Ext P K q q' h) (hk : s.k <+: s'.k)
    (ht : d'.t = d.t) (hf : d'.f = d.f)
    (hm : s'.k <+: K → ∀ (R R' : Regs) (w' : W), (∀ r, keep r → R' r = R r) →
      Match keep q'.code d.t d.f sem' R (sem R' w') (h R' w')) :
    Spec P K keep s0 s' d' ev q' sem' (fun R w => andThen (g R w) h) := by
  refine ⟨hp, hs.ext.trans he, ?_, ?_, ?_⟩
  · intro hK R w
    rw [ht, hf]
    exact (hs.mat (hk.trans hK) R w).next (hs.frame_ctl he) (fun j h => h) (fun j h => h)
      (fun R' w' h1 _ => hm hK R R' w' h1)
  · intro j hj
    rw [ht, hf] at hj
    exact ⟨(he.frame j (hs.pend j hj).1).1, (hs.pend j hj).2⟩
  · rw [ht, hf]; exact hs.nodup

/-- continue without code -/
theorem Spec.same {keep : Nat → Prop} {s0 s : FS} {d : D} {ev : Regs → W → Res (Val × W)} {q : FS}
    {sem : Regs → W → Res (Val × W)} {g : Regs → W → Res (Out W)} (hs : Spec P K keep s0 s d ev q sem g)
    {s' q' : FS} {d' : D} (hp : Pre P K s' d'.kind q' sem) (he : Ext P K q q' skipG) (hk : s.k <+: s'.k)
    (ht : d'.t = d.t) (hf : d'.f = d.f) : Spec P K keep s0 s' d' ev q' sem g := by
  have := hs.next hp he hk ht hf (fun _ R R' w' h => ⟨h, rfl⟩)
  have e : (fun R w => andThen (g R w) skipG) = g := by funext R w; exact andThen_fall _
  rwa [e] at this

/-! ### dischargevars -/

/-- no variable -/
def Kind.disch : Kind → Bool
  | .loc _ | .up _ | .indexed .. | .indexup .. => false
  | _ => true

theorem emit_pre (s : FS) (x : Src) :
    Pre P K (emit s (.set 0 x)) (.reloc s.pc) (dischargejpc s) (x.value P K) :=
  ⟨x, rfl, (dischargejpc_length s).symm, rfl, rfl⟩

theorem freeReg_code (s : FS) (r : Nat) : (freeReg s r).code = s.code ∧ (freeReg s r).k = s.k := by
  unfold freeReg; split <;> exact ⟨rfl, rfl⟩

theorem freeRK_code (s : FS) (x : RK) : (freeRK s x).code = s.code ∧ (freeRK s x).k = s.k := by
  cases x
  · exact freeReg_code s _
  · exact ⟨rfl, rfl⟩

theorem emit_k (s : FS) (i : Instr) : (emit s i).k = s.k := rfl

theorem dischargevars_spec {keep : Nat → Prop} {s0 s : FS} {d : D} {ev : Regs → W → Res (Val × W)} {q : FS}
    {sem : Regs → W → Res (Val × W)} {g : Regs → W → Res (Out W)} (hs : Spec P K keep s0 s d ev q sem g) :
    (dischargevars s d).2.kind.disch = true ∧ (dischargevars s d).2.t = d.t ∧ (dischargevars s d).2.f = d.f ∧
    s.k <+: (dischargevars s d).1.k ∧
    ∃ q', Spec P K keep s0 (dischargevars s d).1 (dischargevars s d).2 ev q' sem g ∧ Ext P K q q' skipG := by
  have hp := hs.pre
  unfold dischargevars
  cases hk : d.kind with
  | loc r =>
    rw [hk] at hp
    obtain ⟨rfl, rfl⟩ := hp
    exact ⟨rfl, rfl, rfl, List.prefix_refl _, q, hs.same ⟨rfl, rfl⟩ (Ext.refl hs.ext.wf) (List.prefix_refl _) rfl rfl,
      Ext.refl hs.ext.wf⟩
  | up u =>
    rw [hk] at hp
    obtain ⟨rfl, rfl⟩ := hp
    have he := dischargejpc_ext (P := P) (K := K) hs.ext.wf
    exact ⟨rfl, rfl, rfl, List.prefix_refl _, dischargejpc q,
      hs.same (emit_pre q (.getupval u)) he (List.prefix_refl _) rfl rfl, he⟩
  | indexed t x =>
    rw [hk] at hp
    obtain ⟨rfl, rfl⟩ := hp
    have h1 := freeRK_ext (P := P) (K := K) hs.ext.wf x
    have h2 := freeReg_ext (P := P) (K := K) h1.wf t
    have h3 := h1.trans_skip h2
    have h4 := h3.trans_skip (dischargejpc_ext h3.wf)
    have hk' : q.k <+: (freeReg (freeRK q x) t).k := h3.k
    exact ⟨rfl, rfl, rfl, hk', dischargejpc (freeReg (freeRK q x) t),
      hs.same (emit_pre _ (.gettable t x)) h4 hk' rfl rfl, h4⟩
  | indexup u x =>
    rw [hk] at hp
    obtain ⟨rfl, rfl⟩ := hp
    have h3 := freeRK_ext (P := P) (K := K) hs.ext.wf x
    have h4 := h3.trans_skip (dischargejpc_ext h3.wf)
    exact ⟨rfl, rfl, rfl, h3.k, dischargejpc (freeRK q x),
      hs.same (emit_pre _ (.gettabup u x)) h4 h3.k rfl rfl, h4⟩
  | _ => exact ⟨by simp [hk, Kind.disch], rfl, rfl, List.prefix_refl _, q, hs, Ext.refl hs.ext.wf⟩

theorem dischargevars_id {s : FS} {d : D} (h : d.kind.disch = true) : dischargevars s d = (s, d) := by
  unfold dischargevars
  split <;> simp_all [Kind.disch]

/-! ### discharge2reg -/

/-- put the value into a register -/
def setG (sem : Regs → W → Res (Val × W)) (r : Nat) (R : Regs) (w : W) : Res (Out W) :=
  match sem R w with
  | .ok (v, w) => .ok (.fall (R.set r v) w)
  | .err m => .err m
  | .ub => .ub

theorem execG_set (a : Nat) (x : Src) : execG P K (.set a x) = setG (x.value P K) a := by
  funext R w
  unfold execG setG
  simp only [Instr.exec]
  cases x.value P K R w <;> rfl

theorem Regs.set_self (R : Regs) (r : Nat) (v : Val) : R.set r v r = v := if_pos rfl

theorem Regs.set_ne (R : Regs) {r x : Nat} (v : Val) (h : x ≠ r) : R.set r v x = R x := if_neg h

theorem setG_match {keep : Nat → Prop} {r : Nat} (hr : ¬ keep r) {c : List Instr} {t f : List Nat}
    (sem : Regs → W → Res (Val × W)) {R R' : Regs} (w' : W) (ha : ∀ r, keep r → R' r = R r) :
    Match keep c t f (fun R w => .ok (R r, w)) R (sem R' w') (setG sem r R' w') := by
  unfold setG
  cases hs : sem R' w' with
  | ok p =>
    obtain ⟨v, w⟩ := p
    refine ⟨?_, ?_⟩
    · intro x hx
      rw [Regs.set_ne]
      · exact ha x hx
      · intro e; subst e; exact hr hx
    · show Res.ok (R'.set r v r, w) = _
      rw [Regs.set_self]
  | err m => rfl
  | ub => rfl

theorem CodeWF.init {c : List Instr} {i : Instr} {L : Nat} (h : CodeWF (c ++ [i]) L) (hL : L ≤ c.length)
    (hi : ∀ t, i ≠ .jmp t) (hb : ∀ a b, i ≠ .loadbool a b false) : CodeWF c L := by
  have left : ∀ {p : Nat} {x : Instr}, c[p]? = some x → (c ++ [i])[p]? = some x := by
    intro p x hx
    rw [List.getElem?_append_left (getElem?_lt hx)]; exact hx
  have cs : ∀ {p : Nat} {x : Instr}, (c ++ [i])[p]? = some x → c[p]? = some x ∨ x = i := by
    intro p x hx
    rcases Nat.lt_or_ge p c.length with hl | hl
    · rw [List.getElem?_append_left hl] at hx; exact Or.inl hx
    · rw [List.getElem?_append_right hl] at hx
      cases hp : p - c.length with
      | zero => rw [hp] at hx; cases hx; exact Or.inr rfl
      | succ n => rw [hp] at hx; cases hx
  refine ⟨?_, ?_, ?_, ?_, hL⟩
  · intro p x hx ht
    obtain ⟨t, e⟩ := h.test p x (left hx) ht
    rcases cs e with e | e
    · exact ⟨t, e⟩
    · exact absurd e.symm (hi t)
  · intro p a b hx
    obtain ⟨a', b', e⟩ := h.skip p a b (left hx)
    rcases cs e with e | e
    · exact ⟨a', b', e⟩
    · exact absurd e.symm (hb a' b')
  · intro p t hx
    obtain ⟨h1, h2, h3⟩ := h.tgt p t (left hx)
    exact ⟨h1, h2, fun x hx => h3 x (left hx)⟩
  · intro p a b cc hx hn
    exact h.ts p a b cc (left hx) (left hn)

theorem execG_nil (r : Nat) : execG P K (.loadnil r 0) = setG (fun _ w => .ok (.nil, w)) r := by
  funext R w
  unfold execG setG
  simp only [Instr.exec]
  have : (fun x => if r ≤ x ∧ x ≤ r + 0 then Val.nil else R x) = R.set r .nil := by
    funext x
    unfold Regs.set
    by_cases h : x = r
    · rw [if_pos h, if_pos (by omega)]
    · rw [if_neg h, if_neg (by omega)]
  rw [this]

theorem codeNil_ext {s : FS} (h : WF s) (r : Nat) :
    Ext P K s (codeNil s r) (setG (fun _ w => .ok (.nil, w)) r) := by
  have base : Ext P K s (emit s (.loadnil r 0)) (setG (fun _ w => .ok (.nil, w)) r) := by
    rw [← execG_nil]
    exact emit_ext h rfl
  unfold codeNil
  split
  · rename_i a n hlt hlast
    split
    rotate_left
    · exact base
    rename_i hcond
    dsimp only
    have hlt' : s.lasttarget < s.code.length := of_decide_eq_true hlt
    have hjpc : s.jpc = [] := by
      cases hj : s.jpc with
      | nil => rfl
      | cons x l => have := h.here (by rw [hj]; simp); omega
    have hcode : s.code = s.code.dropLast ++ [.loadnil a n] := by
      have hne : s.code ≠ [] := by intro e; rw [e] at hlt'; simp at hlt'
      rw [List.getLast?_eq_some_getLast hne] at hlast
      have := List.dropLast_concat_getLast hne
      have e := Option.some.inj hlast
      rw [e] at this
      exact this.symm
    generalize s.code.dropLast = c at hcode
    have hL : s.lasttarget ≤ c.length := by rw [hcode] at hlt'; simp at hlt'; omega
    have hcw : CodeWF c s.lasttarget := by
      have := h.code
      rw [hcode] at this
      exact this.init hL (fun t e => nomatch e) (fun a b e => nomatch e)
    have hw0 : WF { s with code := c } :=
      ⟨hcw, by rw [hjpc]; exact fun j hj => (nomatch hj), h.nodup, fun hne => absurd hjpc hne⟩
    have hfr : ∃ fr, fr = (if a < r then a else r) ∧ fr ≤ a ∧ fr ≤ r ∧ (fr = a ∨ fr = r) :=
      ⟨_, rfl, by split <;> omega, by split <;> omega, by split <;> omega⟩
    have hls : ∃ l, l = (if a + n > r then a + n else r) ∧ a + n ≤ l ∧ r ≤ l ∧ (l = a + n ∨ l = r) :=
      ⟨_, rfl, by split <;> omega, by split <;> omega, by split <;> omega⟩
    obtain ⟨fr, hfr, f1, f2, f3⟩ := hfr
    obtain ⟨l, hls, l1, l2, l3⟩ := hls
    rw [← hfr, ← hls]
    generalize hi' : Instr.loadnil fr (l - fr) = i'
    have hplain : i'.plain = true := by rw [← hi']; rfl
    have e1 := addCode_ext (P := P) (K := K) hw0 hjpc (Block.single (i := .loadnil a n) rfl)
      (fun R w => run_last rfl R w)
    have e2 := addCode_ext (P := P) (K := K) hw0 hjpc (Block.single hplain) (fun R w => run_last hplain R w)
    have hs1 : addCode { s with code := c } [.loadnil a n] = s := by
      unfold addCode; dsimp only; rw [← hcode]
    rw [hs1] at e1
    refine ⟨e2.wf, ?_, ?_, List.prefix_refl _, rfl, ?_⟩
    · intro R w
      rw [e1.step, andThen_assoc]
      refine (e2.step R w).trans ?_
      congr 1
      funext R w
      unfold execG setG
      rw [← hi']
      simp only [Instr.exec, andThen]
      congr 2
      funext x
      unfold Regs.set
      dsimp only
      by_cases hx : x = r
      · rw [if_pos hx, if_pos (by omega)]
      · rw [if_neg hx]
        by_cases hy : a ≤ x ∧ x ≤ a + n
        · rw [if_pos hy, if_pos (by omega)]
        · rw [if_neg hy, if_neg (by omega)]
    · intro j hj
      have hjc : j < c.length := by
        have h1 := hj.1
        rw [hcode] at h1
        rcases Nat.lt_or_ge j c.length with hl | hl
        · exact hl
        · rw [List.getElem?_append_right hl] at h1
          cases hp : j - c.length with
          | zero => rw [hp] at h1; cases h1
          | succ n => rw [hp] at h1; cases h1
      have h1 : c[j]? = some (Instr.jmp none) := by
        have := hj.1
        rw [hcode, List.getElem?_append_left hjc] at this
        exact this
      have := e2.frame j ⟨h1, hj.2⟩
      refine ⟨this.1, this.2.trans ?_⟩
      rw [hcode]
      exact (ctl_append _ (Nat.le_of_lt hjc)).symm
    · rw [hcode]; simp
  · exact base

theorem modify_last (c : List Instr) (x : Instr) (f : Instr → Instr) :
    (c ++ [x]).modify c.length f = c ++ [f x] := by
  induction c with
  | nil => rfl
  | cons a c ih => simp only [List.cons_append, List.length_cons, List.modify_succ_cons, ih]

theorem discharge2reg_ext {s : FS} {d : D} {q : FS} {sem : Regs → W → Res (Val × W)}
    (hp : Pre P K s d.kind q sem) (hw : WF q) (hd : d.kind.disch = true) (hj : ∀ j, d.kind ≠ .jmp j) (reg : Nat) :
    (discharge2reg s d reg).2 = { d with kind := .nonreloc reg } ∧ s.k <+: (discharge2reg s d reg).1.k ∧
    (discharge2reg s d reg).1.freereg = s.freereg ∧
    ∃ h, Ext P K q (discharge2reg s d reg).1 h ∧
      ((discharge2reg s d reg).1.k <+: K → ∀ R w, h R w = setG sem reg R w) := by
  unfold discharge2reg
  rw [dischargevars_id hd]
  dsimp only
  cases hk : d.kind with
  | nil =>
    rw [hk] at hp
    obtain ⟨rfl, rfl⟩ := hp
    have he := codeNil_ext (P := P) (K := K) hw reg
    refine ⟨rfl, he.k, ?_, _, he, fun _ R w => rfl⟩
    dsimp only
    unfold codeNil
    split
    · split <;> rfl
    · rfl
  | tru =>
    rw [hk] at hp
    obtain ⟨rfl, rfl⟩ := hp
    exact ⟨rfl, List.prefix_refl _, rfl, _, emit_ext hw rfl, fun _ R w => rfl⟩
  | fls =>
    rw [hk] at hp
    obtain ⟨rfl, rfl⟩ := hp
    exact ⟨rfl, List.prefix_refl _, rfl, _, emit_ext hw rfl, fun _ R w => rfl⟩
  | k i =>
    rw [hk] at hp
    obtain ⟨rfl, _, rfl⟩ := hp
    refine ⟨rfl, List.prefix_refl _, rfl, _, emit_ext hw rfl, fun _ R w => ?_⟩
    rw [execG_set]; rfl
  | kflt x =>
    rw [hk] at hp
    obtain ⟨rfl, rfl⟩ := hp
    have h1 := addK_ext (P := P) (K := K) hw (.num (.flt x))
    refine ⟨rfl, h1.k, (addK_same q _).2.2.2.2, _, h1.skip_trans (emit_ext h1.wf rfl), fun hK R w => ?_⟩
    rw [execG_set]
    unfold setG Src.value
    dsimp only
    rw [prefix_getD hK (addK_spec q (.num (.flt x))).2]
  | kint x =>
    rw [hk] at hp
    obtain ⟨rfl, rfl⟩ := hp
    have h1 := addK_ext (P := P) (K := K) hw (.num (.int x))
    refine ⟨rfl, h1.k, (addK_same q _).2.2.2.2, _, h1.skip_trans (emit_ext h1.wf rfl), fun hK R w => ?_⟩
    rw [execG_set]
    unfold setG Src.value
    dsimp only
    rw [prefix_getD hK (addK_spec q (.num (.int x))).2]
  | nonreloc r =>
    rw [hk] at hp
    obtain ⟨rfl, rfl⟩ := hp
    dsimp only
    by_cases hr : reg = r
    · subst hr
      rw [if_pos rfl]
      refine ⟨rfl, List.prefix_refl _, rfl, _, Ext.refl hw, fun _ R w => ?_⟩
      unfold setG skipG
      dsimp only
      rw [Regs.set_same]
    · rw [if_neg hr]
      refine ⟨rfl, List.prefix_refl _, rfl, _, emit_ext hw rfl, fun _ R w => ?_⟩
      rw [execG_set]; rfl
  | loc r => rw [hk] at hd; cases hd
  | up r => rw [hk] at hd; cases hd
  | indexed t x => rw [hk] at hd; cases hd
  | indexup t x => rw [hk] at hd; cases hd
  | jmp j => exact absurd hk (hj j)
  | reloc pc =>
    rw [hk] at hp
    obtain ⟨x, rfl, rfl, hjp, rfl⟩ := hp
    dsimp only
    have e : ({ addCode q [.set 0 x] with code := (addCode q [.set 0 x]).code.modify q.code.length (·.setDest reg) } : FS)
        = addCode q [.set reg x] := by
      unfold addCode
      dsimp only
      rw [modify_last]
      rfl
    rw [e]
    refine ⟨rfl, List.prefix_refl _, rfl, _, addCode_ext hw hjp (Block.single (i := .set reg x) rfl)
      (fun R w => run_last rfl R w), fun _ R w => ?_⟩
    rw [execG_set]

end Verif.ExpCode
