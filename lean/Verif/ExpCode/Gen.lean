import Verif.ExpCode.Not
import Verif.Fold.Props
/-! The code of an expression computes its value. -/
namespace Verif.ExpCode
open Verif.Fold (FOps BOp UOp)
open Verif.Float (Num)
variable {W : Type} {P : Ops W} {K : List Val}

/-- the local variables of an expression are in registers below `n` -/
def E.ok (n : Nat) : E → Prop
  | .loc r => r < n
  | .paren a | .not a | .un _ a | .len a => a.ok n
  | .bin _ a b | .cmp _ a b | .and a b | .or a b | .cat a b | .index a b => a.ok n ∧ b.ok n
  | .call a b | .mcall a _ b | .acons a b | .aopen a b | .amopen a _ b => a.ok n ∧ b.ok n
  | _ => True

theorem eval_index {a b : E} (h : ∀ u, a ≠ .up u) (R : Regs) (w : W) :
    eval P R (.index a b) w =
      (eval P R a w).bind fun p => (eval P R b p.2).bind fun p' => P.index p.1 p'.1 p'.2 := by
  cases a with
  | up u => exact absurd rfl (h u)
  | _ => rfl

theorem evalArgs_congr {R R' : Regs} : ∀ (e : E), (∀ a ∈ e.args, ∀ w : W, eval P R' a w = eval P R a w) →
    ∀ w : W, evalArgs P R' e w = evalArgs P R e w := by
  intro e
  induction e using E.indArgs with
  | anil => intro _ w; simp only [evalArgs]
  | acons a r ih =>
    intro h w
    simp only [E.args, List.mem_cons, forall_eq_or_imp] at h
    simp only [evalArgs, h.1, ih h.2]
  | aopen f as ih =>
    intro h w
    simp only [E.args, List.mem_cons, forall_eq_or_imp] at h
    simp only [evalArgs, h.1, ih h.2]
  | amopen o k as ih =>
    intro h w
    simp only [E.args, List.mem_cons, forall_eq_or_imp] at h
    simp only [evalArgs, h.1, ih h.2]
  | other e h1 h2 h3 h4 =>
    intro _ w
    rw [evalArgs.eq_5 _ _ _ _ h1 h2 h3 h4, evalArgs.eq_5 _ _ _ _ h1 h2 h3 h4]

theorem ok_args {n : Nat} : ∀ (e : E), e.ok n → ∀ a ∈ e.args, a.ok n := by
  intro e
  induction e using E.indArgs with
  | anil => intro _ a h; cases h
  | acons a r ih =>
    intro h x hx
    rcases List.mem_cons.1 hx with rfl | hx
    · exact h.1
    · exact ih h.2 x hx
  | aopen a r ih =>
    intro h x hx
    rcases List.mem_cons.1 hx with rfl | hx
    · exact h.1
    · exact ih h.2 x hx
  | amopen a k r ih =>
    intro h x hx
    rcases List.mem_cons.1 hx with rfl | hx
    · exact h.1
    · exact ih h.2 x hx
  | other e h1 h2 h3 h4 =>
    intro _ x hx
    cases e with
    | acons a r => exact absurd rfl (h2 a r)
    | aopen a r => exact absurd rfl (h3 a r)
    | amopen a k r => exact absurd rfl (h4 a k r)
    | _ => cases hx

theorem eval_congr {n : Nat} {R R' : Regs} (hR : ∀ r, r < n → R' r = R r) :
    ∀ (e : E), e.ok n → ∀ w : W, eval P R' e w = eval P R e w := by
  intro e
  induction e with
  | nil => intro _ w; simp only [eval]
  | tru => intro _ w; simp only [eval]
  | fls => intro _ w; simp only [eval]
  | int i => intro _ w; simp only [eval]
  | flt x => intro _ w; simp only [eval]
  | str s => intro _ w; simp only [eval]
  | loc r => intro h w; simp only [eval]; rw [hR r h]
  | up u => intro _ w; simp only [eval]
  | tnew => intro _ w; simp only [eval]
  | func i => intro _ w; simp only [eval]
  | paren a ih => intro h w; simp only [eval]; exact ih h w
  | bin o a b iha ihb => intro h w; simp only [eval, iha h.1, ihb h.2]
  | cmp o a b iha ihb => intro h w; simp only [eval, iha h.1, ihb h.2]
  | and a b iha ihb => intro h w; simp only [eval, iha h.1, ihb h.2]
  | or a b iha ihb => intro h w; simp only [eval, iha h.1, ihb h.2]
  | not a ih => intro h w; simp only [eval, ih h]
  | un o a ih => intro h w; simp only [eval, ih h]
  | len a ih => intro h w; simp only [eval, ih h]
  | cat a b iha ihb => intro h w; simp only [eval, iha h.1, ihb h.2]
  | index a b iha ihb =>
    intro h w
    by_cases ha : ∃ u, a = .up u
    · obtain ⟨u, rfl⟩ := ha
      simp only [eval, ihb h.2]
    · have ha' : ∀ u, a ≠ .up u := fun u e => ha ⟨u, e⟩
      rw [eval_index ha', eval_index ha', iha h.1]
      simp only [ihb h.2]
  | call f as ihf iha =>
    intro h w
    simp only [eval, ihf h.1, evalArgs_congr as (fun a ha w => iha a ha (ok_args as h.2 a ha) w)]
  | mcall f k as ihf iha =>
    intro h w
    simp only [eval, ihf h.1, evalArgs_congr as (fun a ha w => iha a ha (ok_args as h.2 a ha) w)]
  | anil => intro _ w; simp only [eval]
  | acons a r => intro _ w; simp only [eval]
  | aopen f as => intro _ w; simp only [eval]
  | amopen f k as => intro _ w; simp only [eval]

/-- what is proved about the descriptor of an expression -/
def GS (P : Ops W) (K : List Val) (s0 s : FS) (d : D) (ev : Regs → W → Res (Val × W)) : Prop :=
  Acc s0.nactvar s0.freereg s d.kind ∧ KInv s d.kind ∧
  ∃ q sem g, Spec P K (fun r => r < s0.freereg) s0 s d ev q sem g

/-! ### combining operands -/

theorem seqS {keep0 keep1 : Nat → Prop} {s0 s1 : FS} {k2 : List Val} {v1 : Regs → Val} {ev1 : Regs → W → Res (Val × W)}
    {g1 : Regs → W → Res (Out W)} (h1 : Opd P K keep0 s0 s1 v1 ev1 g1) {ev2 sem2 : Regs → W → Res (Val × W)}
    {g2 : Regs → W → Res (Out W)} (hk2 : s1.k <+: k2)
    (hm2 : k2 <+: K → ∀ R w, Match keep1 [] [] [] sem2 R (ev2 R w) (g2 R w)) (hk : ∀ r, keep0 r → keep1 r)
    (hv : ∀ R R' : Regs, (∀ r, keep1 r → R' r = R r) → v1 R' = v1 R)
    (he2 : ∀ (R R' : Regs) w, (∀ r, keep0 r → R' r = R r) → ev2 R' w = ev2 R w)
    {ev sem : Regs → W → Res (Val × W)} (f : Val → Val → W → Res (Val × W))
    (hev : k2 <+: K → ∀ R w, ev R w = (ev1 R w).bind fun p => (ev2 R p.2).bind fun p' => f p.1 p'.1 p'.2)
    (hsem : k2 <+: K → ∀ R w, sem R w = (sem2 R w).bind fun p => f (v1 R) p.1 p.2) :
    k2 <+: K → ∀ R w, Match keep0 [] [] [] sem R (ev R w) (andThen (g1 R w) g2) := by
  intro hK R w
  have m1 := h1.mat (hk2.trans hK) R w
  rw [hev hK]
  cases hg1 : g1 R w with
  | err m => rw [hg1] at m1; rw [show ev1 R w = .err m from m1]; exact rfl
  | ub => rw [hg1] at m1; rw [show ev1 R w = .ub from m1]; exact rfl
  | ok o =>
    cases o with
    | exit j R1 w1 =>
      rw [hg1] at m1
      obtain ⟨_, v, _, h3, _⟩ := m1
      cases mem_lists h3
    | fall R1 w1 =>
      rw [hg1] at m1
      obtain ⟨a1, a2⟩ := m1
      have m2 := hm2 hK R1 w1
      rw [← a2]
      show Match keep0 [] [] [] sem R (Res.bind (.ok (v1 R1, w1)) _) (g2 R1 w1)
      unfold Res.bind
      dsimp only
      rw [← he2 R R1 w1 a1]
      cases hg2 : g2 R1 w1 with
      | err m => rw [hg2] at m2; rw [show ev2 R1 w1 = .err m from m2]; exact rfl
      | ub => rw [hg2] at m2; rw [show ev2 R1 w1 = .ub from m2]; exact rfl
      | ok o =>
        cases o with
        | exit j R2 w2 =>
          rw [hg2] at m2
          obtain ⟨_, v, _, h3, _⟩ := m2
          cases mem_lists h3
        | fall R2 w2 =>
          rw [hg2] at m2
          obtain ⟨b1, b2⟩ := m2
          refine ⟨fun r hr => (b1 r (hk r hr)).trans (a1 r hr), ?_⟩
          rw [hsem hK, b2, hv R1 R2 b1]
          rfl

theorem seq1 {keep0 : Nat → Prop} {s0 s1 : FS} {v1 : Regs → Val} {ev1 : Regs → W → Res (Val × W)}
    {g1 : Regs → W → Res (Out W)} (h1 : Opd P K keep0 s0 s1 v1 ev1 g1)
    {ev sem : Regs → W → Res (Val × W)} (f : Val → W → Res (Val × W))
    (hev : ∀ R w, ev R w = (ev1 R w).bind fun p => f p.1 p.2)
    (hsem : s1.k <+: K → ∀ R w, sem R w = f (v1 R) w) :
    s1.k <+: K → ∀ R w, Match keep0 [] [] [] sem R (ev R w) (g1 R w) := by
  intro hK R w
  have m1 := h1.mat hK R w
  rw [hev]
  cases hg1 : g1 R w with
  | err m => rw [hg1] at m1; rw [show ev1 R w = .err m from m1]; exact rfl
  | ub => rw [hg1] at m1; rw [show ev1 R w = .ub from m1]; exact rfl
  | ok o =>
    cases o with
    | exit j R1 w1 =>
      rw [hg1] at m1
      obtain ⟨_, v, _, h3, _⟩ := m1
      cases mem_lists h3
    | fall R1 w1 =>
      rw [hg1] at m1
      obtain ⟨a1, a2⟩ := m1
      refine ⟨a1, ?_⟩
      rw [hsem hK, ← a2]
      rfl

theorem opd_val {keep : Nat → Prop} {s0 s : FS} {v : Regs → Val} {ev : Regs → W → Res (Val × W)}
    {g : Regs → W → Res (Out W)} (h : Opd P K keep s0 s v ev g) (hK : s.k <+: K) {R : Regs} {w : W} {p : Val × W}
    (he : ev R w = .ok p) : ∃ R', p.1 = v R' := by
  have m1 := h.mat hK R w
  cases hg1 : g R w with
  | err m => rw [hg1, he] at m1; cases m1
  | ub => rw [hg1, he] at m1; cases m1
  | ok o =>
    cases o with
    | exit j R1 w1 =>
      rw [hg1] at m1
      obtain ⟨_, v, _, h3, _⟩ := m1
      cases mem_lists h3
    | fall R1 w1 =>
      rw [hg1, he] at m1
      obtain ⟨_, a2⟩ := m1
      cases a2
      exact ⟨R1, rfl⟩

theorem Spec.mkNil {keep : Nat → Prop} {s0 s : FS} {d : D} {ev : Regs → W → Res (Val × W)} {q : FS}
    {sem : Regs → W → Res (Val × W)} {g : Regs → W → Res (Out W)} (hp : Pre P K s d.kind q sem)
    (he : Ext P K s0 q g) (hm : s.k <+: K → ∀ R w, Match keep [] [] [] sem R (ev R w) (g R w))
    (ht : d.t = []) (hf : d.f = []) : Spec P K keep s0 s d ev q sem g := by
  refine ⟨hp, he, fun hK R w => ?_, ?_, ?_⟩
  · rw [ht, hf]; exact (hm hK R w).nil
  · rw [ht, hf]; intro j hj; cases hj
  · rw [ht, hf]; exact List.nodup_nil

theorem Spec.mat_nil {keep : Nat → Prop} {s0 s : FS} {d : D} {ev : Regs → W → Res (Val × W)} {q : FS}
    {sem : Regs → W → Res (Val × W)} {g : Regs → W → Res (Out W)} (h : Spec P K keep s0 s d ev q sem g)
    (ht : d.t = []) (hf : d.f = []) :
    s.k <+: K → ∀ R w, Match keep [] [] [] sem R (ev R w) (g R w) := by
  intro hK R w
  have := h.mat hK R w
  rw [ht, hf] at this
  exact this.nil

/-- a descriptor without code -/
theorem Spec.triv {keep : Nat → Prop} {s : FS} {d : D} {sem : Regs → W → Res (Val × W)} (hw : WF s)
    (hp : Pre P K s d.kind s sem) (ht : d.t = []) (hf : d.f = []) : Spec P K keep s s d sem s sem skipG :=
  Spec.mkNil hp (Ext.refl hw) (fun _ _ _ => ⟨fun _ _ => rfl, rfl⟩) ht hf

theorem rk_dep {nact n0 n1 : Nat} {rk : RK} (h : RKAt nact n0 rk n1) (hn : nact ≤ n0) (R R' : Regs)
    (hR : ∀ r, r < n1 → R' r = R r) : rk.get K R' = rk.get K R := by
  cases rk with
  | reg r => exact hR r (TempAt.lt h hn)
  | const i => rfl

/-! ### freeing two operands -/

/-- how many registers an operand frees -/
def tc (nact : Nat) : RK → Nat
  | .reg r => if nact ≤ r then 1 else 0
  | .const _ => 0

theorem rkAt_tc {nact n0 n1 : Nat} {rk : RK} (h : RKAt nact n0 rk n1) (hn : nact ≤ n0) : n1 = n0 + tc nact rk := by
  cases rk with
  | reg r =>
    unfold tc
    rcases h with ⟨h1, h2⟩ | ⟨h1, h2⟩
    · dsimp only; rw [if_neg (by omega)]; exact h2
    · dsimp only; rw [if_pos (by omega)]; exact h2
  | const i => exact h

theorem freeexp_tc {d : D} {rk : RK} (h : Fits d rk) (s : FS) :
    (freeexp s d).freereg = s.freereg - tc s.nactvar rk ∧ (freeexp s d).nactvar = s.nactvar := by
  refine ⟨?_, (freeexp_same s d).2.2.1⟩
  obtain ⟨_, _, h⟩ := h
  cases rk with
  | reg r =>
    unfold freeexp freeReg tc
    have : d.kind = .nonreloc r := h
    rw [this]
    dsimp only
    split <;> rfl
  | const i =>
    unfold freeexp tc
    have : d.kind = .k i := h.1
    rw [this]
    rfl

theorem freeexps_tc {d1 d2 : D} {rk1 rk2 : RK} (h1 : Fits d1 rk1) (h2 : Fits d2 rk2) (s : FS) :
    (freeexps s d1 d2).freereg = s.freereg - (tc s.nactvar rk1 + tc s.nactvar rk2) := by
  unfold freeexps
  split
  · obtain ⟨a1, a2⟩ := freeexp_tc h1 s
    obtain ⟨b1, _⟩ := freeexp_tc h2 (freeexp s d1)
    rw [b1, a1, a2]; omega
  · obtain ⟨a1, a2⟩ := freeexp_tc h2 s
    obtain ⟨b1, _⟩ := freeexp_tc h1 (freeexp s d2)
    rw [b1, a1, a2]; omega

theorem freeexps_k (s : FS) (d1 d2 : D) : (freeexps s d1 d2).k = s.k := by
  unfold freeexps
  split
  · rw [(freeexp_same _ _).2.1, (freeexp_same _ _).2.1]
  · rw [(freeexp_same _ _).2.1, (freeexp_same _ _).2.1]

theorem exp2RK_fits {d : D} {rk : RK} (h : Fits d rk) (s : FS) : exp2RK s d = .ok (s, d, rk) := by
  obtain ⟨ht, hf, h⟩ := h
  have hj : d.hasjumps = false := by simp [D.hasjumps, ht, hf]
  cases rk with
  | reg r =>
    have hk : d.kind = .nonreloc r := h
    have hd : d.kind.disch = true := by rw [hk]; rfl
    unfold exp2RK exp2val
    rw [hj]
    simp only [Bool.false_eq_true, if_false, Res.bind_ok, dischargevars_id hd]
    unfold constOf
    rw [hk]
    dsimp only
    unfold exp2anyreg
    rw [dischargevars_id hd]
    dsimp only
    rw [hk]
    dsimp only
    rw [hj]
    rfl
  | const i =>
    obtain ⟨hk, hi⟩ := h
    have hd : d.kind.disch = true := by rw [hk]; rfl
    unfold exp2RK exp2val
    rw [hj]
    simp only [Bool.false_eq_true, if_false, Res.bind_ok, dischargevars_id hd]
    unfold constOf
    rw [hk]
    dsimp only
    rw [if_pos hi]
    obtain ⟨kind, t, f, tm⟩ := d
    cases hk
    rfl

/-! ### arithmetic -/

theorem numeral_cases {d : D} {x : Num} (h : d.numeral = some x) :
    d.t = [] ∧ d.f = [] ∧ ((∃ i, d.kind = .kint i ∧ x = .int i) ∨ ∃ y, d.kind = .kflt y ∧ x = .flt y) := by
  unfold D.numeral at h
  split at h
  · cases h
  · rename_i hj
    have hj' : d.t = [] ∧ d.f = [] := by simpa [D.hasjumps] using hj
    refine ⟨hj'.1, hj'.2, ?_⟩
    split at h
    · rename_i i hk; cases h; exact Or.inl ⟨i, hk, rfl⟩
    · rename_i y hk; cases h; exact Or.inr ⟨y, hk, rfl⟩
    · cases h

theorem numeral_pre {d : D} {x : Num} (h : d.numeral = some x) {s q : FS} {sem : Regs → W → Res (Val × W)}
    (hp : Pre P K s d.kind q sem) : q = s ∧ sem = fun _ w => .ok (.num x, w) := by
  obtain ⟨_, _, ⟨i, hk, rfl⟩ | ⟨y, hk, rfl⟩⟩ := numeral_cases h
  · rw [hk] at hp; exact hp
  · rw [hk] at hp; exact hp

theorem numeral_pre' {d : D} {x : Num} (h : d.numeral = some x) (s : FS) :
    Pre P K s d.kind s (fun _ w => .ok (.num x, w)) := by
  obtain ⟨_, _, ⟨i, hk, rfl⟩ | ⟨y, hk, rfl⟩⟩ := numeral_cases h
  · rw [hk]; exact ⟨rfl, rfl⟩
  · rw [hk]; exact ⟨rfl, rfl⟩

theorem numeral_acc {d : D} {x : Num} (h : d.numeral = some x) {nact n0 : Nat} {s : FS} :
    Acc nact n0 s d.kind ↔ s.freereg = n0 := by
  obtain ⟨_, _, ⟨i, hk, rfl⟩ | ⟨y, hk, rfl⟩⟩ := numeral_cases h
  · rw [hk]; exact Iff.rfl
  · rw [hk]; exact Iff.rfl

theorem numeral_opd {keep : Nat → Prop} {s0 s : FS} {d : D} {x : Num} (h : d.numeral = some x)
    {ev : Regs → W → Res (Val × W)} {q : FS} {sem : Regs → W → Res (Val × W)} {g : Regs → W → Res (Out W)}
    (hs : Spec P K keep s0 s d ev q sem g) : Opd P K keep s0 s (fun _ => .num x) ev g := by
  obtain ⟨ht, hf, _⟩ := numeral_cases h
  obtain ⟨rfl, rfl⟩ := numeral_pre h hs.pre
  exact ⟨hs.ext, hs.mat_nil ht hf⟩

theorem fits_numeral {d : D} {rk : RK} (h : Fits d rk) : d.numeral = none := by
  obtain ⟨_, _, h⟩ := h
  unfold D.numeral
  split
  · rfl
  · cases rk with
    | reg r => rw [show d.kind = .nonreloc r from h]
    | const i => rw [show d.kind = .k i from h.1]

theorem numD_spec (n : Num) (s : FS) : (numD n).t = [] ∧ (numD n).f = [] ∧
    Pre P K s (numD n).kind s (fun _ w => .ok (.num n, w)) ∧ KInv s (numD n).kind ∧
    (∀ nact n0, s.freereg = n0 → Acc nact n0 s (numD n).kind) ∧ (∀ u, (numD n).kind ≠ .up u) := by
  cases n with
  | int i => exact ⟨rfl, rfl, ⟨rfl, rfl⟩, True.intro, fun _ _ h => h, fun _ e => nomatch e⟩
  | flt x => exact ⟨rfl, rfl, ⟨rfl, rfl⟩, True.intro, fun _ _ h => h, fun _ e => nomatch e⟩

/-- the first operand after `luaK_infix`: a numeral, or an operand -/
theorem infix_spec {s0 s : FS} {d : D} {ev : Regs → W → Res (Val × W)} (hna : s0.nactvar ≤ s0.freereg)
    (hg : GS P K s0 s d ev) {s' : FS} {d' : D} (h : infixArith s d = .ok (s', d')) :
    s'.nactvar = s0.nactvar ∧ s0.k <+: s'.k ∧ ∃ g,
    (∃ x, d'.numeral = some x ∧ s'.freereg = s0.freereg ∧
      Opd P K (fun r => r < s0.freereg) s0 s' (fun _ => .num x) ev g) ∨
    (∃ rk, Fits d' rk ∧ RKAt s0.nactvar s0.freereg rk s'.freereg ∧
      Opd P K (fun r => r < s0.freereg) s0 s' (fun R => rk.get K R) ev g) := by
  obtain ⟨ha, hv, q, sem, g, hs⟩ := hg
  unfold infixArith at h
  split at h
  · rename_i x hx
    cases h
    exact ⟨hs.nact, hs.k, g, Or.inl ⟨x, hx, (numeral_acc hx).1 ha, numeral_opd hx hs⟩⟩
  · obtain ⟨⟨s1, d1, rk⟩, e1, h⟩ := Res.bind_eq_ok.1 h
    cases h
    obtain ⟨y1, y2, y3, y4, y5, g', y6⟩ := exp2RK_spec hs (Nat.lt_irrefl _) hna ha e1
    exact ⟨y4, hs.k.trans y3, g', Or.inr ⟨rk, y2, y1, y6⟩⟩

/-- the end of a binary operator with a relocatable instruction -/
theorem emit_finish {keep : Nat → Prop} {s0 s1 s : FS} {g : Regs → W → Res (Out W)} (he : Ext P K s0 s1 g)
    (hf : Ext P K s1 s skipG) (hk : s.k = s1.k) {x : Src} {ev : Regs → W → Res (Val × W)}
    (hm : s1.k <+: K → ∀ R w, Match keep [] [] [] (x.value P K) R (ev R w) (g R w)) {d : D}
    (hd : d.kind = .reloc s.pc) (ht : d.t = []) (hdf : d.f = []) :
    Spec P K keep s0 (emit s (.set 0 x)) d ev (dischargejpc s) (x.value P K) g := by
  refine Spec.mkNil ?_ ((he.trans_skip hf).trans_skip (dischargejpc_ext hf.wf)) ?_ ht hdf
  · rw [hd]; exact emit_pre s x
  · intro hK
    exact hm (by rw [← hk]; exact hK)

theorem bindR_assoc (x : Res (Val × W)) (f g : Val × W → Res (Val × W)) :
    (x.bind f).bind g = x.bind fun a => (f a).bind g := by
  cases x <;> rfl

theorem codebin_spec {s0 s1 s2 : FS} {d1 d2 : D} {ev1 ev2 ev : Regs → W → Res (Val × W)}
    (hna : s0.nactvar ≤ s0.freereg) (hn1 : s1.nactvar = s0.nactvar) {g1 : Regs → W → Res (Out W)}
    (h1 : (∃ x, d1.numeral = some x ∧ s1.freereg = s0.freereg ∧
      Opd P K (fun r => r < s0.freereg) s0 s1 (fun _ => .num x) ev1 g1) ∨
    (∃ rk, Fits d1 rk ∧ RKAt s0.nactvar s0.freereg rk s1.freereg ∧
      Opd P K (fun r => r < s0.freereg) s0 s1 (fun R => rk.get K R) ev1 g1))
    (h2 : GS P K s1 s2 d2 ev2)
    (he2 : ∀ (R R' : Regs) w, (∀ r, r < s0.freereg → R' r = R r) → ev2 R' w = ev2 R w)
    (o : BOp)
    (hev : ∀ R w, ev R w = (ev1 R w).bind fun p => (ev2 R p.2).bind fun p' => P.binV o p.1 p'.1 p'.2)
    {s : FS} {d : D} (h : codebin s2 o d1 d2 = .ok (s, d)) :
    GS P K s0 s d ev ∧ ∀ u, d.kind ≠ .up u := by
  obtain ⟨ha2, hv2, q2, sem2, g2, hs2⟩ := h2
  unfold codebin at h
  obtain ⟨⟨s3, d2', rk2⟩, e3, h⟩ := Res.bind_eq_ok.1 h
  obtain ⟨⟨s4, d1', rk1⟩, e4, h⟩ := Res.bind_eq_ok.1 h
  dsimp only at h e3 e4
  cases h
  have hle : s0.freereg ≤ s1.freereg := by
    rcases h1 with ⟨x, _, hx, _⟩ | ⟨rk, _, hx, _⟩
    · omega
    · exact hx.le
  have hna1 : s1.nactvar ≤ s1.freereg := by omega
  obtain ⟨y1, y2, y3, y4, y5, g3, y6⟩ := exp2RK_spec hs2 (Nat.lt_irrefl _) hna1 ha2 e3
  have hk13 : s1.k <+: s3.k := hs2.k.trans y3
  refine ⟨?_, fun u e => nomatch e⟩
  rcases h1 with ⟨x, hx, hfr, h1⟩ | ⟨rk, hf, hat, h1⟩
  · -- the first operand is a numeral: it becomes an operand now
    obtain ⟨hxt, hxf, _⟩ := numeral_cases hx
    have hB : Opd P K (fun r => r < s0.freereg) s0 s3 (fun R => rk2.get K R)
        (fun R w => (ev1 R w).bind fun p => ev2 R p.2) (fun R w => andThen (g1 R w) g3) := by
      refine ⟨h1.ext.trans y6.ext, ?_⟩
      refine seqS h1 hk13 y6.mat (fun r hr => by omega) (fun R R' _ => rfl) he2 (fun _ y w => .ok (y, w)) ?_ ?_
      · intro _ R w
        congr 1
        funext p
        cases ev2 R p.2 <;> rfl
      · intro _ R w; rfl
    have hC : Spec P K (fun r => r < s3.freereg) s3 s3 d1 (fun _ w => .ok (.num x, w)) s3 (fun _ w => .ok (.num x, w)) skipG :=
      Spec.triv y6.ext.wf (numeral_pre' hx s3) hxt hxf
    have hna3 : s3.nactvar ≤ s3.freereg := by rw [y4]; have := y1.le; omega
    obtain ⟨z1, z2, z3, z4, z5, g4, z6⟩ := exp2RK_spec hC (Nat.lt_irrefl _) hna3 ((numeral_acc hx).2 rfl) e4
    have hfx := freeexps_ext (P := P) (K := K) z6.ext.wf d1' d2'
    have hm := seqS (ev := ev) (sem := (Src.bin o rk1 rk2).value P K) hB z3 z6.mat
      (fun r hr => by have := y1.le; omega)
      (rk_dep y1 hna1) (fun _ _ _ _ => rfl) (fun y x w => P.binV o x y w) (by
        intro hK R w
        rw [hev]
        rw [bindR_assoc]
        cases hr : ev1 R w with
        | err m => rfl
        | ub => rfl
        | ok p =>
          obtain ⟨v, w1⟩ := p
          show (ev2 R w1).bind _ = (ev2 R w1).bind _
          congr 1
          funext p'
          show P.binV o v p'.1 p'.2 = P.binV o (.num x) p'.1 p'.2
          obtain ⟨_, rfl⟩ := opd_val h1 (hk13.trans (z3.trans hK)) hr
          rfl) (fun _ R w => rfl)
    refine ⟨?_, True.intro, _, _, _, emit_finish (hB.ext.trans z6.ext) hfx (freeexps_k ..) hm rfl z2.1 z2.2.1⟩
    refine acc_emit ?_ (fun _ _ e => nomatch e)
    rw [freeexps_tc z2 y2, z4]
    rw [y4] at z1
    have a1 := rkAt_tc y1 hna1
    have a2 := rkAt_tc z1 (by rw [y4] at hna3; exact hna3)
    rw [y4]
    omega
  · rw [exp2RK_fits hf] at e4
    cases e4
    have hfx := freeexps_ext (P := P) (K := K) y6.ext.wf d1 d2'
    have hm := seqS (ev := ev) (sem := (Src.bin o rk1 rk2).value P K) h1 hk13 y6.mat (fun r hr => by omega)
      (rk_dep hat hna) he2 (fun x y w => P.binV o x y w) (fun _ => hev) (fun _ R w => rfl)
    refine ⟨?_, True.intro, _, _, _, emit_finish (h1.ext.trans y6.ext) hfx (freeexps_k ..) hm rfl hf.1 hf.2.1⟩
    refine acc_emit ?_ (fun _ _ e => nomatch e)
    rw [freeexps_tc hf y2, y4, hn1]
    rw [hn1] at y1
    have a1 := rkAt_tc y1 (by omega)
    have a2 := rkAt_tc hat hna
    omega

end Verif.ExpCode
