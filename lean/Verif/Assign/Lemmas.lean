import Verif.Assign.Model
import Verif.ExpCode.Props
import Mathlib.Data.List.Forall2
/-! Multiple assignment: the variables on the left. -/
namespace Verif.Assign
open Verif.ExpCode
variable {W : Type} {P : Ops W} {K : List Val}

/-! ### evaluation does not change stable upvalues -/

theorem binV_up {u : Nat} (h : Stable P u) {o : Fold.BOp} {x y v : Val} {w w' : W} (e : P.binV o x y w = .ok (v, w')) :
    P.up u w' = P.up u w := by
  unfold Ops.binV at e
  split at e
  · obtain ⟨r, _, e⟩ := Res.bind_eq_ok.1 e
    split at e
    · cases e; rfl
    · exact h.bin _ _ _ _ _ _ e
  · exact h.bin _ _ _ _ _ _ e

theorem unV_up {u : Nat} (h : Stable P u) {o : Fold.UOp} {x v : Val} {w w' : W} (e : P.unV o x w = .ok (v, w')) :
    P.up u w' = P.up u w := by
  unfold Ops.unV at e
  split at e
  · obtain ⟨r, _, e⟩ := Res.bind_eq_ok.1 e
    split at e
    · cases e; rfl
    · exact h.un _ _ _ _ _ e
  · exact h.un _ _ _ _ _ e

theorem evalArgs_up {u : Nat} (h : Stable P u) (L : Nat → Val) : ∀ (as : E),
    (∀ a ∈ as.args, ∀ (w : W) (v : Val) (w' : W), eval P L a w = .ok (v, w') → P.up u w' = P.up u w) →
    ∀ (w : W) (vs : List Val) (w' : W), evalArgs P L as w = .ok (vs, w') → P.up u w' = P.up u w := by
  intro as
  induction as using E.indArgs with
  | anil => intro _ w vs w' e; simp only [evalArgs] at e; cases e; rfl
  | acons a r ih =>
    intro hi w vs w' e
    simp only [evalArgs] at e
    obtain ⟨⟨x, w1⟩, e1, e⟩ := Res.bind_eq_ok.1 e
    obtain ⟨⟨y, w2⟩, e2, e⟩ := Res.bind_eq_ok.1 e
    cases e
    exact (ih (fun a ha => hi a (by simp [E.args, ha])) _ _ _ e2).trans (hi a (by simp [E.args]) _ _ _ e1)
  | aopen f as ih =>
    intro hi w vs w' e
    simp only [evalArgs] at e
    obtain ⟨⟨x, w1⟩, e1, e⟩ := Res.bind_eq_ok.1 e
    obtain ⟨⟨y, w2⟩, e2, e⟩ := Res.bind_eq_ok.1 e
    exact (h.call _ _ _ _ _ e).trans
      ((ih (fun a ha => hi a (by simp [E.args, ha])) _ _ _ e2).trans (hi f (by simp [E.args]) _ _ _ e1))
  | amopen f k as ih =>
    intro hi w vs w' e
    simp only [evalArgs] at e
    obtain ⟨⟨x, w1⟩, e1, e⟩ := Res.bind_eq_ok.1 e
    obtain ⟨⟨f, w2⟩, e2, e⟩ := Res.bind_eq_ok.1 e
    obtain ⟨⟨y, w3⟩, e3, e⟩ := Res.bind_eq_ok.1 e
    exact (h.call _ _ _ _ _ e).trans ((ih (fun a ha => hi a (by simp [E.args, ha])) _ _ _ e3).trans
      ((h.index _ _ _ _ _ e2).trans (hi _ (by simp [E.args]) _ _ _ e1)))
  | other e h1 h2 h3 h4 =>
    intro _ w vs w' he
    exfalso
    cases e <;> first | exact h1 rfl | exact h2 _ _ rfl | exact h3 _ _ rfl | exact h4 _ _ _ rfl | (simp only [evalArgs] at he; cases he)

theorem eval_up {u : Nat} (h : Stable P u) (L : Nat → Val) : ∀ (e : E) (w : W) (v : Val) (w' : W),
    eval P L e w = .ok (v, w') → P.up u w' = P.up u w := by
  intro e
  induction e with
  | nil => intro w v w' e; simp only [eval] at e; cases e; rfl
  | tru => intro w v w' e; simp only [eval] at e; cases e; rfl
  | fls => intro w v w' e; simp only [eval] at e; cases e; rfl
  | int i => intro w v w' e; simp only [eval] at e; cases e; rfl
  | flt x => intro w v w' e; simp only [eval] at e; cases e; rfl
  | str s => intro w v w' e; simp only [eval] at e; cases e; rfl
  | loc r => intro w v w' e; simp only [eval] at e; cases e; rfl
  | up u => intro w v w' e; simp only [eval] at e; cases e; rfl
  | tnew =>
    intro w v w' e; simp only [eval, Res.ok.injEq] at e
    have := h.tnew w; rw [e] at this; exact this
  | func i =>
    intro w v w' e; simp only [eval, Res.ok.injEq] at e
    have := h.func i w; rw [e] at this; exact this
  | paren a ih => intro w v w' e; simp only [eval] at e; exact ih _ _ _ e
  | bin o a b iha ihb =>
    intro w v w' e; simp only [eval] at e
    obtain ⟨⟨x, w1⟩, e1, e⟩ := Res.bind_eq_ok.1 e
    obtain ⟨⟨y, w2⟩, e2, e⟩ := Res.bind_eq_ok.1 e
    exact (binV_up h e).trans ((ihb _ _ _ e2).trans (iha _ _ _ e1))
  | cmp o a b iha ihb =>
    intro w v w' e; simp only [eval] at e
    obtain ⟨⟨x, w1⟩, e1, e⟩ := Res.bind_eq_ok.1 e
    obtain ⟨⟨y, w2⟩, e2, e⟩ := Res.bind_eq_ok.1 e
    refine Eq.trans ?_ ((ihb _ _ _ e2).trans (iha _ _ _ e1))
    cases o <;>
      (dsimp only at e
       obtain ⟨⟨r, w3⟩, e3, e⟩ := Res.bind_eq_ok.1 e
       cases e
       exact h.rel _ _ _ _ _ _ e3)
  | and a b iha ihb =>
    intro w v w' e; simp only [eval] at e
    obtain ⟨⟨x, w1⟩, e1, e⟩ := Res.bind_eq_ok.1 e
    dsimp only at e
    split at e
    · exact (ihb _ _ _ e).trans (iha _ _ _ e1)
    · cases e; exact iha _ _ _ e1
  | or a b iha ihb =>
    intro w v w' e; simp only [eval] at e
    obtain ⟨⟨x, w1⟩, e1, e⟩ := Res.bind_eq_ok.1 e
    dsimp only at e
    split at e
    · cases e; exact iha _ _ _ e1
    · exact (ihb _ _ _ e).trans (iha _ _ _ e1)
  | not a ih =>
    intro w v w' e; simp only [eval] at e
    obtain ⟨⟨x, w1⟩, e1, e⟩ := Res.bind_eq_ok.1 e
    cases e
    exact ih _ _ _ e1
  | un o a ih =>
    intro w v w' e; simp only [eval] at e
    obtain ⟨⟨x, w1⟩, e1, e⟩ := Res.bind_eq_ok.1 e
    exact (unV_up h e).trans (ih _ _ _ e1)
  | len a ih =>
    intro w v w' e; simp only [eval] at e
    obtain ⟨⟨x, w1⟩, e1, e⟩ := Res.bind_eq_ok.1 e
    exact (h.len _ _ _ _ e).trans (ih _ _ _ e1)
  | cat a b iha ihb =>
    intro w v w' e; simp only [eval] at e
    obtain ⟨⟨x, w1⟩, e1, e⟩ := Res.bind_eq_ok.1 e
    obtain ⟨⟨y, w2⟩, e2, e⟩ := Res.bind_eq_ok.1 e
    exact (h.cat _ _ _ _ _ e).trans ((ihb _ _ _ e2).trans (iha _ _ _ e1))
  | index a b iha ihb =>
    intro w v w' e
    by_cases ha : ∃ u, a = .up u
    · obtain ⟨u', rfl⟩ := ha
      simp only [eval] at e
      obtain ⟨⟨y, w2⟩, e2, e⟩ := Res.bind_eq_ok.1 e
      exact (h.index _ _ _ _ _ e).trans (ihb _ _ _ e2)
    · rw [eval_index (fun u e => ha ⟨u, e⟩)] at e
      obtain ⟨⟨x, w1⟩, e1, e⟩ := Res.bind_eq_ok.1 e
      obtain ⟨⟨y, w2⟩, e2, e⟩ := Res.bind_eq_ok.1 e
      exact (h.index _ _ _ _ _ e).trans ((ihb _ _ _ e2).trans (iha _ _ _ e1))
  | call f as ihf iha =>
    intro w v w' e
    simp only [eval] at e
    obtain ⟨⟨x, w1⟩, e1, e⟩ := Res.bind_eq_ok.1 e
    obtain ⟨⟨y, w2⟩, e2, e⟩ := Res.bind_eq_ok.1 e
    obtain ⟨⟨z, w3⟩, e3, e⟩ := Res.bind_eq_ok.1 e
    cases e
    exact (h.call _ _ _ _ _ e3).trans ((evalArgs_up h L as iha _ _ _ e2).trans (ihf _ _ _ e1))
  | mcall f k as ihf iha =>
    intro w v w' e
    simp only [eval] at e
    obtain ⟨⟨x, w1⟩, e1, e⟩ := Res.bind_eq_ok.1 e
    obtain ⟨⟨y, w2⟩, e2, e⟩ := Res.bind_eq_ok.1 e
    obtain ⟨⟨z, w3⟩, e3, e⟩ := Res.bind_eq_ok.1 e
    obtain ⟨⟨u, w4⟩, e4, e⟩ := Res.bind_eq_ok.1 e
    cases e
    exact (h.call _ _ _ _ _ e4).trans ((evalArgs_up h L as iha _ _ _ e3).trans ((h.index _ _ _ _ _ e2).trans (ihf _ _ _ e1)))
  | anil => intro w v w' e; simp only [eval] at e; cases e
  | acons a r => intro w v w' e; simp only [eval] at e; cases e
  | aopen f as => intro w v w' e; simp only [eval] at e; cases e
  | amopen f k as => intro w v w' e; simp only [eval] at e; cases e

theorem evalList_up {u : Nat} (h : Stable P u) (L : Nat → Val) : ∀ (es : List E) (w : W) (vs : List Val) (w' : W),
    evalList P L es w = .ok (vs, w') → P.up u w' = P.up u w := by
  intro es
  induction es with
  | nil => intro w v w' e; simp only [evalList] at e; cases e; rfl
  | cons a es ih =>
    intro w v w' e
    simp only [evalList] at e
    obtain ⟨⟨x, w1⟩, e1, e⟩ := Res.bind_eq_ok.1 e
    obtain ⟨⟨y, w2⟩, e2, e⟩ := Res.bind_eq_ok.1 e
    cases e
    exact (ih _ _ _ e2).trans (eval_up h L a _ _ _ e1)

/-! ### running a piece of code -/

/-- a piece of code that is run like something is evaluated -/
def Does {α : Type} (o : Res (Out W)) (ev : Res α) (Q : Regs → W → α → Prop) : Prop :=
  match o with
  | .ok (.fall R w) => ∃ a, ev = .ok a ∧ Q R w a
  | .ok (.exit ..) => False
  | .err m => ev = .err m
  | .ub => ev = .ub

theorem Does.seq {α β : Type} {o : Res (Out W)} {ev : Res α} {Q : Regs → W → α → Prop} (h : Does o ev Q)
    {g : Regs → W → Res (Out W)} {f : α → Res β} {Q' : Regs → W → β → Prop}
    (h' : ∀ R w a, ev = .ok a → Q R w a → Does (g R w) (f a) Q') : Does (andThen o g) (ev.bind f) Q' := by
  rcases o with ⟨⟨R', w'⟩ | ⟨j, R', w'⟩⟩ | m | _
  · obtain ⟨a, rfl, ha⟩ := h
    exact h' R' w' a rfl ha
  · exact h.elim
  · have : ev = .err m := h; rw [this]; exact rfl
  · have : ev = .ub := h; rw [this]; exact rfl

theorem Does.mono {α : Type} {o : Res (Out W)} {ev : Res α} {Q Q' : Regs → W → α → Prop} (h : Does o ev Q)
    (h' : ∀ R w a, ev = .ok a → Q R w a → Q' R w a) : Does o ev Q' := by
  rcases o with ⟨⟨R', w'⟩ | ⟨j, R', w'⟩⟩ | m | _
  · obtain ⟨a, e, ha⟩ := h
    exact ⟨a, e, h' _ _ _ e ha⟩
  · exact h.elim
  · exact h
  · exact h

theorem Does.map {α β : Type} {o : Res (Out W)} {ev : Res α} {Q : Regs → W → α → Prop} (h : Does o ev Q) (f : α → Res β)
    {Q' : Regs → W → β → Prop} (h' : ∀ R w a, ev = .ok a → Q R w a → ∃ b, f a = .ok b ∧ Q' R w b) :
    Does o (ev.bind f) Q' := by
  have := Does.seq (g := skipG) h (Q' := Q') (f := f) h'
  rwa [show andThen o skipG = o from andThen_fall o] at this

theorem opd_does {keep : Nat → Prop} {s0 s : FS} {v : Regs → Val} {ev : Regs → W → Res (Val × W)}
    {g : Regs → W → Res (Out W)} (h : Opd P K keep s0 s v ev g) (hK : s.k <+: K) (R : Regs) (w : W) :
    Does (g R w) (ev R w) fun R' w' p => (∀ r, keep r → R' r = R r) ∧ p = (v R', w') := by
  have m := h.mat hK R w
  cases hg : g R w with
  | err e => rw [hg] at m; exact m
  | ub => rw [hg] at m; exact m
  | ok o =>
    rw [hg] at m
    cases o with
    | exit j R1 w1 =>
      obtain ⟨_, v, _, h3, _⟩ := m
      cases mem_lists h3
    | fall R1 w1 => exact ⟨_, m.2.symm, m.1, rfl⟩

/-! ### the variables -/

/-- the register of an operand, if it is in one -/
def RK.in (n : Nat) : RK → Prop
  | .reg r => r < n
  | .const _ => True

/-- a variable whose registers are below `n`; a local variable is one of the first `m`; a table that is an upvalue stays the
same -/
def Var (P : Ops W) (m n : Nat) : Kind → Prop
  | .loc x => x < m
  | .up _ => True
  | .indexed t i => t < n ∧ RK.in n i
  | .indexup u i => RK.in n i ∧ Stable P u
  | _ => False

/-- what a variable stands for -/
def Is (P : Ops W) (K : List Val) (R : Regs) (w : W) : Kind → Tgt → Prop
  | .loc x, .loc y => x = y
  | .up u, .up u' => u = u'
  | .indexed t i, .field x y => R t = x ∧ i.get K R = y
  | .indexup u i, .field x y => P.up u w = x ∧ i.get K R = y
  | _, _ => False

/-- assigning to `v` does not change what `k` stands for -/
def Apart (v k : Kind) : Prop :=
  match v, k with
  | .loc x, .indexed t i => t ≠ x ∧ i ≠ .reg x
  | .loc x, .indexup _ i => i ≠ .reg x
  | .up u, .indexup u' _ => u' ≠ u
  | _, _ => True

theorem RK.in_mono {n n' : Nat} (h : n ≤ n') {i : RK} (hi : RK.in n i) : RK.in n' i := by
  cases i
  · exact Nat.lt_of_lt_of_le hi h
  · trivial

theorem Var.mono {m n n' : Nat} (h : n ≤ n') {k : Kind} (hk : Var P m n k) : Var P m n' k := by
  cases k with
  | loc x => exact hk
  | up u => trivial
  | indexed t i => exact ⟨Nat.lt_of_lt_of_le hk.1 h, RK.in_mono h hk.2⟩
  | indexup u i => exact ⟨RK.in_mono h hk.1, hk.2⟩
  | _ => exact hk

theorem RK.get_congr {n : Nat} {R R' : Regs} (hR : ∀ r, r < n → R' r = R r) {i : RK} (hi : RK.in n i) :
    i.get K R' = i.get K R := by
  cases i with
  | reg r => exact hR r hi
  | const c => rfl

theorem Is.congr {m n : Nat} {R R' : Regs} {w w' : W} (hR : ∀ r, r < n → R' r = R r)
    (hu : ∀ u, Stable P u → P.up u w' = P.up u w) {k : Kind} (hk : Var P m n k) {t : Tgt} (h : Is P K R w k t) :
    Is P K R' w' k t := by
  cases k with
  | loc x => cases t <;> exact h
  | up u => cases t <;> exact h
  | indexed t' i =>
    cases t with
    | field x y => exact ⟨(hR _ hk.1).trans h.1, (RK.get_congr hR hk.2).trans h.2⟩
    | _ => exact h
  | indexup u i =>
    cases t with
    | field x y => exact ⟨(hu _ hk.2).trans h.1, (RK.get_congr hR hk.1).trans h.2⟩
    | _ => exact h
  | _ => exact hk.elim

theorem Is.congr_all {m n : Nat} {R R' : Regs} {w w' : W} (hR : ∀ r, r < n → R' r = R r)
    (hu : ∀ u, Stable P u → P.up u w' = P.up u w) {ks : List Kind} (hk : ∀ k ∈ ks, Var P m n k) {ts : List Tgt}
    (h : List.Forall₂ (Is P K R w) ks ts) : List.Forall₂ (Is P K R' w') ks ts := by
  induction h with
  | nil => exact .nil
  | cons h _ ih =>
    exact .cons (h.congr hR hu (hk _ (List.mem_cons_self ..))) (ih fun k hk' => hk k (List.mem_cons_of_mem _ hk'))

/-- the registers in a variable are those of the `n` local variables in scope -/
def Lhs.ok (n : Nat) : Lhs → Prop
  | .loc x => x < n
  | .up _ => True
  | .index a b => a.ok n ∧ b.ok n

/-- if the variable is a field of an upvalue, the upvalue has the property `Q` -/
def Lhs.indexes (Q : Nat → Prop) : Lhs → Prop
  | .index (.up u) _ => Q u
  | _ => True

/-- the upvalues of tables on the left -/
abbrev Lhs.stable (P : Ops W) (v : Lhs) : Prop := v.indexes (Stable P)

theorem genLhs_ext {v : Lhs} {s0 s : FS} {k : Kind} (h : genLhs P.F true v s0 = .ok (s, k)) (hw : WF s0)
    (hna : s0.nactvar ≤ s0.freereg) (hok : v.ok s0.nactvar) (hst : v.stable P) :
    s0.freereg ≤ s.freereg ∧ Var P s0.nactvar s.freereg k ∧ ∃ g, Ext P K s0 s g ∧ (s.k <+: K → ∀ R w,
      Does (g R w) (evalLhs P R v w) fun R' w' p => (∀ r, r < s0.freereg → R' r = R r) ∧ w' = p.2 ∧
        Is P K R' w' k p.1) := by
  cases v with
  | loc x =>
    cases h
    exact ⟨Nat.le_refl _, hok, skipG, Ext.refl hw, fun _ R w => ⟨_, rfl, fun _ _ => rfl, rfl, rfl⟩⟩
  | up u =>
    cases h
    exact ⟨Nat.le_refl _, trivial, skipG, Ext.refl hw, fun _ R w => ⟨_, rfl, fun _ _ => rfl, rfl, rfl⟩⟩
  | index a b =>
    simp only [genLhs] at h
    obtain ⟨⟨s', d⟩, e, h⟩ := Res.bind_eq_ok.1 h
    cases h
    simp only [gen] at e
    obtain ⟨⟨s1, d1⟩, e1, e⟩ := Res.bind_eq_ok.1 e
    obtain ⟨⟨s2, d2⟩, e2, e⟩ := Res.bind_eq_ok.1 e
    obtain ⟨⟨s3, d3⟩, e3, e⟩ := Res.bind_eq_ok.1 e
    obtain ⟨⟨s4, d4⟩, e4, e⟩ := Res.bind_eq_ok.1 e
    dsimp only at e1 e2 e3 e4 e
    unfold indexed at e
    obtain ⟨⟨s5, d5, rk⟩, e5, eF⟩ := Res.bind_eq_ok.1 e
    dsimp only at eF
    obtain ⟨⟨ha, hv, q, sem, g, hs⟩, hup⟩ := gen_gs (P := P) (K := K) a _ _ _ e1 hw hna hok.1
    have other : (∀ u, d1.kind ≠ .up u) → (do let (s, d, _) ← exp2anyreg s1 d1; return (s, d)) = Res.ok (s2, d2) →
        s0.freereg ≤ s'.freereg ∧ Var P s0.nactvar s'.freereg d.kind ∧ ∃ g, Ext P K s0 s' g ∧ (s'.k <+: K → ∀ R w,
          Does (g R w) (evalLhs P R (.index a b) w) fun R' w' p => (∀ r, r < s0.freereg → R' r = R r) ∧ w' = p.2 ∧
            Is P K R' w' d.kind p.1) := by
      intro hnu e2
      obtain ⟨⟨s6, d6, r⟩, e6, e2⟩ := Res.bind_eq_ok.1 e2
      cases e2
      obtain ⟨y1, y2, y3, y4, y5, g', y6⟩ := exp2anyreg_spec hs (Nat.lt_irrefl _) hna ha e6
      have hle := y1.le
      have hn2 := y6.nact
      have hna2 : s2.nactvar ≤ s2.freereg := by omega
      obtain ⟨⟨ha2, hv2, q2, sem2, g2, hs2⟩, _⟩ := gen_gs (P := P) (K := K) b _ _ _ e3 y6.ext.wf hna2 (by rw [hn2]; exact hok.2)
      obtain ⟨x1, x2, x3, x4, x5, q3, sem3, g3, x6⟩ := exp2val_spec hs2 (Nat.lt_irrefl _) hna2 ha2 e4
      obtain ⟨z1, z2, z3, z4, z5, g4, z6⟩ := exp2RK_spec x6 (Nat.lt_irrefl _) hna2 x1 e5
      rw [y2] at eF
      cases eF
      have hle2 := z1.le
      have hlt := y1.lt hna
      have hin : RK.in s'.freereg rk := by
        cases rk with
        | reg r' => exact TempAt.lt z1 hna2
        | const i => trivial
      refine ⟨by omega, ⟨by omega, hin⟩, _, (y6.opd y3 y4).ext.trans z6.ext, ?_⟩
      intro hK R w
      refine Does.seq (opd_does (y6.opd y3 y4) ((hs2.k.trans (x5.trans z3)).trans hK) R w) ?_
      rintro R1 w1 p hp ⟨hR1, rfl⟩
      have hb : eval P R1 b w1 = eval P R b w1 := eval_congr (fun r hr => hR1 r (by omega)) b hok.2 w1
      dsimp only
      rw [← hb]
      refine Does.map (opd_does z6 hK R1 w1) _ ?_
      rintro R2 w2 p hp ⟨hR2, rfl⟩
      exact ⟨_, rfl, fun r hr => (hR2 r (by omega)).trans (hR1 r hr), rfl, hR2 _ hlt, rfl⟩
    unfold exp2anyregup at e2
    split at e2
    · rename_i u hk hj
      cases e2
      obtain ⟨rfl, rfl, ht, hf⟩ := hup u hk
      obtain ⟨⟨ha2, hv2, q2, sem2, g2, hs2⟩, _⟩ := gen_gs (P := P) (K := K) b _ _ _ e3 hw hna hok.2
      obtain ⟨x1, x2, x3, x4, x5, q3, sem3, g3, x6⟩ := exp2val_spec hs2 (Nat.lt_irrefl _) hna ha2 e4
      obtain ⟨z1, z2, z3, z4, z5, g4, z6⟩ := exp2RK_spec x6 (Nat.lt_irrefl _) hna x1 e5
      rw [hk] at eF
      cases eF
      have hle2 := z1.le
      have hin : RK.in s'.freereg rk := by
        cases rk with
        | reg r' => exact TempAt.lt z1 hna
        | const i => trivial
      refine ⟨hle2, ⟨hin, hst⟩, _, z6.ext, ?_⟩
      intro hK R w
      show Does (g4 R w) ((eval P R b w).bind _) _
      refine Does.map (opd_does z6 hK R w) _ ?_
      rintro R2 w2 p hp ⟨hR2, rfl⟩
      exact ⟨_, rfl, hR2, rfl, eval_up hst R b _ _ _ hp, rfl⟩
    · rename_i hx
      refine other ?_ e2
      intro u hk
      obtain ⟨_, _, ht, hf⟩ := hup u hk
      exact hx u hk (by simp [D.hasjumps, ht, hf])

end Verif.Assign
