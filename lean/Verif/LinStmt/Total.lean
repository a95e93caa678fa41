import Verif.LinStmt.Exec

/-!
# A statement ends or runs for ever
-/
namespace Verif.LinStmt
open Verif.Lin

variable {P : Par} {Γ : Nat → LV}

/-- Is this the end of a run? -/
def Out.ended : Out P → Bool
  | .long _ => false
  | _ => true

/-- It ends, or it runs for ever. -/
def Tot (Γ : Nat → LV) (cmd : Cmd P) (ρ : Nat → P.V) (s : P.S) : Prop :=
  (∃ o, o.ended = true ∧ Exec (fun x => (Γ x).ty) (Guard.safe Γ) cmd ρ s o) ∨
    ∀ n, Exec (fun x => (Γ x).ty) (Guard.safe Γ) cmd ρ s (.long n)

/-- The value of an expression in a run that is considered. -/
theorem exp_cases (ρ : Nat → P.V) (c : Exp P.F P.O) (s : P.S) :
    ¬ (Guard.safe Γ).exp ρ c s ∨ (Guard.safe Γ).exp ρ c s ∧
      ((∃ m, eval P ρ c s = .err m) ∨ ∃ v s1, eval P ρ c s = .ok (v, s1)) := by
  by_cases h : (Guard.safe Γ).exp ρ c s
  · refine Or.inr ⟨h, ?_⟩
    have he := (evalS_eval Γ ρ c s).resolve_left h
    rcases hv : eval P ρ c s with ⟨v, s1⟩ | m | _
    · exact Or.inr ⟨v, s1, rfl⟩
    · exact Or.inl ⟨m, rfl⟩
    · rw [hv] at he
      exact absurd he h
  · exact Or.inl h

theorem whl_total {c : Exp P.F P.O} {b : Stm P.F P.O} (hb : ∀ ρ s, Tot Γ (.stm b) ρ s)
    (ρ : Nat → P.V) (s : P.S) : Tot Γ (.whl c b) ρ s := by
  by_cases hE : ∃ o, o.ended = true ∧ Exec (fun x => (Γ x).ty) (Guard.safe Γ) (.whl c b) ρ s o
  · exact Or.inl hE
  · refine Or.inr fun n => ?_
    induction n generalizing ρ s with
    | zero => exact .cut
    | succ n ih =>
      rcases exp_cases (Γ := Γ) ρ c s with hG | ⟨hG, ⟨m, he⟩ | ⟨v, s1, he⟩⟩
      · exact absurd ⟨_, rfl, .whlX hG⟩ hE
      · exact absurd ⟨_, rfl, .whlC hG he⟩ hE
      · cases hv : isFalse v with
        | true => exact absurd ⟨_, rfl, .whlF hG he hv⟩ hE
        | false =>
          rcases hb ρ s1 with ⟨o, ho, h⟩ | h
          · cases o with
            | norm ρ2 s2 =>
              refine .whlN hG he hv h (ih _ _ ?_)
              rintro ⟨o, ho, h'⟩
              exact hE ⟨o, ho, .whlT hG he hv h h'⟩
            | brk ρ2 s2 => exact absurd ⟨_, rfl, .whlB hG he hv h⟩ hE
            | err m => exact absurd ⟨_, rfl, .whlP hG he hv rfl h⟩ hE
            | long n => cases ho
            | bad => exact absurd ⟨_, rfl, .whlP hG he hv rfl h⟩ hE
          · exact .whlP hG he hv rfl (h _)

theorem rep_total {c : Exp P.F P.O} {b : Stm P.F P.O} (hb : ∀ ρ s, Tot Γ (.stm b) ρ s)
    (ρ : Nat → P.V) (s : P.S) : Tot Γ (.rep b c) ρ s := by
  by_cases hE : ∃ o, o.ended = true ∧ Exec (fun x => (Γ x).ty) (Guard.safe Γ) (.rep b c) ρ s o
  · exact Or.inl hE
  · refine Or.inr fun n => ?_
    induction n generalizing ρ s with
    | zero => exact .cut
    | succ n ih =>
      rcases hb ρ s with ⟨o, ho, h⟩ | h
      · cases o with
        | norm ρ2 s2 =>
          rcases exp_cases (Γ := Γ) ρ2 c s2 with hG | ⟨hG, ⟨m, he⟩ | ⟨v, s1, he⟩⟩
          · exact absurd ⟨_, rfl, .repX h hG⟩ hE
          · exact absurd ⟨_, rfl, .repC h hG he⟩ hE
          · cases hv : isFalse v with
            | false => exact absurd ⟨_, rfl, .repT h hG he hv⟩ hE
            | true =>
              refine .repN h hG he hv (ih _ _ ?_)
              rintro ⟨o, ho, h'⟩
              exact hE ⟨o, ho, .repF h hG he hv h'⟩
        | brk ρ2 s2 => exact absurd ⟨_, rfl, .repB h⟩ hE
        | err m => exact absurd ⟨_, rfl, .repP rfl h⟩ hE
        | long n => cases ho
        | bad => exact absurd ⟨_, rfl, .repP rfl h⟩ hE
      · exact .repP rfl (h _)

theorem loop_total {x : Nat} {l d : I64} {b : Stm P.F P.O} (hb : ∀ ρ s, Tot Γ (.stm b) ρ s) (i : I64)
    (ρ : Nat → P.V) (s : P.S) : Tot Γ (.loop x i l d b) ρ s := by
  by_cases hE : ∃ o, o.ended = true ∧ Exec (fun x => (Γ x).ty) (Guard.safe Γ) (.loop x i l d b) ρ s o
  · exact Or.inl hE
  · refine Or.inr fun n => ?_
    induction n generalizing i ρ s with
    | zero => exact .cut
    | succ n ih =>
      cases hn : goesOn i l d with
      | false => exact absurd ⟨_, rfl, .stop hn⟩ hE
      | true =>
        rcases hb (Lin.set ρ x (.int i)) s with ⟨o, ho, h⟩ | h
        · cases o with
          | norm ρ2 s2 =>
            by_cases hG : (Guard.safe (P := P) Γ).next i d
            · refine .loopN hn h hG (ih _ _ _ ?_)
              rintro ⟨o, ho, h'⟩
              exact hE ⟨o, ho, .next hn h hG h'⟩
            · exact absurd ⟨_, rfl, .loopX hn h hG⟩ hE
          | brk ρ2 s2 => exact absurd ⟨_, rfl, .loopB hn h⟩ hE
          | err m => exact absurd ⟨_, rfl, .loopP hn rfl h⟩ hE
          | long n => cases ho
          | bad => exact absurd ⟨_, rfl, .loopP hn rfl h⟩ hE
        · exact .loopP hn rfl (h _)

theorem stm_total (a : Stm P.F P.O) (ρ : Nat → P.V) (s : P.S) : Tot Γ (.stm a) ρ s := by
  induction a generalizing ρ s with
  | skip => exact Or.inl ⟨_, rfl, .skip⟩
  | seq a b iha ihb =>
    rcases iha ρ s with ⟨o, ho, h⟩ | h
    · cases o with
      | norm ρ1 s1 =>
        rcases ihb ρ1 s1 with ⟨o, ho, h'⟩ | h'
        · exact Or.inl ⟨o, ho, .seq h h'⟩
        · exact Or.inr fun n => .seq h (h' n)
      | brk ρ1 s1 => exact Or.inl ⟨_, rfl, .seqB h⟩
      | err m => exact Or.inl ⟨_, rfl, .seqP rfl h⟩
      | long n => cases ho
      | bad => exact Or.inl ⟨_, rfl, .seqP rfl h⟩
    · exact Or.inr fun n => .seqP rfl (h n)
  | assign ts es =>
    by_cases hG : (Guard.safe Γ).asg ρ ts es s
    · have he := (evalAssignS_eq Γ ts es ρ s).resolve_left hG
      rcases hv : evalAssign P (fun x => (Γ x).ty) ts es ρ s with ⟨ρ1, s1⟩ | m | _
      · exact Or.inl ⟨_, rfl, .asg hG hv⟩
      · exact Or.inl ⟨_, rfl, .asgE hG hv⟩
      · rw [hv] at he
        exact absurd he hG
    · exact Or.inl ⟨_, rfl, .asgX hG⟩
  | whl c b ihb =>
    rcases whl_total (c := c) ihb ρ s with ⟨o, ho, h⟩ | h
    · exact Or.inl ⟨o, ho, .whl h⟩
    · exact Or.inr fun n => .whl (h n)
  | rep b c ihb =>
    rcases rep_total (c := c) ihb ρ s with ⟨o, ho, h⟩ | h
    · exact Or.inl ⟨o, ho, .rep h⟩
    · exact Or.inr fun n => .rep (h n)
  | forn x e1 e2 e3 b ihb =>
    by_cases hG : (Guard.safe Γ).efor ρ e1 e2 e3 s
    · have he := (evalFor_eq Γ ρ e1 e2 e3 s).resolve_left hG
      rcases hv : evalFor P (eval P ρ) e1 e2 e3 s with ⟨v, s1⟩ | m | _
      · by_cases hi : ∃ i l d, v = (.int i, .int l, .int d) ∧ (Guard.safe (P := P) Γ).start i d
        · obtain ⟨i, l, d, rfl, hs⟩ := hi
          rcases loop_total (x := x) (l := l) (d := d) ihb i ρ s1 with ⟨o, ho, h⟩ | h
          · exact Or.inl ⟨o, ho, .forn hG hv hs h⟩
          · exact Or.inr fun n => .forn hG hv hs (h n)
        · exact Or.inl ⟨_, rfl, .forV hG hv hi⟩
      · exact Or.inl ⟨_, rfl, .forE hG hv⟩
      · rw [hv] at he
        exact absurd he hG
    · exact Or.inl ⟨_, rfl, .forX hG⟩
  | brk => exact Or.inl ⟨_, rfl, .brk⟩
  | ite c b r ihb ihr =>
    rcases exp_cases (Γ := Γ) ρ c s with hG | ⟨hG, ⟨m, he⟩ | ⟨v, s1, he⟩⟩
    · exact Or.inl ⟨_, rfl, .iteX hG⟩
    · exact Or.inl ⟨_, rfl, .iteC hG he⟩
    · cases hv : isFalse v with
      | false =>
        rcases ihb ρ s1 with ⟨o, ho, h⟩ | h
        · exact Or.inl ⟨o, ho, .iteT hG he hv h⟩
        · exact Or.inr fun n => .iteT hG he hv (h n)
      | true =>
        rcases ihr ρ s1 with ⟨o, ho, h⟩ | h
        · exact Or.inl ⟨o, ho, .iteF hG he hv h⟩
        · exact Or.inr fun n => .iteF hG he hv (h n)
  | els b ihb =>
    rcases ihb ρ s with ⟨o, ho, h⟩ | h
    · exact Or.inl ⟨o, ho, .els h⟩
    · exact Or.inr fun n => .els (h n)
  | fin => exact Or.inl ⟨_, rfl, .fin⟩

end Verif.LinStmt
