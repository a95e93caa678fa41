import Verif.Parse.Complete
/-! The parser always makes progress: it ends in a tree or an error. -/
namespace Verif.Parse

/-- an outcome that is a tree with less text left, or an error -/
def Fine (len : Nat) (x : Res (T × List Tok)) : Prop :=
  match x with
  | .ok (_, r) => r.length < len
  | .err _ => True
  | .ub => False

/-- the same, without the progress -/
def Fine' (len : Nat) (x : Res (T × List Tok)) : Prop :=
  match x with
  | .ok (_, r) => r.length ≤ len
  | .err _ => True
  | .ub => False

theorem Fine.weak {len : Nat} {x : Res (T × List Tok)} (h : Fine len x) : Fine' len x := by
  cases x with
  | ok a => exact Nat.le_of_lt h
  | _ => exact h

/-- `ex` is total and makes progress -/
def Prog (ex : List Tok → Res (T × List Tok)) : Prop := ∀ toks, Fine toks.length (ex toks)

theorem check_len (t : Tok) (l : List Tok) :
    match check t l with
    | .ok r => r.length < l.length
    | .err _ => True
    | .ub => False := by
  cases l with
  | nil => trivial
  | cons x r =>
    by_cases h : x = t
    · simp [check, h]
    · simp [check, h]

section
variable {ex : List Tok → Res (T × List Tok)}

theorem explist_fine (hx : Prog ex) : ∀ (k : Nat) (toks : List Tok), toks.length ≤ k → Fine toks.length (explist ex toks) := by
  intro k
  induction k with
  | zero =>
    intro toks hk
    have h := hx toks
    rw [explist]
    split
    · rename_i e r he; rw [he] at h; simp only [Fine, List.length_cons] at h; omega
    · rename_i he; rw [he] at h; exact h
    · trivial
    · rename_i he; rw [he] at h; exact h
  | succ k ih =>
    intro toks hk
    have h := hx toks
    rw [explist]
    split
    · rename_i e r he
      rw [he] at h; simp only [Fine, List.length_cons] at h
      rw [dif_pos (by omega)]
      have := ih r (by omega)
      split
      · rename_i he2; rw [he2] at this; simp only [Fine] at this ⊢; omega
      · trivial
      · rename_i he2; rw [he2] at this; exact this
    · rename_i he; rw [he] at h; exact h
    · trivial
    · rename_i he; rw [he] at h; exact h

theorem field_fine (hx : Prog ex) (toks : List Tok) : Fine toks.length (field ex toks) := by
  unfold field
  split
  · rename_i i r
    have h := hx r
    cases he : ex r with
    | ok a => rw [he] at h; simp [Fine] at h ⊢; omega
    | err m => trivial
    | ub => rw [he] at h; exact h
  · rename_i r
    have h := hx r
    cases he : ex r with
    | ok a =>
      rw [he] at h; simp only [Fine] at h
      simp only [Res.bind_ok]
      have h1 := check_len .rbrk a.2
      cases hc : check .rbrk a.2 with
      | ok r2 =>
        rw [hc] at h1; simp only at h1
        simp only [Res.bind_ok]
        have h2 := check_len .assign r2
        cases hd : check .assign r2 with
        | ok r3 =>
          rw [hd] at h2; simp only at h2
          simp only [Res.bind_ok]
          have h3 := hx r3
          cases hf : ex r3 with
          | ok b => rw [hf] at h3; simp [Fine] at h3 ⊢; omega
          | err m => trivial
          | ub => rw [hf] at h3; exact h3
        | err m => trivial
        | ub => rw [hd] at h2; exact h2
      | err m => trivial
      | ub => rw [hc] at h1; exact h1
    | err m => trivial
    | ub => rw [he] at h; exact h
  · have h := hx toks
    cases he : ex toks with
    | ok a => rw [he] at h; exact h
    | err m => trivial
    | ub => rw [he] at h; exact h

theorem fields_fine (hx : Prog ex) : ∀ (k : Nat) (toks : List Tok), toks.length ≤ k → Fine' toks.length (fields ex toks) := by
  intro k
  induction k with
  | zero =>
    intro toks hk
    have h := field_fine hx toks
    rw [fields]
    split
    · exact Nat.le_refl _
    · split
      · rename_i he; rw [he] at h; simp only [Fine, List.length_cons] at h; omega
      · rename_i he; rw [he] at h; simp only [Fine, List.length_cons] at h; omega
      · rename_i he; rw [he] at h; exact Nat.le_of_lt h
      · trivial
      · rename_i he; rw [he] at h; exact h
  | succ k ih =>
    intro toks hk
    have h := field_fine hx toks
    rw [fields]
    split
    · exact Nat.le_refl _
    · split
      · rename_i f r he
        rw [he] at h; simp only [Fine, List.length_cons] at h
        rw [dif_pos (by omega)]
        have := ih r (by omega)
        split
        · rename_i he2; rw [he2] at this; simp only [Fine'] at this ⊢; omega
        · trivial
        · rename_i he2; rw [he2] at this; exact this
      · rename_i f r he
        rw [he] at h; simp only [Fine, List.length_cons] at h
        rw [dif_pos (by omega)]
        have := ih r (by omega)
        split
        · rename_i he2; rw [he2] at this; simp only [Fine'] at this ⊢; omega
        · trivial
        · rename_i he2; rw [he2] at this; exact this
      · rename_i he; rw [he] at h; exact Nat.le_of_lt h
      · trivial
      · rename_i he; rw [he] at h; exact h

theorem constr_fine (hx : Prog ex) (toks : List Tok) : Fine toks.length (constr ex toks) := by
  unfold constr
  have h := fields_fine hx _ toks (Nat.le_refl _)
  cases he : fields ex toks with
  | ok a =>
    rw [he] at h; simp only [Fine'] at h
    simp only [Res.bind_ok]
    have h1 := check_len .rbrc a.2
    cases hc : check .rbrc a.2 with
    | ok r2 => rw [hc] at h1; simp [Fine] at h1 ⊢; omega
    | err m => trivial
    | ub => rw [hc] at h1; exact h1
  | err m => trivial
  | ub => rw [he] at h; exact h

theorem funcargs_fine (hx : Prog ex) (toks : List Tok) : Fine toks.length (funcargs ex toks) := by
  unfold funcargs
  split
  · simp only [Fine, List.length_cons]; omega
  · rename_i r _
    have h := explist_fine hx _ r (Nat.le_refl _)
    cases he : explist ex r with
    | ok a =>
      rw [he] at h; simp only [Fine] at h
      simp only [Res.bind_ok]
      have h1 := check_len .rpar a.2
      cases hc : check .rpar a.2 with
      | ok r2 => rw [hc] at h1; simp [Fine] at h1 ⊢; omega
      | err m => trivial
      | ub => rw [hc] at h1; exact h1
    | err m => trivial
    | ub => rw [he] at h; exact h
  · rename_i r
    have h := constr_fine hx r
    cases he : constr ex r with
    | ok a => rw [he] at h; simp [Fine] at h ⊢; omega
    | err m => trivial
    | ub => rw [he] at h; exact h
  · simp only [Fine, List.length_cons]; omega
  · trivial

/-- the same for one suffix -/
def FineS (len : Nat) (x : Res (Option (T × List Tok))) : Prop :=
  match x with
  | .ok (some (_, r)) => r.length < len
  | .ok none => True
  | .err _ => True
  | .ub => False

theorem suffix1_fine (hx : Prog ex) (v : T) (toks : List Tok) : FineS toks.length (suffix1 ex v toks) := by
  have hc : FineS toks.length (do let (a, r) ← funcargs ex toks; return some (T.call v a, r)) := by
    have h := funcargs_fine hx toks
    cases he : funcargs ex toks with
    | ok a => rw [he] at h; exact h
    | err m => trivial
    | ub => rw [he] at h; exact h
  unfold suffix1
  split
  · simp only [FineS, List.length_cons]; omega
  · trivial
  · rename_i r
    have h := hx r
    cases he : ex r with
    | ok a =>
      rw [he] at h; simp only [Fine] at h
      simp only [Res.bind_ok]
      have h1 := check_len .rbrk a.2
      cases hc : check .rbrk a.2 with
      | ok r2 => rw [hc] at h1; simp [FineS] at h1 ⊢; omega
      | err m => trivial
      | ub => rw [hc] at h1; exact h1
    | err m => trivial
    | ub => rw [he] at h; exact h
  · rename_i i r
    have h := funcargs_fine hx r
    cases he : funcargs ex r with
    | ok a => rw [he] at h; simp [Fine, FineS] at h ⊢; omega
    | err m => trivial
    | ub => rw [he] at h; exact h
  · trivial
  · exact hc
  · exact hc
  · exact hc
  · trivial

theorem suffixes_fine (hx : Prog ex) : ∀ (k : Nat) (v : T) (toks : List Tok), toks.length ≤ k →
    Fine' toks.length (suffixes ex v toks) := by
  intro k
  induction k with
  | zero =>
    intro v toks hk
    have h := suffix1_fine hx v toks
    rw [suffixes]
    split
    · rename_i he; rw [he] at h; simp only [FineS] at h; omega
    · exact Nat.le_refl _
    · trivial
    · rename_i he; rw [he] at h; exact h
  | succ k ih =>
    intro v toks hk
    have h := suffix1_fine hx v toks
    rw [suffixes]
    split
    · rename_i v' r he
      rw [he] at h; simp only [FineS] at h
      rw [dif_pos h]
      have := ih v' r (by omega)
      cases hs : suffixes ex v' r with
      | ok a => rw [hs] at this; simp only [Fine'] at this ⊢; omega
      | err m => trivial
      | ub => rw [hs] at this; exact this
    · exact Nat.le_refl _
    · trivial
    · rename_i he; rw [he] at h; exact h

theorem primaryexp_fine (hx : Prog ex) (toks : List Tok) : Fine toks.length (primaryexp ex toks) := by
  unfold primaryexp
  split
  · rename_i r
    have h := hx r
    cases he : ex r with
    | ok a =>
      rw [he] at h; simp only [Fine] at h
      simp only [Res.bind_ok]
      have h1 := check_len .rpar a.2
      cases hc : check .rpar a.2 with
      | ok r2 => rw [hc] at h1; simp [Fine] at h1 ⊢; omega
      | err m => trivial
      | ub => rw [hc] at h1; exact h1
    | err m => trivial
    | ub => rw [he] at h; exact h
  · simp only [Fine, List.length_cons]; omega
  · trivial

theorem simpleexp_fine (hx : Prog ex) (toks : List Tok) : Fine toks.length (simpleexp ex toks) := by
  unfold simpleexp
  split
  · simp only [Fine, List.length_cons]; omega
  · simp only [Fine, List.length_cons]; omega
  · rename_i r
    have h := constr_fine hx r
    cases he : constr ex r with
    | ok a => rw [he] at h; simp [Fine] at h ⊢; omega
    | err m => trivial
    | ub => rw [he] at h; exact h
  · have h := primaryexp_fine hx toks
    cases he : primaryexp ex toks with
    | ok a =>
      rw [he] at h; simp only [Fine] at h
      simp only [Res.bind_ok]
      have h2 := suffixes_fine hx _ a.1 a.2 (Nat.le_refl _)
      cases hs : suffixes ex a.1 a.2 with
      | ok b => rw [hs] at h2; simp only [Fine', Fine] at h2 ⊢; omega
      | err m => trivial
      | ub => rw [hs] at h2; exact h2
    | err m => trivial
    | ub => rw [he] at h; exact h
end

theorem operand_fine {sub : Nat → List Tok → Res (T × List Tok)} (hs : ∀ l, Prog (sub l)) (toks : List Tok) :
    Fine toks.length (operand sub toks) := by
  unfold operand
  split
  · rename_i t r
    split
    · have h := hs unaryPriority r
      cases he : sub unaryPriority r with
      | ok a => rw [he] at h; simp [Fine] at h ⊢; omega
      | err m => trivial
      | ub => rw [he] at h; exact h
    · exact simpleexp_fine (hs 0) _
  · trivial

theorem binloop_fine {sub : Nat → List Tok → Res (T × List Tok)} (hs : ∀ l, Prog (sub l)) (limit : Nat) :
    ∀ (k : Nat) (v : T) (toks : List Tok), toks.length ≤ k → Fine' toks.length (binloop sub limit v toks) := by
  intro k
  induction k with
  | zero =>
    intro v toks hk
    obtain rfl : toks = [] := List.length_eq_zero_iff.1 (by omega)
    rw [binloop.eq_def]
    exact Nat.le_refl _
  | succ k ih =>
    intro v toks hk
    rw [binloop.eq_def]
    split
    · exact Nat.le_refl _
    · rename_i t r
      split
      · exact Nat.le_refl _
      · rename_i o _
        split
        · have h := hs (right o) r
          split
          · rename_i v2 r2 he
            rw [he] at h; simp only [Fine] at h
            simp only [List.length_cons] at hk ⊢
            rw [dif_pos (by omega)]
            have h2 := ih (.bin o v v2) r2 (by omega)
            cases hb : binloop sub limit (.bin o v v2) r2 with
            | ok a => rw [hb] at h2; simp only [Fine'] at h2 ⊢; omega
            | err m => trivial
            | ub => rw [hb] at h2; exact h2
          · trivial
          · rename_i he; rw [he] at h; exact h
        · exact Nat.le_refl _

theorem subexpr_fine : ∀ n limit, Prog (subexpr n limit) := by
  intro n
  induction n with
  | zero => intro limit toks; trivial
  | succ n ih =>
    intro limit toks
    simp only [subexpr]
    have h := operand_fine ih toks
    cases he : operand (subexpr n) toks with
    | ok a =>
      rw [he] at h; simp only [Fine] at h
      simp only [Res.bind_ok]
      have h2 := binloop_fine ih limit _ a.1 a.2 (Nat.le_refl _)
      cases hb : binloop (subexpr n) limit a.1 a.2 with
      | ok b => rw [hb] at h2; simp only [Fine', Fine] at h2 ⊢; omega
      | err m => trivial
      | ub => rw [hb] at h2; exact h2
    | err m => trivial
    | ub => rw [he] at h; exact h

end Verif.Parse
