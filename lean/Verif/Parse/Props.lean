import Verif.Parse.Total
/-!
Property C75: the parser reads an expression as the manual's grammar and precedence rules say.
-/
namespace Verif.Parse

/-- **C75** (what is read, exactly).  With `n` levels left, `expr` reads `e` from the tokens and leaves `rest` if and only if
the tokens are the text of `e` followed by `rest`, `e` is an expression of the grammar in which precedences and
associativity are respected, it is not nested deeper than `n`, and `rest` does not continue it. -/
theorem expr_iff (n : Nat) (toks : List Tok) (e : T) (rest : List Tok) :
    expr n toks = .ok (e, rest) ↔
      toks = e.text ++ rest ∧ e.ok ∧ e.sort = .exp ∧ e.depth ≤ n ∧ Stops e rest := by
  constructor
  · intro h
    obtain ⟨h1, h2, h3, h4, _, h6, h7⟩ := subexpr_sound n 0 toks e rest (by omega) h
    refine ⟨h1, h2, h3, h4, ?_⟩
    intro t ht
    refine ⟨?_, fun ho => h7 ho t ht⟩
    rintro o rfl
    have := h6 _ o ht (getbinopr_tok o)
    have := left_pos o
    omega
  · rintro ⟨rfl, h2, h3, h4, h5⟩
    exact (complete e).full h2 h3 h4 h5

/-- **C75** (nothing else can happen).  On every input the parser ends, with an expression or with an error; when it
succeeds it has consumed at least one token. -/
theorem expr_total (n : Nat) (toks : List Tok) :
    (∃ e rest, expr n toks = .ok (e, rest) ∧ rest.length < toks.length) ∨ ∃ m, expr n toks = .err m := by
  have h := subexpr_fine n 0 toks
  unfold expr
  cases he : subexpr n 0 toks with
  | ok a => rw [he] at h; exact Or.inl ⟨a.1, a.2, rfl, h⟩
  | err m => exact Or.inr ⟨m, rfl⟩
  | ub => rw [he] at h; exact h.elim

/-- **C75** (no ambiguity).  A text, with what follows it, is the text of one expression only. -/
theorem text_unique (e e' : T) (r r' : List Tok) (h : e.ok) (hs : e.sort = .exp) (h' : e'.ok) (hs' : e'.sort = .exp)
    (hr : Stops e r) (hr' : Stops e' r') (heq : e.text ++ r = e'.text ++ r') : e = e' ∧ r = r' := by
  have h1 := (expr_iff (max e.depth e'.depth) (e.text ++ r) e r).2 ⟨rfl, h, hs, by omega, hr⟩
  have h2 := (expr_iff (max e.depth e'.depth) (e.text ++ r) e' r').2 ⟨heq, h', hs', by omega, hr'⟩
  rw [h1] at h2
  cases h2
  exact ⟨rfl, rfl⟩

/-- **C75** (the limit).  An expression that is nested deeper than the number of levels left is refused, wherever the
nesting is. -/
theorem expr_deep (n : Nat) (e : T) (rest : List Tok) (h : e.ok) (hs : e.sort = .exp) (hd : n < e.depth)
    (hr : Stops e rest) : ∃ m, expr n (e.text ++ rest) = .err m := by
  rcases expr_total n (e.text ++ rest) with ⟨e', r', he, _⟩ | he
  · obtain ⟨h1, h2, h3, h4, h5⟩ := (expr_iff _ _ _ _).1 he
    obtain ⟨rfl, _⟩ := text_unique e e' rest r' h hs h2 h3 hr h5 h1
    omega
  · exact he

/-- **C75** (the parser does not stop early).  If the tokens also begin with the text of another expression, that text is
followed by a token that could continue it: a binary operator or the beginning of a suffix. -/
theorem expr_longest (n : Nat) (toks : List Tok) (e : T) (rest : List Tok) (h : expr n toks = .ok (e, rest))
    (e' : T) (rest' : List Tok) (heq : toks = e'.text ++ rest') (hok : e'.ok) (hs : e'.sort = .exp) (hne : e' ≠ e) :
    ∃ t, rest'.head? = some t ∧ ((∃ o : BinOp, t = .op o.tok) ∨ t.suffix = true) := by
  obtain ⟨h1, h2, h3, h4, h5⟩ := (expr_iff _ _ _ _).1 h
  by_cases hst : Stops e' rest'
  · exact absurd (text_unique e' e rest' rest hok hs h2 h3 hst h5 (heq ▸ h1)).1 hne
  · unfold Stops at hst
    by_cases hx : ∃ t, rest'.head? = some t ∧ ((∃ o : BinOp, t = .op o.tok) ∨ t.suffix = true)
    · exact hx
    · refine absurd ?_ hst
      intro t ht
      refine ⟨fun o ho => hx ⟨t, ht, Or.inl ⟨o, ho⟩⟩, fun _ => ?_⟩
      cases hsu : t.suffix with
      | false => rfl
      | true => exact absurd ⟨t, ht, Or.inr hsu⟩ hx

/-! ### examples -/

/-- `a + b * c ^ -d .. e .. f == #g.h(i, "s") {[1] = 2; x = 3, 4}` and then `other` -/
def sample : T :=
  .bin .eq
    (.bin .concat (.bin .add (.name 0) (.bin .mul (.name 1) (.bin .pow (.name 2) (.un .minus (.name 3)))))
      (.bin .concat (.name 4) (.name 5)))
    (.un .len (.call (.call (.dot (.name 6) 7) (.aparen (.lcons (.name 8) (.lcons (.str 0) .lnil))))
      (.atab (.fsmore (.fkeyed (.lit 1) (.lit 2)) true (.fsmore (.fnamed 9 (.lit 3)) false (.fslast (.fpos (.lit 4))))))))

theorem sample_ok : sample.ok := by
  simp [sample, T.ok, T.sort, T.level, T.isPrefix, BinOp.level, BinOp.rightAssoc, unaryLevel]

theorem sample_stops : Stops sample [.other 0] := by
  intro t ht
  cases ht
  exact ⟨(fun o h => by cases h), fun _ => rfl⟩

example : expr 125 (sample.text ++ [.other 0]) = .ok (sample, [.other 0]) :=
  (expr_iff ..).2 ⟨rfl, sample_ok, rfl, by decide, sample_stops⟩

example : ∃ m, expr 4 (sample.text ++ [.other 0]) = .err m :=
  expr_deep 4 sample _ sample_ok rfl (by decide) sample_stops

/-- `-x^2` is `-(x^2)`, `2^-3^2` is `2^(-(3^2))`, `a..b..c` is `a..(b..c)`, `a-b-c` is `(a-b)-c`, `not a == b` is
`(not a) == b` -/
example :
    expr 125 [.op .minus, .name 0, .op .caret, .lit 2] = .ok (.un .minus (.bin .pow (.name 0) (.lit 2)), []) ∧
    expr 125 [.lit 2, .op .caret, .op .minus, .lit 3, .op .caret, .lit 2] =
      .ok (.bin .pow (.lit 2) (.un .minus (.bin .pow (.lit 3) (.lit 2))), []) ∧
    expr 125 [.name 0, .op .dots, .name 1, .op .dots, .name 2] =
      .ok (.bin .concat (.name 0) (.bin .concat (.name 1) (.name 2)), []) ∧
    expr 125 [.name 0, .op .minus, .name 1, .op .minus, .name 2] =
      .ok (.bin .sub (.bin .sub (.name 0) (.name 1)) (.name 2), []) ∧
    expr 125 [.op .not, .name 0, .op .eq, .name 1] = .ok (.bin .eq (.un .not (.name 0)) (.name 1), []) := by
  refine ⟨(expr_iff ..).2 ?_, (expr_iff ..).2 ?_, (expr_iff ..).2 ?_, (expr_iff ..).2 ?_, (expr_iff ..).2 ?_⟩ <;>
    exact ⟨rfl, by simp [T.ok, T.sort, T.level, BinOp.level, BinOp.rightAssoc, unaryLevel], rfl, by decide,
      fun t ht => by cases ht⟩

end Verif.Parse
