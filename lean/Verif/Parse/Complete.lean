import Verif.Parse.Sound
/-! Every text of the language is accepted, with the tree that it stands for. -/
namespace Verif.Parse

/-- the least priority on the right edge of an expression -/
def T.rs : T → Nat
  | .bin o _ r => min (right o) r.rs
  | .un _ e => min unaryPriority e.rs
  | _ => 15

/-- what follows does not continue any expression -/
def Halt (rest : List Tok) : Prop := ∀ t, rest.head? = some t → getbinopr t = none ∧ t.suffix = false

theorem Halt.stops {rest : List Tok} (h : Halt rest) (e : T) : Stops e rest := by
  intro t ht
  refine ⟨?_, fun _ => (h t ht).2⟩
  rintro o rfl
  have := (h _ ht).1
  rw [getbinopr_tok] at this
  cases this

theorem Stops.noBin {e : T} {r : List Tok} (h : Stops e r) (k : Nat) : NoBin k r := by
  intro t o ht ho
  exact absurd (getbinopr_some ho) ((h t ht).1 o)

theorem Stops.noSuf {e : T} {r : List Tok} (h : Stops e r) (ho : e.open = true) : NoSuf r :=
  fun t ht => (h t ht).2 ho

theorem leftOk_trans (o p : BinOp) (n : Nat) (h1 : LeftOk o p.level) (h2 : RightOk p n) : LeftOk o n := by
  unfold LeftOk RightOk at *
  revert h1 h2
  cases o <;> cases p <;> simp [BinOp.level, BinOp.rightAssoc, unaryLevel] <;> omega

theorem leftOk_un_trans (o : BinOp) (n : Nat) (h1 : LeftOk o unaryLevel) (h2 : unaryLevel ≤ n) : LeftOk o n := by
  unfold LeftOk at *
  revert h1 h2
  cases o <;> simp [BinOp.level, BinOp.rightAssoc, unaryLevel] <;> omega

theorem leftOk_rs (o : BinOp) : ∀ e : T, e.ok → LeftOk o e.level → left o ≤ e.rs := by
  intro e
  induction e with
  | bin p l r ihl ihr =>
    intro hok h
    obtain ⟨_, _, hr, _, _, h6⟩ := hok
    simp only [T.rs]
    exact Nat.le_min.2 ⟨(leftOk_bin o p).1 h, ihr hr (leftOk_trans o p _ h h6)⟩
  | un u e ih =>
    intro hok h
    simp only [T.rs]
    exact Nat.le_min.2 ⟨(leftOk_un o).1 h, ih hok.1 (leftOk_un_trans o _ h hok.2.2)⟩
  | _ => intro _ _; exact Nat.le_of_lt (left_le o)

theorem leftOk_lp (o : BinOp) (e : T) (h : LeftOk o e.level) : left o ≤ e.lp := by
  cases e with
  | bin p l r =>
    revert h
    show LeftOk o p.level → left o ≤ left p
    cases o <;> cases p <;> decide
  | _ => exact Nat.le_of_lt (left_le o)

theorem depth_pos {e : T} : e.ok → e.sort = .exp → 1 ≤ e.depth := by
  induction e with
  | dot e i ih =>
    intro h _
    exact ih h.1 (prefix_sort h.2).1
  | _ =>
    intro h1 h2
    first
    | (cases h2; done)
    | simp only [T.depth]; omega

/-- how expressions begin -/
def Tok.begins : Tok → Bool
  | .lit _ | .str _ | .name _ | .lpar | .lbrc => true
  | .op .not | .op .hash | .op .minus | .op .tilde | .op (.cast _) => true
  | _ => false

theorem prefix_head : ∀ e : T, e.ok → e.isPrefix = true →
    ∃ t r, e.text = t :: r ∧ (t = .lpar ∨ ∃ i, t = .name i) := by
  intro e
  induction e with
  | name i => intro _ _; exact ⟨_, _, rfl, Or.inr ⟨i, rfl⟩⟩
  | paren e ih => intro _ _; exact ⟨_, _, rfl, Or.inl rfl⟩
  | dot e i ih =>
    intro h _
    obtain ⟨t, r, h1, h2⟩ := ih h.1 h.2
    exact ⟨t, r ++ [.dot, .name i], by simp [T.text, h1], h2⟩
  | idx e k ih _ =>
    intro h _
    obtain ⟨t, r, h1, h2⟩ := ih h.1 h.2.1
    exact ⟨t, r ++ .lbrk :: k.text ++ [.rbrk], by simp [T.text, h1], h2⟩
  | call e a ih _ =>
    intro h _
    obtain ⟨t, r, h1, h2⟩ := ih h.1 h.2.1
    exact ⟨t, r ++ a.text, by simp [T.text, h1], h2⟩
  | mcall e i a ih _ =>
    intro h _
    obtain ⟨t, r, h1, h2⟩ := ih h.1 h.2.1
    exact ⟨t, r ++ .colon :: .name i :: a.text, by simp [T.text, h1], h2⟩
  | _ => intro _ h; cases h

theorem exp_head : ∀ e : T, e.ok → e.sort = .exp → ∃ t r, e.text = t :: r ∧ t.begins = true := by
  intro e
  have hpre : e.ok → e.isPrefix = true → ∃ t r, e.text = t :: r ∧ t.begins = true := by
    intro h1 h2
    obtain ⟨t, r, h, ht⟩ := prefix_head e h1 h2
    refine ⟨t, r, h, ?_⟩
    rcases ht with rfl | ⟨i, rfl⟩ <;> rfl
  induction e with
  | un u e => intro _ _; exact ⟨_, _, rfl, by cases u <;> rfl⟩
  | bin o l r ihl _ =>
    intro h _
    obtain ⟨t, r', h1, h2⟩ := ihl (by
      intro a b
      obtain ⟨t, r, h, ht⟩ := prefix_head l a b
      refine ⟨t, r, h, ?_⟩
      rcases ht with rfl | ⟨i, rfl⟩ <;> rfl) h.1 h.2.1
    exact ⟨t, r' ++ .op o.tok :: r.text, by simp [T.text, h1], h2⟩
  | lit i => intro _ _; exact ⟨_, _, rfl, rfl⟩
  | str i => intro _ _; exact ⟨_, _, rfl, rfl⟩
  | tab fs => intro _ _; exact ⟨_, _, rfl, rfl⟩
  | _ =>
    intro h h2
    first
    | (cases h2; done)
    | exact hpre h rfl

/-- arguments begin with a bracket or a string -/
theorem args_head (a : T) (h : a.sort = .args) :
    ∃ t r, a.text = t :: r ∧ (t = .lpar ∨ t = .lbrc ∨ ∃ i, t = .str i) := by
  cases a with
  | aparen l => exact ⟨_, _, rfl, Or.inl rfl⟩
  | astr i => exact ⟨_, _, rfl, Or.inr (Or.inr ⟨i, rfl⟩)⟩
  | atab fs => exact ⟨_, _, rfl, Or.inr (Or.inl rfl)⟩
  | _ => cases h

/-- an expression does not begin like a named field -/
theorem not_named : ∀ e : T, e.ok → e.sort = .exp → ∀ rest : List Tok, rest.head? ≠ some .assign →
    ∀ i r, e.text ++ rest ≠ .name i :: .assign :: r := by
  intro e
  induction e with
  | name j =>
    intro _ _ rest hr i r he
    simp only [T.text, List.cons_append, List.nil_append, List.cons.injEq] at he
    rw [he.2] at hr
    exact hr rfl
  | dot e j ih =>
    intro h _ rest hr i r he
    simp only [T.text, List.append_assoc] at he
    exact ih h.1 (prefix_sort h.2).1 _ (by simp) i r he
  | idx e k ih _ =>
    intro h _ rest hr i r he
    simp only [T.text, List.append_assoc] at he
    exact ih h.1 (prefix_sort h.2.1).1 _ (by simp) i r he
  | call e a ih _ =>
    intro h _ rest hr i r he
    simp only [T.text, List.append_assoc] at he
    obtain ⟨t, r', h1, h2⟩ := args_head a h.2.2.2
    refine ih h.1 (prefix_sort h.2.1).1 _ ?_ i r he
    rw [h1]
    rcases h2 with rfl | rfl | ⟨i, rfl⟩ <;> simp
  | mcall e j a ih _ =>
    intro h _ rest hr i r he
    simp only [T.text, List.append_assoc] at he
    exact ih h.1 (prefix_sort h.2.1).1 _ (by simp) i r he
  | bin o l r ih _ =>
    intro h _ rest hr i r' he
    simp only [T.text, List.append_assoc] at he
    exact ih h.1 h.2.1 _ (by simp) i r' he
  | _ =>
    intro _ h2 rest hr i r he
    first
    | (cases h2; done)
    | (simp only [T.text, List.cons_append, List.cons.injEq] at he; exact absurd he.1 (by intro h; cases h))

theorem binloop_stop {sub : Nat → List Tok → Res (T × List Tok)} {limit : Nat} {v : T} {rest : List Tok}
    (h : NoBin limit rest) : binloop sub limit v rest = .ok (v, rest) := by
  rw [binloop.eq_def]
  split
  · rfl
  · rename_i t r
    split
    · rfl
    · rename_i o ho
      have := h t o rfl ho
      rw [if_neg (by omega)]

theorem suffixes_stop {ex : List Tok → Res (T × List Tok)} {v : T} {rest : List Tok} (h : NoSuf rest) :
    suffixes ex v rest = .ok (v, rest) := by
  have : suffix1 ex v rest = .ok none := by
    unfold suffix1
    split <;> first | rfl | (have h1 := h _ rfl; cases h1)
  rw [suffixes, this]

/-- a primary expression and its suffixes -/
def sfx (ex : List Tok → Res (T × List Tok)) (toks : List Tok) : Res (T × List Tok) := do
  let (v, r) ← primaryexp ex toks
  suffixes ex v r

/-- one suffix more -/
theorem suffixes_step {ex : List Tok → Res (T × List Tok)} {v v' : T} {toks r : List Tok}
    (h : suffix1 ex v toks = .ok (some (v', r))) (hl : r.length < toks.length) :
    suffixes ex v toks = suffixes ex v' r := by
  rw [suffixes, h]
  simp only [hl, dite_true]

/-- what `subexpr` makes of the text of a tree, whatever follows -/
def Cmp (t : T) : Prop :=
  t.ok →
  (t.sort = .exp → ∀ n limit rest, t.depth ≤ n + 1 → limit < t.lp → NoBin t.rs rest → (t.open = true → NoSuf rest) →
    subexpr (n + 1) limit (t.text ++ rest) = binloop (subexpr n) limit t rest) ∧
  (t.isPrefix = true → ∀ n rest, t.depth ≤ n + 1 →
    sfx (subexpr n 0) (t.text ++ rest) = suffixes (subexpr n 0) t rest) ∧
  (t.sort = .args → ∀ n rest, t.depth ≤ n → funcargs (subexpr n 0) (t.text ++ rest) = .ok (t, rest)) ∧
  (t.sort = .list → t ≠ .lnil → ∀ n rest, t.depth ≤ n → Halt rest → rest.head? ≠ some .comma →
    explist (subexpr n 0) (t.text ++ rest) = .ok (t, rest)) ∧
  (t.sort = .fld → ∀ n rest, t.depth ≤ n → Halt rest → rest.head? ≠ some .assign →
    field (subexpr n 0) (t.text ++ rest) = .ok (t, rest)) ∧
  (t.sort = .flds → ∀ n rest, t.depth ≤ n → rest.head? = some .rbrc →
    fields (subexpr n 0) (t.text ++ rest) = .ok (t, rest))

/-- an operand is read up to where it ends -/
theorem Cmp.sub {t : T} (h : Cmp t) (hok : t.ok) (hs : t.sort = .exp) {n limit : Nat} {rest : List Tok}
    (hd : t.depth ≤ n) (hl : limit < t.lp) (h1 : NoBin t.rs rest) (h2 : NoBin limit rest) (h3 : t.open = true → NoSuf rest) :
    subexpr n limit (t.text ++ rest) = .ok (t, rest) := by
  have := depth_pos hok hs
  obtain ⟨m, rfl⟩ : ∃ m, n = m + 1 := ⟨n - 1, by omega⟩
  rw [(h hok).1 hs m limit rest hd hl h1 h3, binloop_stop h2]

theorem lp_pos (t : T) : 0 < t.lp := by
  cases t with
  | bin o l r => exact left_pos o
  | _ => show 0 < 15; omega

theorem Cmp.full {t : T} (h : Cmp t) (hok : t.ok) (hs : t.sort = .exp) {n : Nat} {rest : List Tok}
    (hd : t.depth ≤ n) (hr : Stops t rest) : subexpr n 0 (t.text ++ rest) = .ok (t, rest) :=
  h.sub hok hs hd (lp_pos t) (hr.noBin _) (hr.noBin _) hr.noSuf


theorem halt_of {t : Tok} (h : getbinopr t = none) (h2 : t.suffix = false) (r : List Tok) : Halt (t :: r) := by
  intro t' ht; cases ht; exact ⟨h, h2⟩

theorem check_hit (t : Tok) (r : List Tok) : check t (t :: r) = .ok r := by simp [check]

/-- from the suffixed form to `subexpr` -/
theorem prefix_sub {t : T} (hok : t.ok) (hp : t.isPrefix = true) {n limit : Nat} {rest : List Tok} (h3 : NoSuf rest)
    (h : sfx (subexpr n 0) (t.text ++ rest) = suffixes (subexpr n 0) t rest) :
    subexpr (n + 1) limit (t.text ++ rest) = binloop (subexpr n) limit t rest := by
  rw [suffixes_stop h3] at h
  have hop : operand (subexpr n) (t.text ++ rest) = .ok (t, rest) := by
    obtain ⟨x, r, h1, h2⟩ := prefix_head t hok hp
    rw [h1] at h ⊢
    rcases h2 with rfl | ⟨i, rfl⟩ <;> exact h
  simp only [subexpr, hop, Res.bind_ok]

theorem constr_of {n : Nat} {fs : T} {rest : List Tok} (h : Cmp fs) (hok : fs.ok) (hs : fs.sort = .flds)
    (hd : fs.depth ≤ n) : constr (subexpr n 0) (fs.text ++ .rbrc :: rest) = .ok (fs, rest) := by
  unfold constr
  rw [(h hok).2.2.2.2.2 hs n _ hd rfl]
  simp [check_hit]

theorem prefix_open {t : T} (hp : t.isPrefix = true) : t.open = true := by
  cases t <;> first | rfl | cases hp

theorem prefix_cmp {t : T} (hp : t.isPrefix = true)
    (h : t.ok → ∀ n rest, t.depth ≤ n + 1 → sfx (subexpr n 0) (t.text ++ rest) = suffixes (subexpr n 0) t rest) :
    Cmp t := by
  intro hok
  have hs := (prefix_sort hp).1
  refine ⟨fun _ n limit rest hd _ _ h3 => prefix_sub hok hp (h3 (prefix_open hp)) (h hok n rest hd), fun _ => h hok, ?_, ?_, ?_, ?_⟩ <;>
    (intro hs'; rw [hs] at hs'; cases hs')

theorem head_cons_ne {x y : Tok} {r : List Tok} (h : x ≠ y) : (x :: r).head? ≠ some y := by
  intro e; exact h (Option.some.inj e)

/-- a field does not begin with a closing brace -/
theorem fld_head (f : T) (h : f.ok) (hs : f.sort = .fld) (rest : List Tok) :
    (f.text ++ rest).head? ≠ some .rbrc := by
  cases f with
  | fpos e =>
    obtain ⟨t, r, e1, e2⟩ := exp_head e h.1 h.2
    simp only [T.text, e1, List.cons_append, List.head?_cons]
    intro h; cases h; cases e2
  | fnamed i e => simp [T.text]
  | fkeyed k e => simp [T.text]
  | _ => cases hs

theorem complete (t : T) : Cmp t := by
  induction t with
  | lit i =>
    intro _
    refine ⟨fun _ n limit rest _ _ _ _ => ?_, ?_, ?_, ?_, ?_, ?_⟩
    · simp [subexpr, operand, getunopr, simpleexp, T.text]
    all_goals intro hs; cases hs
  | str i =>
    intro _
    refine ⟨fun _ n limit rest _ _ _ _ => ?_, ?_, ?_, ?_, ?_, ?_⟩
    · simp [subexpr, operand, getunopr, simpleexp, T.text]
    all_goals intro hs; cases hs
  | name i =>
    refine prefix_cmp rfl fun _ n rest _ => ?_
    simp [sfx, primaryexp, T.text]
  | paren e ih =>
    refine prefix_cmp rfl fun hok n rest hd => ?_
    simp only [T.depth] at hd
    have h1 := ih.full hok.1 hok.2 (n := n) (rest := .rpar :: rest) (by omega) ((halt_of rfl rfl _).stops _)
    simp [sfx, primaryexp, T.text, h1, check_hit]
  | dot e i ih =>
    refine prefix_cmp rfl fun hok n rest hd => ?_
    simp only [T.text, List.append_assoc]
    rw [(ih hok.1).2.1 hok.2 n _ hd]
    exact suffixes_step rfl (by simp; omega)
  | idx e k ihe ihk =>
    refine prefix_cmp rfl fun hok n rest hd => ?_
    obtain ⟨h1, h2, h3, h4⟩ := hok
    simp only [T.depth] at hd
    simp only [T.text, List.append_assoc]
    rw [(ihe h1).2.1 h2 n _ (by omega)]
    refine suffixes_step ?_ (by simp; omega)
    have hk := ihk.full h3 h4 (n := n) (rest := .rbrk :: rest) (by omega) ((halt_of rfl rfl _).stops _)
    simp [suffix1, hk, check_hit]
  | call f a ihf iha =>
    refine prefix_cmp rfl fun hok n rest hd => ?_
    obtain ⟨h1, h2, h3, h4⟩ := hok
    simp only [T.depth] at hd
    simp only [T.text, List.append_assoc]
    rw [(ihf h1).2.1 h2 n _ (by omega)]
    have ha := (iha h3).2.2.1 h4 n rest (by omega)
    obtain ⟨t, r, e1, e2⟩ := args_head a h4
    refine suffixes_step ?_ (by rw [e1]; simp; omega)
    rw [e1] at ha ⊢
    simp only [List.cons_append] at ha ⊢
    rcases e2 with rfl | rfl | ⟨i, rfl⟩ <;> simp [suffix1, ha]
  | mcall o i a ihf iha =>
    refine prefix_cmp rfl fun hok n rest hd => ?_
    obtain ⟨h1, h2, h3, h4⟩ := hok
    simp only [T.depth] at hd
    simp only [T.text, List.append_assoc]
    rw [(ihf h1).2.1 h2 n _ (by omega)]
    have ha := (iha h3).2.2.1 h4 n rest (by omega)
    refine suffixes_step ?_ (by simp; omega)
    simp [suffix1, ha]
  | un u e ih =>
    intro hok
    obtain ⟨h1, h2, h3⟩ := hok
    refine ⟨fun _ n limit rest hd hl hb hs => ?_, ?_, ?_, ?_, ?_, ?_⟩
    · simp only [T.depth] at hd
      simp only [T.rs] at hb
      have he := ih.sub h1 h2 (n := n) (limit := unaryPriority) (rest := rest) (by omega) (unary_lp e h3)
        (hb.mono (Nat.min_le_right _ _)) (hb.mono (Nat.min_le_left _ _)) hs
      simp [subexpr, operand, T.text, getunopr_tok, he]
    all_goals intro hs; cases hs
  | bin o l r ihl ihr =>
    intro hok
    obtain ⟨h1, h2, h3, h4, h5, h6⟩ := hok
    refine ⟨fun _ n limit rest hd hl hb hs => ?_, ?_, ?_, ?_, ?_, ?_⟩
    · simp only [T.depth] at hd
      simp only [T.rs] at hb
      simp only [T.lp] at hl
      have hr := ihr.sub h3 h4 (n := n) (limit := right o) (rest := rest) (by omega) (rightOk_lp o r h6)
        (hb.mono (Nat.min_le_right _ _)) (hb.mono (Nat.min_le_left _ _)) hs
      have hlp := leftOk_lp o l h5
      simp only [T.text, List.append_assoc, List.cons_append]
      rw [(ihl h1).1 h2 n limit _ (by omega) (by omega) ?_ ?_]
      · rw [binloop.eq_def]
        simp only [getbinopr_tok, hr]
        rw [if_pos hl, dif_pos (by simp; omega)]
      · intro t o' ht ho
        cases ht
        rw [getbinopr_tok] at ho; cases ho
        exact leftOk_rs o l h1 h5
      · intro _ t ht
        cases ht
        rfl
    all_goals intro hs; cases hs
  | tab fs ih =>
    intro hok
    refine ⟨fun _ n limit rest hd _ _ _ => ?_, ?_, ?_, ?_, ?_, ?_⟩
    · simp only [T.depth] at hd
      have := constr_of (n := n) (rest := rest) ih hok.1 hok.2 (by omega)
      simp [subexpr, operand, getunopr, simpleexp, T.text, this]
    all_goals intro hs; cases hs
  | aparen l ih =>
    intro hok
    refine ⟨?_, ?_, fun _ n rest hd => ?_, ?_, ?_, ?_⟩
    rotate_left 2
    · simp only [T.depth] at hd
      by_cases hl : l = .lnil
      · subst hl; rfl
      · have h1 := (ih hok.1).2.2.2.1 hok.2 hl n (.rpar :: rest) hd (halt_of rfl rfl _) (head_cons_ne (by simp))
        have h2 : ∃ t r, l.text = t :: r ∧ t ≠ .rpar := by
          cases l with
          | lcons e l' =>
            obtain ⟨he, hes, _⟩ := hok.1
            obtain ⟨t, r, e1, e2⟩ := exp_head e he hes
            have hne : t ≠ .rpar := by rintro rfl; cases e2
            by_cases hl' : l' = .lnil
            · subst hl'; exact ⟨t, r, e1, hne⟩
            · exact ⟨t, r ++ .comma :: l'.text, by rw [lcons_text _ _ hl', e1]; rfl, hne⟩
          | lnil => exact absurd rfl hl
          | _ => cases hok.2
        obtain ⟨t, r, e1, e2⟩ := h2
        simp only [T.text, List.append_assoc, List.cons_append, List.nil_append]
        rw [e1] at h1 ⊢
        unfold funcargs
        split
        · rename_i h; simp only [List.cons_append, List.cons.injEq] at h; exact absurd h.2.1 e2
        · rename_i h; cases h
          rw [h1]; simp [check_hit]
        · rename_i h; cases h
        · rename_i h; cases h
        · rename_i _ h _ _; exact (h _ rfl).elim
    all_goals intro hs; cases hs
  | astr i =>
    intro hok
    refine ⟨?_, ?_, fun _ n rest hd => rfl, ?_, ?_, ?_⟩
    all_goals intro hs; cases hs
  | atab fs ih =>
    intro hok
    refine ⟨?_, ?_, fun _ n rest hd => ?_, ?_, ?_, ?_⟩
    rotate_left 2
    · have := constr_of (n := n) (rest := rest) ih hok.1 hok.2 hd
      simp [funcargs, T.text, this]
    all_goals intro hs; cases hs
  | lnil =>
    intro hok
    refine ⟨?_, ?_, ?_, fun _ h => absurd rfl h, ?_, ?_⟩
    all_goals intro hs; cases hs
  | lcons e l ihe ihl =>
    intro hok
    obtain ⟨h1, h2, h3, h4⟩ := hok
    refine ⟨?_, ?_, ?_, fun _ _ n rest hd hst hc => ?_, ?_, ?_⟩
    rotate_left 3
    · simp only [T.depth] at hd
      by_cases hl : l = .lnil
      · subst hl
        have he := ihe.full h1 h2 (n := n) (rest := rest) (by omega) (hst.stops _)
        rw [explist]
        show (match subexpr n 0 (e.text ++ rest) with | _ => _) = _
        simp only [T.text, he]
        cases rest with
        | nil => rfl
        | cons x r =>
          cases x <;> first | rfl | exact absurd rfl hc
      · have he := ihe.full h1 h2 (n := n) (rest := .comma :: (l.text ++ rest)) (by omega) ((halt_of rfl rfl _).stops _)
        have hl' := (ihl h3).2.2.2.1 h4 hl n rest (by omega) hst hc
        rw [explist, lcons_text _ _ hl]
        simp only [List.append_assoc, List.cons_append, he, hl']
        rw [dif_pos (by simp; omega)]
    all_goals intro hs; cases hs
  | fpos e ih =>
    intro hok
    refine ⟨?_, ?_, ?_, ?_, fun _ n rest hd hst ha => ?_, ?_⟩
    rotate_left 4
    · have he := ih.full hok.1 hok.2 (n := n) (rest := rest) hd (hst.stops _)
      have hn := not_named e hok.1 hok.2 rest ha
      obtain ⟨t, r, e1, e2⟩ := exp_head e hok.1 hok.2
      unfold field
      split
      · rename_i h; exact absurd h (hn _ _)
      · rename_i h
        simp only [T.text, e1, List.cons_append, List.cons.injEq] at h
        rw [h.1] at e2; cases e2
      · simp [T.text, he]
    all_goals intro hs; cases hs
  | fnamed i e ih =>
    intro hok
    refine ⟨?_, ?_, ?_, ?_, fun _ n rest hd hst ha => ?_, ?_⟩
    rotate_left 4
    · have he := ih.full hok.1 hok.2 (n := n) (rest := rest) hd (hst.stops _)
      simp [field, T.text, he]
    all_goals intro hs; cases hs
  | fkeyed k e ihk ihe =>
    intro hok
    obtain ⟨h1, h2, h3, h4⟩ := hok
    refine ⟨?_, ?_, ?_, ?_, fun _ n rest hd hst ha => ?_, ?_⟩
    rotate_left 4
    · simp only [T.depth] at hd
      have hk := ihk.full h1 h2 (n := n) (rest := .rbrk :: .assign :: (e.text ++ rest)) (by omega) ((halt_of rfl rfl _).stops _)
      have he := ihe.full h3 h4 (n := n) (rest := rest) (by omega) (hst.stops _)
      simp [field, T.text, hk, he, check_hit]
    all_goals intro hs; cases hs
  | fsnil =>
    intro hok
    refine ⟨?_, ?_, ?_, ?_, ?_, fun _ n rest hd hr => ?_⟩
    rotate_left 5
    · rw [fields]; simp [T.text, hr]
    all_goals intro hs; cases hs
  | fslast f ih =>
    intro hok
    refine ⟨?_, ?_, ?_, ?_, ?_, fun _ n rest hd hr => ?_⟩
    rotate_left 5
    · obtain ⟨x, hx⟩ : ∃ x, rest = .rbrc :: x := by
        cases rest with
        | nil => cases hr
        | cons a b => cases hr; exact ⟨b, rfl⟩
      subst hx
      have hf := (ih hok.1).2.2.2.2.1 hok.2 n (.rbrc :: x) hd (halt_of rfl rfl _) (head_cons_ne (by simp))
      have hh := fld_head f hok.1 hok.2 (.rbrc :: x)
      show fields (subexpr n 0) (f.text ++ .rbrc :: x) = _
      rw [fields, if_neg hh]
      simp only [hf]
    all_goals intro hs; cases hs
  | fsmore f s fs ihf ihs =>
    intro hok
    obtain ⟨h1, h2, h3, h4⟩ := hok
    refine ⟨?_, ?_, ?_, ?_, ?_, fun _ n rest hd hr => ?_⟩
    rotate_left 5
    · simp only [T.depth] at hd
      have hs := (ihs h3).2.2.2.2.2 h4 n rest (by omega) hr
      simp only [T.text, List.append_assoc, List.cons_append]
      rw [fields, if_neg (fld_head f h1 h2 _)]
      cases s with
      | true =>
        have hf := (ihf h1).2.2.2.2.1 h2 n (.semi :: (fs.text ++ rest)) (by omega) (halt_of rfl rfl _) (head_cons_ne (by simp))
        simp only [if_true, hf, hs]
        rw [dif_pos (by simp; omega)]
      | false =>
        have hf := (ihf h1).2.2.2.2.1 h2 n (.comma :: (fs.text ++ rest)) (by omega) (halt_of rfl rfl _) (head_cons_ne (by simp))
        simp only [Bool.false_eq_true, if_false, hf, hs]
        rw [dif_pos (by simp; omega)]
    all_goals intro hs; cases hs

end Verif.Parse
