import Verif.Parse.Model
/-! What the parser accepts is in the language. -/
namespace Verif.Parse

/-! ### operators -/

theorem getbinopr_some {t : Tok} {o : BinOp} (h : getbinopr t = some o) : t = .op o.tok := by
  unfold getbinopr at h
  split at h <;> first | (cases h; rfl) | cases h

theorem getbinopr_tok (o : BinOp) : getbinopr (.op o.tok) = some o := by cases o <;> rfl

theorem getunopr_some {t : Tok} {o : UnOp} (h : getunopr t = some o) : t = .op o.tok := by
  unfold getunopr at h
  split at h <;> first | (cases h; rfl) | cases h

theorem getunopr_tok (o : UnOp) : getunopr (.op o.tok) = some o := by cases o <;> rfl

/-- the priority on the left of an expression: that of its outermost binary operator -/
def T.lp : T → Nat
  | .bin o _ _ => left o
  | _ => 15

/-- the priority on the right of the outermost operator -/
def T.rp : T → Nat
  | .bin o _ _ => right o
  | .un _ _ => unaryPriority
  | _ => 15

/-- the left operand of `o` binds at least as tightly -/
def LeftOk (o : BinOp) (l : Nat) : Prop := if o.rightAssoc then o.level < l else o.level ≤ l

/-- the right operand of `o` binds at least as tightly -/
def RightOk (o : BinOp) (r : Nat) : Prop :=
  if o = .pow then unaryLevel ≤ r else if o.rightAssoc then o.level ≤ r else o.level < r

instance (o : BinOp) (l : Nat) : Decidable (LeftOk o l) := by unfold LeftOk; infer_instance
instance (o : BinOp) (l : Nat) : Decidable (RightOk o l) := by unfold RightOk; infer_instance

theorem leftOk_bin (o p : BinOp) : LeftOk o p.level ↔ left o ≤ right p := by
  cases o <;> cases p <;> decide

theorem rightOk_bin (o p : BinOp) : RightOk o p.level ↔ right o < left p := by
  cases o <;> cases p <;> decide

theorem leftOk_un (o : BinOp) : LeftOk o unaryLevel ↔ left o ≤ unaryPriority := by cases o <;> decide

theorem rightOk_un (o : BinOp) : RightOk o unaryLevel := by cases o <;> decide

theorem leftOk_13 (o : BinOp) : LeftOk o 13 := by cases o <;> decide

theorem rightOk_13 (o : BinOp) : RightOk o 13 := by cases o <;> decide

theorem left_le (o : BinOp) : left o < 15 := by cases o <;> decide

theorem left_pos (o : BinOp) : 0 < left o := by cases o <;> decide

theorem right_lt (o : BinOp) : right o < 15 := by cases o <;> decide

theorem leftOk_iff (o : BinOp) (e : T) : LeftOk o e.level ↔ left o ≤ e.rp := by
  cases e with
  | bin p l r => exact leftOk_bin o p
  | un u e => exact leftOk_un o
  | _ => exact ⟨fun _ => Nat.le_of_lt (left_le o), fun _ => leftOk_13 o⟩

theorem rightOk_of (o : BinOp) (e : T) (h : right o < e.lp) : RightOk o e.level := by
  cases e with
  | bin p l r => exact (rightOk_bin o p).2 h
  | un u e => exact rightOk_un o
  | _ => exact rightOk_13 o

theorem rightOk_lp (o : BinOp) (e : T) (h : RightOk o e.level) : right o < e.lp := by
  cases e with
  | bin p l r => exact (rightOk_bin o p).1 h
  | _ => exact right_lt o

theorem unary_lp (e : T) (h : unaryLevel ≤ e.level) : unaryPriority < e.lp := by
  cases e with
  | bin p l r =>
    revert h
    show unaryLevel ≤ p.level → unaryPriority < left p
    cases p <;> decide
  | _ => show unaryPriority < 15; decide

theorem lp_unary (e : T) (h : unaryPriority < e.lp) : unaryLevel ≤ e.level := by
  cases e with
  | bin p l r =>
    revert h
    show unaryPriority < left p → unaryLevel ≤ p.level
    cases p <;> decide
  | un u e => exact Nat.le_refl _
  | _ => show unaryLevel ≤ 13; decide

/-- no binary operator with a priority above `k` comes next -/
def NoBin (k : Nat) (r : List Tok) : Prop := ∀ t o, r.head? = some t → getbinopr t = some o → left o ≤ k

theorem NoBin.mono {k k' : Nat} {r : List Tok} (h : NoBin k r) (hk : k ≤ k') : NoBin k' r :=
  fun t o h1 h2 => Nat.le_trans (h t o h1 h2) hk

theorem NoBin.top (r : List Tok) : NoBin 15 r := fun _ o _ _ => Nat.le_of_lt (left_le o)

/-- no suffix comes next -/
def NoSuf (r : List Tok) : Prop := ∀ t, r.head? = some t → t.suffix = false

/-! ### soundness -/

theorem check_ok {t : Tok} {l r : List Tok} (h : check t l = .ok r) : l = t :: r := by
  unfold check at h
  split at h
  · rename_i x r'
    split at h
    · rename_i hx; cases h; rw [hx]
    · cases h
  · cases h

/-- what is known of an expression that `ex` has read -/
def Snd (n : Nat) (ex : List Tok → Res (T × List Tok)) : Prop :=
  ∀ toks e r, ex toks = .ok (e, r) → toks = e.text ++ r ∧ e.ok ∧ e.sort = .exp ∧ e.depth ≤ n

theorem lcons_text (e l : T) (h : l ≠ .lnil) : (T.lcons e l).text = e.text ++ .comma :: l.text := by
  cases l <;> first | rfl | exact absurd rfl h

section
variable {n : Nat} {ex : List Tok → Res (T × List Tok)}

theorem explist_sound (hx : Snd n ex) : ∀ (k : Nat) (toks : List Tok) (l : T) (r : List Tok), toks.length ≤ k →
    explist ex toks = .ok (l, r) →
    toks = l.text ++ r ∧ l.ok ∧ l.sort = .list ∧ l.depth ≤ n ∧ l ≠ .lnil := by
  intro k
  induction k with
  | zero =>
    intro toks l r hk h
    obtain rfl : toks = [] := List.length_eq_zero_iff.1 (by omega)
    rw [explist] at h
    split at h
    · rename_i e r' he
      rw [dif_neg (by simp)] at h
      cases h
    · rename_i e r' _ he
      cases h
      obtain ⟨h1, h2, h3, h4⟩ := hx _ _ _ he
      exact ⟨h1, ⟨h2, h3, True.intro, rfl⟩, rfl, by simp only [T.depth]; omega, (fun e => nomatch e)⟩
    · cases h
    · cases h
  | succ k ih =>
    intro toks l r hk h
    rw [explist] at h
    split at h
    · rename_i e r' he
      obtain ⟨h1, h2, h3, h4⟩ := hx _ _ _ he
      split at h
      · rename_i hlt
        split at h
        · rename_i l' r'' hl
          cases h
          obtain ⟨i1, i2, i3, i4, i5⟩ := ih _ _ _ (by omega) hl
          refine ⟨?_, ⟨h2, h3, i2, i3⟩, rfl, ?_, (fun e => nomatch e)⟩
          · rw [lcons_text _ _ i5, h1, i1]; simp
          · simp only [T.depth]; omega
        · cases h
        · cases h
      · cases h
    · rename_i e r' _ he
      cases h
      obtain ⟨h1, h2, h3, h4⟩ := hx _ _ _ he
      exact ⟨h1, ⟨h2, h3, True.intro, rfl⟩, rfl, by simp only [T.depth]; omega, (fun e => nomatch e)⟩
    · cases h
    · cases h

theorem field_sound (hx : Snd n ex) {toks : List Tok} {f : T} {r : List Tok} (h : field ex toks = .ok (f, r)) :
    toks = f.text ++ r ∧ f.ok ∧ f.sort = .fld ∧ f.depth ≤ n := by
  unfold field at h
  split at h
  · obtain ⟨⟨e, r1⟩, h1, h⟩ := Res.bind_eq_ok.1 h
    cases h
    obtain ⟨i1, i2, i3, i4⟩ := hx _ _ _ h1
    exact ⟨by rw [i1]; rfl, ⟨i2, i3⟩, rfl, i4⟩
  · obtain ⟨⟨k, r1⟩, h1, h⟩ := Res.bind_eq_ok.1 h
    obtain ⟨r2, h2, h⟩ := Res.bind_eq_ok.1 h
    obtain ⟨r3, h3, h⟩ := Res.bind_eq_ok.1 h
    obtain ⟨⟨e, r4⟩, h4, h⟩ := Res.bind_eq_ok.1 h
    cases h
    obtain ⟨i1, i2, i3, i4⟩ := hx _ _ _ h1
    obtain ⟨j1, j2, j3, j4⟩ := hx _ _ _ h4
    have e1 := check_ok h2
    have e2 := check_ok h3
    refine ⟨?_, ⟨i2, i3, j2, j3⟩, rfl, ?_⟩
    · rw [i1, e1, e2, j1]; simp [T.text]
    · simp only [T.depth]; omega
  · obtain ⟨⟨e, r1⟩, h1, h⟩ := Res.bind_eq_ok.1 h
    cases h
    obtain ⟨i1, i2, i3, i4⟩ := hx _ _ _ h1
    exact ⟨i1, ⟨i2, i3⟩, rfl, i4⟩

theorem fields_sound (hx : Snd n ex) : ∀ (k : Nat) (toks : List Tok) (l : T) (r : List Tok), toks.length ≤ k →
    fields ex toks = .ok (l, r) → toks = l.text ++ r ∧ l.ok ∧ l.sort = .flds ∧ l.depth ≤ n := by
  intro k
  induction k with
  | zero =>
    intro toks l r hk h
    obtain rfl : toks = [] := List.length_eq_zero_iff.1 (by omega)
    rw [fields] at h
    rw [if_neg (by simp)] at h
    split at h
    · rw [dif_neg (by simp)] at h; cases h
    · rw [dif_neg (by simp)] at h; cases h
    · rename_i f r' _ _ hf
      cases h
      obtain ⟨i1, i2, i3, i4⟩ := field_sound hx hf
      exact ⟨i1, ⟨i2, i3⟩, rfl, i4⟩
    · cases h
    · cases h
  | succ k ih =>
    intro toks l r hk h
    rw [fields] at h
    split at h
    · cases h; exact ⟨rfl, True.intro, rfl, Nat.zero_le _⟩
    · split at h
      · rename_i f r' hf
        obtain ⟨i1, i2, i3, i4⟩ := field_sound hx hf
        split at h
        · split at h
          · rename_i l' r'' hl
            cases h
            obtain ⟨j1, j2, j3, j4⟩ := ih _ _ _ (by omega) hl
            refine ⟨?_, ⟨i2, i3, j2, j3⟩, rfl, ?_⟩
            · rw [i1, j1]; simp [T.text]
            · simp only [T.depth]; omega
          · cases h
          · cases h
        · cases h
      · rename_i f r' hf
        obtain ⟨i1, i2, i3, i4⟩ := field_sound hx hf
        split at h
        · split at h
          · rename_i l' r'' hl
            cases h
            obtain ⟨j1, j2, j3, j4⟩ := ih _ _ _ (by omega) hl
            refine ⟨?_, ⟨i2, i3, j2, j3⟩, rfl, ?_⟩
            · rw [i1, j1]; simp [T.text]
            · simp only [T.depth]; omega
          · cases h
          · cases h
        · cases h
      · rename_i f r' _ _ hf
        cases h
        obtain ⟨i1, i2, i3, i4⟩ := field_sound hx hf
        exact ⟨i1, ⟨i2, i3⟩, rfl, i4⟩
      · cases h
      · cases h

theorem constr_sound (hx : Snd n ex) {toks : List Tok} {l : T} {r : List Tok} (h : constr ex toks = .ok (l, r)) :
    toks = l.text ++ .rbrc :: r ∧ l.ok ∧ l.sort = .flds ∧ l.depth ≤ n := by
  unfold constr at h
  obtain ⟨⟨fs, r1⟩, h1, h⟩ := Res.bind_eq_ok.1 h
  obtain ⟨r2, h2, h⟩ := Res.bind_eq_ok.1 h
  cases h
  obtain ⟨i1, i2, i3, i4⟩ := fields_sound hx _ _ _ _ (Nat.le_refl _) h1
  have e := check_ok h2
  exact ⟨by rw [i1, e], i2, i3, i4⟩

theorem funcargs_sound (hx : Snd n ex) {toks : List Tok} {a : T} {r : List Tok} (h : funcargs ex toks = .ok (a, r)) :
    toks = a.text ++ r ∧ a.ok ∧ a.sort = .args ∧ a.depth ≤ n := by
  unfold funcargs at h
  split at h
  · cases h; exact ⟨rfl, ⟨True.intro, rfl⟩, rfl, Nat.zero_le _⟩
  · obtain ⟨⟨l, r1⟩, h1, h⟩ := Res.bind_eq_ok.1 h
    obtain ⟨r2, h2, h⟩ := Res.bind_eq_ok.1 h
    cases h
    obtain ⟨i1, i2, i3, i4, _⟩ := explist_sound hx _ _ _ _ (Nat.le_refl _) h1
    have e := check_ok h2
    exact ⟨by rw [i1, e]; simp [T.text], ⟨i2, i3⟩, rfl, i4⟩
  · obtain ⟨⟨fs, r1⟩, h1, h⟩ := Res.bind_eq_ok.1 h
    cases h
    obtain ⟨i1, i2, i3, i4⟩ := constr_sound hx h1
    exact ⟨by rw [i1]; simp [T.text], ⟨i2, i3⟩, rfl, i4⟩
  · cases h; exact ⟨rfl, True.intro, rfl, Nat.zero_le _⟩
  · cases h

/-- one suffix -/
theorem suffix1_sound (hx : Snd n ex) {v : T} {toks : List Tok} {v' : T} {r : List Tok}
    (h : suffix1 ex v toks = .ok (some (v', r))) (hv : v.ok) (hp : v.isPrefix = true) (hd : v.depth ≤ n + 1) :
    v.text ++ toks = v'.text ++ r ∧ v'.ok ∧ v'.isPrefix = true ∧ v'.depth ≤ n + 1 := by
  have hcall : (do let (a, r) ← funcargs ex toks; return some (T.call v a, r)) = Res.ok (some (v', r)) →
      v.text ++ toks = v'.text ++ r ∧ v'.ok ∧ v'.isPrefix = true ∧ v'.depth ≤ n + 1 := by
    intro h
    obtain ⟨⟨a, r1⟩, h1, h⟩ := Res.bind_eq_ok.1 h
    cases h
    obtain ⟨i1, i2, i3, i4⟩ := funcargs_sound hx h1
    refine ⟨by rw [i1]; simp [T.text], ⟨hv, hp, i2, i3⟩, rfl, ?_⟩
    simp only [T.depth]; omega
  unfold suffix1 at h
  split at h
  · cases h; exact ⟨by simp [T.text], ⟨hv, hp⟩, rfl, hd⟩
  · cases h
  · obtain ⟨⟨k, r1⟩, h1, h⟩ := Res.bind_eq_ok.1 h
    obtain ⟨r2, h2, h⟩ := Res.bind_eq_ok.1 h
    cases h
    obtain ⟨i1, i2, i3, i4⟩ := hx _ _ _ h1
    have e := check_ok h2
    refine ⟨by rw [i1, e]; simp [T.text], ⟨hv, hp, i2, i3⟩, rfl, ?_⟩
    simp only [T.depth]; omega
  · obtain ⟨⟨a, r1⟩, h1, h⟩ := Res.bind_eq_ok.1 h
    cases h
    obtain ⟨i1, i2, i3, i4⟩ := funcargs_sound hx h1
    refine ⟨by rw [i1]; simp [T.text], ⟨hv, hp, i2, i3⟩, rfl, ?_⟩
    simp only [T.depth]; omega
  · cases h
  · exact hcall h
  · exact hcall h
  · exact hcall h
  · cases h

theorem suffix1_none {v : T} {toks : List Tok} (h : suffix1 ex v toks = .ok none) : NoSuf toks := by
  have hc : (do let (a, r) ← funcargs ex toks; return some (T.call v a, r)) ≠ Res.ok none := by
    intro h
    obtain ⟨⟨a, r1⟩, h1, h⟩ := Res.bind_eq_ok.1 h
    cases h
  unfold suffix1 at h
  split at h
  · cases h
  · cases h
  · obtain ⟨⟨k, r1⟩, h1, h⟩ := Res.bind_eq_ok.1 h
    obtain ⟨r2, h2, h⟩ := Res.bind_eq_ok.1 h
    cases h
  · obtain ⟨⟨a, r1⟩, h1, h⟩ := Res.bind_eq_ok.1 h
    cases h
  · cases h
  · exact absurd h hc
  · exact absurd h hc
  · exact absurd h hc
  · rename_i h1 h2 h3 h4 h5 h6 h7 h8
    intro t ht
    cases toks with
    | nil => cases ht
    | cons a r =>
      cases ht
      cases t <;> first | rfl | exact (h2 _ rfl).elim | exact (h3 _ rfl).elim | exact (h5 _ rfl).elim |
        exact (h6 _ rfl).elim | exact (h7 _ _ rfl).elim | exact (h8 _ rfl).elim

theorem suffixes_sound (hx : Snd n ex) : ∀ (k : Nat) (v : T) (toks : List Tok) (e : T) (r : List Tok), toks.length ≤ k →
    suffixes ex v toks = .ok (e, r) → v.ok → v.isPrefix = true → v.depth ≤ n + 1 →
    v.text ++ toks = e.text ++ r ∧ e.ok ∧ e.isPrefix = true ∧ e.depth ≤ n + 1 ∧ NoSuf r := by
  intro k
  induction k with
  | zero =>
    intro v toks e r hk h hv hp hd
    obtain rfl : toks = [] := List.length_eq_zero_iff.1 (by omega)
    rw [suffixes] at h
    split at h
    · rw [dif_neg (by simp)] at h; cases h
    · rename_i hs; cases h; exact ⟨rfl, hv, hp, hd, suffix1_none hs⟩
    · cases h
    · cases h
  | succ k ih =>
    intro v toks e r hk h hv hp hd
    rw [suffixes] at h
    split at h
    · rename_i v' r' hs
      obtain ⟨i1, i2, i3, i4⟩ := suffix1_sound hx hs hv hp hd
      split at h
      · obtain ⟨j1, j2⟩ := ih _ _ _ _ (by omega) h i2 i3 i4
        exact ⟨i1.trans j1, j2⟩
      · cases h
    · rename_i hs; cases h; exact ⟨rfl, hv, hp, hd, suffix1_none hs⟩
    · cases h
    · cases h

theorem prefix_sort {e : T} (h : e.isPrefix = true) : e.sort = .exp ∧ e.level = 13 ∧ e.lp = 15 ∧ e.rp = 15 := by
  cases e <;> first | exact ⟨rfl, rfl, rfl, rfl⟩ | cases h

theorem simpleexp_sound (hx : Snd n ex) {toks : List Tok} {e : T} {r : List Tok} (h : simpleexp ex toks = .ok (e, r)) :
    toks = e.text ++ r ∧ e.ok ∧ e.sort = .exp ∧ e.lp = 15 ∧ e.rp = 15 ∧ e.depth ≤ n + 1 ∧ (e.open = true → NoSuf r) := by
  unfold simpleexp at h
  split at h
  · cases h; exact ⟨rfl, True.intro, rfl, rfl, rfl, by simp only [T.depth]; omega, (fun e => nomatch e)⟩
  · cases h; exact ⟨rfl, True.intro, rfl, rfl, rfl, by simp only [T.depth]; omega, (fun e => nomatch e)⟩
  · obtain ⟨⟨fs, r1⟩, h1, h⟩ := Res.bind_eq_ok.1 h
    cases h
    obtain ⟨i1, i2, i3, i4⟩ := constr_sound hx h1
    exact ⟨by rw [i1]; simp [T.text], ⟨i2, i3⟩, rfl, rfl, rfl, by simp only [T.depth]; omega, (fun e => nomatch e)⟩
  · obtain ⟨⟨v, r1⟩, h1, h⟩ := Res.bind_eq_ok.1 h
    dsimp only at h
    have hp : toks = v.text ++ r1 ∧ v.ok ∧ v.isPrefix = true ∧ v.depth ≤ n + 1 := by
      unfold primaryexp at h1
      split at h1
      · obtain ⟨⟨e', r2⟩, h2, h1⟩ := Res.bind_eq_ok.1 h1
        obtain ⟨r3, h3, h1⟩ := Res.bind_eq_ok.1 h1
        cases h1
        obtain ⟨i1, i2, i3, i4⟩ := hx _ _ _ h2
        have e := check_ok h3
        exact ⟨by rw [i1, e]; simp [T.text], ⟨i2, i3⟩, rfl, by simp only [T.depth]; omega⟩
      · cases h1; exact ⟨rfl, True.intro, rfl, by simp only [T.depth]; omega⟩
      · cases h1
    obtain ⟨j1, j2, j3, j4, j5⟩ := suffixes_sound hx _ _ _ _ _ (Nat.le_refl _) h hp.2.1 hp.2.2.1 hp.2.2.2
    obtain ⟨k1, _, k2, k3⟩ := prefix_sort j3
    exact ⟨hp.1.trans j1, j2, k1, k2, k3, j4, fun _ => j5⟩
end

/-- what is known of an expression that `subexpr` has read -/
def SndSub (n : Nat) (sub : Nat → List Tok → Res (T × List Tok)) : Prop :=
  ∀ limit toks e r, limit < 15 → sub limit toks = .ok (e, r) →
    toks = e.text ++ r ∧ e.ok ∧ e.sort = .exp ∧ e.depth ≤ n ∧ limit < e.lp ∧ NoBin limit r ∧
      (e.open = true → NoSuf r)

theorem SndSub.expr {n : Nat} {sub : Nat → List Tok → Res (T × List Tok)} (h : SndSub n sub) : Snd n (sub 0) := by
  intro toks e r he
  obtain ⟨h1, h2, h3, h4, _⟩ := h _ _ _ _ (by omega) he
  exact ⟨h1, h2, h3, h4⟩

theorem operand_sound {n : Nat} {sub : Nat → List Tok → Res (T × List Tok)} (hs : SndSub n sub) {toks : List Tok}
    {e : T} {r : List Tok} (h : operand sub toks = .ok (e, r)) :
    toks = e.text ++ r ∧ e.ok ∧ e.sort = .exp ∧ e.depth ≤ n + 1 ∧ e.lp = 15 ∧ NoBin e.rp r ∧ (e.open = true → NoSuf r) := by
  unfold operand at h
  split at h
  · split at h
    · rename_i u hu
      obtain ⟨⟨e', r2⟩, h2, h⟩ := Res.bind_eq_ok.1 h
      cases h
      obtain ⟨i1, i2, i3, i4, i5, i6, i7⟩ := hs _ _ _ _ (by decide) h2
      refine ⟨by rw [i1, getunopr_some hu]; simp [T.text], ⟨i2, i3, lp_unary _ i5⟩, rfl, ?_, rfl, i6, i7⟩
      simp only [T.depth]; omega
    · obtain ⟨i1, i2, i3, i4, i5, i6, i7⟩ := simpleexp_sound hs.expr h
      refine ⟨i1, i2, i3, i6, i4, ?_, i7⟩
      rw [i5]; exact NoBin.top r
  · cases h

theorem binloop_sound {n : Nat} {sub : Nat → List Tok → Res (T × List Tok)} (hs : SndSub n sub) {limit : Nat} :
    ∀ (k : Nat) (v : T) (toks : List Tok) (e : T) (r : List Tok), toks.length ≤ k →
    binloop sub limit v toks = .ok (e, r) → v.ok → v.sort = .exp → v.depth ≤ n + 1 → limit < v.lp → NoBin v.rp toks →
    (v.open = true → NoSuf toks) →
    v.text ++ toks = e.text ++ r ∧ e.ok ∧ e.sort = .exp ∧ e.depth ≤ n + 1 ∧ limit < e.lp ∧
      NoBin limit r ∧ (e.open = true → NoSuf r) := by
  intro k
  induction k with
  | zero =>
    intro v toks e r hk h h1 h2 h3 h4 h5 h6
    obtain rfl : toks = [] := List.length_eq_zero_iff.1 (by omega)
    rw [binloop] at h
    cases h
    exact ⟨rfl, h1, h2, h3, h4, (fun _ _ e => nomatch e), h6⟩
  | succ k ih =>
    intro v toks e r hk h h1 h2 h3 h4 h5 h6
    rw [binloop.eq_def] at h
    split at h
    · cases h
      exact ⟨rfl, h1, h2, h3, h4, (fun _ _ e => nomatch e), h6⟩
    · rename_i t r'
      split at h
      · rename_i hb
        cases h
        refine ⟨rfl, h1, h2, h3, h4, ?_, h6⟩
        intro t' o ht ho
        cases ht
        rw [hb] at ho; cases ho
      · rename_i o hb
        split at h
        · rename_i hlt
          split at h
          · rename_i v2 r2 hv2
            obtain ⟨i1, i2, i3, i4, i5, i6, i7⟩ := hs _ _ _ _ (right_lt o) hv2
            split at h
            · rename_i hlen
              have hl := h5 t o rfl hb
              obtain ⟨j1, j2⟩ := ih _ _ _ _ (by simp only [List.length_cons] at hlen hk; omega) h
                ⟨h1, h2, i2, i3, (leftOk_iff o v).2 hl, rightOk_of o v2 i5⟩ rfl
                (by simp only [T.depth]; omega) hlt i6 i7
              refine ⟨?_, j2⟩
              rw [← j1, i1, getbinopr_some hb]
              simp [T.text]
            · cases h
          · cases h
          · cases h
        · rename_i hlt
          cases h
          refine ⟨rfl, h1, h2, h3, h4, ?_, h6⟩
          intro t' o' ht ho
          cases ht
          rw [hb] at ho; cases ho
          omega

theorem subexpr_sound : ∀ n, SndSub n (subexpr n) := by
  intro n
  induction n with
  | zero => intro limit toks e r _ h; cases h
  | succ n ih =>
    intro limit toks e r hl h
    simp only [subexpr] at h
    obtain ⟨⟨v, r1⟩, h1, h⟩ := Res.bind_eq_ok.1 h
    obtain ⟨i1, i2, i3, i4, i5, i6, i7⟩ := operand_sound ih h1
    obtain ⟨j1, j2⟩ := binloop_sound ih _ _ _ _ _ (Nat.le_refl _) h i2 i3 i4 (by rw [i5]; exact hl) i6 i7
    exact ⟨i1.trans j1, j2⟩

end Verif.Parse
