import Verif.Lex.Model
import Verif.Num.Props
import Verif.Utf8.Props

/-!
# C64 — the lexer is defined on every input, ends, makes progress and counts lines exactly
-/
namespace Verif.Lex
open Verif.Num (isDigit isSpace isXdigit hexavalue testprop str2int)

/-- Line breaks of a text: `\n`, `\r`, `\r\n` and `\n\r` count once each. -/
def breaks : List UInt8 → Nat
  | [] => 0
  | [c] => if isNl c then 1 else 0
  | c :: d :: cs =>
    if isNl c then
      if isNl d ∧ d ≠ c then 1 + breaks cs else 1 + breaks (d :: cs)
    else breaks (d :: cs)

theorem breaks_cons {c : UInt8} {cs : List UInt8} (h : isNl c = false) : breaks (c :: cs) = breaks cs := by
  cases cs with
  | nil => simp [breaks, h]
  | cons d ds => simp [breaks, h]

/-- A result that is not undefined, and meets a condition if there is a value. -/
def Sat {α : Type} (r : Res α) (P : α → Prop) : Prop :=
  match r with
  | .ok x => P x
  | .err _ => True
  | .ub => False

theorem Sat.bind {α β : Type} {x : Res α} {f : α → Res β} {P : α → Prop} {Q : β → Prop} (h : Sat x P)
    (hf : ∀ a, P a → Sat (f a) Q) : Sat (x >>= f) Q := by
  cases x with
  | ok a => exact hf a h
  | err e => trivial
  | ub => exact h.elim

theorem Sat.mono {α : Type} {x : Res α} {P Q : α → Prop} (h : Sat x P) (hpq : ∀ a, P a → Q a) : Sat x Q := by
  cases x with
  | ok a => exact hpq a h
  | err e => trivial
  | ub => exact h.elim

theorem Sat.ite {α : Type} {c : Prop} [Decidable c] {x y : Res α} {P : α → Prop} (h1 : c → Sat x P) (h2 : ¬ c → Sat y P) :
    Sat (if c then x else y) P := by
  by_cases hc : c
  · rw [if_pos hc]; exact h1 hc
  · rw [if_neg hc]; exact h2 hc

/-- What every reading function keeps: the line plus the breaks still to come; the input only shrinks,
by `k` bytes at least. -/
def Step (k : Nat) (l l' : LS) : Prop := l'.line + breaks l'.inp = l.line + breaks l.inp ∧ l'.inp.length + k ≤ l.inp.length

theorem Step.refl (l : LS) : Step 0 l l := ⟨rfl, Nat.le_refl _⟩
theorem Step.trans {i j k : Nat} {a b c : LS} (h1 : Step i a b) (h2 : Step j b c) (hk : k ≤ i + j) : Step k a c :=
  ⟨h2.1.trans h1.1, by have := h1.2; have := h2.2; omega⟩
theorem Step.weaken {i k : Nat} {a b : LS} (h : Step i a b) (hk : k ≤ i) : Step k a b := ⟨h.1, by have := h.2; omega⟩

/-- The current character exists and is no line break. -/
def Mid (l : LS) : Prop := ∃ c cs, l.inp = c :: cs ∧ isNl c = false

theorem step_next {l : LS} (h : Mid l) : Step 1 l l.next := by
  obtain ⟨c, cs, e, hc⟩ := h
  unfold Step LS.next
  rw [e]
  simp [breaks_cons hc]

theorem step_saveNext {l : LS} (h : Mid l) : Step 1 l l.saveNext ∧ l.saveNext.buff.length = l.buff.length + 1 := by
  obtain ⟨c, cs, e, hc⟩ := h
  unfold Step LS.saveNext LS.next LS.save
  dsimp only
  rw [e]
  simp [breaks_cons hc]

theorem step_save (l : LS) (c : UInt8) : Step 0 l (l.save c) := ⟨rfl, Nat.le_refl _⟩
theorem step_reset (l : LS) : Step 0 l l.reset := ⟨rfl, Nat.le_refl _⟩

theorem mid_cur {l : LS} {c : UInt8} (h : l.cur c = true) (hc : isNl c = false) : Mid l := by
  unfold LS.cur at h
  cases hi : l.inp with
  | nil => rw [hi] at h; exact nomatch h
  | cons d ds => rw [hi] at h; simp at h; subst h; exact ⟨d, ds, hi, hc⟩

theorem mid_is {l : LS} {p : UInt8 → Bool} (h : l.is p = true) (hp : ∀ c, p c = true → isNl c = false) : Mid l := by
  unfold LS.is at h
  split at h
  · rename_i c cs hi; exact ⟨c, cs, hi, hp c h⟩
  · exact nomatch h

theorem mid_cons {l : LS} {c : UInt8} {cs : List UInt8} (e : l.inp = c :: cs) (hc : isNl c = false) : Mid l := ⟨c, cs, e, hc⟩

theorem isNl_iff (c : UInt8) : isNl c = true ↔ c = 10 ∨ c = 13 := by
  unfold isNl; rw [Bool.or_eq_true, beq_iff_eq, beq_iff_eq]

theorem isNl_ne {c : UInt8} (h1 : c ≠ 10) (h2 : c ≠ 13) : isNl c = false := by
  cases hb : isNl c with
  | false => rfl
  | true => rcases (isNl_iff c).1 hb with q | q
            · exact absurd q h1
            · exact absurd q h2

theorem digit_nl : ∀ c : UInt8, isDigit c = true → isNl c = false := Utf8.u8_forall (by decide +kernel)
theorem xdigit_nl : ∀ c : UInt8, isXdigit c = true → isNl c = false := Utf8.u8_forall (by decide +kernel)
theorem alpha_nl : ∀ c : UInt8, lislalpha c = true → isNl c = false := Utf8.u8_forall (by decide +kernel)
theorem alnum_nl : ∀ c : UInt8, lislalnum c = true → isNl c = false := Utf8.u8_forall (by decide +kernel)

/-- What is left after a line break that starts with `c`. -/
def afterNl (c : UInt8) (cs : List UInt8) : List UInt8 :=
  match cs with
  | [] => []
  | d :: ds => if isNl d = true ∧ d ≠ c then ds else d :: ds

theorem breaks_nl {c : UInt8} (cs : List UInt8) (hc : isNl c = true) : breaks (c :: cs) = 1 + breaks (afterNl c cs) := by
  cases cs with
  | nil => simp [breaks, afterNl, hc]
  | cons d ds =>
    unfold afterNl
    dsimp only
    rw [breaks, if_pos hc]
    split <;> rfl

theorem afterNl_le (c : UInt8) (cs : List UInt8) : (afterNl c cs).length ≤ cs.length := by
  unfold afterNl
  split
  · exact Nat.le_refl _
  · split <;> simp

theorem incl_eq (c : UInt8) (cs b : List UInt8) (n : Nat) :
    inclinenumber ⟨c :: cs, b, n⟩ = if n + 1 ≥ MAXINT then .err "chunk has too many lines" else .ok ⟨afterNl c cs, b, n + 1⟩ := by
  cases cs with
  | nil => rfl
  | cons d ds =>
    have hx : (if LS.is ⟨d :: ds, b, n⟩ (fun x => isNl x && x != c) = true then (⟨ds, b, n⟩ : LS) else ⟨d :: ds, b, n⟩) =
        ⟨afterNl c (d :: ds), b, n⟩ := by
      unfold LS.is afterNl
      dsimp only
      by_cases h : isNl d = true ∧ d ≠ c
      · rw [if_pos h, if_pos (by rw [Bool.and_eq_true]; exact ⟨h.1, by simpa using h.2⟩)]
      · rw [if_neg h, if_neg (by
          intro q; rw [Bool.and_eq_true] at q; exact h ⟨q.1, by simpa using q.2⟩)]
    show (if (if LS.is ⟨d :: ds, b, n⟩ (fun x => isNl x && x != c) = true then (⟨ds, b, n⟩ : LS) else ⟨d :: ds, b, n⟩).line + 1 ≥ MAXINT
      then Res.err "chunk has too many lines"
      else Res.ok { (if LS.is ⟨d :: ds, b, n⟩ (fun x => isNl x && x != c) = true then (⟨ds, b, n⟩ : LS) else ⟨d :: ds, b, n⟩) with
        line := (if LS.is ⟨d :: ds, b, n⟩ (fun x => isNl x && x != c) = true then (⟨ds, b, n⟩ : LS) else ⟨d :: ds, b, n⟩).line + 1 }) = _
    rw [hx]

theorem step_incl (l : LS) (c : UInt8) (cs : List UInt8) (e : l.inp = c :: cs) (hc : isNl c = true) :
    Sat (inclinenumber l) (fun l' => Step 1 l l' ∧ l'.buff = l.buff) := by
  obtain ⟨inp, b, n⟩ := l
  dsimp only at e
  subst e
  rw [incl_eq]
  apply Sat.ite
  · intro _; trivial
  · intro _
    refine ⟨⟨?_, ?_⟩, rfl⟩
    · show n + 1 + breaks (afterNl c cs) = n + breaks (c :: cs)
      rw [breaks_nl cs hc]; omega
    · show (afterNl c cs).length + 1 ≤ (c :: cs).length
      have := afterNl_le c cs
      simp; omega

theorem step_numLoop (a b : UInt8) (ha : isNl a = false) (hb : isNl b = false) : ∀ (fuel : Nat) (l : LS), l.inp.length < fuel →
    Sat (numLoop a b fuel l) (fun l' => Step 0 l l') := by
  intro fuel
  induction fuel with
  | zero => intro l h; omega
  | succ fuel ih =>
    intro l h
    unfold numLoop checkNext2
    by_cases hc : (l.cur a || l.cur b) = true
    · rw [if_pos hc]
      dsimp only
      rw [if_pos rfl]
      have hm : Mid l := by
        rw [Bool.or_eq_true] at hc
        rcases hc with q | q
        · exact mid_cur q ha
        · exact mid_cur q hb
      have s1 := (step_saveNext hm).1
      by_cases hc2 : (l.saveNext.cur 45 || l.saveNext.cur 43) = true
      · rw [if_pos hc2]
        have hm2 : Mid l.saveNext := by
          rw [Bool.or_eq_true] at hc2
          rcases hc2 with q | q
          · exact mid_cur q rfl
          · exact mid_cur q rfl
        have s2 := (step_saveNext hm2).1
        exact (ih l.saveNext.saveNext (by have := s1.2; have := s2.2; omega)).mono (fun l' h' => (s1.trans s2 (Nat.le_refl _)).trans h' (Nat.zero_le _))
      · rw [if_neg hc2]
        exact (ih l.saveNext (by have := s1.2; omega)).mono (fun l' h' => s1.trans h' (Nat.zero_le _))
    · rw [if_neg hc]
      dsimp only
      rw [if_neg (by simp)]
      apply Sat.ite
      · intro hx
        have hm : Mid l := by
          rw [Bool.or_eq_true] at hx
          rcases hx with q | q
          · exact mid_is q xdigit_nl
          · exact mid_cur q rfl
        have s1 := (step_saveNext hm).1
        exact (ih _ (by have := s1.2; omega)).mono (fun l' h' => s1.trans h' (Nat.zero_le _))
      · intro _; exact Step.refl l

theorem step_sepLoop : ∀ (fuel : Nat) (l : LS) (n : Nat), l.inp.length < fuel →
    Sat (sepLoop fuel l n) (fun r => Step 0 l r.2 ∧ r.2.buff.length + n = l.buff.length + r.1 ∧ r.2.cur 61 = false) := by
  intro fuel
  induction fuel with
  | zero => intro l n h; omega
  | succ fuel ih =>
    intro l n h
    unfold sepLoop
    apply Sat.ite
    · intro hc
      have s1 := step_saveNext (mid_cur hc rfl)
      exact (ih _ _ (by have := s1.1.2; omega)).mono (fun r h' =>
        ⟨s1.1.trans h'.1 (Nat.zero_le _), by have := h'.2.1; have := s1.2; omega, h'.2.2⟩)
    · intro hc
      exact ⟨Step.refl l, rfl, by simpa using hc⟩

theorem step_skipSep {l : LS} (h : Mid l) :
    Sat (skipSep l) (fun r => Step 1 l r.2 ∧ (2 ≤ r.1 → r.2.inp.head? = l.inp.head? ∧ r.2.buff.length + 1 = l.buff.length + r.1)) := by
  unfold skipSep
  have s1 := step_saveNext h
  apply Sat.bind (step_sepLoop _ _ _ (Nat.lt_succ_self _))
  rintro ⟨n, l2⟩ ⟨h1, h2, h3⟩
  refine ⟨s1.1.trans h1 (Nat.le_refl _), ?_⟩
  dsimp only at *
  intro hn
  by_cases hs : l2.inp.head? = l.inp.head?
  · rw [if_pos hs] at hn ⊢
    exact ⟨hs, by omega⟩
  · rw [if_neg hs] at hn
    split at hn <;> omega

theorem step_longLoop (str : Bool) (sep : Nat) (hsep : 2 ≤ sep) : ∀ (fuel : Nat) (l : LS), l.inp.length < fuel →
    Sat (longLoop str sep fuel l) (fun l' => Step 1 l l' ∧ (str = true → l.buff.length + sep ≤ l'.buff.length)) := by
  intro fuel
  induction fuel with
  | zero => intro l h; omega
  | succ fuel ih =>
    intro l h
    unfold longLoop
    cases hi : l.inp with
    | nil => trivial
    | cons c cs =>
      dsimp only
      apply Sat.ite
      · intro hc
        have hm : Mid l := mid_cons hi (by rw [hc]; rfl)
        apply Sat.bind (P := fun r => Step 1 l r.2 ∧ l.buff.length ≤ r.2.buff.length ∧
          (2 ≤ r.1 → r.2.inp.head? = l.inp.head? ∧ r.2.buff.length + 1 = l.buff.length + r.1))
        · have hb : Sat (skipSep l) (fun r => l.buff.length ≤ r.2.buff.length) := by
            unfold skipSep
            have s1 := step_saveNext hm
            apply Sat.bind (step_sepLoop _ _ _ (Nat.lt_succ_self _))
            rintro ⟨n, l2⟩ ⟨h1, h2, h3⟩
            dsimp only at *
            show l.buff.length ≤ l2.buff.length
            omega
          have hs := step_skipSep hm
          cases hk : skipSep l with
          | ok r => rw [hk] at hs hb; exact ⟨hs.1, hb, hs.2⟩
          | err _ => trivial
          | ub => rw [hk] at hs; exact hs
        · rintro ⟨n, l2⟩ ⟨h1, hb, h2⟩
          dsimp only at *
          apply Sat.ite
          · intro hn
            obtain ⟨h3, h4⟩ := h2 (by omega)
            have hm2 : Mid l2 := by
              rw [hi, hc] at h3
              cases hi2 : l2.inp with
              | nil => rw [hi2] at h3; exact nomatch h3
              | cons d ds =>
                rw [hi2] at h3
                injection h3 with h3
                exact mid_cons hi2 (by rw [h3]; rfl)
            have s2 := step_saveNext hm2
            exact ⟨h1.trans s2.1 (by omega), fun _ => by have := s2.2; omega⟩
          · intro _
            exact (ih l2 (by have := h1.2; omega)).mono (fun l' h' => ⟨h1.trans h'.1 (by omega), fun q => by
              have := h'.2 q; omega⟩)
      · intro hc
        apply Sat.ite
        · intro hnl
          apply Sat.bind (step_incl (l.save 10) c cs hi hnl)
          rintro l2 ⟨h1, h2⟩
          have h1' : Step 1 l l2 := h1
          have hb2 : l2.buff.length = l.buff.length + 1 := by rw [h2]; simp [LS.save]
          have hlt : l2.inp.length < fuel := by have := h1'.2; omega
          cases str with
          | true =>
            exact (ih l2 hlt).mono (fun l' h' => ⟨h1'.trans h'.1 (by omega), fun q => by have := h'.2 q; omega⟩)
          | false =>
            exact (ih l2.reset hlt).mono (fun l' h' => ⟨(h1'.trans (step_reset l2) (Nat.le_refl _)).trans h'.1 (by omega), fun q => nomatch q⟩)
        · intro hnl
          have hm : Mid l := mid_cons hi (by simpa using hnl)
          cases str with
          | true =>
            have s1 := step_saveNext hm
            exact (ih l.saveNext (by have := s1.1.2; omega)).mono (fun l' h' => ⟨s1.1.trans h'.1 (by omega), fun q => by
              have := h'.2 q; have := s1.2; omega⟩)
          | false =>
            have s1 := step_next hm
            exact (ih l.next (by have := s1.2; omega)).mono (fun l' h' => ⟨s1.trans h'.1 (by omega), fun q => nomatch q⟩)

theorem step_readLong (str : Bool) (sep : Nat) (hsep : 2 ≤ sep) {l : LS} (hm : Mid l) (hb : l.buff.length + 1 = sep ∨ str = false) :
    Sat (readLongString str sep l) (fun r => Step 1 l r.2) := by
  unfold readLongString
  have s1 := step_saveNext hm
  apply Sat.bind (P := fun l2 => Step 1 l l2 ∧ l2.buff.length = l.buff.length + 1)
  · unfold skipFirst
    split
    · rename_i hnl
      unfold LS.is at hnl
      split at hnl
      · rename_i c cs hi
        exact (step_incl _ c cs hi hnl).mono (fun l' h' => ⟨s1.1.trans h'.1 (by omega), by rw [h'.2]; exact s1.2⟩)
      · exact nomatch hnl
    · exact ⟨s1.1, s1.2⟩
  · rintro l2 ⟨h1, h2⟩
    apply Sat.bind (step_longLoop str sep hsep _ l2 (Nat.lt_succ_self _))
    rintro l3 ⟨h3, h4⟩
    cases str with
    | true =>
      rw [if_pos rfl]
      have := h4 rfl
      rcases hb with hb | hb
      · rw [if_pos (by omega)]
        exact h1.trans h3 (by omega)
      · exact nomatch hb
    | false => exact h1.trans h3 (by omega)

theorem step_gethexa {l : LS} (hm : Mid l) : Sat (gethexa l) (fun r => Step 1 l r.2 ∧ r.2.buff.length = l.buff.length + 1 ∧ Mid r.2 ∧ r.1 < 16) := by
  unfold gethexa
  have s1 := step_saveNext hm
  dsimp only
  split
  · rename_i c cs hi
    apply Sat.ite
    · intro hx
      exact ⟨s1.1, s1.2, mid_cons hi (xdigit_nl c hx), (Utf8.u8_forall (p := fun c => isXdigit c = true → hexavalue c < 16)
        (by decide +kernel) c) hx⟩
    · intro _; trivial
  · trivial

theorem remove_ok {l : LS} {i : Nat} (h : i ≤ l.buff.length) :
    l.remove i = .ok { l with buff := l.buff.take (l.buff.length - i) } := if_pos h

theorem remove_len {l : LS} {i : Nat} :
    ({ l with buff := l.buff.take (l.buff.length - i) } : LS).buff.length = l.buff.length - i := by
  show (l.buff.take _).length = _
  rw [List.length_take]; omega

/-- `escape` and its parts never leave fewer bytes in the buffer than before the backslash. -/
theorem step_hex {l : LS} (hm : Mid l) : Sat (readhexaesc l) (fun r => Step 1 l r.2 ∧ r.2.buff.length = l.buff.length ∧ Mid r.2) := by
  unfold readhexaesc
  apply Sat.bind (step_gethexa hm)
  rintro ⟨a, l1⟩ ⟨h1, h2, h3, _⟩
  apply Sat.bind (step_gethexa h3)
  rintro ⟨b, l2⟩ ⟨h4, h5, h6, _⟩
  dsimp only at *
  rw [remove_ok (by omega), Res.bind_ok]
  exact ⟨h1.trans h4 (by omega), by rw [show ({ l2 with buff := l2.buff.take (l2.buff.length - 2) } : LS).buff.length = l2.buff.length - 2 from remove_len]; omega, h6⟩

theorem step_uLoop : ∀ (fuel : Nat) (l : LS) (r i : Nat), l.inp.length ≤ fuel → Mid l → r < 2 ^ 31 →
    Sat (uLoop fuel l r i) (fun x => Step 1 l x.2.2 ∧ x.1 < 2 ^ 31 ∧ x.2.2.buff.length + i = l.buff.length + 1 + x.2.1) := by
  intro fuel
  induction fuel with
  | zero => intro l r i h hm; obtain ⟨c, cs, e, _⟩ := hm; rw [e] at h; simp at h
  | succ fuel ih =>
    intro l r i h hm hr
    unfold uLoop
    have s1 := step_saveNext hm
    dsimp only
    split
    · rename_i c cs hi
      apply Sat.ite
      · intro hx
        apply Sat.ite
        · intro hle
          have hv : hexavalue c < 16 := (Utf8.u8_forall (p := fun c => isXdigit c = true → hexavalue c < 16)
            (by decide +kernel) c) hx
          exact (ih _ _ _ (by have := s1.1.2; omega) (mid_cons hi (xdigit_nl c hx)) (by omega)).mono (fun x h' =>
            ⟨s1.1.trans h'.1 (by omega), h'.2.1, by have := h'.2.2; have := s1.2; omega⟩)
        · intro _; trivial
      · intro _; exact ⟨s1.1, hr, by have := s1.2; dsimp only; omega⟩
    · exact ⟨s1.1, hr, by have := s1.2; dsimp only; omega⟩

theorem step_utf8 {l : LS} (hm : Mid l) (hb : 1 ≤ l.buff.length) :
    Sat (utf8esc l) (fun l' => Step 1 l l' ∧ l.buff.length - 1 ≤ l'.buff.length) := by
  unfold utf8esc
  apply Sat.bind (P := fun r => Step 1 l r.2 ∧ r.1 < 2 ^ 31 ∧ l.buff.length - 1 ≤ r.2.buff.length)
  · unfold readutf8esc
    have s1 := step_saveNext hm
    apply Sat.ite
    · intro hc
      apply Sat.bind (step_gethexa (mid_cur hc rfl))
      rintro ⟨r, l2⟩ ⟨h1, h2, h3, h4⟩
      dsimp only at *
      apply Sat.bind (step_uLoop _ l2 r 4 (by omega) h3 (by omega))
      rintro ⟨r2, i, l3⟩ ⟨h5, h6, h7⟩
      dsimp only at *
      apply Sat.ite
      · intro hc2
        have s4 := step_next (mid_cur hc2 rfl)
        have hb3 : l3.next.buff = l3.buff := rfl
        rw [remove_ok (by rw [hb3]; have := s1.2; omega), Res.bind_ok]
        refine ⟨?_, h6, ?_⟩
        · exact (((s1.1.trans h1 (Nat.le_refl _)).trans h5 (Nat.le_refl _)).trans s4 (Nat.le_refl _)).weaken (by omega)
        · rw [show ({ l3.next with buff := l3.next.buff.take (l3.next.buff.length - i) } : LS).buff.length =
            l3.next.buff.length - i from remove_len, hb3]
          have := s1.2
          omega
      · intro _; trivial
    · intro _; trivial
  · rintro ⟨x, l2⟩ ⟨h1, h2, h3⟩
    dsimp only at *
    rw [Utf8.char_enc _ (by simp) x h2, Res.bind_ok]
    refine ⟨h1, ?_⟩
    show _ ≤ (l2.buff ++ _).length
    rw [List.length_append]; omega

theorem step_decLoop : ∀ (k : Nat) (l : LS) (r i : Nat),
    Step 0 l (decLoop k l r i).2.2 ∧ (decLoop k l r i).2.2.buff.length + i = l.buff.length + (decLoop k l r i).2.1 := by
  intro k
  induction k with
  | zero => intro l r i; exact ⟨Step.refl l, rfl⟩
  | succ k ih =>
    intro l r i
    unfold decLoop
    split
    · rename_i c cs hi
      split
      · rename_i hd
        have s1 := step_saveNext (mid_cons hi (digit_nl c hd))
        have := ih l.saveNext (10 * r + (c.toNat - 48)) (i + 1)
        exact ⟨s1.1.trans this.1 (Nat.zero_le _), by have := this.2; have := s1.2; omega⟩
      · exact ⟨Step.refl l, rfl⟩
    · exact ⟨Step.refl l, rfl⟩

theorem step_dec {l : LS} : Sat (readdecesc l) (fun r => Step 0 l r.2 ∧ r.2.buff.length = l.buff.length) := by
  unfold readdecesc
  have h := step_decLoop 3 l 0 0
  generalize decLoop 3 l 0 0 = x at h
  obtain ⟨r, i, l2⟩ := x
  dsimp only at h ⊢
  apply Sat.ite
  · intro _
    rw [remove_ok (by omega), Res.bind_ok]
    refine ⟨h.1, ?_⟩
    show (List.take _ _).length = _
    rw [List.length_take]; omega
  · intro _; trivial

theorem step_zap : ∀ (fuel : Nat) (l : LS), l.inp.length < fuel → Sat (zapLoop fuel l) (fun l' => Step 0 l l' ∧ l'.buff = l.buff) := by
  intro fuel
  induction fuel with
  | zero => intro l h; omega
  | succ fuel ih =>
    intro l h
    unfold zapLoop
    split
    · rename_i c cs hi
      apply Sat.ite
      · intro hs
        apply Sat.ite
        · intro hnl
          apply Sat.bind (step_incl l c cs hi hnl)
          rintro l2 ⟨h1, h2⟩
          exact (ih l2 (by have := h1.2; omega)).mono (fun l' h' => ⟨h1.trans h'.1 (Nat.zero_le _), h'.2.trans h2⟩)
        · intro hnl
          have s1 := step_next (mid_cons hi (by simpa using hnl))
          exact (ih _ (by have := s1.2; omega)).mono (fun l' h' => ⟨s1.trans h'.1 (Nat.zero_le _), h'.2⟩)
      · intro _; exact ⟨Step.refl l, rfl⟩
    · exact ⟨Step.refl l, rfl⟩

theorem step_onlySave {l : LS} {c : Nat} (h : 1 ≤ l.buff.length) : Sat (onlySave l c) (fun l' => Step 0 l l' ∧ l'.buff.length = l.buff.length) := by
  unfold onlySave
  rw [remove_ok h, Res.bind_ok]
  refine ⟨Step.refl l, ?_⟩
  show ((List.take _ _) ++ [_]).length = _
  rw [List.length_append, List.length_take]; simp; omega

theorem step_escape {l : LS} {cs : List UInt8} (hi : l.inp = 92 :: cs) :
    Sat (escape l) (fun l' => Step 1 l l' ∧ l.buff.length ≤ l'.buff.length) := by
  unfold escape
  have s1 := step_saveNext (mid_cons hi rfl)
  have hb : 1 ≤ l.saveNext.buff.length := by have := s1.2; omega
  dsimp only
  split
  · exact ⟨s1.1, by have := s1.2; omega⟩
  · rename_i e es he
    have simple : isNl e = false → ∀ v, Sat (onlySave l.saveNext.next v) (fun l' => Step 1 l l' ∧ l.buff.length ≤ l'.buff.length) := by
      intro hn v
      have s2 := step_next (mid_cons he hn)
      exact (step_onlySave (c := v) (l := l.saveNext.next) hb).mono (fun l' h' =>
        ⟨(s1.1.trans s2 (Nat.le_refl _)).trans h'.1 (by omega), by
          have h2 : l'.buff.length = l.saveNext.buff.length := h'.2
          have := s1.2; omega⟩)
    iterate 7 refine Sat.ite (fun q => simple (by rw [q]; rfl) _) (fun _ => ?_)
    apply Sat.ite
    · intro q
      apply Sat.bind (step_hex (mid_cons he (by rw [q]; rfl)))
      rintro ⟨c, l2⟩ ⟨h1, h2, h3⟩
      have s3 := step_next h3
      dsimp only at *
      exact (step_onlySave (c := c) (l := l2.next) (by show 1 ≤ l2.buff.length; omega)).mono (fun l' h' =>
        ⟨((s1.1.trans h1 (Nat.le_refl _)).trans s3 (Nat.le_refl _)).trans h'.1 (by omega), by
          have h4 : l'.buff.length = l2.buff.length := h'.2
          have := s1.2; omega⟩)
    · intro _
      apply Sat.ite
      · intro q
        exact (step_utf8 (mid_cons he (by rw [q]; rfl)) hb).mono (fun l' h' => ⟨s1.1.trans h'.1 (by omega), by
          have := h'.2; have := s1.2; omega⟩)
      · intro _
        apply Sat.ite
        · intro q
          apply Sat.bind (step_incl _ e es he q)
          rintro l2 ⟨h1, h2⟩
          exact (step_onlySave (c := 10) (l := l2) (by rw [h2]; exact hb)).mono (fun l' h' =>
            ⟨(s1.1.trans h1 (Nat.le_refl _)).trans h'.1 (by omega), by
              have h4 : l'.buff.length = l2.buff.length := h'.2
              rw [h2] at h4
              have := s1.2; omega⟩)
        · intro _
          apply Sat.ite
          · intro q
            apply simple
            rcases q with q | q | q <;> rw [q] <;> rfl
          · intro _
            apply Sat.ite
            · intro q
              rw [remove_ok hb, Res.bind_ok]
              have hm2 : Mid ({ l.saveNext with buff := l.saveNext.buff.take (l.saveNext.buff.length - 1) } : LS) :=
                mid_cons (l := { l.saveNext with buff := _ }) he (by rw [q]; rfl)
              have s3 := step_next hm2
              refine (step_zap _ _ (by simp only [LS.next, List.length_tail]; omega)).mono (fun l' h' => ⟨?_, ?_⟩)
              · exact (s1.1.trans (show Step 1 l.saveNext _ from s3) (Nat.le_refl _)).trans h'.1 (by omega)
              · rw [h'.2]
                show _ ≤ (List.take _ _).length
                rw [List.length_take]
                have := s1.2; omega
            · intro _
              apply Sat.ite
              · intro _
                apply Sat.bind step_dec
                rintro ⟨c, l2⟩ ⟨h1, h2⟩
                dsimp only at *
                exact (step_onlySave (c := c) (l := l2) (by omega)).mono (fun l' h' =>
                  ⟨(s1.1.trans h1 (Nat.le_refl _)).trans h'.1 (by omega), by
                    have h4 : l'.buff.length = l2.buff.length := h'.2
                    have := s1.2; omega⟩)
              · intro _; trivial

theorem step_strLoop (del : UInt8) (hd : isNl del = false) : ∀ (fuel : Nat) (l : LS), l.inp.length < fuel →
    Sat (strLoop del fuel l) (fun l' => Step 0 l l' ∧ l.buff.length ≤ l'.buff.length ∧ Mid l') := by
  intro fuel
  induction fuel with
  | zero => intro l h; omega
  | succ fuel ih =>
    intro l h
    unfold strLoop
    split
    · trivial
    · rename_i c cs hi
      apply Sat.ite
      · intro q; exact ⟨Step.refl l, Nat.le_refl _, mid_cons hi (by rw [q]; exact hd)⟩
      · intro _
        apply Sat.ite
        · intro _; trivial
        · intro hnl
          apply Sat.ite
          · intro q
            apply Sat.bind (step_escape (by rw [hi, q]))
            rintro l2 ⟨h1, h2⟩
            exact (ih l2 (by have := h1.2; omega)).mono (fun l' h' => ⟨h1.trans h'.1 (Nat.zero_le _), by have := h'.2.1; omega, h'.2.2⟩)
          · intro _
            have s1 := step_saveNext (mid_cons hi (by simpa using hnl))
            exact (ih _ (by have := s1.1.2; omega)).mono (fun l' h' => ⟨s1.1.trans h'.1 (Nat.zero_le _), by
              have := h'.2.1; have := s1.2; omega, h'.2.2⟩)

theorem step_readString (del : UInt8) (hd : isNl del = false) {l : LS} (hm : Mid l) :
    Sat (readString del l) (fun r => Step 1 l r.2) := by
  unfold readString
  have s1 := step_saveNext hm
  apply Sat.bind (step_strLoop del hd _ _ (Nat.lt_succ_self _))
  rintro l2 ⟨h1, h2, h3⟩
  have s2 := step_saveNext h3
  dsimp only
  rw [if_pos (by have := s1.2; have := s2.2; omega)]
  exact (s1.1.trans h1 (Nat.le_refl _)).trans s2.1 (by omega)

theorem step_saveWhile (p : UInt8 → Bool) (hp : ∀ c, p c = true → isNl c = false) : ∀ (fuel : Nat) (l : LS), l.inp.length < fuel →
    Sat (saveWhile p fuel l) (fun l' => Step 0 l l') := by
  intro fuel
  induction fuel with
  | zero => intro l h; omega
  | succ fuel ih =>
    intro l h
    unfold saveWhile
    apply Sat.ite
    · intro q
      have s1 := (step_saveNext (mid_is q hp)).1
      exact (ih _ (by have := s1.2; omega)).mono (fun l' h' => s1.trans h' (Nat.zero_le _))
    · intro _; exact Step.refl l

theorem step_skipWhile (p : UInt8 → Bool) (hp : ∀ c, p c = true → isNl c = false) : ∀ (fuel : Nat) (l : LS), l.inp.length < fuel →
    Sat (skipWhile p fuel l) (fun l' => Step 0 l l') := by
  intro fuel
  induction fuel with
  | zero => intro l h; omega
  | succ fuel ih =>
    intro l h
    unfold skipWhile
    apply Sat.ite
    · intro q
      have s1 := step_next (mid_is q hp)
      exact (ih _ (by have := s1.2; omega)).mono (fun l' h' => s1.trans h' (Nat.zero_le _))
    · intro _; exact Step.refl l

theorem str2int_defined (s : List UInt8) : str2int s ≠ .ub := by
  obtain ⟨r, h, _⟩ := Num.str2int_sound s
  rw [h]; nofun

theorem step_numeral (isFlt : List UInt8 → Bool) {l : LS} (hm : Mid l) : Sat (readNumeral isFlt l) (fun r => Step 1 l r.2) := by
  unfold readNumeral
  have s1 := (step_saveNext hm).1
  have h2 : ∃ l2 b, (if l.inp.head? = some 48 then checkNext2 l.saveNext 120 88 else (false, l.saveNext)) = (b, l2) ∧ Step 1 l l2 := by
    split
    · unfold checkNext2
      split
      · rename_i hc
        rw [Bool.or_eq_true] at hc
        have hm2 : Mid l.saveNext := by rcases hc with q | q <;> exact mid_cur q rfl
        exact ⟨_, _, rfl, s1.trans (step_saveNext hm2).1 (by omega)⟩
      · exact ⟨_, _, rfl, s1⟩
    · exact ⟨_, _, rfl, s1⟩
  obtain ⟨l2, b, e, s2⟩ := h2
  dsimp only
  rw [e]
  dsimp only
  apply Sat.bind (P := fun l' => Step 1 l l')
  · cases b
    · exact (step_numLoop 69 101 rfl rfl _ l2 (Nat.lt_succ_self _)).mono (fun l' h' => s2.trans h' (by omega))
    · exact (step_numLoop 80 112 rfl rfl _ l2 (Nat.lt_succ_self _)).mono (fun l' h' => s2.trans h' (by omega))
  · intro l3 s3
    have s4 : Step 1 l ((if l3.is lislalpha = true then l3.saveNext else l3).save 0) := by
      split
      · rename_i q
        exact s3.trans (step_saveNext (mid_is q alpha_nl)).1 (by omega)
      · exact s3
    generalize (if l3.is lislalpha = true then l3.saveNext else l3).save 0 = l4 at s4 ⊢
    apply Sat.bind (P := fun _ => True)
    · cases hs : str2int (l4.buff.takeWhile (· ≠ 0)) with
      | ok _ => trivial
      | err _ => trivial
      | ub => exact (str2int_defined _ hs).elim
    · intro o _
      cases o with
      | some i => exact s4
      | none =>
        dsimp only
        apply Sat.ite
        · intro _; exact s4
        · intro _; trivial

theorem numeral_tok (isFlt : List UInt8 → Bool) (l : LS) (x : Tok × LS) (h : readNumeral isFlt l = .ok x) : x.1 ≠ .eos := by
  unfold readNumeral at h
  obtain ⟨l1, _, h⟩ := Res.bind_eq_ok.1 h
  obtain ⟨o, _, h⟩ := Res.bind_eq_ok.1 h
  cases o with
  | some i => injection h with h; rw [← h]; nofun
  | none =>
    dsimp only at h
    generalize isFlt _ = q at h
    cases q with
    | true => rw [if_pos rfl] at h; injection h with h; rw [← h]; nofun
    | false => exact nomatch h

theorem step_word {l : LS} {c : UInt8} {cs : List UInt8} (hi : l.inp = c :: cs) (hc : isNl c = false) :
    Sat (word l c) (fun r => Step 1 l r.2) := by
  unfold word
  apply Sat.ite
  · intro _
    have s1 := (step_saveNext (mid_cons hi hc)).1
    apply Sat.bind (step_saveWhile lislalnum alnum_nl _ _ (Nat.lt_succ_self _))
    intro l2 s2
    split <;> exact s1.trans s2 (by omega)
  · intro _; exact step_next (mid_cons hi hc)

theorem step_comment (l : LS) : Sat (comment l) (fun l' => Step 0 l l') := by
  unfold comment
  have short : ∀ l : LS, Sat (skipWhile (fun c => !isNl c) (l.inp.length + 1) l) (fun l' => Step 0 l l') :=
    fun l => step_skipWhile _ (fun c hc => by simpa using hc) _ l (Nat.lt_succ_self _)
  dsimp only
  apply Sat.ite
  · intro hc
    apply Sat.bind (step_skipSep (mid_cur hc rfl))
    rintro ⟨sep, l2⟩ ⟨h1, h2⟩
    dsimp only at *
    apply Sat.ite
    · intro hs
      obtain ⟨h3, _⟩ := h2 hs
      have hm2 : Mid l2.reset := by
        have : l2.cur 91 = true := by
          unfold LS.cur at hc ⊢; rw [h3]; exact hc
        exact mid_cur (l := l2.reset) this rfl
      apply Sat.bind (step_readLong false sep hs hm2 (Or.inr rfl))
      rintro ⟨s, l3⟩ h4
      exact (h1.trans (step_reset l2) (Nat.le_refl _)).trans (show Step 1 l2.reset l3.reset from h4) (by omega)
    · intro _
      exact (short l2.reset).mono (fun l' h' => (h1.trans (step_reset l2) (Nat.le_refl _)).trans h' (by omega))
  · intro _; exact short l

/-- A comment leaves the buffer empty. -/
theorem comment_buff (l : LS) (hb : l.buff = []) : Sat (comment l) (fun l' => l'.buff = []) := by
  have sk : ∀ (p : UInt8 → Bool) (fuel : Nat) (l l' : LS), skipWhile p fuel l = .ok l' → l'.buff = l.buff := by
    intro p fuel
    induction fuel with
    | zero => intro l l' e; exact nomatch e
    | succ fuel ih =>
      intro l l' e
      unfold skipWhile at e
      split at e
      · exact (ih l.next _ e).trans rfl
      · injection e with e; rw [e]
  have h0 := step_comment l
  cases hk : comment l with
  | err _ => trivial
  | ub => rw [hk] at h0; exact h0
  | ok l' =>
    show l'.buff = []
    unfold comment at hk
    dsimp only at hk
    split at hk
    · obtain ⟨⟨sep, l2⟩, _, hk⟩ := Res.bind_eq_ok.1 hk
      dsimp only at hk
      split at hk
      · obtain ⟨⟨s, l3⟩, _, hk⟩ := Res.bind_eq_ok.1 hk
        injection hk with hk
        rw [← hk]; rfl
      · rw [sk _ _ _ _ hk]; rfl
    · rw [sk _ _ _ _ hk, hb]

theorem step_two {l : LS} {c : UInt8} {t : Tok} {k : LS → Tok × LS} (hc : isNl c = false) (hk : Step 0 l (k l).2) :
    Step 0 l (two l c t k).2 := by
  unfold two checkNext1
  by_cases h : l.cur c = true
  · rw [if_pos h]; exact (step_next (mid_cur h hc)).weaken (by omega)
  · rw [if_neg h]; exact hk

theorem step_llex (isFlt : List UInt8 → Bool) : ∀ (fuel : Nat) (l : LS), l.inp.length < fuel → l.buff = [] →
    Sat (llex isFlt fuel l) (fun r => Step 0 l r.2 ∧ (r.1 ≠ .eos → Step 1 l r.2) ∧ (r.1 = .eos → r.2.inp = [])) := by
  have one : ∀ {l : LS} {r : Tok × LS}, Step 1 l r.2 → r.1 ≠ .eos →
      Step 0 l r.2 ∧ (r.1 ≠ .eos → Step 1 l r.2) ∧ (r.1 = .eos → r.2.inp = []) :=
    fun h hn => ⟨h.weaken (by omega), fun _ => h, fun q => absurd q hn⟩
  intro fuel
  induction fuel with
  | zero => intro l h; omega
  | succ fuel ih =>
    intro l h hbuf
    unfold llex
    cases hi : l.inp with
    | nil => exact ⟨Step.refl l, fun q => absurd rfl q, fun _ => hi⟩
    | cons c cs =>
      dsimp only
      have go : ∀ {l2 : LS}, Step 1 l l2 → l2.buff = [] →
          Sat (llex isFlt fuel l2) (fun r => Step 0 l r.2 ∧ (r.1 ≠ .eos → Step 1 l r.2) ∧ (r.1 = .eos → r.2.inp = [])) := by
        intro l2 s2 hb2
        exact (ih l2 (by have := s2.2; omega) hb2).mono (fun r h' =>
          ⟨s2.trans h'.1 (Nat.zero_le _), fun q => s2.trans (h'.2.1 q) (by omega), h'.2.2⟩)
      refine Sat.ite (fun hnl => ?_) (fun hnl => ?_)
      · apply Sat.bind (step_incl l c cs hi hnl)
        rintro l2 ⟨h1, h2⟩
        exact go h1 (by rw [h2, hbuf])
      have hnl' : isNl c = false := by simpa using hnl
      have hm : Mid l := mid_cons hi hnl'
      have s1 := step_next hm
      have s1' := (step_saveNext hm).1
      refine Sat.ite (fun _ => ?_) (fun _ => ?_)
      · exact go s1 hbuf
      refine Sat.ite (fun _ => ?_) (fun _ => ?_)
      · refine Sat.ite (fun hc => ?_) (fun _ => ?_)
        · have s2 := step_next (mid_cur hc rfl)
          apply Sat.bind (P := fun l' => Step 0 l.next.next l' ∧ l'.buff = [])
          · have h1 := step_comment l.next.next
            have h2 := comment_buff l.next.next hbuf
            cases hk : comment l.next.next with
            | ok x => rw [hk] at h1 h2; exact ⟨h1, h2⟩
            | err _ => trivial
            | ub => rw [hk] at h1; exact h1
          · rintro l3 ⟨h3, h4⟩
            exact go ((s1.trans s2 (Nat.le_refl _)).trans h3 (by omega)) h4
        · exact one s1 nofun
      refine Sat.ite (fun hc => ?_) (fun _ => ?_)
      · apply Sat.bind (step_skipSep hm)
        rintro ⟨sep, l2⟩ ⟨h1, h2⟩
        dsimp only at *
        refine Sat.ite (fun hs => ?_) (fun _ => ?_)
        · obtain ⟨h3, h4⟩ := h2 hs
          have hm2 : Mid l2 := by
            rw [hi, hc] at h3
            cases hi2 : l2.inp with
            | nil => rw [hi2] at h3; exact nomatch h3
            | cons d ds =>
              rw [hi2] at h3
              injection h3 with h3
              exact mid_cons hi2 (by rw [h3]; rfl)
          apply Sat.bind (step_readLong true sep hs hm2 (Or.inl (by rw [hbuf] at h4; simp at h4; omega)))
          rintro ⟨s, l3⟩ h5
          exact one (h1.trans h5 (by omega)) nofun
        · refine Sat.ite (fun _ => trivial) (fun _ => ?_)
          exact one h1 nofun
      have num : ∀ {l2 : LS}, Mid l2 → Step 0 l l2 →
          Sat (readNumeral isFlt l2) (fun r => Step 0 l r.2 ∧ (r.1 ≠ .eos → Step 1 l r.2) ∧ (r.1 = .eos → r.2.inp = [])) := by
        intro l2 hm2 s2
        have h1 := step_numeral isFlt hm2
        cases hk : readNumeral isFlt l2 with
        | ok x =>
          rw [hk] at h1
          refine one (s2.trans h1 (by omega)) ?_
          exact numeral_tok isFlt l2 x hk
        | err _ => trivial
        | ub => rw [hk] at h1; exact h1
      have ne1 : ∀ (l : LS) (a : UInt8) (t : Tok) (k : LS → Tok × LS), t ≠ .eos → (k l).1 ≠ .eos → (two l a t k).1 ≠ .eos := by
        intro l a t k ht hu
        unfold two checkNext1
        by_cases h : l.cur a = true
        · rw [if_pos h]; exact ht
        · rw [if_neg h]; exact hu
      refine Sat.ite (fun _ => ?_) (fun _ => ?_)
      · exact one (s1.trans (step_two rfl (Step.refl _)) (by omega)) (ne1 _ _ _ _ nofun nofun)
      refine Sat.ite (fun _ => ?_) (fun _ => ?_)
      · exact one (s1.trans (step_two rfl (step_two rfl (Step.refl _))) (by omega)) (ne1 _ _ _ _ nofun (ne1 _ _ _ _ nofun nofun))
      refine Sat.ite (fun _ => ?_) (fun _ => ?_)
      · exact one (s1.trans (step_two rfl (step_two rfl (Step.refl _))) (by omega)) (ne1 _ _ _ _ nofun (ne1 _ _ _ _ nofun nofun))
      refine Sat.ite (fun _ => ?_) (fun _ => ?_)
      · exact one (s1.trans (step_two rfl (Step.refl _)) (by omega)) (ne1 _ _ _ _ nofun nofun)
      refine Sat.ite (fun _ => ?_) (fun _ => ?_)
      · exact one (s1.trans (step_two rfl (Step.refl _)) (by omega)) (ne1 _ _ _ _ nofun nofun)
      refine Sat.ite (fun _ => ?_) (fun _ => ?_)
      · exact one (s1.trans (step_two rfl (Step.refl _)) (by omega)) (ne1 _ _ _ _ nofun nofun)
      refine Sat.ite (fun _ => ?_) (fun _ => ?_)
      · apply Sat.bind (step_readString c hnl' hm)
        rintro ⟨s, l2⟩ h1
        exact one h1 nofun
      refine Sat.ite (fun _ => ?_) (fun _ => ?_)
      · refine Sat.ite (fun hc => ?_) (fun _ => ?_)
        · have s2 := step_next (mid_cur hc rfl)
          refine Sat.ite (fun hc2 => ?_) (fun _ => ?_)
          · have s3 := step_next (mid_cur hc2 rfl)
            exact one ((s1'.trans s2 (Nat.le_refl _)).trans s3 (by omega)) nofun
          · exact one (s1'.trans s2 (by omega)) nofun
        · refine Sat.ite (fun _ => ?_) (fun hd => ?_)
          · exact one s1' nofun
          · have hm2 : Mid l.saveNext := mid_is (p := isDigit) (by simpa using hd) digit_nl
            exact num hm2 (s1'.weaken (by omega))
      refine Sat.ite (fun _ => ?_) (fun _ => ?_)
      · exact num hm (Step.refl l)
      refine Sat.ite (fun _ => ?_) (fun _ => ?_)
      · apply Sat.bind (step_saveWhile lislalnum alnum_nl _ _ (Nat.lt_succ_self _))
        intro l2 s2
        have cs1 : ∀ (l : LS) (c : UInt8), isNl c = false → Step 0 l (checkSaveNext1 l c) := by
          intro l c hc
          unfold checkSaveNext1
          split
          · rename_i q; exact (step_saveNext (mid_cur q hc)).1.weaken (by omega)
          · exact Step.refl l
        have s3 := (cs1 l2 91 rfl).trans (cs1 (checkSaveNext1 l2 91) 93 rfl) (k := 0) (Nat.le_refl _)
        generalize checkSaveNext1 (checkSaveNext1 l2 91) 93 = l3 at s3
        unfold casttoken
        dsimp only
        rw [remove_ok (Nat.le_refl _), Res.bind_ok]
        refine one ((s1'.trans s2 (Nat.le_refl _)).trans (show Step 0 l2 { l3 with buff := _ } from s3) (by omega)) ?_
        show (if _ then _ else _) ≠ Tok.eos
        repeat' split
        all_goals nofun
      · unfold word
        refine Sat.ite (fun _ => ?_) (fun _ => ?_)
        · apply Sat.bind (step_saveWhile lislalnum alnum_nl _ _ (Nat.lt_succ_self _))
          intro l2 s2
          split <;> exact one (s1'.trans s2 (by omega)) nofun
        · exact one s1 nofun

/-- Every input: the lexer is defined and ends; a token consumes at least one byte, except the end of
input, which is returned only when nothing is left; the line reported is the initial line plus the
number of line breaks passed. -/
theorem lexer_defined (isFlt : List UInt8 → Bool) (l : LS) :
    token isFlt l ≠ .ub ∧ ∀ t l', token isFlt l = .ok (t, l') →
      l'.line + breaks l'.inp = l.line + breaks l.inp ∧ l'.inp.length ≤ l.inp.length ∧
      (t = .eos → l'.inp = [] ∧ l'.line = l.line + breaks l.inp) ∧ (t ≠ .eos → l'.inp.length < l.inp.length) := by
  have h := step_llex isFlt (l.inp.length + 1) l.reset (Nat.lt_succ_self _) rfl
  unfold token
  refine ⟨fun e => by rw [e] at h; exact h, fun t l' e => ?_⟩
  rw [e] at h
  obtain ⟨h1, h2, h3⟩ := h
  have h4 : l'.line + breaks l'.inp = l.line + breaks l.inp := h1.1
  have h5 : l'.inp.length + 0 ≤ l.inp.length := h1.2
  refine ⟨h4, h5, fun q => ⟨h3 q, ?_⟩, fun q => ?_⟩
  · have := h3 q
    dsimp only at this
    rw [this] at h4
    simpa [breaks] using h4
  · have := (h2 q).2
    exact this

/-- Lexing a whole text: all tokens to the end of input. -/
def tokens (isFlt : List UInt8 → Bool) : Nat → LS → Res (List Tok × LS)
  | 0, _ => .ub
  | fuel + 1, l => do
    let (t, l) ← token isFlt l
    if t = .eos then pure ([], l)
    else do
      let (ts, l) ← tokens isFlt fuel l
      pure (t :: ts, l)

/-- Any text is lexed to its end or rejected; at the end the line is one plus the number of breaks. -/
theorem text_defined (isFlt : List UInt8 → Bool) (text : List UInt8) :
    tokens isFlt (text.length + 1) ⟨text, [], 1⟩ ≠ .ub ∧
    ∀ ts l', tokens isFlt (text.length + 1) ⟨text, [], 1⟩ = .ok (ts, l') → l'.inp = [] ∧ l'.line = 1 + breaks text ∧ ts.length ≤ text.length := by
  have key : ∀ (fuel : Nat) (l : LS), l.inp.length < fuel →
      Sat (tokens isFlt fuel l) (fun r => r.2.inp = [] ∧ r.2.line = l.line + breaks l.inp ∧ r.1.length ≤ l.inp.length) := by
    intro fuel
    induction fuel with
    | zero => intro l h; omega
    | succ fuel ih =>
      intro l h
      unfold tokens
      obtain ⟨h1, h2⟩ := lexer_defined isFlt l
      cases ht : token isFlt l with
      | err _ => trivial
      | ub => exact absurd ht h1
      | ok x =>
        obtain ⟨t, l2⟩ := x
        obtain ⟨h3, h4, h5, h6⟩ := h2 t l2 ht
        rw [Res.bind_ok]
        dsimp only
        refine Sat.ite (fun q => ?_) (fun q => ?_)
        · exact ⟨(h5 q).1, (h5 q).2, Nat.zero_le _⟩
        · apply Sat.bind (ih l2 (by have := h6 q; omega))
          rintro ⟨ts, l3⟩ ⟨h7, h8, h9⟩
          exact ⟨h7, by rw [h8, h3], by have := h6 q; simp at h9 ⊢; omega⟩
  have h := key (text.length + 1) ⟨text, [], 1⟩ (Nat.lt_succ_self _)
  refine ⟨fun e => by rw [e] at h; exact h, fun ts l' e => ?_⟩
  rw [e] at h
  exact h

/-- A case: `x --[[\r\n]] 12` has three lines' worth of text and two tokens. -/
example : tokens (fun _ => false) 20 ⟨[120, 32, 45, 45, 91, 91, 13, 10, 93, 93, 10, 49, 50], [], 1⟩ =
    .ok ([.name [120], .int 12], ⟨[], [], 3⟩) := by decide +kernel

end Verif.Lex
