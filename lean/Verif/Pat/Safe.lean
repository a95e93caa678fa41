import Verif.Pat.Meaning

/-!
# The matcher is defined for every pattern, well-formed or not
-/
namespace Verif.Pat
open Verif.StrLib (mem rd rdN memeq)

/-- The computation is defined, and its value, if it has one, satisfies `P`. -/
def Sat {α : Type} (r : Res α) (P : α → Prop) : Prop :=
  match r with
  | .ok a => P a
  | .err _ => True
  | .ub => False

theorem Sat.bind {α β : Type} {r : Res α} {f : α → Res β} {P : α → Prop} {Q : β → Prop} (h : Sat r P) (hf : ∀ a, P a → Sat (f a) Q) :
    Sat (r >>= f) Q := by
  cases r with
  | ok a => exact hf a h
  | err m => trivial
  | ub => exact h

theorem Sat.mono {α : Type} {r : Res α} {P Q : α → Prop} (h : Sat r P) (hpq : ∀ a, P a → Q a) : Sat r Q := by
  cases r with
  | ok a => exact hpq a h
  | err m => trivial
  | ub => exact h

theorem Sat.ne {α : Type} {r : Res α} {P : α → Prop} (h : Sat r P) : r ≠ .ub := by
  intro q; rw [q] at h; exact h

theorem at0_snoc (pat : List UInt8) : ∃ c, at0 (pat ++ [0]) = .ok c := by
  cases pat with
  | nil => exact ⟨0, rfl⟩
  | cons c r => exact ⟨c, rfl⟩

theorem at1_snoc {pat : List UInt8} (h : pat ≠ []) : ∃ c, at1 (pat ++ [0]) = .ok c := by
  match pat, h with
  | [c], _ => exact ⟨0, rfl⟩
  | c :: d :: r, _ => exact ⟨d, rfl⟩

theorem setEnd_safe : ∀ (fuel : Nat) (pat : List UInt8), pat.length < fuel →
    Sat (setEnd fuel (pat ++ [0])) (fun q => ∃ rest, q = rest ++ [0] ∧ rest.length < pat.length) := by
  intro fuel
  induction fuel with
  | zero => intro _ h; omega
  | succ n ih =>
    intro pat hf
    unfold setEnd
    cases pat with
    | nil => rw [if_pos (by rfl)]; trivial
    | cons c r =>
      rw [List.cons_append, if_neg (by simp), at0_cons, Res.bind_ok]
      dsimp only [drop1]
      have go : ∀ r' : List UInt8, r'.length ≤ r.length → Sat (at0 (r' ++ [0]) >>= fun d => if d ≠ 93 then setEnd n (r' ++ [0]) else .ok ((r' ++ [0]).drop 1))
          (fun q => ∃ rest, q = rest ++ [0] ∧ rest.length < (c :: r).length) := by
        intro r' hl
        cases r' with
        | nil =>
          rw [List.nil_append, at0_cons, Res.bind_ok, if_pos (by decide)]
          exact (ih [] (by simp at hf ⊢; omega)).mono fun q hq => by
            obtain ⟨rest, _, b⟩ := hq
            simp at b
        | cons d t =>
          rw [List.cons_append, at0_cons, Res.bind_ok]
          split
          · rw [← List.cons_append]
            refine (ih (d :: t) (by simp at hf hl ⊢; omega)).mono fun q hq => ?_
            obtain ⟨rest, a, b⟩ := hq
            exact ⟨rest, a, by simp at b hl ⊢; omega⟩
          · rw [drop1]
            exact ⟨t, rfl, by simp at hl ⊢; omega⟩
      split
      · rename_i h
        cases r with
        | nil => exact absurd h.2 (by simp)
        | cons d t =>
          rw [List.cons_append, drop1]
          exact go t (by simp)
      · exact go r (Nat.le_refl _)

theorem classend_safe {pat : List UInt8} (h : pat ≠ []) :
    Sat (classend (pat ++ [0])) (fun q => ∃ rest, q = rest ++ [0] ∧ rest.length < pat.length) := by
  unfold classend
  cases pat with
  | nil => exact absurd rfl h
  | cons c r =>
    rw [List.cons_append, at0_cons, Res.bind_ok]
    dsimp only [drop1]
    split
    · cases r with
      | nil => rw [if_pos (by rfl)]; trivial
      | cons d t =>
        rw [if_neg (by simp), List.cons_append, drop1]
        exact ⟨t, rfl, by simp; omega⟩
    · split
      · unfold skipCaret
        cases r with
        | nil =>
          rw [List.nil_append, at0_cons, Res.bind_ok, if_neg (by decide), Res.pure_eq, Res.bind_ok]
          exact (setEnd_safe _ [] (by simp)).mono fun q hq => by
            obtain ⟨rest, _, b⟩ := hq
            simp at b
        | cons d t =>
          rw [List.cons_append, at0_cons, Res.bind_ok, Res.pure_eq, Res.bind_ok]
          split
          · rw [drop1]
            refine (setEnd_safe _ t (by rw [len_snoc]; omega)).mono fun q hq => ?_
            obtain ⟨rest, a, b⟩ := hq
            exact ⟨rest, a, by rw [List.length_cons, List.length_cons]; omega⟩
          · rw [← List.cons_append]
            refine (setEnd_safe _ (d :: t) (by simp)).mono fun q hq => ?_
            obtain ⟨rest, a, b⟩ := hq
            exact ⟨rest, a, by simp at b ⊢; omega⟩
      · exact ⟨r, rfl, by simp⟩

theorem setLoop_safe (c : UInt8) (sig : Bool) (ec : Nat) (he : 1 ≤ ec) : ∀ (fuel : Nat) (p : List UInt8), p.length < fuel →
    Sat (setLoop c sig ec fuel p) (fun _ => True) := by
  intro fuel
  induction fuel with
  | zero => intro _ h; omega
  | succ n ih =>
    intro p hf
    unfold setLoop
    split
    · rename_i h
      match p, h with
      | [x], h => simp at h; omega
      | b :: d :: r, h =>
        simp only [at0_cons, at1_cons, Res.bind_ok]
        split
        · split
          · trivial
          · exact ih _ (by simp at hf ⊢; omega)
        · split
          · rename_i h2
            match r, h2 with
            | [], h2 => simp at h2; omega
            | e :: r, h2 =>
              simp only [drop2, at0_cons, Res.bind_ok]
              split
              · trivial
              · exact ih _ (by simp at hf ⊢; omega)
          · split
            · trivial
            · exact ih _ (by simp at hf ⊢; omega)
    · trivial

theorem matchSet_safe (c : UInt8) {pat : List UInt8} (h : pat ≠ []) (ec : Nat) (he : 1 ≤ ec) :
    Sat (matchSet c (pat ++ [0]) ec) (fun _ => True) := by
  unfold matchSet
  obtain ⟨d, hd⟩ := at1_snoc h
  rw [hd, Res.bind_ok]
  have : 0 < pat.length := List.length_pos_iff.2 h
  split
  · exact setLoop_safe _ _ _ he _ _ (by rw [List.length_drop, len_snoc]; omega)
  · exact setLoop_safe _ _ _ he _ _ (by rw [List.length_drop, len_snoc]; omega)

theorem singlematch_safe (src : List UInt8) (s : Nat) {pat : List UInt8} (h : pat ≠ []) (ep : List UInt8) :
    Sat (singlematch src s (pat ++ [0]) ep) (fun m => m = true → s < src.length) := by
  unfold singlematch
  split
  · exact fun q => nomatch q
  · rename_i hs
    have hs : s < src.length := by omega
    rw [rd_src hs, Res.bind_ok]
    obtain ⟨b, hb⟩ := at0_snoc pat
    obtain ⟨d, hd⟩ := at1_snoc h
    rw [hb, Res.bind_ok, hd]
    split
    · exact fun _ => hs
    · split
      · exact fun _ => hs
      · split
        · exact (matchSet_safe _ h _ (by omega)).mono fun _ _ _ => hs
        · exact fun _ => hs

/-- What `match` leaves: without a match, the captures as before; with one, its end and the captures inside the subject. -/
def Post (src : List UInt8) (s : Nat) (caps : List Cap) (q : Option Nat × List Cap) : Prop :=
  match q.1 with
  | none => q.2 = caps
  | some e => s ≤ e ∧ Inv src e q.2

theorem Post.mono {src s s' caps q} (h : Post src s' caps q) (hs : s ≤ s') : Post src s caps q := by
  unfold Post at *
  cases hq : q.1 with
  | none => rw [hq] at h; exact h
  | some e => rw [hq] at h; exact ⟨by omega, h.2⟩

/-- Trying one continuation and, without a match, another. -/
theorem Sat.orElse {src s capsI caps} {o : Out} {k : Option Nat × List Cap → Out} (h : Sat o (Post src s capsI))
    (hs : ∀ e c, k (some e, c) = .ok (some e, c)) (hn : Sat (k (none, capsI)) (Post src s caps)) : Sat (o >>= k) (Post src s caps) := by
  refine h.bind fun q hq => ?_
  obtain ⟨r, c⟩ := q
  unfold Post at hq
  cases r with
  | none => dsimp only at hq; rw [hq]; exact hn
  | some e => rw [hs]; exact hq

theorem countLoop_safe (src : List UInt8) {pat : List UInt8} (h : pat ≠ []) (ep : List UInt8) (s : Nat) :
    ∀ (fuel i : Nat), src.length + 1 ≤ fuel + (s + i) → 0 < fuel →
      Sat (countLoop src (pat ++ [0]) ep s fuel i) (fun n => n = i ∨ s + n ≤ src.length) := by
  intro fuel
  induction fuel with
  | zero => intro i _ h; omega
  | succ n ih =>
    intro i hf _
    unfold countLoop
    refine (singlematch_safe src (s + i) h ep).bind fun m hm => ?_
    split
    · rename_i q
      have := hm q
      refine (ih (i + 1) (by omega) (by omega)).mono fun a ha => ?_
      omega
    · exact .inl rfl

theorem backLoop_safe (src : List UInt8) (k : Nat → List Cap → Out) (s : Nat) (caps : List Cap) :
    ∀ n, (∀ i, i ≤ n → Sat (k (s + i) caps) (Post src s caps)) → Sat (backLoop k s n caps) (Post src s caps) := by
  intro n
  induction n with
  | zero => intro h; exact h 0 (Nat.le_refl _)
  | succ n ih =>
    intro h
    unfold backLoop
    exact (h (n + 1) (Nat.le_refl _)).orElse (fun e c => rfl) (ih fun i hi => h i (by omega))

theorem minExpand_safe (src : List UInt8) {pat : List UInt8} (h : pat ≠ []) (ep : List UInt8) (k : Nat → List Cap → Out) (s0 : Nat) (caps : List Cap)
    (hk : ∀ s, s0 ≤ s → s ≤ src.length → Sat (k s caps) (Post src s0 caps)) :
    ∀ (fuel s : Nat), s0 ≤ s → s ≤ src.length → src.length + 1 ≤ fuel + s → 0 < fuel →
      Sat (minExpand src (pat ++ [0]) ep k fuel s caps) (Post src s0 caps) := by
  intro fuel
  induction fuel with
  | zero => intro s _ _ _ h; omega
  | succ n ih =>
    intro s h0 h1 hf _
    unfold minExpand
    refine (hk s h0 h1).orElse (fun e c => rfl) ?_
    dsimp only
    refine (singlematch_safe src s h ep).bind fun m hm => ?_
    split
    · rename_i q
      have := hm q
      exact ih (s + 1) (by omega) (by omega) (by omega) (by omega)
    · rfl

theorem captureToClose_safe (caps : List Cap) : ∀ n, n ≤ caps.length →
    Sat (captureToClose caps n) (fun l => l < caps.length ∧ (caps.getD l (0, 0)).2 = UNFIN) := by
  intro n
  induction n with
  | zero => intro _; trivial
  | succ n ih =>
    intro h
    unfold captureToClose
    rw [getD_lt (show n < caps.length by omega)]
    dsimp only
    split
    · rename_i q; exact ⟨by omega, q⟩
    · exact ih (by omega)

theorem endCapture_safe {src : List UInt8} (k : Nat → List Cap → Out) (s : Nat) (caps : List Cap) (hi : Inv src s caps)
    (hk : ∀ caps', Inv src s caps' → Sat (k s caps') (Post src s caps')) : Sat (endCapture k s caps) (Post src s caps) := by
  unfold endCapture
  refine (captureToClose_safe caps _ (Nat.le_refl _)).bind fun l hl => ?_
  obtain ⟨h2, h3⟩ := hl
  rw [getD_lt h2]
  dsimp only
  refine (hk _ (hi.set h2)).orElse (fun e c => rfl) ?_
  dsimp only
  rw [List.getElem?_set_self h2]
  dsimp only
  rw [List.set_set, ← h3]
  rw [List.getD_eq_getElem?_getD, List.getElem?_eq_getElem h2]
  exact List.set_getElem_self h2

theorem startCapture_safe {src : List UInt8} (k : Nat → List Cap → Out) (s : Nat) (w : Int) (hw : w = UNFIN ∨ w = POSN) (caps : List Cap)
    (hi : Inv src s caps) (hk : ∀ caps', Inv src s caps' → Sat (k s caps') (Post src s caps')) :
    Sat (startCapture k s w caps) (Post src s caps) := by
  unfold startCapture
  split
  · trivial
  · rename_i hl
    rw [addCapture, if_pos (by unfold MAXCAP at hl; omega), Res.bind_ok]
    refine (hk _ (hi.snoc hw)).orElse (fun e c => rfl) ?_
    dsimp only
    rw [if_neg (by simp), List.dropLast_concat]
    rfl

theorem matchCapture_safe (src : List UInt8) (s : Nat) (caps : List Cap) (d : UInt8) (hsz : src.length < 2 ^ 63) (hi : Inv src s caps) :
    Sat (matchCapture src s caps d) (fun r => ∀ m, r = some m → s ≤ m ∧ m ≤ src.length) := by
  have hs := hi.1
  by_cases h1 : 49 ≤ d.toNat
  · cases h2 : (caps.map isOpen)[d.toNat - 49]? with
    | none =>
      unfold matchCapture checkCapture
      rw [List.getElem?_map] at h2
      rw [if_neg (by omega), Option.map_eq_none_iff.1 h2]
      trivial
    | some b =>
      cases b with
      | true =>
        rw [List.getElem?_map] at h2
        obtain ⟨c, a, b⟩ := Option.map_eq_some_iff.1 h2
        unfold matchCapture checkCapture
        rw [if_neg (by omega), a]
        dsimp only
        rw [if_pos (by simpa [isOpen] using b)]
        trivial
      | false =>
        rw [matchCapture_eq src s caps d hsz hi h1 h2]
        intro m hm
        have := (backref_inv hi hm).1
        unfold backref at hm
        split at hm
        · split at hm
          · injection hm with hm
            omega
          · exact nomatch hm
        · exact nomatch hm
  · unfold matchCapture checkCapture
    rw [if_pos (by omega)]
    trivial

theorem matchbalance_safe (src : List UInt8) (s : Nat) (hs : s ≤ src.length) (pat : List UInt8) :
    Sat (matchbalance src s (pat ++ [0])) (fun r => 2 ≤ pat.length ∧ ∀ m, r = some m → s ≤ m ∧ m ≤ src.length) := by
  match pat with
  | [] => unfold matchbalance; rw [if_pos (by simp)]; trivial
  | [x] => unfold matchbalance; rw [if_pos (by simp)]; trivial
  | x :: y :: r =>
    rw [matchbalance_eq src s x y r hs]
    refine ⟨by simp, fun m hm => ?_⟩
    have hi : Inv src s [] := ⟨hs, fun _ h => nomatch h⟩
    have := (balance_inv hi hm).1
    unfold balance at hm
    split at hm
    · obtain ⟨n, h1, h2⟩ := Option.map_eq_some_iff.1 hm
      omega
    · exact nomatch hm

theorem single_safe (src : List UInt8) (again rec_ : List UInt8 → Nat → List Cap → Out) (s : Nat) (pat : List UInt8) (h : pat ≠ [])
    (caps : List Cap) (hs : s ≤ src.length)
    (ha : ∀ rest s', rest.length < pat.length → s ≤ s' → s' ≤ src.length → Sat (again (rest ++ [0]) s' caps) (Post src s' caps))
    (hr : ∀ rest s', rest.length < pat.length → s ≤ s' → s' ≤ src.length → Sat (rec_ (rest ++ [0]) s' caps) (Post src s' caps)) :
    Sat (single_ src again rec_ s (pat ++ [0]) caps) (Post src s caps) := by
  unfold single_
  refine (classend_safe h).bind fun ep hep => ?_
  obtain ⟨rest, e, hl⟩ := hep
  subst e
  refine (singlematch_safe src s h _).bind fun m hm => ?_
  have tail : ∀ q, at0 (rest ++ [0]) = .ok q → q ≠ 0 → ∃ t, (rest ++ [0]).drop 1 = t ++ [0] ∧ t.length < pat.length := by
    intro q hq h0
    cases rest with
    | nil => exact absurd (by injection hq with hq; exact hq.symm) h0
    | cons c t => exact ⟨t, rfl, by simp at hl; omega⟩
  obtain ⟨q, hq⟩ := at0_snoc rest
  rw [hq, Res.bind_ok]
  split
  · split
    · rename_i h1
      obtain ⟨t, e, hl⟩ := tail q hq (by rcases h1 with h | h | h <;> (rw [h]; decide))
      rw [e]
      exact ha t s hl (Nat.le_refl _) hs
    · rfl
  · rename_i hm'
    have hs' := hm (by simpa using hm')
    split
    · rename_i h1
      obtain ⟨t, e, hl⟩ := tail q hq (by rw [h1]; decide)
      rw [e]
      exact ((hr t (s + 1) hl (by omega) hs').mono fun _ h => h.mono (by omega)).orElse (fun e c => rfl) (ha t s hl (Nat.le_refl _) hs)
    · split
      · rename_i h1
        obtain ⟨t, e, hl⟩ := tail q hq (by rw [h1]; decide)
        rw [e]
        unfold maxExpand
        refine (countLoop_safe src h _ (s + 1) _ 0 (by omega) (by omega)).bind fun n hn => ?_
        refine Sat.mono (backLoop_safe src _ (s + 1) caps n fun i hi => ?_) fun _ h => h.mono (by omega)
        exact (hr t (s + 1 + i) hl (by omega) (by omega)).mono fun _ h => h.mono (by omega)
      · split
        · rename_i h1
          obtain ⟨t, e, hl⟩ := tail q hq (by rw [h1]; decide)
          rw [e]
          unfold maxExpand
          refine (countLoop_safe src h _ s _ 0 (by omega) (by omega)).bind fun n hn => ?_
          refine backLoop_safe src _ s caps n fun i hi => ?_
          exact (hr t (s + i) hl (by omega) (by omega)).mono fun _ h => h.mono (by omega)
        · split
          · rename_i h1
            obtain ⟨t, e, hl⟩ := tail q hq (by rw [h1]; decide)
            rw [e]
            refine minExpand_safe src h _ _ s caps (fun s' h1 h2 => ?_) _ s (Nat.le_refl _) hs (by omega) (by omega)
            exact (hr t s' hl h1 h2).mono fun _ h => h.mono h1
          · exact (ha rest (s + 1) hl (by omega) hs').mono fun _ h => h.mono (by omega)

/-- **No pattern makes the matcher read outside the subject or the pattern** (C25). -/
theorem doMatch_safe (src : List UInt8) (hsz : src.length < 2 ^ 63) : ∀ (fuel : Nat) (d : Int) (s : Nat) (pat : List UInt8) (caps : List Cap),
    Inv src s caps → pat.length < fuel → Sat (doMatch src fuel d s (pat ++ [0]) caps) (Post src s caps) := by
  intro fuel
  induction fuel with
  | zero => intro d s pat caps _ h; omega
  | succ fuel ih =>
    intro d s pat caps hi hf
    have recc : ∀ (rest : List UInt8) (s' : Nat) (caps' : List Cap), rest.length < pat.length → Inv src s' caps' →
        Sat (if d = 0 then .err "pattern too complex" else doMatch src fuel (d - 1) s' (rest ++ [0]) caps' : Out) (Post src s' caps') := by
      intro rest s' caps' hl hi
      split
      · trivial
      · exact ih _ _ _ _ hi (by omega)
    have again : ∀ (rest : List UInt8) (s' : Nat) (caps' : List Cap), rest.length < pat.length → Inv src s' caps' →
        Sat (doMatch src fuel d s' (rest ++ [0]) caps') (Post src s' caps') := fun rest s' caps' hl hi => ih _ _ _ _ hi (by omega)
    unfold doMatch
    cases pat with
    | nil => exact ⟨Nat.le_refl _, hi⟩
    | cons c r =>
      have single : Sat (single_ src (fun p s caps => doMatch src fuel d s p caps)
          (fun p s caps => if d = 0 then .err "pattern too complex" else doMatch src fuel (d - 1) s p caps) s (c :: r ++ [0]) caps) (Post src s caps) :=
        single_safe src _ _ s (c :: r) (by simp) caps hi.1 (fun rest s' hl h1 h2 => again rest s' caps hl (hi.mono h1 h2))
          (fun rest s' hl h1 h2 => recc rest s' caps hl (hi.mono h1 h2))
      obtain ⟨c1, hc1⟩ := at1_snoc (pat := c :: r) (by simp)
      have tail : c1 ≠ 0 → ∃ t, r = c1 :: t := by
        intro h0
        cases r with
        | nil => exact absurd (by injection hc1 with q; exact q.symm) h0
        | cons a b => injection hc1 with q; subst q; exact ⟨b, rfl⟩
      rw [if_neg (by simp), hc1]
      rw [List.cons_append, at0_cons, Res.bind_ok]
      rw [List.cons_append] at single
      dsimp only
      split
      · rw [Res.bind_ok]
        split
        · rename_i h41
          obtain ⟨t, e⟩ := tail (by rw [h41]; decide)
          subst e
          rw [List.cons_append, drop2]
          exact startCapture_safe _ s _ (.inr rfl) caps hi fun caps' hi' => recc t s caps' (by simp; omega) hi'
        · rw [drop1]
          exact startCapture_safe _ s _ (.inl rfl) caps hi fun caps' hi' => recc r s caps' (by simp) hi'
      · split
        · rw [drop1]
          exact endCapture_safe _ s caps hi fun caps' hi' => recc r s caps' (by simp) hi'
        · split
          · split
            · exact single
            · split
              · exact ⟨Nat.le_refl _, hi⟩
              · rfl
          · split
            · rw [Res.bind_ok]
              split
              · rename_i h98
                obtain ⟨t, e⟩ := tail (by rw [h98]; decide)
                subst e
                rw [List.cons_append, drop2]
                refine (matchbalance_safe src s hi.1 t).bind fun q hq => ?_
                cases q with
                | none => rfl
                | some m =>
                  obtain ⟨h1, h2⟩ := hq.2 m rfl
                  match t, hq.1 with
                  | x :: y :: t, _ =>
                    dsimp only [List.cons_append, List.drop_succ_cons, List.drop_zero]
                    exact (again t m caps (by simp; omega) (hi.mono h1 h2)).mono fun _ h => h.mono h1
              · split
                · rename_i h102
                  obtain ⟨t, e⟩ := tail (by rw [h102]; decide)
                  subst e
                  rw [List.cons_append, drop2]
                  obtain ⟨c2, hc2⟩ := at0_snoc t
                  rw [hc2, Res.bind_ok]
                  split
                  · trivial
                  · rename_i h91
                    have ht : t ≠ [] := by
                      intro q
                      subst q
                      injection hc2 with hc2
                      subst hc2
                      exact h91 (by decide)
                    refine (classend_safe ht).bind fun ep hep => ?_
                    obtain ⟨rest, e, hl⟩ := hep
                    subst e
                    rw [previous_eq hi.1, Res.bind_ok]
                    refine (matchSet_safe _ ht _ (by omega)).bind fun m1 _ => ?_
                    split
                    · rfl
                    · rw [rd_le hi.1, Res.bind_ok]
                      refine (matchSet_safe _ ht _ (by omega)).bind fun m2 _ => ?_
                      split
                      · exact again rest s caps (by simp; omega) hi
                      · rfl
                · split
                  · rename_i hdg
                    obtain ⟨t, e⟩ := tail (by intro q; rw [q] at hdg; exact absurd hdg (by decide))
                    subst e
                    refine (matchCapture_safe src s caps _ hsz hi).bind fun q hq => ?_
                    cases q with
                    | none => rfl
                    | some m =>
                      obtain ⟨h1, h2⟩ := hq m rfl
                      dsimp only [List.cons_append, drop2]
                      exact (again t m caps (by simp; omega) (hi.mono h1 h2)).mono fun _ h => h.mono h1
                  · exact single
            · exact single

end Verif.Pat
