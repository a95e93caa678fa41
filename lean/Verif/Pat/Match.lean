import Verif.Pat.Main
import Verif.Pat.Class

namespace Verif.Pat
open Verif.StrLib (mem rd rdN memeq)

theorem suffix_cases (rest : List UInt8) :
    (∃ t, rest = 63 :: t ∧ suffix rest = (.opt, t)) ∨ (∃ t, rest = 42 :: t ∧ suffix rest = (.star, t)) ∨
    (∃ t, rest = 43 :: t ∧ suffix rest = (.plus, t)) ∨ (∃ t, rest = 45 :: t ∧ suffix rest = (.minus, t)) ∨
    (suffix rest = (.one, rest) ∧ ∃ q, at0 (rest ++ [0]) = .ok q ∧ q ≠ 63 ∧ q ≠ 42 ∧ q ≠ 43 ∧ q ≠ 45) := by
  cases rest with
  | nil => exact .inr (.inr (.inr (.inr ⟨rfl, 0, rfl, by decide⟩)))
  | cons c t =>
    by_cases h1 : c = 63
    · subst h1; exact .inl ⟨t, rfl, rfl⟩
    · by_cases h2 : c = 42
      · subst h2; exact .inr (.inl ⟨t, rfl, rfl⟩)
      · by_cases h3 : c = 43
        · subst h3; exact .inr (.inr (.inl ⟨t, rfl, rfl⟩))
        · by_cases h4 : c = 45
          · subst h4; exact .inr (.inr (.inr (.inl ⟨t, rfl, rfl⟩)))
          · refine .inr (.inr (.inr (.inr ⟨?_, c, rfl, h1, h2, h3, h4⟩)))
            unfold suffix
            dsimp only
            rw [if_neg h1, if_neg h2, if_neg h3, if_neg h4]

theorem single_good (src : List UInt8) (again rec_ : List UInt8 → Nat → List Cap → Out) (s : Nat) (pat rest : List UInt8) (x : Single)
    (caps : List Cap) (r : List Item) (D : Prop) (hs : s ≤ src.length) (hp : parseSingle pat = some (x, rest))
    (ha : ∀ s', s ≤ s' → s' ≤ src.length → Good (again ((suffix rest).2 ++ [0]) s' caps) (all src r s' caps) caps D)
    (hr : (suffix rest).1 ≠ .one → ∀ s', s ≤ s' → s' ≤ src.length → Good (rec_ ((suffix rest).2 ++ [0]) s' caps) (all src r s' caps) caps D) :
    Good (single_ src again rec_ s (pat ++ [0]) caps) (all src (.single x (suffix rest).1 :: r) s caps) caps D := by
  obtain ⟨h1, h2, h3⟩ := parseSingle_eq src pat rest x hp
  unfold single_
  rw [h1, Res.bind_ok, h2, Res.bind_ok]
  rcases suffix_cases rest with ⟨t, e, e'⟩ | ⟨t, e, e'⟩ | ⟨t, e, e'⟩ | ⟨t, e, e'⟩ | ⟨e, q, e0, q1, q2, q3, q4⟩
  · rw [e'] at ha hr ⊢
    subst e
    rw [List.cons_append, at0_cons, Res.bind_ok]
    dsimp only [drop1] at *
    unfold all
    cases hh : hit src x s with
    | false =>
      rw [if_pos rfl, if_pos (by decide), if_neg (by simp)]
      exact ha s (Nat.le_refl _) hs
    | true =>
      rw [if_neg (by simp), if_pos rfl, if_pos rfl]
      exact Good.bind (hr (by decide) (s + 1) (by omega) (hit_lt hh)) (fun e c => rfl) (ha s (Nat.le_refl _) hs)
  · rw [e'] at ha hr ⊢
    subst e
    rw [List.cons_append, at0_cons, Res.bind_ok]
    rw [List.cons_append] at h2
    dsimp only [drop1] at *
    unfold all
    cases hh : hit src x s with
    | false =>
      rw [if_pos rfl, if_pos (by decide), run_miss hh]
      simpa using ha s (Nat.le_refl _) hs
    | true =>
      rw [if_neg (by simp), if_neg (by decide), if_neg (by decide), if_pos rfl]
      unfold maxExpand
      rw [countLoop_eq src _ _ x h2 s _ 0 (by omega) (by omega), Res.bind_ok, Nat.zero_add, Nat.add_zero]
      have := run_le src x s
      exact backLoop_good _ s caps D _ _ fun i hi => hr (by decide) (s + i) (by omega) (by omega)
  · rw [e'] at ha hr ⊢
    subst e
    rw [List.cons_append, at0_cons, Res.bind_ok]
    rw [List.cons_append] at h2
    dsimp only [drop1] at *
    unfold all
    cases hh : hit src x s with
    | false =>
      rw [if_pos rfl, if_neg (by decide), run_miss hh]
      exact .inl rfl
    | true =>
      rw [if_neg (by simp), if_neg (by decide), if_pos rfl, run_hit hh]
      unfold maxExpand
      rw [countLoop_eq src _ _ x h2 (s + 1) _ 0 (by omega) (by omega), Res.bind_ok, Nat.zero_add, Nat.add_zero]
      have := run_le src x (s + 1)
      have := hit_lt hh
      refine backLoop_good _ (s + 1) caps D (fun i => all src r (s + (i + 1)) caps) _ fun i hi => ?_
      have := hr (by decide) (s + (i + 1)) (by omega) (by omega)
      rwa [show s + 1 + i = s + (i + 1) by omega]
  · rw [e'] at ha hr ⊢
    subst e
    rw [List.cons_append, at0_cons, Res.bind_ok]
    rw [List.cons_append] at h2
    dsimp only [drop1] at *
    unfold all
    cases hh : hit src x s with
    | false =>
      rw [if_pos rfl, if_pos (by decide), run_miss hh]
      simpa using ha s (Nat.le_refl _) hs
    | true =>
      rw [if_neg (by simp), if_neg (by decide), if_neg (by decide), if_neg (by decide), if_pos rfl]
      have := run_le src x s
      exact minExpand_good src _ _ x h2 _ caps D (fun s => all src r s caps) _ s (by omega) (by omega)
        fun i hi => hr (by decide) (s + i) (by omega) (by omega)
  · rw [e] at ha hr ⊢
    rw [e0, Res.bind_ok]
    dsimp only at *
    unfold all
    cases hh : hit src x s with
    | false =>
      rw [if_pos rfl, if_neg (by simp [q1, q2, q4]), if_neg (by simp)]
      exact .inl rfl
    | true =>
      rw [if_neg (by simp), if_neg q1, if_neg q3, if_neg q2, if_neg q4, if_pos rfl]
      exact ha (s + 1) (by omega) (hit_lt hh)

theorem suffix_len (rest : List UInt8) : (suffix rest).2.length ≤ rest.length := by
  rcases suffix_cases rest with ⟨t, e, e'⟩ | ⟨t, e, e'⟩ | ⟨t, e, e'⟩ | ⟨t, e, e'⟩ | ⟨e, _⟩ <;> first | (rw [e', e]; simp) | (rw [e]; simp)

theorem digit_iff (c : UInt8) : isdigit c = true ↔ (48 ≤ c ∧ c ≤ 57) := by
  unfold isdigit; simp

theorem len_snoc (l : List UInt8) : (l ++ [0]).length = l.length + 1 := by simp

/-- **The matcher returns the preferred match** (C25). -/
theorem doMatch_good (src : List UInt8) (hsz : src.length < 2 ^ 63) : ∀ (f : Nat) (pat : List UInt8) (its : List Item), parse f pat = some its →
    ∀ (fuel : Nat) (d : Int) (s : Nat) (caps : List Cap), check its (caps.map isOpen) = true → Inv src s caps → pat.length < fuel →
      Good (doMatch src fuel d s (pat ++ [0]) caps) (all src its s caps) caps (Deep d its) := by
  intro f
  induction f with
  | zero => intro pat its h; exact nomatch h
  | succ f ih =>
    intro pat its h fuel d s caps hc hi hf
    cases fuel with
    | zero => omega
    | succ fuel =>
    -- the two kinds of continuation
    have again : ∀ (pat' : List UInt8) (it : Item) (r : List Item) (s' : Nat) (caps' : List Cap), parse f pat' = some r → pat'.length < pat.length →
        check r (caps'.map isOpen) = true → Inv src s' caps' →
        Good (doMatch src fuel d s' (pat' ++ [0]) caps') (all src r s' caps') caps' (Deep d (it :: r)) := by
      intro pat' it r s' caps' hp hl hc hi
      refine (ih pat' r hp fuel d s' caps' hc hi (by omega)).mono fun q => ?_
      unfold Deep cost at q ⊢
      rw [List.map_cons, List.sum_cons] at q
      omega
    have recc : ∀ (pat' : List UInt8) (it : Item) (r : List Item) (s' : Nat) (caps' : List Cap), parse f pat' = some r → pat'.length < pat.length →
        check r (caps'.map isOpen) = true → Inv src s' caps' → it.cost = 1 →
        Good (if d = 0 then .err "pattern too complex" else doMatch src fuel (d - 1) s' (pat' ++ [0]) caps') (all src r s' caps') caps'
          (Deep d (it :: r)) := by
      intro pat' it r s' caps' hp hl hc hi hk
      by_cases hd : d = 0
      · rw [if_pos hd]
        refine .inr ⟨rfl, fun q => ?_⟩
        unfold Deep cost at q
        rw [List.map_cons, List.sum_cons] at q
        omega
      · rw [if_neg hd]
        refine (ih pat' r hp fuel (d - 1) s' caps' hc hi (by omega)).mono fun q => ?_
        unfold Deep cost at q ⊢
        rw [List.map_cons, List.sum_cons] at q
        omega
    unfold doMatch
    cases pat with
    | nil =>
      injection h with h
      subst h
      exact .inl rfl
    | cons c r =>
    unfold parse at h
    rw [List.cons_append, if_neg (by simp), at0_cons, Res.bind_ok]
    have single : ∀ x r1, parseSingle (c :: r) = some (x, r1) → (parse f (suffix r1).2).map (Item.single x (suffix r1).1 :: ·) = some its →
        Good (single_ src (fun p s caps => doMatch src fuel d s p caps)
          (fun p s caps => if d = 0 then .err "pattern too complex" else doMatch src fuel (d - 1) s p caps) s (c :: (r ++ [0])) caps)
          (all src its s caps) caps (Deep d its) := by
      intro x r1 hx hp0
      obtain ⟨t, hp, e⟩ := map_some hp0
      subst e
      have hl := (parseSingle_eq src _ _ _ hx).2.2
      have hl2 := suffix_len r1
      have hc' : check t (caps.map isOpen) = true := by
        unfold check at hc
        exact hc
      rw [← List.cons_append]
      refine single_good src _ _ s _ r1 x caps t _ hi.1 hx ?_ ?_
      · intro s' h1 h2
        exact again _ _ _ _ _ hp (by omega) hc' (hi.mono h1 h2)
      · intro hq s' h1 h2
        exact recc _ _ _ _ _ hp (by omega) hc' (hi.mono h1 h2) (if_neg hq)
    by_cases h40 : c = 40
    · rw [if_pos h40] at h
      rw [if_pos h40]
      by_cases h41 : r.head? = some 41
      · rw [if_pos h41] at h
        obtain ⟨t, hp, e⟩ := map_some h
        subst e
        rw [head_tail h41, List.cons_append, at1_cons, Res.bind_ok, if_pos rfl]
        dsimp only [drop1, drop2]
        unfold check at hc
        rw [Bool.and_eq_true] at hc
        unfold all
        refine startCapture_good _ _ _ _ _ _ (by simpa using hc.1) ?_
        refine recc r.tail .pos t s _ hp (by simp; omega) ?_ (hi.snoc (.inr rfl)) rfl
        rw [List.map_append]
        exact hc.2
      · rw [if_neg h41] at h
        obtain ⟨t, hp, e⟩ := map_some h
        subst e
        unfold check at hc
        rw [Bool.and_eq_true] at hc
        have e1 : ∃ c1, at1 (c :: (r ++ [0])) = .ok c1 ∧ c1 ≠ 41 := by
          cases r with
          | nil => exact ⟨0, rfl, by decide⟩
          | cons a b => exact ⟨a, rfl, fun q => h41 (by rw [q]; rfl)⟩
        obtain ⟨c1, e1, e2⟩ := e1
        rw [e1, Res.bind_ok, if_neg e2]
        dsimp only [drop1]
        unfold all
        refine startCapture_good _ _ _ _ _ _ (by simpa using hc.1) ?_
        refine recc r .open_ t s _ hp (by simp) ?_ (hi.snoc (.inl rfl)) rfl
        rw [List.map_append]
        exact hc.2
    rw [if_neg h40] at h
    rw [if_neg h40]
    by_cases h41 : c = 41
    · rw [if_pos h41] at h
      rw [if_pos h41]
      obtain ⟨t, hp, e⟩ := map_some h
      subst e
      unfold check at hc
      rw [Bool.and_eq_true] at hc
      obtain ⟨l, c1, c2, c3, c4, c5⟩ := close_eq caps hc.1
      unfold all
      rw [c1]
      dsimp only [drop1]
      refine endCapture_good _ s caps _ l _ c2 c3 c4 ?_
      refine recc r .close t s _ hp (by simp) ?_ (hi.set c3) rfl
      rw [c5]
      · exact hc.2
      · have hm : caps.getD l (0, 0) ∈ caps := List.mem_of_getElem? (getD_lt c3)
        have := (hi.2 _ hm).1
        unfold isOpen UNFIN
        dsimp only
        rw [beq_eq_false_iff_ne]
        omega
    rw [if_neg h41] at h
    rw [if_neg h41]
    by_cases h36 : c = 36
    · rw [if_pos h36]
      by_cases hr : r = []
      · subst hr
        rw [if_pos ⟨h36, rfl⟩] at h
        injection h with h
        subst h
        rw [if_neg (by simp)]
        unfold all
        by_cases hs : s = src.length
        · rw [if_pos hs, if_pos hs, hs]; exact .inl rfl
        · rw [if_neg hs, if_neg hs]; exact .inl rfl
      · rw [if_neg (fun q => hr q.2), if_neg (fun q => by rw [h36] at q; exact absurd q.1 (by decide)),
          if_neg (fun q => by rw [h36] at q; exact absurd q.1 (by decide)), if_neg (fun q => by rw [h36] at q; exact absurd q.1 (by decide))] at h
        have hl : r.length ≠ 0 := fun q => hr (List.length_eq_zero_iff.1 q)
        rw [if_pos (by simp; omega)]
        cases hx : parseSingle (c :: r) with
        | none => rw [hx] at h; exact nomatch h
        | some q => rw [hx] at h; exact single q.1 q.2 hx h
    rw [if_neg (fun q => h36 q.1)] at h
    rw [if_neg h36]
    by_cases h37 : c = 37
    · rw [if_pos h37]
      by_cases h98 : r.head? = some 98
      · rw [if_pos ⟨h37, h98⟩] at h
        rw [head_tail h98, List.cons_append, at1_cons, Res.bind_ok, if_pos rfl]
        have hln : r.tail.length + 1 = r.length := by
          have := congrArg List.length (head_tail h98)
          simpa using this.symm
        dsimp only [drop2]
        generalize ht : r.tail = rt at h ⊢ hln
        match rt, h with
        | x :: y :: r', h =>
          dsimp only at h
          obtain ⟨t, hp, e⟩ := map_some h
          subst e
          unfold check at hc
          rw [matchbalance_eq src s x y r' hi.1, Res.bind_ok]
          unfold all
          cases hb : balance src x y s with
          | none => exact .inl rfl
          | some m =>
            dsimp only [List.cons_append, List.drop_succ_cons, List.drop_zero]
            exact again r' (.bal x y) t m caps hp (by simp at hln ⊢; omega) hc (balance_inv hi hb)
      rw [if_neg (fun q => h98 q.2)] at h
      by_cases h102 : r.head? = some 102
      · rw [if_pos ⟨h37, h102⟩] at h
        rw [head_tail h102, List.cons_append, at1_cons, Res.bind_ok, if_neg (by decide), if_pos rfl]
        have hln : r.tail.length + 1 = r.length := by
          have := congrArg List.length (head_tail h102)
          simpa using this.symm
        dsimp only [drop2]
        generalize ht : r.tail = rt at h ⊢ hln
        match rt, h with
        | o :: r1, h =>
          dsimp only at h
          by_cases ho : o = 91
          · rw [if_pos ho] at h
            subst ho
            rw [List.cons_append, at0_cons, Res.bind_ok, if_neg (by simp)]
            cases hq : parseSet r1 with
            | none => rw [hq] at h; exact nomatch h
            | some q =>
              rw [hq] at h
              obtain ⟨⟨neg, els⟩, r2⟩ := q
              dsimp only at h
              obtain ⟨t, hp, e⟩ := map_some h
              subst e
              unfold check at hc
              obtain ⟨e1, e2, e3⟩ := parseSet_eq r1 r2 neg els hq
              have ec : classend (91 :: (r1 ++ [0])) = .ok (r2 ++ [0]) := by
                unfold classend
                rw [at0_cons, Res.bind_ok]
                dsimp only [drop1]
                rw [if_neg (by decide), if_pos rfl]
                exact e1
              rw [ec, Res.bind_ok, previous_eq hi.1, Res.bind_ok, len_snoc, e2, Res.bind_ok]
              unfold all frontier
              cases hm : setHas neg els (if s = 0 then 0 else src.getD (s - 1) 0) with
              | true => exact .inl rfl
              | false =>
                rw [if_neg (by simp), rd_le hi.1, Res.bind_ok, e2, Res.bind_ok]
                cases hm2 : setHas neg els (src.getD s 0) with
                | false => exact .inl rfl
                | true =>
                  rw [if_pos rfl, if_pos (show (!false && true) = true from rfl)]
                  exact again r2 (.front neg els) t s caps hp (by simp at hln ⊢; omega) hc hi
          · rw [if_neg ho] at h; exact nomatch h
      rw [if_neg (fun q => h102 q.2)] at h
      by_cases hdg : 48 ≤ r.headD 0 ∧ r.headD 0 ≤ 57
      · rw [if_pos ⟨h37, hdg⟩] at h
        cases r with
        | nil => exact absurd hdg (by decide)
        | cons a b =>
          dsimp only [List.headD_cons, List.tail_cons] at h hdg
          obtain ⟨t, hp, e⟩ := map_some h
          subst e
          unfold check at hc
          rw [Bool.and_eq_true, Bool.and_eq_true] at hc
          rw [List.cons_append, at1_cons, Res.bind_ok, if_neg (fun q => h98 (by rw [q]; rfl)), if_neg (fun q => h102 (by rw [q]; rfl)),
            if_pos ((digit_iff a).2 hdg), matchCapture_eq src s caps a hsz hi (by simpa using hc.1.1) (by simpa using hc.1.2), Res.bind_ok]
          unfold all
          cases hb : backref src caps a s with
          | none => exact .inl rfl
          | some m =>
            dsimp only [drop2]
            exact again b (.back a) t m caps hp (by simp; omega) hc.2 (backref_inv hi hb)
      rw [if_neg (fun q => hdg q.2)] at h
      have e1 : ∃ c1, at1 (c :: (r ++ [0])) = .ok c1 ∧ c1 ≠ 98 ∧ c1 ≠ 102 ∧ ¬ isdigit c1 = true := by
        cases r with
        | nil => exact ⟨0, rfl, by decide⟩
        | cons a b => exact ⟨a, rfl, fun q => h98 (by rw [q]; rfl), fun q => h102 (by rw [q]; rfl), fun q => hdg ((digit_iff a).1 q)⟩
      obtain ⟨c1, e1, e2, e3, e4⟩ := e1
      rw [e1, Res.bind_ok, if_neg e2, if_neg e3, if_neg e4]
      cases hx : parseSingle (c :: r) with
      | none => rw [hx] at h; exact nomatch h
      | some q => rw [hx] at h; exact single q.1 q.2 hx h
    rw [if_neg (fun q => h37 q.1), if_neg (fun q => h37 q.1), if_neg (fun q => h37 q.1)] at h
    rw [if_neg h37]
    cases hx : parseSingle (c :: r) with
    | none => rw [hx] at h; exact nomatch h
    | some q => rw [hx] at h; exact single q.1 q.2 hx h

end Verif.Pat
