import Verif.Pat.Class
import Verif.StrLib.Props

/-!
# C25 — the matcher computes the first match in the order of preference
-/
namespace Verif.Pat
open Verif.StrLib (mem rd rdN memeq posrelatI lmemfind)

theorem at0_cons (c : UInt8) (r : List UInt8) : at0 (c :: r) = .ok c := rfl
theorem at1_cons (c d : UInt8) (r : List UInt8) : at1 (c :: d :: r) = .ok d := rfl

theorem drop1 (c : UInt8) (r : List UInt8) : List.drop 1 (c :: r) = r := rfl
theorem drop2 (c d : UInt8) (r : List UInt8) : List.drop 2 (c :: d :: r) = r := rfl
theorem drop3 (c d e : UInt8) (r : List UInt8) : List.drop 3 (c :: d :: e :: r) = r := rfl

theorem map_some {α β : Type} {f : α → β} {o : Option α} {b : β} (h : o.map f = some b) : ∃ a, o = some a ∧ f a = b := by
  cases o with
  | none => exact nomatch h
  | some a => injection h with h; exact ⟨a, rfl, h⟩

theorem head_tail {r : List UInt8} {c : UInt8} (h : r.head? = some c) : r = c :: r.tail := by
  cases r with
  | nil => exact nomatch h
  | cons d ds => injection h with h; rw [h]; rfl

theorem setBody_eq : ∀ (n : Nat) (r body rest : List UInt8), r.length ≤ n → setBody r = some (body, rest) → r = body ++ 93 :: rest := by
  intro n
  induction n with
  | zero =>
    intro r body rest hl h
    have : r = [] := List.length_eq_zero_iff.1 (by omega)
    subst this
    exact nomatch h
  | succ n ih =>
    intro r body rest hl h
    cases r with
    | nil => exact nomatch h
    | cons c r =>
      unfold setBody at h
      try dsimp only at h
      by_cases hc : c = 37
      · rw [if_pos hc] at h
        cases r with
        | nil => exact nomatch h
        | cons x r =>
          dsimp only at h
          by_cases hx : r.head? = some 93
          · rw [if_pos hx] at h
            injection h with h; injection h with h1 h2
            rw [head_tail hx, ← h1, ← h2]; rfl
          · rw [if_neg hx] at h
            obtain ⟨⟨b, q⟩, h1, h2⟩ := map_some h
            injection h2 with h2 h3
            have := ih r b q (by simp at hl; omega) h1
            rw [this, ← h2, ← h3]; rfl
      · rw [if_neg hc] at h
        by_cases hx : r.head? = some 93
        · rw [if_pos hx] at h
          injection h with h; injection h with h1 h2
          rw [head_tail hx, ← h1, ← h2]; rfl
        · rw [if_neg hx] at h
          obtain ⟨⟨b, q⟩, h1, h2⟩ := map_some h
          injection h2 with h2 h3
          have := ih r b q (by simp at hl; omega) h1
          rw [this, ← h2, ← h3]; rfl

/-- After one item, the set ends here or goes on. -/
theorem setEnd_tail (r rest : List UInt8) (fuel : Nat)
    (h : r.head? = some 93 ∧ rest = r.tail ∨ r.head? ≠ some 93 ∧ setEnd fuel (r ++ [0]) = .ok (rest ++ [0])) :
    (at0 (r ++ [0]) >>= fun d => if d ≠ 93 then setEnd fuel (r ++ [0]) else .ok ((r ++ [0]).drop 1)) = .ok (rest ++ [0]) := by
  rcases h with ⟨h, rfl⟩ | ⟨h, h2⟩
  · rw [head_tail h]; rfl
  · cases r with
    | nil => exact h2
    | cons d ds =>
      rw [List.cons_append, at0_cons, Res.bind_ok, if_pos (by intro q; exact h (by rw [q]; rfl))]
      exact h2

theorem setEnd_eq : ∀ (n : Nat) (r body rest : List UInt8) (fuel : Nat), r.length ≤ n → r.length < fuel → setBody r = some (body, rest) →
    setEnd fuel (r ++ [0]) = .ok (rest ++ [0]) := by
  intro n
  induction n with
  | zero =>
    intro r body rest fuel hl _ h
    have : r = [] := List.length_eq_zero_iff.1 (by omega)
    subst this
    exact nomatch h
  | succ n ih =>
    intro r body rest fuel hl hf h
    cases fuel with
    | zero => omega
    | succ fuel =>
    cases r with
    | nil => exact nomatch h
    | cons c r =>
      unfold setBody at h
      unfold setEnd
      try dsimp only at h
      rw [if_neg (by simp), List.cons_append, at0_cons, Res.bind_ok]
      dsimp only [drop1, drop2, drop3]
      by_cases hc : c = 37
      · rw [if_pos hc] at h
        cases r with
        | nil => exact nomatch h
        | cons x r =>
          dsimp only at h
          rw [if_pos ⟨hc, by simp⟩, List.cons_append, drop1]
          apply setEnd_tail
          by_cases hx : r.head? = some 93
          · rw [if_pos hx] at h
            injection h with h; injection h with h1 h2
            exact .inl ⟨hx, h2.symm⟩
          · rw [if_neg hx] at h
            obtain ⟨⟨b, q⟩, h1, h2⟩ := map_some h
            injection h2 with h2 h3
            dsimp only at h3
            refine .inr ⟨hx, ?_⟩
            rw [← h3]
            exact ih r b q fuel (by simp at hl; omega) (by simp at hf; omega) h1
      · rw [if_neg hc] at h
        rw [if_neg (fun q => hc q.1)]
        apply setEnd_tail
        by_cases hx : r.head? = some 93
        · rw [if_pos hx] at h
          injection h with h; injection h with h1 h2
          exact .inl ⟨hx, h2.symm⟩
        · rw [if_neg hx] at h
          obtain ⟨⟨b, q⟩, h1, h2⟩ := map_some h
          injection h2 with h2 h3
          dsimp only at h3
          refine .inr ⟨hx, ?_⟩
          rw [← h3]
          exact ih r b q fuel (by simp at hl; omega) (by simp at hf; omega) h1

theorem any_step (a : Bool) (sig b : Bool) (r : Res Bool) (h : r = .ok (if b then sig else !sig)) :
    (if a = true then (pure sig : Res Bool) else r) = .ok (if (a || b) then sig else !sig) := by
  cases a with
  | true => rfl
  | false => exact h

theorem setLoop_eq (c : UInt8) (sig : Bool) (tl : List UInt8) : ∀ (n : Nat) (body : List UInt8) (fuel : Nat), body.length ≤ n → body.length < fuel →
    setLoop c sig (tl.length + 1) fuel (body ++ 93 :: tl) = .ok (if (elems body).any (·.has c) then sig else !sig) := by
  intro n
  induction n with
  | zero =>
    intro body fuel hl hf
    have : body = [] := List.length_eq_zero_iff.1 (by omega)
    subst this
    cases fuel with
    | zero => omega
    | succ fuel =>
      unfold setLoop
      rw [if_neg (by simp)]
      rfl
  | succ n ih =>
    intro body fuel hl hf
    cases fuel with
    | zero => omega
    | succ fuel =>
    cases body with
    | nil =>
      unfold setLoop
      rw [if_neg (by simp)]
      rfl
    | cons a r =>
      unfold setLoop
      rw [if_pos (by simp; omega), List.cons_append, at0_cons, Res.bind_ok]
      try dsimp only
      by_cases ha : a = 37
      · rw [if_pos ha]
        cases r with
        | nil =>
          rw [show elems [a] = [.cls 93] by rw [elems, if_pos ha]]
          dsimp only [List.nil_append]
          rw [at1_cons, Res.bind_ok]
          dsimp only [drop1, drop2, drop3]
          rw [List.any_cons]
          show (if matchClass c 93 = true then pure sig else setLoop c sig (tl.length + 1) fuel tl) = _
          rw [class_eq]
          apply any_step
          cases fuel with
          | zero => simp at hf
          | succ fuel =>
            unfold setLoop
            rw [if_neg (by omega)]
            rfl
        | cons x r =>
          rw [show elems (a :: x :: r) = .cls x :: elems r by rw [elems, if_pos ha]]
          dsimp only [List.cons_append]
          rw [at1_cons, Res.bind_ok]
          dsimp only [drop1, drop2, drop3]
          rw [List.any_cons, class_eq]
          exact any_step _ _ _ _ (ih r fuel (by simp at hl; omega) (by simp at hf; omega))
      · rw [if_neg ha]
        have chr : ∀ d ds, r ++ 93 :: tl = d :: ds → (if a = c then (pure sig : Res Bool) else setLoop c sig (tl.length + 1) fuel (r ++ 93 :: tl)) =
            .ok (if (El.chr a :: elems r).any (·.has c) then sig else !sig) := by
          intro d ds _
          rw [List.any_cons]
          have e : (if a = c then (pure sig : Res Bool) else setLoop c sig (tl.length + 1) fuel (r ++ 93 :: tl)) =
              (if (a == c) = true then (pure sig : Res Bool) else setLoop c sig (tl.length + 1) fuel (r ++ 93 :: tl)) := by
            by_cases q : a = c
            · rw [if_pos q, if_pos (by simpa using q)]
            · rw [if_neg q, if_neg (by simpa using q)]
          rw [e]
          exact any_step _ _ _ _ (ih r fuel (by simp at hl; omega) (by simp at hf; omega))
        cases r with
        | nil =>
          rw [List.nil_append, at1_cons, Res.bind_ok, if_neg (by simp), show elems [a] = [.chr a] by rw [elems, if_neg ha]; rfl]
          exact chr _ _ rfl
        | cons d r =>
          rw [List.cons_append, at1_cons, Res.bind_ok]
          cases r with
          | nil =>
            rw [if_neg (by simp), show elems [a, d] = .chr a :: elems [d] from (elems.eq_def _).trans (if_neg ha)]
            exact chr _ _ rfl
          | cons h r =>
            by_cases hd : d = 45
            · rw [if_pos ⟨hd, by simp; omega⟩, show elems (a :: d :: h :: r) = .range a h :: elems r by
                rw [elems, if_neg ha]; exact if_pos hd]
              dsimp only [drop1, drop2, drop3, List.cons_append]
              rw [at0_cons, Res.bind_ok, List.any_cons]
              have e : ∀ z : Res Bool, (if a ≤ c ∧ c ≤ h then (pure sig : Res Bool) else z) =
                  (if (decide (a ≤ c) && decide (c ≤ h)) = true then (pure sig : Res Bool) else z) := by
                intro z
                by_cases q : a ≤ c ∧ c ≤ h
                · rw [if_pos q, if_pos (by simpa using q)]
                · rw [if_neg q, if_neg (by simpa using q)]
              rw [e]
              exact any_step _ _ _ _ (ih r fuel (by simp at hl; omega) (by simp at hf; omega))
            · rw [if_neg (fun q => hd q.1), show elems (a :: d :: h :: r) = .chr a :: elems (d :: h :: r) by
                rw [elems, if_neg ha]; exact if_neg hd]
              exact chr _ _ rfl

theorem sig_eq (b neg : Bool) : (if b then !neg else !!neg) = (b != neg) := by cases b <;> cases neg <;> rfl

theorem parseSet_eq (r rest : List UInt8) (neg : Bool) (els : List El) (h : parseSet r = some ((neg, els), rest)) :
    (skipCaret (r ++ [0]) >>= fun p => setEnd (p.length + 1) p) = .ok (rest ++ [0]) ∧
    (∀ c, matchSet c (91 :: (r ++ [0])) (rest.length + 2) = .ok (setHas neg els c)) ∧ rest.length < r.length := by
  unfold parseSet at h
  by_cases hc : r.head? = some 94
  · rw [if_pos hc] at h
    obtain ⟨⟨body, q⟩, h1, h2⟩ := map_some h
    injection h2 with h2 h3
    injection h2 with h2 h4
    dsimp only at h3 h4
    subst h3 h2 h4
    have hb := setBody_eq _ _ _ _ (Nat.le_refl _) h1
    rw [head_tail hc]
    refine ⟨?_, ?_, ?_⟩
    · show setEnd ((r.tail ++ [0]).length + 1) (r.tail ++ [0]) = _
      exact setEnd_eq _ _ _ _ _ (Nat.le_refl _) (by rw [List.length_append, List.length_singleton]; omega) h1
    · intro c
      unfold matchSet
      rw [List.cons_append, at1_cons, Res.bind_ok, if_pos rfl]
      dsimp only [drop1, drop2, drop3]
      rw [hb]
      have := setLoop_eq c false (q ++ [0]) _ body (body.length + q.length + 4) (Nat.le_refl _) (by omega)
      rw [show ((91 : UInt8) :: 94 :: (body ++ 93 :: q ++ [0])).length = body.length + q.length + 4 by simp; omega]
      rw [show (q ++ [(0 : UInt8)]).length + 1 = q.length + 2 by rw [List.length_append]; rfl] at this
      rw [List.append_assoc, List.cons_append, this]
      unfold setHas
      rw [show (if (elems body).any (·.has c) then false else !false) = (if (elems body).any (·.has c) then !true else !!true) from rfl, sig_eq]
    · rw [hb]; simp; omega
  · rw [if_neg hc] at h
    obtain ⟨⟨body, q⟩, h1, h2⟩ := map_some h
    injection h2 with h2 h3
    injection h2 with h2 h4
    dsimp only at h3 h4
    subst h3 h2 h4
    have hb := setBody_eq _ _ _ _ (Nat.le_refl _) h1
    cases r with
    | nil => exact nomatch h1
    | cons d ds =>
      have hd : d ≠ 94 := fun q => hc (by rw [q]; rfl)
      refine ⟨?_, ?_, ?_⟩
      · have e : skipCaret (d :: ds ++ [0]) = .ok (d :: ds ++ [0]) := by
          unfold skipCaret
          rw [List.cons_append, at0_cons, Res.bind_ok, if_neg hd]
          rfl
        rw [e, Res.bind_ok]
        exact setEnd_eq _ _ _ _ _ (Nat.le_refl _) (by rw [List.length_append, List.length_singleton]; omega) h1
      · intro c
        unfold matchSet
        rw [List.cons_append, at1_cons, Res.bind_ok, if_neg hd]
        dsimp only [drop1, drop2, drop3]
        rw [← List.cons_append, hb]
        have := setLoop_eq c true (q ++ [0]) _ body (body.length + q.length + 3) (Nat.le_refl _) (by omega)
        rw [show ((91 : UInt8) :: (body ++ 93 :: q ++ [0])).length = body.length + q.length + 3 by simp; omega]
        rw [show (q ++ [(0 : UInt8)]).length + 1 = q.length + 2 by rw [List.length_append]; rfl] at this
        rw [List.append_assoc, List.cons_append, this]
        unfold setHas
        rw [show (if (elems body).any (·.has c) then true else !true) = (if (elems body).any (·.has c) then !false else !!false) from rfl, sig_eq]
      · rw [hb]; simp; omega

theorem rd_src {src : List UInt8} {s : Nat} (h : s < src.length) : rd (mem src) s = .ok src[s] := Verif.StrLib.rd_mem src s h

theorem parseSingle_eq (src pat rest : List UInt8) (x : Single) (h : parseSingle pat = some (x, rest)) :
    classend (pat ++ [0]) = .ok (rest ++ [0]) ∧ (∀ s, singlematch src s (pat ++ [0]) (rest ++ [0]) = .ok (hit src x s)) ∧
    rest.length < pat.length := by
  cases pat with
  | nil => exact nomatch h
  | cons c r =>
    have outside : ∀ s, src.length ≤ s → singlematch src s (c :: r ++ [0]) (rest ++ [0]) = .ok (hit src x s) := by
      intro s hs
      unfold singlematch hit
      rw [if_pos hs, List.getElem?_eq_none hs]
    have inside : ∀ s, (hs : s < src.length) → singlematch src s (c :: r ++ [0]) (rest ++ [0]) =
        (if c = 46 then pure true
          else if c = 37 then (do
            let cl ← at1 (c :: r ++ [0])
            pure (matchClass src[s] cl))
          else if c = 91 then matchSet src[s] (c :: r ++ [0]) ((rest ++ [0]).length + 1)
          else pure (c == src[s])) := by
      intro s hs
      unfold singlematch
      rw [if_neg (by omega), rd_src hs, Res.bind_ok, List.cons_append, at0_cons, Res.bind_ok]
    have hit_in : ∀ s, (hs : s < src.length) → hit src x s = x.has src[s] := by
      intro s hs
      unfold hit
      rw [List.getElem?_eq_getElem hs]
    have both : (∀ s, (hs : s < src.length) → singlematch src s (c :: r ++ [0]) (rest ++ [0]) = .ok (x.has src[s])) →
        ∀ s, singlematch src s (c :: r ++ [0]) (rest ++ [0]) = .ok (hit src x s) := by
      intro hi s
      rcases Nat.lt_or_ge s src.length with q | q
      · rw [hi s q, hit_in s q]
      · exact outside s q
    unfold parseSingle at h
    dsimp only at h
    unfold classend
    rw [List.cons_append, at0_cons, Res.bind_ok]
    dsimp only [drop1, drop2, drop3]
    by_cases h1 : c = 46
    · rw [if_pos h1] at h
      injection h with h; injection h with h2 h3
      subst h2 h3
      refine ⟨by rw [if_neg (by rw [h1]; decide), if_neg (by rw [h1]; decide)], both ?_, by simp⟩
      intro s hs
      rw [inside s hs, if_pos h1]
      rfl
    rw [if_neg h1] at h
    by_cases h2 : c = 37
    · rw [if_pos h2] at h
      cases r with
      | nil => exact nomatch h
      | cons y r =>
        injection h with h; injection h with h3 h4
        subst h3 h4
        refine ⟨by rw [if_pos h2, if_neg (by simp)]; rfl, both ?_, by simp; omega⟩
        intro s hs
        rw [inside s hs, if_neg h1, if_pos h2]
        show Res.ok (matchClass src[s] y) = _
        rw [class_eq]
        rfl
    rw [if_neg h2] at h
    by_cases h3 : c = 91
    · rw [if_pos h3] at h
      obtain ⟨⟨⟨neg, els⟩, q⟩, h4, h5⟩ := map_some h
      injection h5 with h5 h6
      dsimp only at h5 h6
      subst h5 h6
      obtain ⟨e1, e2, e3⟩ := parseSet_eq r q neg els h4
      refine ⟨by rw [if_neg h2, if_pos h3]; exact e1, both ?_, by simp; omega⟩
      intro s hs
      rw [inside s hs, if_neg h1, if_neg h2, if_pos h3]
      have := e2 src[s]
      subst h3
      rw [List.cons_append, show (q ++ [(0 : UInt8)]).length + 1 = q.length + 2 by rw [List.length_append]; rfl, this]
      rfl
    · rw [if_neg h3] at h
      injection h with h; injection h with h4 h5
      subst h4 h5
      refine ⟨by rw [if_neg h2, if_neg h3], both ?_, by simp⟩
      intro s hs
      rw [inside s hs, if_neg h1, if_neg h2, if_neg h3]
      rfl

end Verif.Pat
