import Verif.Cons.Model
namespace Verif.Cons
variable {V X W : Type} [DecidableEq V]

omit [DecidableEq V] in
theorem bind_assoc {α β γ : Type} (r : Res α) (f : α → Res β) (g : β → Res γ) :
    ((r >>= f) >>= g) = (r >>= fun a => f a >>= g) := by
  cases r <;> rfl

theorem run_append (P : World V X W) (l l' : List (Instr X)) (s : St V W) :
    run P (l ++ l') s = (run P l s >>= run P l') := by
  induction l generalizing s with
  | nil => rfl
  | cons i l ih =>
    simp only [List.cons_append, run, bind_assoc]
    congr 1; funext s'; exact ih s'

theorem lastOf_snoc (nil : V) (rs : List (V × V)) (k v x : V) :
    lastOf nil (rs ++ [(k, v)]) x = if x = k then v else lastOf nil rs x := by
  unfold lastOf
  simp only [List.reverse_append, List.reverse_cons, List.reverse_nil, List.nil_append, List.cons_append, List.find?_cons]
  by_cases h : x = k
  · subst h; simp
  · have : ¬ k = x := fun e => h e.symm
    simp [h, this]

theorem Content.pair {P : World V X W} {T : V → V} {us : List V} {rs : List (V × V)} (h : Content P T us rs) (k v : V) :
    Content P (put T k v) us (rs ++ [(k, v)]) := by
  intro x
  by_cases hx : x = k
  · subst hx
    exact Or.inr ⟨by simp [put, lastOf_snoc], Or.inl (by simp)⟩
  · rcases h x with ⟨i, u, h1, h2, h3⟩ | ⟨h1, h2⟩
    · exact Or.inl ⟨i, u, h1, h2, by simp [put, hx, h3]⟩
    · refine Or.inr ⟨by simp [put, hx, lastOf_snoc, h1], ?_⟩
      rcases h2 with h2 | h2
      · exact Or.inl (by rw [List.map_append]; exact List.mem_append_left _ h2)
      · exact Or.inr h2

/-- what the loop of `OP_SETLIST` stores -/
theorem storeList_spec (P : World V X W) (R : Nat → V) (a : Nat)
    (inj : ∀ i j, i < 2 ^ 32 → j < 2 ^ 32 → P.idx i = P.idx j → i = j) (b : Nat) :
    ∀ n T, b + n < 2 ^ 32 →
      (∀ i, i < n → storeList P R a n (b + n) T (P.idx (b + i + 1)) = R (a + i + 1)) ∧
      (∀ k, (∀ i, i < n → k ≠ P.idx (b + i + 1)) → storeList P R a n (b + n) T k = T k) := by
  intro n
  induction n with
  | zero => intro T _; exact ⟨fun i h => absurd h (by omega), fun k _ => rfl⟩
  | succ n ih =>
    intro T hb
    have e : (b + (n + 1) + 2 ^ 32 - 1) % 2 ^ 32 = b + n := by omega
    have hp := ih (put T (P.idx (b + (n + 1))) (R (a + (n + 1)))) (by omega)
    simp only [storeList, e]
    constructor
    · intro i hi
      by_cases hin : i < n
      · exact hp.1 i hin
      · have : i = n := by omega
        subst this
        rw [hp.2]
        · simp [put, Nat.add_assoc]
        · intro j hj hc
          have := inj _ _ (by omega) (by omega) hc
          omega
    · intro k hk
      rw [hp.2 k (fun i hi => hk i (by omega))]
      have : k ≠ P.idx (b + (n + 1)) := by
        have := hk n (by omega)
        rwa [Nat.add_assoc] at this
      simp [put, this]

theorem Content.list {P : World V X W} {T : V → V} {us : List V} {rs : List (V × V)}
    (inj : ∀ i j, i < 2 ^ 32 → j < 2 ^ 32 → P.idx i = P.idx j → i = j) (h : Content P T us rs) (vs : List V) (R : Nat → V)
    (a : Nat) (hR : ∀ j v, vs[j]? = some v → R (a + j + 1) = v) (hb : us.length + vs.length < 2 ^ 32) :
    Content P (storeList P R a vs.length (us.length + vs.length) T) (us ++ vs) rs ∧
    ∀ i v, us.length ≤ i → (us ++ vs)[i]? = some v →
      storeList P R a vs.length (us.length + vs.length) T (P.idx (i + 1)) = v := by
  have sp := storeList_spec P R a inj us.length vs.length T hb
  have get : ∀ i v, us.length ≤ i → (us ++ vs)[i]? = some v →
      storeList P R a vs.length (us.length + vs.length) T (P.idx (i + 1)) = v := by
    intro i v hi hv
    rw [List.getElem?_append_right hi] at hv
    have hl : i - us.length < vs.length := by
      rcases Nat.lt_or_ge (i - us.length) vs.length with h | h
      · exact h
      · rw [List.getElem?_eq_none h] at hv; cases hv
    have := sp.1 (i - us.length) hl
    rw [show us.length + (i - us.length) + 1 = i + 1 by omega] at this
    rw [this, hR _ _ hv]
  refine ⟨?_, get⟩
  intro k
  by_cases hk : ∃ i, i < vs.length ∧ k = P.idx (us.length + i + 1)
  · obtain ⟨i, hi, rfl⟩ := hk
    refine Or.inl ⟨us.length + i, vs[i], ?_, rfl, get _ _ (by omega) ?_⟩ <;>
    · rw [List.getElem?_append_right (by omega)]
      simp [hi]
  · have hk' : ∀ i, i < vs.length → k ≠ P.idx (us.length + i + 1) := fun i hi e => hk ⟨i, hi, e⟩
    rw [sp.2 k hk']
    rcases h k with ⟨i, u, h1, h2, h3⟩ | ⟨h1, h2⟩
    · refine Or.inl ⟨i, u, ?_, h2, h3⟩
      have : i < us.length := by
        rcases Nat.lt_or_ge i us.length with h | h
        · exact h
        · rw [List.getElem?_eq_none h] at h1; cases h1
      rw [List.getElem?_append_left this]; exact h1
    · refine Or.inr ⟨h1, ?_⟩
      rcases h2 with h2 | h2
      · exact Or.inl h2
      · refine Or.inr fun i hi => ?_
        by_cases hu : i < us.length
        · exact h2 i hu
        · have := hk' (i - us.length) (by simp at hi; omega)
          rwa [show us.length + (i - us.length) + 1 = i + 1 by omega] at this

/-- The state `s` after the code of `cc`: `vs` are the values of the items up to the pending one, the last of them in
registers, the others in the table; `rs` are the record fields. -/
structure Inv (P : World V X W) (t : Nat) (cc : CC X) (vs : List V) (rs : List (V × V)) (s : St V W) : Prop where
  free : ∃ m fl, cc.freereg = t + 1 + m ∧ m < 50 ∧ vs.length = fl + m ∧ 50 ∣ fl ∧ fl ≤ maxAx * 50 ∧
    cc.tostore = m + (if cc.v.isSome then 1 else 0) ∧
    (∀ j v, (vs.drop fl)[j]? = some v → s.R (t + 1 + j) = v) ∧ Content P s.T (vs.take fl) rs
  na : cc.na = vs.length + (if cc.v.isSome then 1 else 0)

omit [DecidableEq V] in
/-- `luaK_setlist` and `OP_SETLIST` -/
theorem setlist_spec {t : Nat} {cc cc' : CC X} {n : Nat} {b : Option Nat} (h : setlist cc t n b = .ok cc') :
    ∃ c ext, cc' = { cc with code := cc.code ++ [.setlist t (b.getD 0) c ext], freereg := t + 1 } ∧
      listC c ext = (n - 1) / 50 + 1 ∧ n ≤ maxAx * 50 := by
  unfold setlist at h
  dsimp only at h
  have hd : (n - 1) / flush = (n - 1) / 50 := rfl
  rw [hd] at h
  split at h
  · cases h
    refine ⟨_, _, rfl, ?_, ?_⟩
    · simp [listC]
    · simp only [maxC, maxAx] at *; omega
  · split at h
    · cases h
      refine ⟨_, _, rfl, ?_, ?_⟩
      · simp [listC]
      · simp only [maxC, maxAx] at *; omega
    · cases h

/-- the last stores -/
def Final (P : World V X W) (T : V → V) (vs : List V) (rs : List (V × V)) (n : Nat) : Prop :=
  Content P T vs rs ∧ vs.length + 1 < 2 ^ 32 ∧ ∃ fl, 50 ∣ fl ∧ fl ≤ n ∧ ∀ i v, fl ≤ i → vs[i]? = some v → T (P.idx (i + 1)) = v

/-- `OP_SETLIST` for the pending values -/
theorem flush_spec {P : World V X W} (inj : ∀ i j, i < 2 ^ 32 → j < 2 ^ 32 → P.idx i = P.idx j → i = j) {t b c n m fl : Nat}
    {ext : Option Nat} {vs : List V} {rs : List (V × V)} {s : St V W} (hv : vs.length = fl + m) (hd : 50 ∣ fl)
    (hc : listC c ext = (n - 1) / 50 + 1) (hn : fl < n) (hn' : n ≤ fl + 50) (hb : listN t b s.top = m)
    (hR : ∀ j v, (vs.drop fl)[j]? = some v → s.R (t + 1 + j) = v) (hT : Content P s.T (vs.take fl) rs)
    (hs : vs.length < 2 ^ 32) :
    ∃ T', (Instr.setlist t b c ext).exec P s = .ok { s with T := T' } ∧ Content P T' vs rs ∧
      ∀ i v, fl ≤ i → vs[i]? = some v → T' (P.idx (i + 1)) = v := by
  refine ⟨_, rfl, ?_⟩
  have hl : listLast (listC c ext) (listN t b s.top) = fl + m := by
    rw [hc, hb]
    obtain ⟨q, rfl⟩ := hd
    have : (n - 1) / 50 = q := by omega
    simp only [listLast, this, flush]
    rw [Nat.mod_eq_of_lt] <;> omega
  have h1 : (vs.take fl).length = fl := by rw [List.length_take]; omega
  have h2 : (vs.drop fl).length = m := by rw [List.length_drop]; omega
  have := Content.list inj hT (vs.drop fl) s.R t
    (fun j v h => by rw [show t + j + 1 = t + 1 + j by omega]; exact hR j v h) (by omega)
  rw [h1, h2, List.take_append_drop] at this
  rw [hl, hb]
  exact this

/-- the pending item is put into the next register -/
theorem close_spec {P : World V X W} (inj : ∀ i j, i < 2 ^ 32 → j < 2 ^ 32 → P.idx i = P.idx j → i = j) {t : Nat}
    {cc cc' : CC X} (h : closelistfield t cc = .ok cc') {x : X} (hx : cc.v = some x) :
    ∃ l, cc'.code = cc.code ++ l ∧ cc'.v = none ∧ ∀ vs rs (s : St V W), Inv P t cc vs rs s →
      match P.ev x s.w with
      | .ok (v, w) => ∃ s', run P l s = .ok s' ∧ s'.w = w ∧ Inv P t cc' (vs ++ [v]) rs s'
      | .err e => run P l s = .err e
      | .ub => run P l s = .ub := by
  unfold closelistfield at h
  rw [hx] at h
  dsimp only at h
  have key : ∀ vs rs (s : St V W), Inv P t cc vs rs s → ∀ v w, P.ev x s.w = .ok (v, w) →
      ∃ m fl s', cc.freereg = t + 1 + m ∧ m < 50 ∧ vs.length = fl + m ∧ 50 ∣ fl ∧ fl ≤ maxAx * 50 ∧ cc.tostore = m + 1 ∧
        (Instr.load cc.freereg x).exec P s = .ok s' ∧ s'.w = w ∧ s'.T = s.T ∧ cc.na = vs.length + 1 ∧
        (∀ j u, ((vs ++ [v]).drop fl)[j]? = some u → s'.R (t + 1 + j) = u) ∧ Content P s'.T ((vs ++ [v]).take fl) rs := by
    intro vs rs s hi v w hv
    obtain ⟨⟨m, fl, h1, h2, h3, h4, h5, h6, h7, h8⟩, h9⟩ := hi
    rw [hx] at h6 h9
    refine ⟨m, fl, { s with
      R := fun i => if i < cc.freereg then s.R i else if i = cc.freereg then v else P.junk i w, w := w }, h1, h2, h3, h4, h5,
      h6, by simp [Instr.exec, hv], rfl, rfl, h9, ?_, ?_⟩
    · intro j u hj
      rw [List.drop_append_of_le_length (by omega)] at hj
      dsimp only
      by_cases hjm : j < m
      · rw [List.getElem?_append_left (by rw [List.length_drop]; omega)] at hj
        rw [if_pos (by omega)]
        exact h7 j u hj
      · rw [List.getElem?_append_right (by rw [List.length_drop]; omega), List.length_drop] at hj
        have : j = m := by
          rcases Nat.lt_or_ge (j - (vs.length - fl)) 1 with h | h
          · omega
          · rw [List.getElem?_eq_none (by simpa using h)] at hj; cases hj
        subst this
        rw [show j - (vs.length - fl) = 0 by omega] at hj
        simp at hj
        rw [if_neg (by omega), if_pos (by omega)]
        exact hj
    · rw [List.take_append_of_le_length (by omega)]
      exact h8
  by_cases ht : cc.tostore = flush
  · rw [if_pos ht] at h
    obtain ⟨c1, hc1, h⟩ := Res.bind_eq_ok.1 h
    obtain ⟨c, ext, rfl, hc, hm⟩ := setlist_spec hc1
    cases h
    refine ⟨[.load cc.freereg x, .setlist t cc.tostore c ext], by simp, rfl, ?_⟩
    intro vs rs s hi
    cases hv : P.ev x s.w with
    | err e => simp [run, Instr.exec, hv]
    | ub => simp [run, Instr.exec, hv]
    | ok r =>
      obtain ⟨v, w⟩ := r
      obtain ⟨m, fl, s', k1, k2, k3, k4, k5, k6, k7, k8, k9, k10, k11, k12⟩ := key vs rs s hi v w hv
      have hm49 : m = 49 := by rw [ht] at k6; simp [flush] at k6; omega
      have hlen : (vs ++ [v]).length = fl + 50 := by simp; omega
      obtain ⟨T', e1, e2, e3⟩ := flush_spec inj (b := cc.tostore) (n := cc.na) (m := 50) hlen k4 hc (by omega) (by omega)
        (by simp [listN, ht, flush]) k11 k12 (by simp only [maxAx] at k5; omega)
      refine ⟨{ s' with T := T' }, ?_, k8, ?_⟩
      · simp only [run, k7, Res.bind_ok]
        rw [e1]; rfl
      · refine ⟨⟨0, fl + 50, rfl, by omega, by omega, by omega, by rw [k10] at hm; omega, rfl, ?_, ?_⟩, ?_⟩
        · intro j u hj
          rw [List.drop_of_length_le (by omega)] at hj; cases hj
        · rw [List.take_of_length_le (by omega)]; exact e2
        · dsimp only; rw [k10, hlen]; simp; omega
  · rw [if_neg ht] at h
    cases h
    refine ⟨[.load cc.freereg x], rfl, rfl, ?_⟩
    intro vs rs s hi
    cases hv : P.ev x s.w with
    | err e => simp [run, Instr.exec, hv]
    | ub => simp [run, Instr.exec, hv]
    | ok r =>
      obtain ⟨v, w⟩ := r
      obtain ⟨m, fl, s', k1, k2, k3, k4, k5, k6, k7, k8, k9, k10, k11, k12⟩ := key vs rs s hi v w hv
      simp only [flush] at ht
      refine ⟨s', ?_, k8, ⟨m + 1, fl, ?_, by omega, by simp; omega, k4, k5, by simp [k6], k11, k12⟩, ?_⟩
      · simp only [run, k7, Res.bind_ok]
      · dsimp only; omega
      · simp [k10]

/-- the item that waits for the next field -/
def pend (v : Option X) : List (Field X) := match v with | none => [] | some x => [.item x]

/-- the result of the code and the meaning -/
def Agrees (P : World V X W) (r : Res (St V W)) (q : Res ((List V × List (V × V)) × W)) (vs : List V) (rs : List (V × V))
    (n : Nat) : Prop :=
  match q with
  | .ok ((vs', rs'), w) => ∃ s', r = .ok s' ∧ s'.w = w ∧ Final P s'.T (vs ++ vs') (rs ++ rs') n
  | .err e => r = .err e
  | .ub => r = .ub

/-- `lastlistfield` -/
theorem last_spec {P : World V X W} (inj : ∀ i j, i < 2 ^ 32 → j < 2 ^ 32 → P.idx i = P.idx j → i = j)
    (lim : ∀ x w vs w', P.evm x w = .ok (vs, w') → vs.length ≤ 1000000) {t : Nat} {multi : Bool} {cc cc' : CC X}
    (h : lastlistfield t multi cc = .ok cc') :
    ∃ l, cc'.code = cc.code ++ l ∧ ∀ vs rs (s : St V W), Inv P t cc vs rs s →
      Agrees P (run P l s) (values P multi (pend cc.v) s.w) vs rs cc.na := by
  unfold lastlistfield at h
  by_cases h0 : cc.tostore = 0
  · rw [if_pos h0] at h
    cases h
    refine ⟨[], by simp, ?_⟩
    intro vs rs s hi
    obtain ⟨⟨m, fl, h1, h2, h3, h4, h5, h6, h7, h8⟩, h9⟩ := hi
    cases hv : cc.v with
    | some x => rw [hv] at h6; simp at h6; omega
    | none =>
      rw [hv] at h6 h9
      simp at h6 h9
      have : vs.length = fl := by omega
      rw [List.take_of_length_le (by omega)] at h8
      refine ⟨s, rfl, rfl, by simpa using h8, by simp; simp only [maxAx] at h5; omega, fl, h4, by omega, ?_⟩
      intro i v hf hg
      rw [List.getElem?_eq_none (by simp; omega)] at hg; cases hg
  · rw [if_neg h0] at h
    cases hv : cc.v with
    | none =>
      rw [hv] at h
      dsimp only at h
      obtain ⟨c, ext, rfl, hc, hm⟩ := setlist_spec h
      refine ⟨_, rfl, ?_⟩
      intro vs rs s hi
      obtain ⟨⟨m, fl, h1, h2, h3, h4, h5, h6, h7, h8⟩, h9⟩ := hi
      rw [hv] at h6 h9
      simp at h6 h9
      obtain ⟨T', e1, e2, e3⟩ := flush_spec inj (b := cc.tostore) (n := cc.na) (m := m) h3 h4 hc (by omega) (by omega)
        (by simp [listN, h6]; omega) h7 h8 (by simp only [maxAx] at h5; omega)
      refine ⟨{ s with T := T' }, ?_, rfl, by simpa using e2, by simp; simp only [maxAx] at h5; omega, fl, h4, by omega, by simpa using e3⟩
      simp only [run, Option.getD_some]
      rw [e1]; rfl
    | some x =>
      rw [hv] at h
      cases multi with
      | false =>
        dsimp only at h
        obtain ⟨c, ext, rfl, hc, hm⟩ := setlist_spec h
        refine ⟨[.load cc.freereg x, .setlist t cc.tostore c ext], by simp, ?_⟩
        intro vs rs s hi
        obtain ⟨⟨m, fl, h1, h2, h3, h4, h5, h6, h7, h8⟩, h9⟩ := hi
        rw [hv] at h6 h9
        simp at h6 h9
        cases he : P.ev x s.w with
        | err e => simp [run, Instr.exec, he, pend, values, Agrees]
        | ub => simp [run, Instr.exec, he, pend, values, Agrees]
        | ok r =>
          obtain ⟨v, w⟩ := r
          let s' : St V W := { s with
            R := fun i => if i < cc.freereg then s.R i else if i = cc.freereg then v else P.junk i w, w := w }
          have hR : ∀ j u, ((vs ++ [v]).drop fl)[j]? = some u → s'.R (t + 1 + j) = u := by
            intro j u hj
            rw [List.drop_append_of_le_length (by omega)] at hj
            simp only [s']
            by_cases hjm : j < m
            · rw [List.getElem?_append_left (by rw [List.length_drop]; omega)] at hj
              rw [if_pos (by omega)]
              exact h7 j u hj
            · rw [List.getElem?_append_right (by rw [List.length_drop]; omega), List.length_drop] at hj
              have : j = m := by
                rcases Nat.lt_or_ge (j - (vs.length - fl)) 1 with h | h
                · omega
                · rw [List.getElem?_eq_none (by simpa using h)] at hj; cases hj
              subst this
              rw [show j - (vs.length - fl) = 0 by omega] at hj
              simp at hj
              rw [if_neg (by omega), if_pos (by omega)]
              exact hj
          obtain ⟨T', e1, e2, e3⟩ := flush_spec inj (b := cc.tostore) (n := cc.na) (m := m + 1) (s := s') (vs := vs ++ [v])
            (t := t) (rs := rs) (by simp; omega) h4 hc (by omega) (by omega) (by simp [listN, h6]) hR
            (by rw [List.take_append_of_le_length (by omega)]; exact h8) (by simp; simp only [maxAx] at h5; omega)
          simp only [pend, values, he, Res.bind_ok, Agrees, Bool.false_eq_true, if_false, Res.pure_eq]
          refine ⟨{ s' with T := T' }, ?_, rfl, by simpa using e2, by simp; simp only [maxAx] at h5; omega, fl, h4, by omega, e3⟩
          have : (Instr.load cc.freereg x).exec P s = .ok s' := by simp [Instr.exec, he, s']
          simp only [run, this, Res.bind_ok]
          rw [e1]; rfl
      | true =>
        dsimp only at h
        obtain ⟨c, ext, rfl, hc, hm⟩ := setlist_spec h
        refine ⟨[.loadm cc.freereg x, .setlist t 0 c ext], by simp, ?_⟩
        intro vs rs s hi
        obtain ⟨⟨m, fl, h1, h2, h3, h4, h5, h6, h7, h8⟩, h9⟩ := hi
        rw [hv] at h6 h9
        simp at h6 h9
        cases he : P.evm x s.w with
        | err e => simp [run, Instr.exec, he, pend, values, Agrees]
        | ub => simp [run, Instr.exec, he, pend, values, Agrees]
        | ok r =>
          obtain ⟨us, w⟩ := r
          have hus := lim _ _ _ _ he
          let s' : St V W := { s with
            R := fun i => if i < cc.freereg then s.R i else us.getD (i - cc.freereg) (P.junk i w)
            top := cc.freereg + us.length, w := w }
          have hR : ∀ j u, ((vs ++ us).drop fl)[j]? = some u → s'.R (t + 1 + j) = u := by
            intro j u hj
            rw [List.drop_append_of_le_length (by omega)] at hj
            simp only [s']
            by_cases hjm : j < m
            · rw [List.getElem?_append_left (by rw [List.length_drop]; omega)] at hj
              rw [if_pos (by omega)]
              exact h7 j u hj
            · rw [List.getElem?_append_right (by rw [List.length_drop]; omega), List.length_drop] at hj
              rw [if_neg (by omega), show t + 1 + j - cc.freereg = j - (vs.length - fl) by omega, List.getD_eq_getElem?_getD, hj]
              rfl
          obtain ⟨T', e1, e2, e3⟩ := flush_spec inj (b := 0) (n := cc.na) (m := m + us.length) (s := s') (vs := vs ++ us)
            (t := t) (rs := rs) (by simp; omega) h4 hc (by omega) (by omega) (by simp [listN, s', h1]; omega) hR
            (by rw [List.take_append_of_le_length (by omega)]; exact h8) (by simp; simp only [maxAx] at h5; omega)
          simp only [pend, values, he, Res.bind_ok, Agrees, if_true, Res.pure_eq]
          refine ⟨{ s' with T := T' }, ?_, rfl, by simpa using e2, by simp; simp only [maxAx] at h5; omega, fl, h4, by omega, e3⟩
          have : (Instr.loadm cc.freereg x).exec P s = .ok s' := by simp [Instr.exec, he, s']
          simp only [run, this, Res.bind_ok]
          rw [e1]; rfl

omit [DecidableEq V] in
theorem values_item (P : World V X W) (multi : Bool) (x : X) (f : Field X) (fs : List (Field X)) (w : W) :
    values P multi (.item x :: f :: fs) w = (P.ev x w >>= fun p => values P multi (f :: fs) p.2 >>= fun q =>
      .ok ((p.1 :: q.1.1, q.1.2), q.2)) := by
  rfl

/-- a field after the pending item was put into its register -/
theorem fields_spec {P : World V X W} (inj : ∀ i j, i < 2 ^ 32 → j < 2 ^ 32 → P.idx i = P.idx j → i = j)
    (lim : ∀ x w vs w', P.evm x w = .ok (vs, w') → vs.length ≤ 1000000) {t : Nat} {multi : Bool} :
    ∀ (fs : List (Field X)) (cc c1 c2 : CC X), fields t fs cc = .ok c1 → lastlistfield t multi c1 = .ok c2 →
    ∃ l, c2.code = cc.code ++ l ∧ ∀ vs rs (s : St V W), Inv P t cc vs rs s →
      Agrees P (run P l s) (values P multi (pend cc.v ++ fs) s.w) vs rs (cc.na + items fs) := by
  intro fs
  induction fs with
  | nil =>
    intro cc c1 c2 h1 h2
    cases h1
    obtain ⟨l, hl, h⟩ := last_spec inj lim h2
    exact ⟨l, hl, fun vs rs s hi => by simpa [items] using h vs rs s hi⟩
  | cons f fs ih =>
    intro cc c1 c2 h1 h2
    obtain ⟨ca, ha, h1⟩ := Res.bind_eq_ok.1 h1
    -- the state after `closelistfield`
    have rest : ca.v = none → ∃ l, c2.code = ca.code ++ l ∧ ∀ vs rs (s : St V W), Inv P t ca vs rs s →
        Agrees P (run P l s) (values P multi (f :: fs) s.w) vs rs (ca.na + items (f :: fs)) := by
      intro hn
      obtain ⟨l, hl, h⟩ := ih _ _ _ h1 h2
      cases f with
      | item x =>
        refine ⟨l, hl, ?_⟩
        intro vs rs s hi
        have hi' : Inv P t (field t ca (.item x)) vs rs s := by
          obtain ⟨⟨m, fl, k1, k2, k3, k4, k5, k6, k7, k8⟩, k9⟩ := hi
          rw [hn] at k6 k9
          refine ⟨⟨m, fl, k1, k2, k3, k4, k5, ?_, k7, k8⟩, ?_⟩
          · simp [field, k6]
          · simp [field, k9]
        have := h vs rs s hi'
        have e : (field t ca (.item x)).na + items fs = ca.na + items (.item x :: fs) := by
          simp [field, items]; omega
        rw [e] at this
        exact this
      | pair k v =>
        refine ⟨.settable t ca.freereg k v :: l, by rw [hl]; simp [field], ?_⟩
        intro vs rs s hi
        cases hk : P.ev k s.w with
        | err e => simp [run, Instr.exec, hk, values, Agrees]
        | ub => simp [run, Instr.exec, hk, values, Agrees]
        | ok r =>
          obtain ⟨kv, w1⟩ := r
          cases hv : P.ev v w1 with
          | err e => simp [run, Instr.exec, hk, hv, values, Agrees]
          | ub => simp [run, Instr.exec, hk, hv, values, Agrees]
          | ok r =>
            obtain ⟨vv, w2⟩ := r
            cases hq : P.key kv with
            | err e => simp [run, Instr.exec, hk, hv, hq, values, Agrees]
            | ub => simp [run, Instr.exec, hk, hv, hq, values, Agrees]
            | ok kv' =>
              let s' : St V W := { s with
                R := fun i => if i < ca.freereg then s.R i else P.junk i w2, T := put s.T kv' vv, w := w2 }
              have hs : (Instr.settable t ca.freereg k v).exec P s = .ok s' := by simp [Instr.exec, hk, hv, hq, s']
              have hi' : Inv P t (field t ca (.pair k v)) vs (rs ++ [(kv', vv)]) s' := by
                obtain ⟨⟨m, fl, k1, k2, k3, k4, k5, k6, k7, k8⟩, k9⟩ := hi
                refine ⟨⟨m, fl, k1, k2, k3, k4, k5, k6, ?_, k8.pair _ _⟩, k9⟩
                intro j u hj
                have : j < m := by
                  rcases Nat.lt_or_ge j m with h | h
                  · exact h
                  · rw [List.getElem?_eq_none (by rw [List.length_drop]; omega)] at hj; cases hj
                simp only [s']
                rw [if_pos (by omega)]
                exact k7 j u hj
              have := h _ _ s' hi'
              simp only [field, hn, pend, List.nil_append] at this
              simp only [run, hs, Res.bind_ok, values, hk, hv, hq]
              have e : items (.pair k v :: fs) = items fs := by simp [items]
              rw [e]
              cases hr : values P multi fs w2 with
              | err e => rw [show s'.w = w2 from rfl, hr] at this; simpa [Agrees] using this
              | ub => rw [show s'.w = w2 from rfl, hr] at this; simpa [Agrees] using this
              | ok r => rw [show s'.w = w2 from rfl, hr] at this; simpa [Agrees] using this
    cases hv : cc.v with
    | none =>
      have : ca = cc := by
        unfold closelistfield at ha
        rw [hv] at ha
        cases ha; rfl
      subst this
      obtain ⟨l, hl, h⟩ := rest hv
      exact ⟨l, hl, h⟩
    | some x =>
      have hna : ca.na = cc.na := by
        unfold closelistfield at ha
        rw [hv] at ha
        dsimp only at ha
        split at ha
        · obtain ⟨cb, hb, ha⟩ := Res.bind_eq_ok.1 ha
          obtain ⟨c, ext, rfl, _, _⟩ := setlist_spec hb
          cases ha; rfl
        · cases ha; rfl
      obtain ⟨l1, hl1, hn, k⟩ := close_spec (P := P) inj ha hv
      obtain ⟨l, hl, h⟩ := rest hn
      refine ⟨l1 ++ l, by rw [hl, hl1]; simp, ?_⟩
      intro vs rs s hi
      have k := k vs rs s hi
      rw [run_append]
      simp only [pend, List.cons_append, List.nil_append, values_item]
      cases he : P.ev x s.w with
      | err e => rw [he] at k; simp only at k; simp [k, Agrees]
      | ub => rw [he] at k; simp only at k; simp [k, Agrees]
      | ok r =>
        obtain ⟨v, w⟩ := r
        rw [he] at k
        obtain ⟨s', k1, rfl, k3⟩ := k
        have := h _ _ s' k3
        rw [k1, hna] at *
        simp only [Res.bind_ok]
        cases hr : values P multi (f :: fs) s'.w with
        | err e => rw [hr] at this; simpa [Agrees] using this
        | ub => rw [hr] at this; simpa [Agrees] using this
        | ok r => rw [hr] at this; simpa [Agrees] using this

theorem constructor_spec {P : World V X W} (inj : ∀ i j, i < 2 ^ 32 → j < 2 ^ 32 → P.idx i = P.idx j → i = j)
    (lim : ∀ x w vs w', P.evm x w = .ok (vs, w') → vs.length ≤ 1000000) {t : Nat} {multi : Bool} {fs : List (Field X)}
    {code : List (Instr X)} (h : constructor t fs multi = .ok code) (s : St V W) (hT : s.T = fun _ => P.nil) :
    Agrees P (run P code s) (values P multi fs s.w) [] [] (items fs) := by
  obtain ⟨c1, h1, h⟩ := Res.bind_eq_ok.1 h
  obtain ⟨c2, h2, h⟩ := Res.bind_eq_ok.1 h
  cases h
  obtain ⟨l, hl, h⟩ := fields_spec (P := P) inj lim fs _ _ _ h1 h2
  rw [hl]
  simpa [pend] using h [] [] s ⟨⟨0, 0, rfl, by omega, rfl, by omega, by omega, rfl, by simp, fun k => Or.inr
    ⟨by rw [hT]; rfl, Or.inr (by simp)⟩⟩, rfl⟩

end Verif.Cons
