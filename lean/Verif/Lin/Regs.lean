import Verif.Lin.Lemmas

/-!
# How many temporaries expressions need
-/
namespace Verif.Lin

variable {F O : Type}

/-- Every register in use is below `m`. -/
def Below (st : St F O) (m : Nat) : Prop := ∀ k, live st k → k.2 < m

theorem top_le {u : List Nat} {m : Nat} (h : ∀ r ∈ u, r < m) : top u ≤ m := by
  induction u with
  | nil => exact Nat.zero_le _
  | cons a u ih =>
    simp only [top, List.foldr_cons] at ih ⊢
    exact max_le (h a (by simp)) (ih fun r hr => h r (by simp [hr]))

theorem Below.top {st : St F O} {m : Nat} (h : Below st m) (κ : K) : top (pool st κ) ≤ m :=
  top_le fun r hr => h (κ, r) hr

theorem allocT_tot {st : St F O} {m : Nat} (hm : m < 256) (h : Below st m) (t : Ty) :
    ∃ q st', allocT st t = .ok (q, st') ∧ ∃ k, fk q = some k ∧ k.2 < m + 1 ∧
      ∀ k', live st' k' → live st k' ∨ k' = k := by
  have key : ∃ q st', allocT st t = .ok (q, st') ∧ ∀ k, fk q = some k → k.2 < m + 1 := by
    have hi := h.top .i
    have hf := h.top .f
    have ha := h.top .a
    simp only [pool] at hi hf ha
    have e : ∀ {u}, Lin.top u ≤ m → alloc u = .ok (Lin.top u, Lin.top u :: u) := by
      intro u hu
      simp [alloc, show Lin.top u < 256 by omega]
    cases t <;> simp only [allocT, e hi, e hf, e ha, Res.bind_ok] <;>
      refine ⟨_, _, rfl, ?_⟩ <;> rintro k hk <;> simp only [fk, Option.some.injEq] at hk <;>
      subst hk <;> dsimp only <;> omega
  obtain ⟨q, st', h1, h2⟩ := key
  obtain ⟨_, ⟨k, h3, _, h4⟩, _⟩ := allocT_ok h1
  exact ⟨q, st', h1, k, h3, h2 k h3, fun k' => (h4 k').1⟩

/-- How many registers the result of an expression holds. -/
def wd : Pn F O → Nat
  | .p _ => 1
  | .idx _ _ => 2

theorem wd_le (n : Pn F O) : wd n ≤ 2 := by cases n <;> simp [wd]

theorem operand_tot {st : St F O} {n : Pn F O} {m : Nat} (hm : m < 256)
    (h : Below (freeN st n) m) (hn : ∀ q, n = .p q → ∀ k, fk q = some k → k.2 < m + 1) :
    ∃ q st', operand st n = .ok (q, st') ∧ (∀ k, fk q = some k → k.2 < m + 1) ∧
      (∀ k, live st' k → live (freeN st n) k ∨ fk q = some k) ∧
      (n = .p q ∨ ∃ c d, n = .idx c d) := by
  rcases n with q | ⟨c, d⟩
  · refine ⟨q, st, rfl, hn q rfl, fun k hk => ?_, Or.inl rfl⟩
    by_cases e : fk q = some k
    · exact Or.inr e
    · exact Or.inl ((live_freeN _ _ _).2 ⟨hk, by simpa [fks] using e⟩)
  · have e : ∀ k, live (freeP (freeP st c) d) k ↔ live (freeN st (.idx c d)) k := by
      intro k
      simp only [freeN, live_freeP]
      exact ⟨fun ⟨⟨a, b⟩, c⟩ => ⟨⟨a, c⟩, b⟩, fun ⟨⟨a, b⟩, c⟩ => ⟨⟨a, c⟩, b⟩⟩
    obtain ⟨q, st', h1, k, h2, h3, h4⟩ := allocT_tot hm
      (fun k hk => h k ((e k).1 hk) : Below (freeP (freeP st c) d) m) .any
    refine ⟨q, emit st' (.get c d q), by simp only [operand, load, h1, Res.bind_ok], ?_, ?_,
      Or.inr ⟨c, d, rfl⟩⟩
    · rintro k' hk
      rw [h2] at hk
      obtain rfl := Option.some.inj hk
      exact h3
    · intro k' hk
      rw [live_emit] at hk
      rcases h4 k' hk with h | rfl
      · exact Or.inl ((e _).1 h)
      · exact Or.inr h2

/-- After an operand has been used, and all that belongs to it has been freed. -/
theorem used {st : St F O} {n : Pn F O} {q : Ps F O} (h : n = .p q ∨ ∃ c d, n = .idx c d) {k}
    (hk : live (freeN (tofree st n q) n) k) : live st k ∧ fk q ≠ some k ∧ k ∉ fks n := by
  rw [live_freeN] at hk
  obtain ⟨h1, h2⟩ := hk
  rcases h with rfl | ⟨c, d, rfl⟩
  · exact ⟨h1, by simpa [fks] using h2, h2⟩
  · rw [tofree, live_freeP] at h1
    exact ⟨h1.1, h1.2, h2⟩

theorem used' {st : St F O} {n : Pn F O} {q : Ps F O} (h : n = .p q ∨ ∃ c d, n = .idx c d) {x k}
    (hk : live (tofree (emit (freeN st n) x) n q) k) : live st k ∧ fk q ≠ some k := by
  rcases h with rfl | ⟨c, d, rfl⟩
  · rw [tofree, live_emit, live_freeN] at hk
    exact ⟨hk.1, by simpa [fks] using hk.2⟩
  · rw [tofree, live_freeP, live_emit, live_freeN] at hk
    exact ⟨hk.1.1, hk.2⟩

/-- How deep the operators of an expression are nested. -/
def depth : Exp F O → Nat
  | .lit _ | .loc _ => 0
  | .idx a b | .bin _ a b | .and a b | .or a b => max (depth a) (depth b) + 1
  | .not a | .neg a => depth a + 1

theorem lin_regs (Γ : Nat → LV) (hΓ : ∀ x, fk (F := F) (O := O) (Γ x).ps = none) :
    ∀ (e : Exp F O) (st : St F O) (m : Nat), Below st m → m + 6 * depth e + 2 ≤ 256 →
    ∃ n st', lin Γ e st = .ok (n, st') ∧ (∀ k, live st' k → live st k ∨ k ∈ fks n) ∧
      ∀ k ∈ fks n, k.2 < m + wd n := by
  intro e
  -- an operand, from code to use
  have one : ∀ (e : Exp F O) (st : St F O) (m : Nat), Below st m → m + 6 * depth e + 2 ≤ 256 →
      (∃ n st', lin Γ e st = .ok (n, st') ∧ (∀ k, live st' k → live st k ∨ k ∈ fks n) ∧
        ∀ k ∈ fks n, k.2 < m + wd n) →
      ∃ n st1 q st2, lin Γ e st = .ok (n, st1) ∧ operand st1 n = .ok (q, st2) ∧
        (∀ k, live st2 k → live st k ∨ fk q = some k) ∧ (∀ k, fk q = some k → k.2 < m + 1) ∧
        (n = .p q ∨ ∃ c d, n = .idx c d) := by
    rintro e st m hb hm ⟨n, st1, h1, h2, h3⟩
    have hs : ∀ k, live (freeN st1 n) k → live st k := by
      intro k hk
      rw [live_freeN] at hk
      exact (h2 k hk.1).resolve_right hk.2
    obtain ⟨q, st2, h4, h5, h6, h7⟩ := operand_tot (n := n) (st := st1) (m := m) (by omega)
      (fun k hk => hb k (hs k hk)) (by
        rintro q rfl k hk
        exact h3 k (by simp [fks, hk]))
    exact ⟨n, st1, q, st2, h1, h4, fun k hk => (h6 k hk).imp_left (hs k), h5, h7⟩
  induction e with
  | lit v => exact fun st m _ _ => ⟨_, _, rfl, fun k hk => Or.inl hk, by simp [fks, fk]⟩
  | loc x => exact fun st m _ _ => ⟨_, _, rfl, fun k hk => Or.inl hk, by simp [fks, hΓ x]⟩
  | idx a b iha ihb =>
    intro st m hb hm
    simp only [depth] at hm
    obtain ⟨n, s1, q, s2, a1, a2, a3, a4, _⟩ := one a st m hb (by omega) (iha st m hb (by omega))
    have hb2 : Below s2 (m + 1) := fun k hk =>
      (a3 k hk).elim (fun h => Nat.lt_succ_of_lt (hb k h)) (a4 k)
    obtain ⟨n', s3, q', s4, b1, b2, b3, b4, _⟩ := one b s2 (m + 1) hb2 (by omega)
      (ihb s2 (m + 1) hb2 (by omega))
    refine ⟨.idx q q', s4, by simp only [lin, a1, a2, b1, b2, Res.bind_ok], ?_, ?_⟩
    · intro k hk
      simp only [fks, List.mem_append, Option.mem_toList, Option.mem_def]
      rcases b3 k hk with h | h
      · exact (a3 k h).imp_right Or.inl
      · exact Or.inr (Or.inr h)
    · intro k hk
      simp only [fks, List.mem_append, Option.mem_toList, Option.mem_def] at hk
      rcases hk with h | h
      · exact Nat.lt_succ_of_lt (a4 k h)
      · exact b4 k h
  | bin o a b iha ihb =>
    intro st m hb hm
    simp only [depth] at hm
    obtain ⟨nt, s1, a1, a2, a3⟩ : ∃ nt s1, allocNe st o (typ Γ (.bin o a b)) = .ok (nt, s1) ∧
        (∀ k, live s1 k → live st k ∨ (o = .cm .ne ∧ fk nt = some k)) ∧
        (∀ k, fk nt = some k → k.2 < m + 1) := by
      unfold allocNe
      split
      · rename_i ho
        obtain ⟨q, s', h1, k, h2, h3, h4⟩ := allocT_tot (m := m) (by omega) hb
          (typ Γ (.bin o a b))
        refine ⟨q, s', h1, fun k' hk => ?_, ?_⟩
        · rcases h4 k' hk with h | rfl
          · exact Or.inl h
          · exact Or.inr ⟨ho, h2⟩
        intro k' hk
        rw [h2] at hk
        obtain rfl := Option.some.inj hk
        exact h3
      · exact ⟨_, _, rfl, fun k hk => Or.inl hk, by simp [fk]⟩
    obtain ⟨m', hm1, hm2, hb1⟩ : ∃ m', m' ≤ m + 1 ∧ (o ≠ .cm .ne → m' = m) ∧ Below s1 m' := by
      by_cases ho : o = .cm .ne
      · exact ⟨m + 1, le_refl _, fun h => absurd ho h, fun k hk =>
          (a2 k hk).elim (fun h => Nat.lt_succ_of_lt (hb k h)) (fun h => a3 k h.2)⟩
      · exact ⟨m, Nat.le_succ _, fun _ => rfl, fun k hk =>
          (a2 k hk).elim (hb k) (fun h => absurd h.1 ho)⟩
    obtain ⟨t, s2, t1, κ, t2, t3, t4⟩ := allocT_tot (m := m') (by omega) hb1
      (typ Γ (.bin o a b))
    have hb2 : Below s2 (m + 2) := by
      intro k hk
      rcases t4 k hk with h | rfl
      · have := hb1 k h; omega
      · omega
    obtain ⟨n1, s3, c1, c2, c3⟩ := iha s2 (m + 2) hb2 (by omega)
    have w1 := wd_le n1
    have hb3 : Below s3 (m + 4) := by
      intro k hk
      rcases c2 k hk with h | h
      · have := hb2 k h; omega
      · have := c3 k h; omega
    obtain ⟨n2, s4, d1, d2, d3⟩ := ihb s3 (m + 4) hb3 (by omega)
    have w2 := wd_le n2
    have hb4 : Below s4 (m + 6) := by
      intro k hk
      rcases d2 k hk with h | h
      · have := hb3 k h; omega
      · have := d3 k h; omega
    -- whichever comes first
    have both : ∀ m1 m2 : Pn F O, (m1 = n1 ∧ m2 = n2) ∨ (m1 = n2 ∧ m2 = n1) →
        ∃ q1 s5 q2 s6, operand s4 m1 = .ok (q1, s5) ∧ operand s5 m2 = .ok (q2, s6) ∧
          ∀ x k, live (freeN (freeN (tofree (tofree (emit s6 x) m1 q1) m2 q2) m1) m2) k →
            live s2 k := by
      intro m1 m2 hmm
      have hlt : ∀ k, k ∈ fks m1 ∨ k ∈ fks m2 → k.2 < m + 6 := by
        intro k hk
        have : k ∈ fks n1 ∨ k ∈ fks n2 := by
          rcases hmm with ⟨rfl, rfl⟩ | ⟨rfl, rfl⟩
          · exact hk
          · exact hk.symm
        rcases this with h | h
        · have := c3 k h; omega
        · have := d3 k h; omega
      obtain ⟨q1, s5, e1, e2, e3, e4⟩ := operand_tot (n := m1) (st := s4) (m := m + 6) (by omega)
        (fun k hk => hb4 k ((live_freeN _ _ _).1 hk).1) (by
          rintro q rfl k hk
          have := hlt k (Or.inl (by simp [fks, hk]))
          omega)
      have hb5 : Below s5 (m + 7) := by
        intro k hk
        rcases e3 k hk with h | h
        · have := hb4 k ((live_freeN _ _ _).1 h).1; omega
        · exact e2 k h
      obtain ⟨q2, s6, f1, f2, f3, f4⟩ := operand_tot (n := m2) (st := s5) (m := m + 7) (by omega)
        (fun k hk => hb5 k ((live_freeN _ _ _).1 hk).1) (by
          rintro q rfl k hk
          have := hlt k (Or.inr (by simp [fks, hk]))
          omega)
      refine ⟨q1, s5, q2, s6, e1, f1, ?_⟩
      intro x k hk
      rw [live_freeN, live_freeN] at hk
      obtain ⟨⟨h1, h2⟩, h3⟩ := hk
      obtain ⟨h4, h5, _⟩ := used f4 ((live_freeN _ _ _).2 ⟨h1, h3⟩)
      obtain ⟨h6, h7, _⟩ := used e4 ((live_freeN _ _ _).2 ⟨h4, h2⟩)
      rw [live_emit] at h6
      rcases f3 k h6 with h | h
      · rcases e3 k ((live_freeN _ _ _).1 h).1 with h' | h'
        · have h8 := ((live_freeN _ _ _).1 h').1
          rcases d2 k h8 with h9 | h9
          · rcases c2 k h9 with h10 | h10
            · exact h10
            · rcases hmm with ⟨rfl, rfl⟩ | ⟨rfl, rfl⟩
              · exact absurd h10 h2
              · exact absurd h10 h3
          · rcases hmm with ⟨rfl, rfl⟩ | ⟨rfl, rfl⟩
            · exact absurd h9 h3
            · exact absurd h9 h2
        · exact absurd h' h7
      · exact absurd h h5
    have hsw : ∀ sw : Bool, ∃ q1 s5 q2 s6,
        operand s4 (if sw = true then (n2, typ Γ b) else (n1, typ Γ a)).1 = .ok (q1, s5) ∧
        operand s5 (if sw = true then (n1, typ Γ a) else (n2, typ Γ b)).1 = .ok (q2, s6) ∧
          ∀ x k, live (freeN (freeN (tofree (tofree (emit s6 x)
            (if sw = true then (n2, typ Γ b) else (n1, typ Γ a)).1 q1)
            (if sw = true then (n1, typ Γ a) else (n2, typ Γ b)).1 q2)
            (if sw = true then (n2, typ Γ b) else (n1, typ Γ a)).1)
            (if sw = true then (n1, typ Γ a) else (n2, typ Γ b)).1) k → live s2 k := by
      intro sw
      cases sw
      · exact both _ _ (Or.inl ⟨rfl, rfl⟩)
      · exact both _ _ (Or.inr ⟨rfl, rfl⟩)
    obtain ⟨q1, s5, q2, s6, e1, e2, e3⟩ := hsw (swap o (typ Γ a) (typ Γ b))
    simp only [lin, a1, t1, c1, d1, e1, e2, Res.bind_ok]
    split
    · rename_i ho
      refine ⟨_, _, rfl, ?_, ?_⟩
      · intro k hk
        rw [live_emit, live_freeP] at hk
        rcases t4 k (e3 _ k hk.1) with h | h
        · exact (a2 k h).imp_right fun h => by simp [fks, h.2]
        · exact absurd (h ▸ t2) hk.2
      · intro k hk
        simp only [fks, Option.mem_toList, Option.mem_def] at hk
        exact a3 k hk
    · rename_i ho
      refine ⟨_, _, rfl, ?_, ?_⟩
      · intro k hk
        rcases t4 k (e3 _ k hk) with h | h
        · exact (a2 k h).imp_right fun h => absurd h.1 ho
        · exact Or.inr (by simp [fks, h, t2])
      · intro k hk
        simp only [fks, Option.mem_toList, t2, Option.some.injEq] at hk
        subst hk
        rw [hm2 ho] at t3
        exact t3
  | and a b iha ihb =>
    intro st m hb hm
    simp only [depth] at hm
    obtain ⟨t, s1, t1, κ, t2, t3, t4⟩ := allocT_tot (m := m) (by omega)
      (fun k hk => hb k ((live_nb _ _ _).1 hk) : Below { st with nb := st.nb + 2 } m) .any
    have ht : ∀ k, live s1 k → live st k ∨ k = κ := fun k hk =>
      (t4 k hk).imp_left (live_nb _ _ _).1
    have hb1 : ∀ s : St F O, (∀ k, live s k → live s1 k) → Below s (m + 1) := by
      intro s hs k hk
      rcases ht k (hs k hk) with h | rfl
      · have := hb k h; omega
      · omega
    obtain ⟨n, s2, q, s3, a1, a2, a3, a4, a5⟩ := one a s1 (m + 1) (hb1 _ fun _ h => h) (by omega)
      (iha s1 (m + 1) (hb1 _ fun _ h => h) (by omega))
    have hs : ∀ x y c k, live { emit (freeN (tofree (emit s3 x) n q) n) y with cur := c } k →
        live s1 k := by
      intro x y c k hk
      rw [live_cur, live_emit] at hk
      obtain ⟨h1, h2, _⟩ := used a5 hk
      rw [live_emit] at h1
      exact (a3 k h1).resolve_right h2
    obtain ⟨n', s4, q', s5, b1, b2, b3, b4, b5⟩ := one b _ (m + 1)
      (hb1 _ (hs (.mov q t) (.cbr t st.nb (st.nb + 1)) st.nb)) (by omega)
      (ihb _ (m + 1) (hb1 _ (hs _ _ _)) (by omega))
    simp only [lin, t1, a1, a2, b1, b2, Res.bind_ok]
    refine ⟨_, _, rfl, ?_, ?_⟩
    · intro k hk
      rw [live_cur, live_emit] at hk
      obtain ⟨h1, h2, _⟩ := used b5 hk
      rw [live_emit] at h1
      rcases ht k (hs _ _ _ k ((b3 k h1).resolve_right h2)) with h | rfl
      · exact Or.inl h
      · exact Or.inr (by simp [fks, t2])
    · intro k hk
      simp only [fks, Option.mem_toList, t2, Option.some.injEq] at hk
      subst hk
      exact t3
  | or a b iha ihb =>
    intro st m hb hm
    simp only [depth] at hm
    obtain ⟨t, s1, t1, κ, t2, t3, t4⟩ := allocT_tot (m := m) (by omega)
      (fun k hk => hb k ((live_nb _ _ _).1 hk) : Below { st with nb := st.nb + 2 } m) .any
    have ht : ∀ k, live s1 k → live st k ∨ k = κ := fun k hk =>
      (t4 k hk).imp_left (live_nb _ _ _).1
    have hb1 : ∀ s : St F O, (∀ k, live s k → live s1 k) → Below s (m + 1) := by
      intro s hs k hk
      rcases ht k (hs k hk) with h | rfl
      · have := hb k h; omega
      · omega
    obtain ⟨n, s2, q, s3, a1, a2, a3, a4, a5⟩ := one a s1 (m + 1) (hb1 _ fun _ h => h) (by omega)
      (iha s1 (m + 1) (hb1 _ fun _ h => h) (by omega))
    have hs : ∀ x y c k, live { emit (freeN (tofree (emit s3 x) n q) n) y with cur := c } k →
        live s1 k := by
      intro x y c k hk
      rw [live_cur, live_emit] at hk
      obtain ⟨h1, h2, _⟩ := used a5 hk
      rw [live_emit] at h1
      exact (a3 k h1).resolve_right h2
    obtain ⟨n', s4, q', s5, b1, b2, b3, b4, b5⟩ := one b _ (m + 1)
      (hb1 _ (hs (.mov q t) (.cbr t (st.nb + 1) st.nb) st.nb)) (by omega)
      (ihb _ (m + 1) (hb1 _ (hs _ _ _)) (by omega))
    simp only [lin, t1, a1, a2, b1, b2, Res.bind_ok]
    refine ⟨_, _, rfl, ?_, ?_⟩
    · intro k hk
      rw [live_cur, live_emit] at hk
      obtain ⟨h1, h2, _⟩ := used b5 hk
      rw [live_emit] at h1
      rcases ht k (hs _ _ _ k ((b3 k h1).resolve_right h2)) with h | rfl
      · exact Or.inl h
      · exact Or.inr (by simp [fks, t2])
    · intro k hk
      simp only [fks, Option.mem_toList, t2, Option.some.injEq] at hk
      subst hk
      exact t3
  | not a ih =>
    intro st m hb hm
    simp only [depth] at hm
    obtain ⟨t, s1, t1, κ, t2, t3, t4⟩ := allocT_tot (m := m) (by omega) hb .any
    have hb1 : Below s1 (m + 1) := by
      intro k hk
      rcases t4 k hk with h | rfl
      · have := hb k h; omega
      · omega
    obtain ⟨n, s2, q, s3, a1, a2, a3, a4, a5⟩ := one a s1 (m + 1) hb1 (by omega)
      (ih s1 (m + 1) hb1 (by omega))
    simp only [lin, t1, a1, a2, Res.bind_ok]
    refine ⟨_, _, rfl, ?_, ?_⟩
    · intro k hk
      obtain ⟨h1, h2⟩ := used' a5 hk
      rcases t4 k ((a3 k h1).resolve_right h2) with h | rfl
      · exact Or.inl h
      · exact Or.inr (by simp [fks, t2])
    · intro k hk
      simp only [fks, Option.mem_toList, t2, Option.some.injEq] at hk
      subst hk
      exact t3
  | neg a ih =>
    intro st m hb hm
    simp only [depth] at hm
    obtain ⟨t, s1, t1, κ, t2, t3, t4⟩ := allocT_tot (m := m) (by omega) hb (typ Γ a)
    have hb1 : Below s1 (m + 1) := by
      intro k hk
      rcases t4 k hk with h | rfl
      · have := hb k h; omega
      · omega
    obtain ⟨n, s2, q, s3, a1, a2, a3, a4, a5⟩ := one a s1 (m + 1) hb1 (by omega)
      (ih s1 (m + 1) hb1 (by omega))
    simp only [lin, t1, a1, a2, Res.bind_ok]
    refine ⟨_, _, rfl, ?_, ?_⟩
    · intro k hk
      obtain ⟨h1, h2⟩ := used' a5 hk
      rcases t4 k ((a3 k h1).resolve_right h2) with h | rfl
      · exact Or.inl h
      · exact Or.inr (by simp [fks, t2])
    · intro k hk
      simp only [fks, Option.mem_toList, t2, Option.some.injEq] at hk
      subst hk
      exact t3

/-- The first part of the work on a binary operator runs out of registers, or the left operand
does. -/
theorem lin_left_ub {Γ : Nat → LV} {o : Op} {a b : Exp F O} {st : St F O}
    (hty : typ Γ (.bin (.ar o) a b) = .any)
    (h : ∀ st', allocT st .any = .ok (.ta (top st.a), st') → lin Γ a st' = .ub) :
    lin Γ (.bin (.ar o) a b) st = .ub := by
  simp only [lin, allocNe, hty, reduceCtorEq, if_false, Res.bind_ok]
  by_cases ht : top st.a < 256
  · have e : allocT st .any = .ok (.ta (top st.a), { st with a := top st.a :: st.a }) := by
      simp [allocT, alloc, ht]
    rw [e, Res.bind_ok, h _ e]
    rfl
  · have e : allocT st .any = .ub := by simp only [allocT, alloc, if_neg ht]; rfl
    rw [e]
    rfl

/-- `x + x + ... + x`, with `n` operators. -/
def sum (x : Nat) : Nat → Exp F O
  | 0 => .loc x
  | n + 1 => .bin (.ar .add) (sum x n) (.loc x)

theorem sum_ub {Γ : Nat → LV} {x : Nat} (hx : (Γ x).ty = .any) :
    ∀ (n : Nat) (st : St F O), top st.a ≤ 256 → 256 < top st.a + n → lin Γ (sum x n) st = .ub := by
  have hty : ∀ n, typ (F := F) (O := O) Γ (sum x n) = .any := by
    intro n
    induction n with
    | zero => exact hx
    | succ n ih => simp [sum, typ, ih, hx, arTy]
  intro n
  induction n with
  | zero => intro st h1 h2; omega
  | succ n ih =>
    intro st h1 h2
    refine lin_left_ub (hty (n + 1)) fun st' h => ?_
    have e : top st.a < 256 ∧ top st'.a = top st.a + 1 := by
      by_cases ht : top st.a < 256
      · simp only [allocT, alloc, if_pos ht, Res.bind_ok, Res.ok.injEq, Prod.mk.injEq, true_and]
          at h
        subst h
        refine ⟨ht, ?_⟩
        show max (top st.a + 1) (top st.a) = _
        omega
      · simp only [allocT, alloc, if_neg ht] at h
        cases h
    exact ih st' (by omega) (by omega)

end Verif.Lin
