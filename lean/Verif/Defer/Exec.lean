import Verif.Defer.Steps

/-!
# The simulation
-/
namespace Verif.Defer

variable {W : Nat → Bool} {F : Nat → S} {G : Nat → Fn}

/-- A call at the level of a statement. -/
theorem call_post {k : Nat} (hG : ∀ f, compFun (F f) = some (G f)) (ih : All W F G k) {co base n f s x r s'} (hs : Sorted s.opn) (hlt : ∀ e ∈ s.opn, e.lvl < base + n) (hr : Rel s x)
    (h : fn W G k co (base + n + 1) (G f) s = .ok (r, s')) :
    ∃ r' x', Sem W F (.fn (F f)) x (.fin r') x' ∧ Rel s' x' ∧
      match r, r' with
      | none, none => Keep s.opn s'.opn
      | some v, some (v', p) => v = v' ∧ Fin (base + n) s.opn p s'.opn ∧ ∀ e ∈ s'.opn, e ∈ s.opn ∨ base ≤ e.lvl
      | _, _ => False := by
  have hlt' : ∀ e ∈ s.opn, e.lvl < base + n + 1 := fun e he => Nat.lt_succ_of_lt (hlt e he)
  obtain ⟨r', x', c1, c2, c3⟩ := ih.fn co _ (F f) (G f) s x r s' (hG f) hs hlt' hr h
  refine ⟨r', x', c1, c2, ?_⟩
  have c4 := c3.res
  cases r with
  | none =>
    cases r' with
    | some _ => exact c4.elim
    | none => exact caught_ok hlt' c3
  | some v =>
    cases r' with
    | none => exact c4.elim
    | some q =>
      refine ⟨c4.1, c4.2.level (fun e he => ?_) fun e he => ?_, fun e he => (c3.mem e he).imp id fun h => by omega⟩
      · have := hlt e he; omega
      · rcases c3.mem e he with h | h
        · have := hlt e h; omega
        · omega

/-- `OP_RETURN`. -/
theorem ret_post {k : Nat} (ih : All W F G k) {base n p} {L : List Ent} {s x outF outL r s' ms bl nl n₁} (hs : Sorted s.opn) (hlt : ∀ e ∈ s.opn, e.lvl < base + n)
    (hp : p = false → ∀ e ∈ s.opn, e.lvl < base) (hr : Rel s x) (hF : Ms (up base (D s.opn)) outF) (hD : D s.opn = D L) (hm : ∀ e ∈ s.opn, e ∈ L)
    (h : jmp W G k base n (retClose p) s = .ok (r, s')) :
    Post W F base n n₁ ms bl nl L outF outL .ret [] x (match r with | none => .ret | some v => .err v) n s' := by
  obtain ⟨g1, g2⟩ := retClose_ok (n := n) hp
  obtain ⟨r', x', c1, c2, c3⟩ := ih.jm base n _ base s x outF r s' hs hlt g1 g2 hF hr h
  have c4 := c3.res
  refine ⟨fun e he => (c3.mem e he).imp (hm e) fun h => by omega, r', x', c1, c2, ?_⟩
  cases r <;> cases r' <;> simp only at c4 ⊢
  · exact ⟨trivial, c4.1.of_D hD, c4.2⟩
  · exact ⟨by rw [c4.1], c4.2.of_D hD⟩

/-- The end of a loop by `break`. -/
theorem loop_brk {base : Nat} {vs : List Bool} {b : S} {bl nl ms} {L : List Ent} {outF outL : Pend} {ds xr o' n' s'} (hlt : ∀ e ∈ L, e.lvl < base + vs.length) (hF : Ms (up base (D L)) outF)
    (hn : n' = vs.length) (hms : ∀ m ∈ marks vs b, m < vs.length → m ∈ ms)
    (hmem : ∀ e ∈ s'.opn, e ∈ L ∨ base ≤ e.lvl)
    (h : ∃ r x, Sem W F (.runN ds) xr (.fin r) x ∧ Rel s' x ∧
      match r with
      | none => o' = .brk ∧ Fin (base + vs.length) L [] s'.opn ∧ (∀ e ∈ s'.opn, e.lvl < base + vs.length) ∧ ∀ e ∈ s'.opn, e ∈ L ∨ ∃ m ∈ marks vs b, e.lvl = base + m
      | some (v, p) => o' = .err v ∧ Fin (base + vs.length) L p s'.opn) :
    ∃ r x, Sem W F (.runN ds) xr (.fin r) x ∧ ∃ o d, after .norm r = .out o d ∧
      Post W F base vs.length vs.length ms bl nl L outF outL o d x (if o' = .brk then .norm else o') n' s' := by
  obtain ⟨r, x, h1, h2, h3⟩ := h
  refine ⟨r, x, h1, ?_⟩
  cases r with
  | none =>
    obtain ⟨rfl, h3, h4, h5⟩ := h3
    refine ⟨.norm, [], rfl, ?_⟩
    rw [if_pos rfl]
    refine Post.plain hn h2 h3.sorted (h3.D_eq hlt h4) hlt (Nat.le_refl _) fun e he => (h5 e he).imp id fun ⟨m, hm, h⟩ => ?_
    have := h4 e he
    exact ⟨m, hms m hm (by omega), by omega, h⟩
  | some q =>
    obtain ⟨v, p⟩ := q
    obtain ⟨rfl, h3⟩ := h3
    refine ⟨.err v, p, rfl, ?_⟩
    rw [if_neg (fun e => nomatch e)]
    exact ⟨hmem, rfl, h2, h3.down (Nat.le_add_right _ _) hF hlt⟩

/-- A statement in a loop that leaves the loop otherwise. -/
theorem loop_stop {base n n₁ n₁' : Nat} {ms ms' bl bl' nl nl'} {L : List Ent} {outF outL outL' : Pend} {o ds xr o' n' n'' s'} (h : Post W F base n n₁ ms bl nl L outF outL o ds xr o' n' s')
    (ho : o ≠ .norm) (ho' : o ≠ .brk) : Post W F base n n₁' ms' bl' nl' L outF outL' o ds xr o' n'' s' where
  mem := h.mem
  res := by
    have h := h.res
    cases o with
    | norm => exact absurd rfl ho
    | brk => exact absurd rfl ho'
    | err v => exact h
    | ret => exact h

theorem Post.outc {base n n₁ : Nat} {ms bl nl} {L : List Ent} {outF outL : Pend} {o ds xr o' n' s'} (h : Post W F base n n₁ ms bl nl L outF outL o ds xr o' n' s') :
    (o' = .norm ↔ o = .norm) ∧ (o' = .brk → o = .brk) ∧ (o ≠ .brk → o' ≠ .brk) := by
  have h := h.res
  cases o with
  | norm => obtain ⟨rfl, _⟩ := h; exact ⟨⟨fun _ => rfl, fun _ => rfl⟩, (fun e => nomatch e), fun _ e => nomatch e⟩
  | err v => obtain ⟨rfl, _⟩ := h; exact ⟨⟨fun e => (nomatch e), fun e => nomatch e⟩, (fun e => nomatch e), fun _ e => nomatch e⟩
  | ret =>
    obtain ⟨r, x, _, _, h3⟩ := h
    cases r with
    | none => obtain ⟨rfl, _⟩ := h3; exact ⟨⟨fun e => (nomatch e), fun e => nomatch e⟩, (fun e => nomatch e), fun _ e => nomatch e⟩
    | some q => obtain ⟨rfl, _⟩ := h3; exact ⟨⟨fun e => (nomatch e), fun e => nomatch e⟩, (fun e => nomatch e), fun _ e => nomatch e⟩
  | brk =>
    obtain ⟨_, r, x, _, _, h3⟩ := h
    cases r with
    | none => obtain ⟨rfl, _⟩ := h3; exact ⟨⟨fun e => (nomatch e), fun e => nomatch e⟩, fun _ => rfl, fun e => absurd rfl e⟩
    | some q => obtain ⟨rfl, _⟩ := h3; exact ⟨⟨fun e => (nomatch e), fun e => nomatch e⟩, (fun e => nomatch e), fun e => absurd rfl e⟩

theorem Rel.tock {s : St} {x : X} (h : Rel s x) : Rel { s with tick := s.tick + 1 } x.tock := ⟨by show s.tick + 1 = x.tick + 1; rw [h.1], h.2⟩

/-- The closing of a `break`. -/
theorem brk_ok {base : Nat} {vs : List Bool} {p t a L l nl} (h : Ok base vs p (some l) nl t a L) :
    (∀ q, brkClose vs.length l = some q → base + nl ≤ base + q ∧ q ≤ vs.length) ∧ ∀ e ∈ L, base + nl ≤ e.lvl → ∃ q, brkClose vs.length l = some q ∧ base + q ≤ e.lvl := by
  obtain ⟨h1, h2, h3, h4⟩ := h.blk l rfl
  refine ⟨fun q hq => ⟨Nat.add_le_add_left (brk_ge h1 hq) _, Nat.le_of_lt (brk_lt hq)⟩, fun e he hle => ?_⟩
  have hlt := h.lt e he
  obtain ⟨q, hq, hle'⟩ := brk_cover (na := vs.length) (by omega) (h2 e he hle)
  exact ⟨q, hq, by omega⟩

theorem ex_step {k : Nat} (hG : ∀ f, compFun (F f) = some (G f)) (ih : All W F G k) : ExC W F G (k + 1) := by
  intro co base vs p bl nl t a c s x outF outL o' n' s' hc hok hr hF hLp h
  have hs := hok.sorted
  have hlt := hok.lt
  cases a with
  | skip =>
    cases hc
    rw [ex] at h
    cases h
    exact ⟨.norm, [], x, .skip, Post.keep rfl hr (Keep.refl hs) hlt⟩
  | emit e =>
    cases hc
    rw [ex] at h
    cases h
    exact ⟨.norm, [], _, .emit, Post.keep rfl (hr.see (.emit e) s.opn) (Keep.refl hs) hlt⟩
  | grow =>
    cases hc
    rw [ex] at h
    cases h
    exact ⟨.norm, [], x, .grow, Post.keep rfl hr (Keep.refl hs) hlt⟩
  | error v =>
    cases hc
    rw [ex] at h
    cases h
    exact ⟨.err v, [], x, .error, fun e he => .inl he, rfl, hr, (Fin.refl hs hlt).down (Nat.le_add_right _ _) hF hlt⟩
  | local_ =>
    cases hc
    rw [ex] at h
    cases h
    exact ⟨.norm, [], x, .local_, Post.plain (by simp [decl]) hr hs rfl hlt (by simp [decl]) fun e he => .inl he⟩
  | capture i =>
    simp only [comp] at hc
    split at hc
    next hi =>
      cases hc
      rw [ex] at h
      cases h
      refine ⟨.norm, [], x, .capture, Post.plain rfl hr (find_sorted hs) find_D hlt (Nat.le_refl _) fun e he => ?_⟩
      rcases mem_find he with h | rfl
      · exact .inl h
      · exact .inr ⟨i, by simp only [marks]; rw [if_pos hi]; exact List.mem_singleton.2 rfl, (List.getElem?_eq_some_iff.1 hi).1, rfl⟩
    · exact nomatch hc
  | defer b =>
    simp only [comp] at hc
    obtain ⟨cb, hb, hc⟩ := Option.bind_eq_some_iff.1 hc
    cases hc
    rw [ex] at h
    cases h
    have hf : find ⟨base + vs.length, some (s.next, ⟨protos b, cb⟩)⟩ s.opn = ⟨base + vs.length, some (s.next, ⟨protos b, cb⟩)⟩ :: s.opn := find_top hlt
    refine ⟨.norm, [(x.next, b)], _, .defer, ?_, rfl, by simp [decl], ?_, ?_, ?_, ?_⟩
    · dsimp only
      rw [hf]
      intro e he
      rcases List.mem_cons.1 he with rfl | he
      · exact .inr (by simp)
      · exact .inl he
    · exact ⟨hr.1, by show s.next + 1 = x.next + 1; rw [hr.2.1], by show s.tr ++ [_] = x.tr ++ [_]; rw [hr.2.2, hr.2.1]⟩
    · dsimp only
      rw [hf]
      refine ⟨?_, ?_, List.pairwise_cons.2 ⟨fun e he => Nat.le_of_lt (hlt e he), hs⟩⟩
      · rw [D_cons_some rfl, up_cons_pos (b := base + vs.length) (Nat.le_refl (base + vs.length)), up_nil fun e he => hlt e (mem_D.1 he).1]
        refine List.Forall₂.cons ⟨⟨protos b, cb⟩, ?_, ?_⟩ List.Forall₂.nil
        · rw [hr.2.1]
        · show compFun b = _
          rw [compFun, hb]
          rfl
      · exact low_cons (Nat.le_refl _)
    · dsimp only
      rw [hf]
      intro e he
      rcases List.mem_cons.1 he with rfl | he
      · show base + vs.length < base + (vs.length + 1)
        omega
      · have := hlt e he
        omega
    · dsimp only
      rw [hf]
      intro e he
      rcases List.mem_cons.1 he with rfl | he
      · exact .inr ⟨vs.length, List.mem_singleton.2 rfl, rfl⟩
      · exact .inl he
  | seq a b =>
    simp only [comp] at hc
    obtain ⟨ca, hca, hc⟩ := Option.bind_eq_some_iff.1 hc
    obtain ⟨cb, hcb, hc⟩ := Option.bind_eq_some_iff.1 hc
    cases hc
    rw [ex] at h
    obtain ⟨⟨o₁, n₁, s₁⟩, h1, h2⟩ := Res.bind_eq_ok.1 h
    have hoka : Ok base vs p bl nl t a s.opn := hok.sub (fun m hm => List.mem_append_left _ hm) fun h => (Bool.or_eq_false_iff.1 h).1
    obtain ⟨o, ds, xr, q1, q2⟩ := ih.ex co base vs p bl nl t a ca s x outF outL o₁ n₁ s₁ hca hoka hr hF hLp h1
    by_cases ho : o = .norm
    · subst ho
      obtain ⟨rfl, rfl, q4, q5, q6, q7⟩ := q2.res
      dsimp only at h2
      have hnl : bl ≠ none → nl ≤ vs.length := fun hb => by
        obtain ⟨l, hl⟩ := Option.ne_none_iff_exists'.1 hb
        exact (hok.blk l hl).2.2.2
      have hokb : Ok base (decl vs a) p bl nl (tbcAfter t a) b s₁.opn := by
        refine ⟨q5.sorted, q6, fun l hl => ?_, fun hp => ?_, fun ht => ?_⟩
        · obtain ⟨g1, g2, g3, g4⟩ := hok.blk l hl
          refine ⟨g1, fun e he hle => ?_, fun m hm => g3 m (List.mem_append_right _ hm), Nat.le_trans g4 (decl_len _ _)⟩
          rcases q7 e he with h | ⟨m, hm, h⟩
          · exact g2 e h hle
          · rw [h, Nat.add_sub_cancel_left]
            exact g3 m (List.mem_append_left _ hm) (by omega)
        · have hp' := Bool.or_eq_false_iff.1 (hok.sp hp).2
          refine ⟨fun e he => ?_, hp'.2⟩
          rcases q7 e he with h | ⟨m, hm, _⟩
          · exact (hok.sp hp).1 e h
          · rw [protos_marks hp'.1] at hm
            exact nomatch hm
        · have ht' := tbcAfter_false ht
          rcases tbc_none q1 a t rfl ht with h | h
          · cases h
            have hz := q5.top
            have he := (up_split (a := base) (D_sorted q5.sorted) (Nat.le_add_right base vs.length))
            have hz' : up (base + vs.length) (D s₁.opn) = [] := by
              generalize hu : up (base + vs.length) (D s₁.opn) = u at hz
              cases hz
              rfl
            rw [he, hz', q5.low, List.nil_append, dn_all fun e he => hlt e (mem_D.1 he).1]
            exact hok.tbc ht'
          · exact absurd rfl (h ds)
      obtain ⟨o, db, xr', w1, w2⟩ := ih.ex co base (decl vs a) p bl nl (tbcAfter t a) b cb s₁ xr (ds ++ outF) (ds ++ outL) o' n' s' hcb hokb q4
        (q5.out (Nat.le_add_right _ _) hF hlt) (fun hb => q5.out (Nat.add_le_add_left (hnl hb) _) (hLp hb) hlt) h2
      exact ⟨o, db ++ ds, xr', .seq q1 w1, w2.seq (decl_len _ _) hnl q5 q6 q7⟩
    · have ho' : o₁ ≠ .norm := fun e => ho (q2.outc.1.1 e)
      have h3 : (o₁, n₁, s₁) = (o', n', s') := by
        cases o₁ with
        | norm => exact absurd rfl ho'
        | _ => injection h2
      cases h3
      exact ⟨o, ds, xr, .seqStop ho q1, q2.mono ho fun m hm => List.mem_append_left _ hm⟩
  | block b =>
    simp only [comp] at hc
    obtain ⟨cb, hcb, hc⟩ := Option.bind_eq_some_iff.1 hc
    cases hc
    rw [ex] at h
    have hokb := hok.block (b := b) (fun m hm hlt => List.mem_filter.2 ⟨hm, by simpa using hlt⟩) id
    obtain ⟨rfl, o, ds, xr, q1, q2⟩ := ih.sc co base vs p _ nl t b cb s x outF outL o' n' s' hcb hokb hr hF (fun hb => hLp fun e => hb (by rw [e]; rfl)) h
    refine ⟨o, ds, xr, q1, q2.mem, ?_⟩
    have q3 := q2.res
    cases o with
    | brk => exact ⟨fun e => q3.1 (by rw [e]; rfl), q3.2⟩
    | _ => exact q3
  | ite a b =>
    simp only [comp] at hc
    obtain ⟨ca, hca, hc⟩ := Option.bind_eq_some_iff.1 hc
    obtain ⟨cb, hcb, hc⟩ := Option.bind_eq_some_iff.1 hc
    cases hc
    rw [ex] at h
    have hoka := hok.block (b := a) (fun m hm hlt => List.mem_append_left _ (List.mem_filter.2 ⟨hm, by simpa using hlt⟩)) fun h => (Bool.or_eq_false_iff.1 h).1
    have hokb := hok.block (b := b) (fun m hm hlt => List.mem_append_right _ (List.mem_filter.2 ⟨hm, by simpa using hlt⟩)) fun h => (Bool.or_eq_false_iff.1 h).2
    cases hw : W s.tick with
    | true =>
      rw [hw, if_pos rfl] at h
      obtain ⟨rfl, o, ds, xr, q1, q2⟩ := ih.sc co base vs p _ nl t a ca { s with tick := s.tick + 1 } x.tock outF outL o' n' s' hca hoka hr.tock hF (fun hb => hLp fun e => hb (by rw [e]; rfl)) h
      refine ⟨o, ds, xr, .ite (by rw [← hr.1, hw, if_pos rfl]; exact q1), q2.mem, ?_⟩
      have q3 := q2.res
      cases o with
      | norm => exact ⟨q3.1, q3.2.1, q3.2.2.1, q3.2.2.2.1, q3.2.2.2.2.1, fun e he => (q3.2.2.2.2.2 e he).imp id fun ⟨m, hm, h⟩ => ⟨m, List.mem_append_left _ hm, h⟩⟩
      | brk =>
        obtain ⟨hb, r, x', g1, g2, g3⟩ := q3
        refine ⟨fun e => hb (by rw [e]; rfl), r, x', g1, g2, ?_⟩
        cases r with
        | none => exact ⟨g3.1, g3.2.1, g3.2.2.1, fun e he => (g3.2.2.2 e he).imp id fun ⟨m, hm, h⟩ => ⟨m, List.mem_append_left _ hm, h⟩⟩
        | some _ => exact g3
      | _ => exact q3
    | false =>
      rw [hw, if_neg (fun e => nomatch e)] at h
      obtain ⟨rfl, o, ds, xr, q1, q2⟩ := ih.sc co base vs p _ nl t b cb { s with tick := s.tick + 1 } x.tock outF outL o' n' s' hcb hokb hr.tock hF (fun hb => hLp fun e => hb (by rw [e]; rfl)) h
      refine ⟨o, ds, xr, .ite (by rw [← hr.1, hw, if_neg (fun e => nomatch e)]; exact q1), q2.mem, ?_⟩
      have q3 := q2.res
      cases o with
      | norm => exact ⟨q3.1, q3.2.1, q3.2.2.1, q3.2.2.2.1, q3.2.2.2.2.1, fun e he => (q3.2.2.2.2.2 e he).imp id fun ⟨m, hm, h⟩ => ⟨m, List.mem_append_right _ hm, h⟩⟩
      | brk =>
        obtain ⟨hb, r, x', g1, g2, g3⟩ := q3
        refine ⟨fun e => hb (by rw [e]; rfl), r, x', g1, g2, ?_⟩
        cases r with
        | none => exact ⟨g3.1, g3.2.1, g3.2.2.1, fun e he => (g3.2.2.2 e he).imp id fun ⟨m, hm, h⟩ => ⟨m, List.mem_append_right _ hm, h⟩⟩
        | some _ => exact g3
      | _ => exact q3
  | while_ b =>
    have hc0 := hc
    simp only [comp] at hc
    obtain ⟨cb, hcb, hc⟩ := Option.bind_eq_some_iff.1 hc
    cases hc
    rw [ex] at h
    dsimp only at h
    cases hw : W s.tick with
    | false =>
      rw [hw, if_neg (fun e => nomatch e)] at h
      cases h
      exact ⟨.norm, [], _, .whileEnd (by rw [← hr.1, hw]), Post.keep rfl hr.tock (Keep.refl hs) hlt⟩
    | true =>
      rw [hw, if_pos rfl] at h
      obtain ⟨⟨o₁, n₁, s₁⟩, h1, h2⟩ := Res.bind_eq_ok.1 h
      have hwx : W x.tick = true := by rw [← hr.1, hw]
      have hok' := hok.loop (b := b) id
      have hz : up (base + vs.length) (D s.opn) = [] := up_nil fun e he => hlt e (mem_D.1 he).1
      obtain ⟨rfl, o, ds, xr, q1, q2⟩ := ih.sc co base vs p _ vs.length t b cb { s with tick := s.tick + 1 } x.tock outF [] o₁ n₁ s₁ hcb hok' hr.tock hF
        (fun _ => by show Ms (up (base + vs.length) (D s.opn)) []; rw [hz]; exact List.Forall₂.nil) h1
      by_cases ho : o = .norm
      · subst ho
        obtain ⟨rfl, _, q4, q5, q6, q7⟩ := q2.res
        have hD := q5.D_eq hlt q6
        have hz' : ds = [] := by
          have := q5.top
          rw [hD, hz] at this
          exact this.nil_left
        subst hz'
        dsimp only at h2
        have hms : ∀ e ∈ s₁.opn, e ∈ s.opn ∨ ∃ m ∈ marks vs (.while_ b), e.lvl = base + m := q7
        obtain ⟨o, ds, xr', w1, w2⟩ := ih.ex co base vs p bl nl t (.while_ b) _ s₁ xr outF outL o' n' s' hc0 (hok.again q5.sorted q6 hD hms) q4 (by rw [hD]; exact hF)
          (fun hb => by rw [hD]; exact hLp hb) h2
        exact ⟨o, ds, xr', .whileNext hwx q1 w1, w2.before hD hms⟩
      · by_cases hob : o = .brk
        · subst hob
          have hb := q2.res.2
          rw [List.append_nil] at hb
          obtain ⟨r, x', g1, o₂, d, g2, g3⟩ := loop_brk (bl := bl) (nl := nl) (ms := marks vs (.while_ b)) (outL := outL) hlt hF rfl
            (fun m hm h => hm) q2.mem hb
          have h3 : (if o₁ = .brk then Outc.norm else o₁, vs.length, s₁) = (o', n', s') := by
            cases o₁ with
            | norm => exact absurd (q2.outc.1.1 rfl) (fun e => nomatch e)
            | brk => injection h2
            | _ => injection h2
          injection h3 with e1 e2
          injection e2 with e2 e3
          subst e1 e2 e3
          have := Sem.whileBrk hwx q1 g1
          rw [g2] at this
          exact ⟨o₂, d, x', this, g3⟩
        · have h3 : (o₁, vs.length, s₁) = (o', n', s') := by
            cases o₁ with
            | norm => exact absurd (q2.outc.1.1 rfl) ho
            | brk => exact absurd (q2.outc.2.1 rfl) hob
            | _ => injection h2
          cases h3
          exact ⟨o, ds, xr, .whileStop hwx ho hob q1, loop_stop q2 ho hob⟩
  | repeat_ b =>
    have hc0 := hc
    simp only [comp] at hc
    obtain ⟨cb, hcb, hc⟩ := Option.bind_eq_some_iff.1 hc
    cases hc
    rw [ex] at h
    obtain ⟨⟨o₁, n₁, s₁⟩, h1, h2⟩ := Res.bind_eq_ok.1 h
    have hok' := hok.loop (b := b) id
    have hz : up (base + vs.length) (D s.opn) = [] := up_nil fun e he => hlt e (mem_D.1 he).1
    obtain ⟨o, ds, xr, q1, q2⟩ := ih.ex co base vs p _ vs.length t b cb s x outF [] o₁ n₁ s₁ hcb hok' hr hF
      (fun _ => by rw [hz]; exact List.Forall₂.nil) h1
    by_cases ho : o = .norm
    · subst ho
      obtain ⟨rfl, rfl, q4, q5, q6, q7⟩ := q2.res
      dsimp only at h2
      obtain ⟨⟨r, s₂⟩, h3, h4⟩ := Res.bind_eq_ok.1 h2
      obtain ⟨r', x', c1, c2, c3, c4⟩ := block_end (s₁ := { s₁ with tick := s₁.tick + 1 }) ih hlt (decl_len vs b) q4.tock q5 q6 q7 h3
      cases r with
      | some v =>
        cases r' with
        | none => exact c4.elim
        | some q =>
          obtain ⟨v', p⟩ := q
          obtain ⟨rfl, c4⟩ := c4
          cases h4
          exact ⟨.err v, p, x', .repeatEnd q1 c1 (fun e => nomatch e), c3, rfl, c2, c4.down (Nat.le_add_right _ _) hF hlt⟩
      | none =>
        cases r' with
        | some _ => exact c4.elim
        | none =>
          obtain ⟨g1, g2, g3⟩ := c4
          have hD := g1.D_eq hlt g2
          dsimp only at h4
          cases hw : W s₁.tick with
          | false =>
            rw [hw, if_neg (fun e => nomatch e)] at h4
            cases h4
            refine ⟨.norm, [], x', .repeatEnd q1 c1 (fun _ => by rw [← q4.1, hw]), Post.plain rfl c2 g1.sorted hD hlt (Nat.le_refl _) fun e he => (g3 e he).imp id fun ⟨m, hm, h⟩ => ?_⟩
            exact ⟨m, hm, by simpa using (List.mem_filter.1 hm).2, h⟩
          | true =>
            rw [hw, if_pos rfl] at h4
            obtain ⟨o, ds, xr', w1, w2⟩ := ih.ex co base vs p bl nl t (.repeat_ b) _ s₂ x' outF outL o' n' s' hc0 (hok.again g1.sorted g2 hD g3) c2 (by rw [hD]; exact hF)
              (fun hb => by rw [hD]; exact hLp hb) h4
            exact ⟨o, ds, xr', .repeatNext q1 c1 (by rw [← q4.1, hw]) w1, w2.before hD g3⟩
    · by_cases hob : o = .brk
      · subst hob
        have hb := q2.res.2
        rw [List.append_nil] at hb
        have h3 : (if o₁ = .brk then Outc.norm else o₁, vs.length, s₁) = (o', n', s') := by
          cases o₁ with
          | norm => exact absurd (q2.outc.1.1 rfl) (fun e => nomatch e)
          | brk => injection h2
          | _ => injection h2
        injection h3 with e1 e2
        injection e2 with e2 e3
        subst e1 e2 e3
        obtain ⟨r, x', g1, o₂, d, g2, g3⟩ := loop_brk (bl := bl) (nl := nl) (ms := marks vs (.repeat_ b)) (outL := outL) (n' := vs.length) hlt hF rfl
          (fun m hm h => List.mem_filter.2 ⟨hm, by simpa using h⟩) q2.mem hb
        have := Sem.repeatBrk q1 g1
        rw [g2] at this
        exact ⟨o₂, d, x', this, g3⟩
      · have h3 : (o₁, vs.length, s₁) = (o', n', s') := by
          cases o₁ with
          | norm => exact absurd (q2.outc.1.1 rfl) ho
          | brk => exact absurd (q2.outc.2.1 rfl) hob
          | _ => injection h2
        cases h3
        exact ⟨o, ds, xr, .repeatStop ho hob q1, loop_stop q2 ho hob⟩
  | brk =>
    simp only [comp] at hc
    obtain ⟨l, rfl, hc⟩ := Option.map_eq_some_iff.1 hc
    cases hc
    rw [ex] at h
    obtain ⟨⟨r, s₁⟩, h1, h2⟩ := Res.bind_eq_ok.1 h
    obtain ⟨g1, g2⟩ := brk_ok hok
    obtain ⟨r', x', c1, c2, c3⟩ := ih.jm base vs.length _ (base + nl) s x outL r s₁ hs hlt g1 g2 (hLp (fun e => nomatch e)) hr h1
    have c4 := c3.res
    refine ⟨.brk, [], x, .brk, ?_⟩
    cases r with
    | none =>
      cases r' with
      | some _ => exact c4.elim
      | none =>
        cases h2
        refine ⟨fun e he => (c3.mem e he).imp id fun h => by omega, (fun e => nomatch e), none, x', c1, c2, rfl, c4.1, c4.2, fun e he => .inl ((c3.mem e he).resolve_right fun h => ?_)⟩
        have := c4.2 e he
        have := (hok.blk l rfl).2.2.2
        omega
    | some v =>
      cases r' with
      | none => exact c4.elim
      | some q =>
        obtain ⟨v', p⟩ := q
        obtain ⟨rfl, c4⟩ := c4
        cases h2
        exact ⟨fun e he => (c3.mem e he).imp id fun h => by omega, (fun e => nomatch e), some (v, p), x', c1, c2, rfl, c4⟩
  | ret =>
    cases hc
    rw [ex] at h
    obtain ⟨⟨r, s₁⟩, h1, h2⟩ := Res.bind_eq_ok.1 h
    have := ret_post ih (L := s.opn) (outL := outL) (ms := marks vs .ret) (bl := bl) (nl := nl) (n₁ := (decl vs .ret).length) hs hlt (fun h => (hok.sp h).1) hr hF rfl (fun _ h => h) h1
    refine ⟨.ret, [], x, .ret, ?_⟩
    cases r <;> cases h2 <;> exact this
  | call f =>
    cases hc
    rw [ex] at h
    obtain ⟨⟨r, s₁⟩, h1, h2⟩ := Res.bind_eq_ok.1 h
    obtain ⟨r', x', c1, c2, c4⟩ := call_post hG ih hs hlt hr h1
    have hcall := Sem.call c1
    cases r with
    | none =>
      cases r' with
      | some _ => exact c4.elim
      | none =>
        cases h2
        exact ⟨.norm, [], x', hcall, Post.keep rfl c2 c4 hlt⟩
    | some v =>
      cases r' with
      | none => exact c4.elim
      | some q =>
        obtain ⟨v', p⟩ := q
        obtain ⟨rfl, c4, c5⟩ := c4
        cases h2
        exact ⟨.err v, p, x', hcall, c5, rfl, c2, c4.down (Nat.le_add_right _ _) hF hlt⟩
  | tail f =>
    cases hc
    rw [ex] at h
    cases t with
    | true =>
      rw [if_neg (by simp)] at h
      obtain ⟨⟨r, s₁⟩, h1, h2⟩ := Res.bind_eq_ok.1 h
      obtain ⟨r', x', c1, c2, c4⟩ := call_post hG ih hs hlt hr h1
      have hcall := Sem.tail c1
      cases r with
      | none =>
        cases r' with
        | some _ => exact c4.elim
        | none =>
          dsimp only at h2
          obtain ⟨⟨r, s₂⟩, h3, h4⟩ := Res.bind_eq_ok.1 h2
          have := ret_post ih (L := s.opn) (outL := outL) (ms := marks vs (.tail f)) (bl := bl) (nl := nl) (n₁ := (decl vs (.tail f)).length) (s := s₁) c4.sorted
            (fun e he => hlt e (c4.mem e he)) (fun h e he => (hok.sp h).1 e (c4.mem e he)) c2 (by rw [c4.eq]; exact hF) c4.eq c4.mem h3
          refine ⟨.ret, [], x', hcall, ?_⟩
          cases r <;> cases h4 <;> exact this
      | some v =>
        cases r' with
        | none => exact c4.elim
        | some q =>
          obtain ⟨v', p⟩ := q
          obtain ⟨rfl, c4, c5⟩ := c4
          cases h2
          exact ⟨.err v, p, x', hcall, c5, rfl, c2, c4.down (Nat.le_add_right _ _) hF hlt⟩
    | false =>
      rw [if_pos (by rfl)] at h
      obtain ⟨⟨r, s₁⟩, h1, h2⟩ := Res.bind_eq_ok.1 h
      have hz := hok.tbc rfl
      have hF0 : outF = [] := by rw [hz] at hF; exact hF.nil_left
      subst hF0
      have hdrop : drop base (retClose p) s.opn = dn base s.opn := by
        cases p with
        | true => exact drop_dn hs base
        | false => exact (dn_all (hok.sp rfl).1).symm
      have hDn : D (dn base s.opn) = D s.opn := by
        rw [D_dn]
        have := split (D_sorted hs) base
        rw [hz] at this
        exact this
      rw [hdrop] at h1
      obtain ⟨r', x', c1, c2, c3⟩ := ih.fn co base (F f) (G f) { s with opn := dn base s.opn } x r s₁ (hG f) (dn_sorted hs _) (fun e he => (mem_dn.1 he).2) hr h1
      have c4 := c3.res
      have hmem : ∀ e ∈ s₁.opn, e ∈ s.opn ∨ base ≤ e.lvl := fun e he => (c3.mem e he).imp (fun h => (mem_dn.1 h).1) id
      have hcall := Sem.tail c1
      cases r with
      | none =>
        cases r' with
        | some _ => exact c4.elim
        | none =>
          cases h2
          exact ⟨.ret, [], x', hcall, hmem, none, x', .runNil, c2, rfl, c4.1.of_D hDn, c4.2⟩
      | some v =>
        cases r' with
        | none => exact c4.elim
        | some q =>
          obtain ⟨v', p⟩ := q
          obtain ⟨rfl, c4⟩ := c4
          cases h2
          refine ⟨.err v, p, x', hcall, hmem, rfl, c2, ?_⟩
          rw [List.append_nil]
          exact c4.of_D hDn
  | pcall f =>
    cases hc
    rw [ex] at h
    have hlt' : ∀ e ∈ s.opn, e.lvl < base + vs.length + 1 := fun e he => Nat.lt_succ_of_lt (hlt e he)
    split at h
    · obtain ⟨rfl, rfl, x', c1, c2, c3⟩ := ih.re _ f vs.length s x o' n' s' hs hlt' hr h
      exact ⟨.norm, [], x', c1, Post.keep rfl c2 c3 hlt⟩
    · obtain ⟨⟨r, s₁⟩, h1, h2⟩ := Res.bind_eq_ok.1 h
      obtain ⟨x', c1, c2, c3⟩ := ih.pr _ _ (F f) (G f) s x r s₁ (hG f) hs hlt' (Nat.le_succ _) hr h1
      cases r with
      | none =>
        cases h2
        exact ⟨.norm, [], x', .pcall c1, Post.keep rfl c2 c3 hlt⟩
      | some v =>
        cases h2
        obtain ⟨p, x₁, d1, d2⟩ := c1
        exact ⟨.norm, [], _, .pcallErr d1 d2, Post.keep rfl (c2.see (.caught v) s₁.opn) c3 hlt⟩
  | resume f =>
    cases hc
    rw [ex] at h
    obtain ⟨⟨r, s₁⟩, h1, h2⟩ := Res.bind_eq_ok.1 h
    obtain ⟨r', x', c1, c2, c3⟩ := ih.fn true 1 (F f) (G f) { s with opn := [] } x r s₁ (hG f) .nil (fun e he => nomatch he) hr h1
    have c4 := c3.res
    cases r with
    | none =>
      cases r' with
      | some _ => exact c4.elim
      | none =>
        cases h2
        exact ⟨.norm, [], x', .resume c1, Post.keep rfl c2 (Keep.refl hs) hlt⟩
    | some v =>
      cases r' with
      | none => exact c4.elim
      | some q =>
        obtain ⟨v', p⟩ := q
        obtain ⟨rfl, c4⟩ := c4
        cases h2
        exact ⟨.norm, [], _, .resumeErr c1, Post.keep rfl (c2.see (.died v) s.opn) (Keep.refl hs) hlt⟩
  | wrap f =>
    cases hc
    rw [ex] at h
    obtain ⟨⟨r, s₁⟩, h1, h2⟩ := Res.bind_eq_ok.1 h
    obtain ⟨r', x', c1, c2, c3⟩ := ih.fn true 1 (F f) (G f) { s with opn := [] } x r s₁ (hG f) .nil (fun e he => nomatch he) hr h1
    have c4 := c3.res
    cases r with
    | none =>
      cases r' with
      | some _ => exact c4.elim
      | none =>
        cases h2
        exact ⟨.norm, [], x', .wrap c1, Post.keep rfl c2 (Keep.refl hs) hlt⟩
    | some v =>
      cases r' with
      | none => exact c4.elim
      | some q =>
        obtain ⟨v', p⟩ := q
        obtain ⟨rfl, c4⟩ := c4
        dsimp only at h2
        obtain ⟨⟨r₂, s₂⟩, h3, h4⟩ := Res.bind_eq_ok.1 h2
        cases h4
        have htop : Ms (up 0 (D s₁.opn)) p := by
          rw [up_congr (b := 1) fun e he => ?_]
          · exact c4.top
          · have := (c3.mem e (mem_D.1 he).1).resolve_left (fun h => nomatch h)
            omega
        obtain ⟨x₂, d1, d2⟩ := ih.cp 0 0 s₁ x' p r₂ s₂ c4.sorted htop c2 h3
        exact ⟨.err v, [], x₂, .wrapErr c1 d1, fun e he => .inl he, rfl, d2, (Fin.refl hs hlt).down (Nat.le_add_right _ _) hF hlt⟩

theorem all (hG : ∀ f, compFun (F f) = some (G f)) : ∀ k, All W F G k
  | 0 => by
    refine ⟨?_, ?_, ?_, ?_, ?_, ?_, ?_, ?_, ?_⟩
    · intro co base vs p bl nl t a c s x outF outL o' n' s' _ _ _ _ _ h; rw [ex] at h; exact nomatch h
    · intro co base vs p bl nl t a c s x outF outL o' n' s' _ _ _ _ _ h; rw [scope] at h; exact nomatch h
    · intro level top s x ds r s' _ _ _ _ h; rw [close] at h; exact nomatch h
    · intro level top v s x ds r s' _ _ _ h; rw [close] at h; exact nomatch h
    · intro level top s x ds r s' _ _ _ h; rw [close] at h; exact nomatch h
    · intro base n cl lv s x ds r s' _ _ _ _ _ _ h; rw [jmp] at h; exact nomatch h
    · intro co base b f s x r s' _ _ _ _ h; rw [fn] at h; exact nomatch h
    · intro oldtop base b f s x r s' _ _ _ _ _ h; rw [prot] at h; exact nomatch h
    · intro oldtop f n s x o' n' s' _ _ _ h; rw [recover] at h; exact nomatch h
  | k + 1 => by
    have ih := all hG k
    exact ⟨ex_step hG ih, sc_step ih, cl_step ih, cc_step ih, cp_step ih, jm_step ih, fn_step ih, pr_step ih, re_step hG ih⟩

end Verif.Defer
