import Verif.Scope.Rel
/-! The parser follows the scopes, event by event. -/
namespace Verif.Scope

/-- the state of the parser and the scopes -/
structure Inv (s : PS) (a : A) : Prop where
  rel : Rel a.captured s.act s.fs a.funcs
  nodup : (s.act.map Decl.id).Nodup
  pos : ∀ d ∈ s.act, d.id ≠ 0
  lt : ∀ d ∈ s.act, d.id < s.next
  next : s.next = a.next
  zero : 0 ∈ a.captured
  cap : ∀ c ∈ a.captured, c < s.next
  ne : s.fs ≠ []

/-- what comes out is what scoping says -/
def Match (s' : PS) : Out → AOut → Prop
  | .none, .none => True
  | .closes r, .leave used outer => r = if used then some outer else none
  | .proto _, .proto => True
  | .ref (.var v), .var d => denotes s'.act s'.fs v = some d
  | .ref (.field v), .field d => denotes s'.act s'.fs v = some d
  | _, _ => False

/-- the limits: 125 upvalues and 125 variables in a function -/
def Limit (s : PS) : Ev → Prop
  | .use _ => ∃ f ∈ s.fs, 125 ≤ f.ups.length
  | .new _ => ∃ f fs, s.fs = f :: fs ∧ f.firstlocal + 125 ≤ s.act.length
  | _ => False

theorem look_cap_lt {s : PS} {a : A} (h : Inv s a) {n d : Nat} (hl : look n a.funcs = some d) : d < s.next := by
  rcases look_mem h.rel hl with rfl | ⟨x, hx, rfl⟩
  · exact h.cap 0 h.zero
  · exact h.lt x hx

theorem captures_look {n d : Nat} {as : List AF} (h : captures n as = some d) : look n as = some d := by
  cases as with
  | nil => cases h
  | cons a as =>
    simp only [captures] at h
    split at h
    · cases h
    · rename_i hf
      simp only [look]
      cases hx : a.vis.find? (·.name = n) with
      | some x => rw [hx] at hf; simp at hf
      | none => exact h

theorem capture_eq (a : A) (n : Nat) : a.capture n = { a with captured := after true n a.funcs a.captured } := by
  unfold A.capture after
  simp only [if_true]
  cases captures n a.funcs <;> rfl

/-- a use of a name that is known -/
theorem use_inv {s : PS} {a : A} (h : Inv s a) {n d : Nat} (hl : look n a.funcs = some d) :
    (∃ fs' v, singlevaraux s.act n s.fs true = .ok (fs', v) ∧ v ≠ .void ∧ Inv { s with fs := fs' } (a.capture n) ∧
      denotes s.act fs' v = some d ∧ Ext s.fs fs' ∧
      ((∃ r, v = .loc r) ↔ ∃ f as', a.funcs = f :: as' ∧ (f.vis.find? (·.name = n)).isSome = true)) ∨
    (singlevaraux s.act n s.fs true = .err "too many upvalues" ∧ ∃ f ∈ s.fs, 125 ≤ f.ups.length) := by
  have hs := (singlevaraux_spec n s.fs a.funcs s.act [] a.captured true h.rel (by simpa using h.nodup) h.pos h.zero
    (Or.inl h.ne)).2 d hl
  rw [List.append_nil] at hs
  rcases hs with ⟨fs', v, h1, h2, h3, h4, h5, h6⟩ | hs
  · left
    refine ⟨fs', v, h1, h2, ?_, h4, h5, h6⟩
    rw [capture_eq]
    have hsub : ∀ c ∈ after true n a.funcs a.captured, c ∈ a.captured ∨ c = d := by
      intro c hc
      unfold after at hc
      simp only [if_true] at hc
      cases hcp : captures n a.funcs with
      | none => rw [hcp] at hc; exact Or.inl hc
      | some e =>
        rw [hcp] at hc
        have := captures_look hcp
        rw [hl] at this
        cases this
        rcases List.mem_cons.1 hc with hc | hc
        · exact Or.inr hc
        · exact Or.inl hc
    have hsup : ∀ c ∈ a.captured, c ∈ after true n a.funcs a.captured := by
      intro c hc
      unfold after
      simp only [if_true]
      cases hcp : captures n a.funcs with
      | none => exact hc
      | some e => exact List.mem_cons_of_mem _ hc
    exact {
      rel := h3
      nodup := h.nodup
      pos := h.pos
      lt := h.lt
      next := h.next
      zero := hsup 0 h.zero
      cap := fun c hc => by
        rcases hsub c hc with hc | rfl
        · exact h.cap c hc
        · exact look_cap_lt h hl
      ne := by
        intro e
        have hne := h.ne
        show False
        cases hfs : s.fs with
        | nil => exact hne hfs
        | cons f fs =>
          rw [hfs] at h5
          cases fs' with
          | nil => exact h5
          | cons => cases e }
  · exact Or.inr hs

theorem step_spec {s : PS} {a : A} (h : Inv s a) (e : Ev) :
    match a.step e with
    | none => step s e = .ub
    | some (ao, a') =>
      (∃ o s', step s e = .ok (o, s') ∧ Inv s' a' ∧ Match s' o ao) ∨ (∃ m, step s e = .err m ∧ Limit s e) := by
  obtain ⟨act, fs, next⟩ := s
  obtain ⟨as, anext, cap⟩ := a
  have hrel := h.rel
  dsimp only at hrel
  cases fs with
  | nil => exact absurd rfl h.ne
  | cons f fs =>
  cases as with
  | nil => exact hrel.elim
  | cons a as =>
  obtain ⟨pre, h1, h2, h3, h4, ⟨h5, h5'⟩, h6, h7, h8⟩ := hrel
  have hlen : act.length = f.firstlocal + f.nactvar + a.pending.length := by
    rw [h1, h2, h3]; simp; omega
  have hnx : next = anext := h.next
  cases e with
  | new n =>
    simp only [A.step, step, newLocalvar]
    by_cases hlim : 125 < act.length + 1 - f.firstlocal
    · rw [if_pos hlim]
      exact Or.inr ⟨_, rfl, f, fs, rfl, by dsimp only; omega⟩
    · rw [if_neg hlim]
      left
      refine ⟨_, _, rfl, ?_, trivial⟩
      have hcn : next ∉ cap := fun hc => Nat.lt_irrefl _ (h.cap _ hc)
      exact {
        rel := ⟨pre, by rw [h1, ← hnx]; simp [AF.vis], h2, h3, h4, ⟨h5, by
          intro d hd
          rcases List.mem_append.1 hd with hd | hd
          · exact h5' d hd
          · rw [List.mem_singleton.1 hd]; rw [← hnx]; exact hcn⟩, h6, h7, h8⟩
        nodup := by
          dsimp only
          rw [List.map_append]
          refine List.nodup_append.2 ⟨h.nodup, by simp, ?_⟩
          intro x hx y hy
          obtain ⟨d, hd, rfl⟩ := List.mem_map.1 hx
          simp only [List.map_cons, List.map_nil, List.mem_singleton] at hy
          have := h.lt d hd
          dsimp only at this
          omega
        pos := by
          intro d hd
          rcases List.mem_append.1 hd with hd | hd
          · exact h.pos d hd
          · rw [List.mem_singleton.1 hd]
            have := h.cap 0 h.zero
            dsimp only at this ⊢
            omega
        lt := by
          intro d hd
          rcases List.mem_append.1 hd with hd | hd
          · exact Nat.lt_succ_of_lt (h.lt d hd)
          · rw [List.mem_singleton.1 hd]; exact Nat.lt_succ_self _
        next := by show next + 1 = anext + 1; rw [hnx]
        zero := h.zero
        cap := fun c hc => Nat.lt_succ_of_lt (h.cap c hc)
        ne := (fun e => nomatch e) }
  | activate k =>
    simp only [A.step, step, adjustlocalvars]
    by_cases hk : k ≤ a.pending.length
    · rw [if_pos hk, if_pos (by omega)]
      cases hb : a.blocks with
      | nil => exact absurd hb h5
      | cons b bs =>
        dsimp only
        left
        refine ⟨_, _, rfl, ?_, trivial⟩
        have hvis : (AF.mk (((a.pending.take k).reverse ++ b) :: bs) (a.pending.drop k)).vis = (a.pending.take k).reverse ++ a.vis := by
          simp [AF.vis, hb]
        refine { h with rel := ⟨pre, ?_, h2, ?_, ?_, ⟨(fun e => nomatch e), ?_⟩, h6, h7, h8⟩, ne := (fun e => nomatch e) }
        · rw [hvis, h1]; simp [List.take_append_drop]
        · rw [hvis]; simp [h3]; omega
        · rw [hb] at h4
          cases hbl : f.bls with
          | nil => rw [hbl] at h4; exact h4.elim
          | cons b0 bs0 =>
            rw [hbl] at h4
            obtain ⟨q1, q2, q3⟩ := h4
            refine ⟨q1, ?_, q3⟩
            rw [q2]
            constructor
            · rintro ⟨d, hd, hc⟩; exact ⟨d, List.mem_append_right _ hd, hc⟩
            · rintro ⟨d, hd, hc⟩
              rcases List.mem_append.1 hd with hd | hd
              · exact absurd hc (h5' d (List.mem_of_mem_take (List.mem_reverse.1 hd)))
              · exact ⟨d, hd, hc⟩
        · intro d hd; exact h5' d (List.mem_of_mem_drop hd)
    · rw [if_neg hk, if_neg (by omega)]
  | enter =>
    simp only [A.step, step, enterblock]
    left
    refine ⟨_, _, rfl, ?_, trivial⟩
    refine { h with rel := ⟨pre, ?_, h2, ?_, ⟨?_, ?_, h4⟩, ⟨(fun e => nomatch e), h5'⟩, h6, h7, h8⟩, ne := (fun e => nomatch e) }
    · simpa [AF.vis] using h1
    · simpa [AF.vis] using h3
    · simpa [AF.vis] using h3
    · simp
  | leave =>
    simp only [A.step, step, leaveblock]
    cases hb : a.blocks with
    | nil => exact absurd hb h5
    | cons l ls =>
      rw [hb] at h4
      cases hbl : f.bls with
      | nil => rw [hbl] at h4; exact h4.elim
      | cons b0 bs0 =>
        rw [hbl] at h4
        obtain ⟨q1, q2, q3⟩ := h4
        cases hp : a.pending with
        | cons p ps =>
          rw [hp] at hlen
          rw [if_neg (by simp at hlen ⊢; omega)]
          cases ls <;> rfl
        | nil =>
          rw [hp] at hlen
          rw [if_pos (by simp at hlen; omega)]
          cases ls with
          | nil =>
            cases bs0 with
            | nil => rfl
            | cons => exact q3.elim
          | cons l' ls =>
            cases bs0 with
            | nil => exact q3.elim
            | cons b1 bs1 =>
              dsimp only [removevars]
              left
              refine ⟨_, _, rfl, ?_, ?_⟩
              · have hv : a.vis = l ++ (l' :: ls).flatten := by simp [AF.vis, hb]
                have hact : act.take (act.length - (f.nactvar - b0.nactvar)) = pre ++ (l' :: ls).flatten.reverse := by
                  rw [h3, q1, hv, h1, hp, hv]
                  simp only [List.append_nil, List.reverse_append, ← List.append_assoc]
                  rw [List.take_append_of_le_length (by simp; omega)]
                  rw [List.take_of_length_le (by simp; omega)]
                have hsub : ∀ d ∈ act.take (act.length - (f.nactvar - b0.nactvar)), d ∈ act := fun d hd => List.mem_of_mem_take hd
                exact {
                  rel := ⟨pre, by rw [hact]; simp [AF.vis], h2, by dsimp only [AF.vis]; exact q1, q3, ⟨(fun e => nomatch e), (fun d hd => nomatch hd)⟩, h6, h7, h8⟩
                  nodup := by
                    dsimp only
                    rw [List.map_take]
                    exact List.Pairwise.sublist (List.take_sublist _ _) h.nodup
                  pos := fun d hd => h.pos d (hsub d hd)
                  lt := fun d hd => h.lt d (hsub d hd)
                  next := h.next
                  zero := h.zero
                  cap := h.cap
                  ne := (fun e => nomatch e) }
              · dsimp only [Match]
                have hiff : b0.upval = l.any (fun d => decide (d.id ∈ cap)) := by
                  rw [Bool.eq_iff_iff, q2]
                  simp
                rw [hiff, q1]
  | func =>
    simp only [A.step, step, openFunc, enterblock]
    left
    refine ⟨_, _, rfl, ?_, trivial⟩
    refine { h with rel := ?_, ne := (fun e => nomatch e) }
    refine ⟨act, by simp [AF.vis], rfl, rfl, ⟨rfl, by simp, trivial⟩, ⟨(fun e => nomatch e), (fun d hd => nomatch hd)⟩, (fun u hu => nomatch hu),
      (fun e => nomatch e), h.rel⟩
  | endfunc =>
    simp only [A.step, step, closeFunc]
    cases fs with
    | nil =>
      cases as with
      | nil => rfl
      | cons => exact h8.elim
    | cons f' fs =>
      cases as with
      | nil => exact h8.elim
      | cons a' as =>
        dsimp only
        cases hb : a.blocks with
        | nil => exact absurd hb h5
        | cons l ls =>
          rw [hb] at h4
          cases hbl : f.bls with
          | nil => rw [hbl] at h4; exact h4.elim
          | cons b0 bs0 =>
            rw [hbl] at h4
            obtain ⟨q1, q2, q3⟩ := h4
            cases hp : a.pending with
            | cons p ps =>
              rw [hp] at hlen
              rw [if_neg (by simp at hlen ⊢; omega)]
              cases ls <;> rfl
            | nil =>
              rw [hp] at hlen
              rw [if_pos (by simp at hlen; omega)]
              cases ls with
              | cons l' ls =>
                cases bs0 with
                | nil => exact q3.elim
                | cons => rfl
              | nil =>
                cases bs0 with
                | cons => exact q3.elim
                | nil =>
                  dsimp only [removevars]
                  left
                  refine ⟨_, _, rfl, ?_, trivial⟩
                  have hact : act.take (act.length - (f.nactvar - b0.nactvar)) = pre := by
                    rw [h3, q1, h1, hp]
                    simp
                  have hsub : ∀ d ∈ act.take (act.length - (f.nactvar - b0.nactvar)), d ∈ act := fun d hd => List.mem_of_mem_take hd
                  exact {
                    rel := by dsimp only; rw [hact]; exact h8
                    nodup := by
                      dsimp only
                      rw [List.map_take]
                      exact List.Pairwise.sublist (List.take_sublist _ _) h.nodup
                    pos := fun d hd => h.pos d (hsub d hd)
                    lt := fun d hd => h.lt d (hsub d hd)
                    next := h.next
                    zero := h.zero
                    cap := h.cap
                    ne := (fun e => nomatch e) }
  | use n =>
    simp only [A.step, step, singlevar]
    cases hl : look n (a :: as) with
    | some d =>
      dsimp only
      rcases use_inv h hl with ⟨fs', v, e1, e2, e3, e4, _⟩ | ⟨e1, e2⟩
      · left
        dsimp only at e1
        rw [e1]
        cases v with
        | void => exact absurd rfl e2
        | loc r => exact ⟨_, _, rfl, e3, e4⟩
        | upv i => exact ⟨_, _, rfl, e3, e4⟩
      · right
        dsimp only at e1
        rw [e1]
        exact ⟨_, rfl, e2⟩
    | none =>
      dsimp only
      have e0 := (singlevaraux_spec n _ _ act [] cap true h.rel (by simpa using h.nodup) h.pos h.zero (Or.inl h.ne)).1 hl
      rw [List.append_nil] at e0
      dsimp only at e0
      rw [e0]
      dsimp only
      cases hle : look env (a :: as) with
      | none =>
        exfalso
        have : ∀ as : List AF, look env as ≠ none := by
          intro as
          induction as with
          | nil => simp [look]
          | cons x xs ih =>
            simp only [look]
            split
            · simp
            · exact ih
        exact this _ hle
      | some d =>
        dsimp only
        rcases use_inv h hle with ⟨fs', v, e1, e2, e3, e4, _⟩ | ⟨e1, e2⟩
        · left
          dsimp only at e1
          rw [e1]
          exact ⟨_, _, rfl, e3, e4⟩
        · right
          dsimp only at e1
          rw [e1]
          exact ⟨_, rfl, e2⟩

theorem init_inv : Inv init A.init where
  rel := by
    refine ⟨[], rfl, rfl, rfl, ⟨rfl, by simp, trivial⟩, ⟨(fun e => nomatch e), (fun d hd => nomatch hd)⟩, ?_, ?_, rfl⟩
    · intro u hu
      rw [List.mem_singleton.1 hu]
      exact ⟨0, rfl, rfl, List.mem_singleton.2 rfl⟩
    · intro _; exact ⟨_, List.mem_singleton.2 rfl, rfl⟩
  nodup := by simp [init]
  pos := (fun d hd => nomatch hd)
  lt := (fun d hd => nomatch hd)
  next := rfl
  zero := List.mem_singleton.2 rfl
  cap := by intro c hc; rw [List.mem_singleton.1 hc]; decide
  ne := (fun e => nomatch e)

end Verif.Scope
