import Verif.Defer.Sim

/-!
# The statements
-/
namespace Verif.Defer

variable {W : Nat → Bool} {F : Nat → S} {G : Nat → Fn}

/-- A statement that leaves no function to be called. -/
theorem Post.plain {base : Nat} {n n₁ n' : Nat} {ms bl nl} {L : List Ent} {outF outL : Pend} {xr : X} {s' : St} (hn : n' = n₁) (hr : Rel s' xr) (hs : Sorted s'.opn) (hD : D s'.opn = D L)
    (hlt : ∀ e ∈ L, e.lvl < base + n) (hle : n ≤ n₁) (hm : ∀ e ∈ s'.opn, e ∈ L ∨ ∃ m ∈ ms, m < n ∧ e.lvl = base + m) :
    Post W F base n n₁ ms bl nl L outF outL .norm [] xr .norm n' s' where
  mem e he := (hm e he).imp id fun ⟨m, _, _, h⟩ => by omega
  res := by
    refine ⟨rfl, hn, hr, ⟨?_, by rw [hD], hs⟩, fun e he => ?_, fun e he => (hm e he).imp id fun ⟨m, h, _, h'⟩ => ⟨m, h, h'⟩⟩
    · rw [hD, up_nil fun e he => hlt e (mem_D.1 he).1]
      exact List.Forall₂.nil
    · rcases hm e he with h | ⟨m, _, h, h'⟩
      · have := hlt e h; omega
      · omega

/-- The same after a call: nothing is new. -/
theorem Post.keep {base : Nat} {n n' : Nat} {ms bl nl} {L : List Ent} {outF outL : Pend} {xr : X} {s' : St} (hn : n' = n) (hr : Rel s' xr) (hk : Keep L s'.opn)
    (hlt : ∀ e ∈ L, e.lvl < base + n) : Post W F base n n ms bl nl L outF outL .norm [] xr .norm n' s' :=
  Post.plain hn hr hk.sorted hk.eq hlt (Nat.le_refl _) fun e he => .inl (hk.mem e he)

theorem Keep.refl {L : List Ent} (h : Sorted L) : Keep L L := ⟨h, rfl, fun _ h => h⟩

theorem Post.mono {base n n₁ n₁' : Nat} {ms ms' bl nl} {L : List Ent} {outF outL : Pend} {o ds xr o' n' s'} (h : Post W F base n n₁ ms bl nl L outF outL o ds xr o' n' s')
    (ho : o ≠ .norm) (hms : ∀ m ∈ ms, m ∈ ms') : Post W F base n n₁' ms' bl nl L outF outL o ds xr o' n' s' where
  mem := h.mem
  res := by
    have h := h.res
    cases o with
    | norm => exact absurd rfl ho
    | err v => exact h
    | ret => exact h
    | brk =>
      obtain ⟨hb, r, x, h1, h2, h3⟩ := h
      refine ⟨hb, r, x, h1, h2, ?_⟩
      cases r with
      | some _ => exact h3
      | none => exact ⟨h3.1, h3.2.1, h3.2.2.1, fun e he => (h3.2.2.2 e he).imp id fun ⟨m, h, h'⟩ => ⟨m, hms m h, h'⟩⟩

theorem Ok.sub {base vs p bl nl t a b L} (h : Ok base vs p bl nl t a L) (hm : ∀ m ∈ marks vs b, m ∈ marks vs a) (hp : protos a = false → protos b = false) :
    Ok base vs p bl nl t b L where
  sorted := h.sorted
  lt := h.lt
  blk l hl := ⟨(h.blk l hl).1, (h.blk l hl).2.1, fun m h' => (h.blk l hl).2.2.1 m (hm m h'), (h.blk l hl).2.2.2⟩
  sp h' := ⟨(h.sp h').1, hp (h.sp h').2⟩
  tbc := h.tbc

/-- The body of a block. -/
theorem Ok.block {base vs p bl nl t a b L} (h : Ok base vs p bl nl t a L) (hm : ∀ m ∈ marks vs b, m < vs.length → m ∈ marks vs a) (hp : protos a = false → protos b = false) :
    Ok base vs p (bl.map ((vs.length, ups vs b) :: ·)) nl t b L where
  sorted := h.sorted
  lt := h.lt
  blk l hl := by
    obtain ⟨l, rfl, rfl⟩ := Option.map_eq_some_iff.1 hl
    obtain ⟨h1, h2, h3, h4⟩ := h.blk l rfl
    refine ⟨fun b hb => ?_, fun e he hle => ?_, fun m hm' hle => ?_, h4⟩
    · rcases List.mem_cons.1 hb with rfl | hb
      · exact h4
      · exact h1 b hb
    · unfold Cover
      rw [if_neg (by have := h.lt e he; omega)]
      exact h2 e he hle
    · unfold Cover
      split
      next hle' => exact List.any_eq_true.2 ⟨m, hm', by simpa using hle'⟩
      next hle' => exact h3 m (hm m hm' (by omega)) hle
  sp h' := ⟨(h.sp h').1, hp (h.sp h').2⟩
  tbc := h.tbc

/-- The body of a loop. -/
theorem Ok.loop {base vs p bl nl t a b L} (h : Ok base vs p bl nl t a L) (hp : protos a = false → protos b = false) :
    Ok base vs p (some [(vs.length, ups vs b)]) vs.length t b L where
  sorted := h.sorted
  lt := h.lt
  blk l hl := by
    cases hl
    refine ⟨fun b hb => ?_, fun e he hle => ?_, fun m hm hle => ?_, Nat.le_refl _⟩
    · cases List.mem_singleton.1 hb
      exact Nat.le_refl _
    · have := h.lt e he; omega
    · unfold Cover
      rw [if_pos hle]
      exact List.any_eq_true.2 ⟨m, hm, by simpa using hle⟩
  sp h' := ⟨(h.sp h').1, hp (h.sp h').2⟩
  tbc := h.tbc

theorem up_zero_of {base : Nat} {L L' : List Ent} (h : D L' = D L) (hL : up base (D L) = []) : up base (D L') = [] := by rw [h, hL]

/-- After a part of the statement that has not left it. -/
theorem Ok.again {base vs p bl nl t a L L'} (h : Ok base vs p bl nl t a L) (hs : Sorted L') (hlt : ∀ e ∈ L', e.lvl < base + vs.length) (hD : D L' = D L)
    (hm : ∀ e ∈ L', e ∈ L ∨ ∃ m ∈ marks vs a, e.lvl = base + m) : Ok base vs p bl nl t a L' where
  sorted := hs
  lt := hlt
  blk l hl := by
    obtain ⟨h1, h2, h3, h4⟩ := h.blk l hl
    refine ⟨h1, fun e he hle => ?_, h3, h4⟩
    rcases hm e he with h | ⟨m, hm, h⟩
    · exact h2 e h hle
    · rw [h, Nat.add_sub_cancel_left]
      exact h3 m hm (by omega)
  sp h' := by
    refine ⟨fun e he => ?_, (h.sp h').2⟩
    rcases hm e he with h'' | ⟨m, hm, _⟩
    · exact (h.sp h').1 e h''
    · rw [protos_marks (h.sp h').2] at hm
      exact nomatch hm
  tbc h' := by rw [hD, h.tbc h']

/-- A statement after a part of it that has not left it. -/
theorem Post.before {base n n₁ : Nat} {ms bl nl} {L L₁ : List Ent} {outF outL : Pend} {o ds xr o' n' s'} (h : Post W F base n n₁ ms bl nl L₁ outF outL o ds xr o' n' s')
    (hD : D L₁ = D L) (hm : ∀ e ∈ L₁, e ∈ L ∨ ∃ m ∈ ms, e.lvl = base + m) : Post W F base n n₁ ms bl nl L outF outL o ds xr o' n' s' where
  mem e he := (h.mem e he).elim (fun h => (hm e h).imp id fun ⟨m, _, h⟩ => by omega) .inr
  res := by
    have hmem : ∀ e, (e ∈ L₁ ∨ ∃ m ∈ ms, e.lvl = base + m) → e ∈ L ∨ ∃ m ∈ ms, e.lvl = base + m := fun e h => h.elim (hm e) .inr
    have h := h.res
    cases o with
    | norm => exact ⟨h.1, h.2.1, h.2.2.1, h.2.2.2.1.of_D hD, h.2.2.2.2.1, fun e he => hmem e (h.2.2.2.2.2 e he)⟩
    | err v => exact ⟨h.1, h.2.1, h.2.2.of_D hD⟩
    | ret =>
      obtain ⟨r, x, h1, h2, h3⟩ := h
      refine ⟨r, x, h1, h2, ?_⟩
      cases r with
      | some _ => exact ⟨h3.1, h3.2.of_D hD⟩
      | none => exact ⟨h3.1, h3.2.1.of_D hD, h3.2.2⟩
    | brk =>
      obtain ⟨hb, r, x, h1, h2, h3⟩ := h
      refine ⟨hb, r, x, h1, h2, ?_⟩
      cases r with
      | some _ => exact ⟨h3.1, h3.2.of_D hD⟩
      | none => exact ⟨h3.1, h3.2.1.of_D hD, h3.2.2.1, fun e he => hmem e (h3.2.2.2 e he)⟩

/-- The second statement of a sequence. -/
theorem Post.seq {base n n₁ n₂ : Nat} {ms₁ ms₂ bl nl} {L L₁ : List Ent} {outF outL da : Pend} {o ds xr o' n' s'} (hn : n ≤ n₁) (hnl : bl ≠ none → nl ≤ n) (h₁ : Fin (base + n) L da L₁)
    (hlt : ∀ e ∈ L₁, e.lvl < base + n₁) (hm : ∀ e ∈ L₁, e ∈ L ∨ ∃ m ∈ ms₁, e.lvl = base + m)
    (h : Post W F base n₁ n₂ ms₂ bl nl L₁ (da ++ outF) (da ++ outL) o ds xr o' n' s') : Post W F base n n₂ (ms₁ ++ ms₂) bl nl L outF outL o (ds ++ da) xr o' n' s' where
  mem e he := (h.mem e he).elim (fun h => (hm e h).imp id fun ⟨m, _, h⟩ => by omega) .inr
  res := by
    have hmem : ∀ e, (e ∈ L₁ ∨ ∃ m ∈ ms₂, e.lvl = base + m) → e ∈ L ∨ ∃ m ∈ ms₁ ++ ms₂, e.lvl = base + m := fun e h =>
      h.elim (fun h => (hm e h).imp id fun ⟨m, h, h'⟩ => ⟨m, List.mem_append_left _ h, h'⟩) fun ⟨m, h, h'⟩ => .inr ⟨m, List.mem_append_right _ h, h'⟩
    have h := h.res
    cases o with
    | norm => exact ⟨h.1, h.2.1, h.2.2.1, h₁.trans (by omega) h.2.2.2.1 hlt, h.2.2.2.2.1, fun e he => hmem e (h.2.2.2.2.2 e he)⟩
    | err v =>
      refine ⟨h.1, h.2.1, ?_⟩
      rw [List.append_assoc]
      exact h₁.rebase (Nat.le_add_right _ _) h.2.2
    | ret =>
      obtain ⟨r, x, h1, h2, h3⟩ := h
      refine ⟨r, x, by rw [List.append_assoc]; exact h1, h2, ?_⟩
      cases r with
      | some _ => exact ⟨h3.1, h₁.rebase (Nat.le_add_right _ _) h3.2⟩
      | none => exact ⟨h3.1, h₁.rebase (Nat.le_add_right _ _) h3.2.1, h3.2.2⟩
    | brk =>
      obtain ⟨hb, r, x, h1, h2, h3⟩ := h
      have hle : base + nl ≤ base + n := by have := hnl hb; omega
      refine ⟨hb, r, x, by rw [List.append_assoc]; exact h1, h2, ?_⟩
      cases r with
      | some _ => exact ⟨h3.1, h₁.rebase hle h3.2⟩
      | none => exact ⟨h3.1, h₁.rebase hle h3.2.1, h3.2.2.1, fun e he => hmem e (h3.2.2.2 e he)⟩

theorem tbcAfter_false {t : Bool} {a : S} (h : tbcAfter t a = false) : t = false := by
  induction a generalizing t with
  | seq a b iha ihb => exact iha (ihb h)
  | defer b => exact nomatch h
  | _ => exact h

/-- Without `defer` nothing is deferred: the functions a statement defers that are not called by it are those of its `defer` statements. -/
theorem tbc_none {j x R x'} (h : Sem W F j x R x') : ∀ a t, j = .st a → tbcAfter t a = false → R = .out .norm [] ∨ ∀ ds, R ≠ .out .norm ds := by
  induction h with
  | @seq a b x x₁ x₂ da o db _ _ iha ihb =>
    intro a' t e ht
    cases e
    have ht' := tbcAfter_false (a := b) ht
    rcases iha a t rfl ht' with h | h
    · cases h
      rcases ihb b _ rfl ht with h | h
      · cases h; exact .inl rfl
      · exact .inr fun ds e => by
          simp only [List.append_nil] at e
          exact h ds e
    · exact absurd rfl (h da)
  | @seqStop a b x x₁ o d ho _ _ => exact fun _ _ _ _ => .inr fun ds e => by cases e; exact ho rfl
  | defer => intro a t e h; cases e; exact nomatch h
  | @block b x x₁ x₂ ds r _ _ _ _ => exact fun _ _ _ _ => by cases r with | none => exact .inl rfl | some q => exact .inr fun ds e => nomatch e
  | @blockStop b x x₁ o d ho _ _ => exact fun _ _ _ _ => .inr fun ds e => by cases e; exact ho rfl
  | ite _ ih => exact fun a t e _ => ih _ false rfl rfl
  | whileNext _ _ _ _ ih => exact fun a t e _ => ih _ false rfl rfl
  | @whileBrk b x x₁ ds r => exact fun _ _ _ _ => by cases r with | none => exact .inl rfl | some q => exact .inr fun ds e => nomatch e
  | whileStop _ ho => exact fun _ _ _ _ => .inr fun ds e => by cases e; exact ho rfl
  | @repeatEnd b x x₁ ds r => exact fun _ _ _ _ => by cases r with | none => exact .inl rfl | some q => exact .inr fun ds e => nomatch e
  | repeatNext _ _ _ _ _ _ ih => exact fun a t e _ => ih _ false rfl rfl
  | @repeatBrk b x x₁ ds r => exact fun _ _ _ _ => by cases r with | none => exact .inl rfl | some q => exact .inr fun ds e => nomatch e
  | repeatStop ho => exact fun _ _ _ _ => .inr fun ds e => by cases e; exact ho rfl
  | @tail f x r => exact fun _ _ _ _ => by cases r with | none => exact .inr fun ds e => nomatch e | some q => exact .inr fun ds e => nomatch e
  | @call f x r => exact fun _ _ _ _ => by cases r with | none => exact .inl rfl | some q => exact .inr fun ds e => nomatch e
  | brk | ret | wrapErr | error => exact fun _ _ _ _ => .inr fun ds e => nomatch e
  | _ => first | exact fun _ _ _ _ => .inl rfl | exact fun _ _ e => nomatch e

end Verif.Defer
