import Verif.Buf.Model
/-!
# C35: buffers deliver exactly the bytes added
-/
namespace Verif.Buf

/-- `acc` are the bytes added so far, `stk0` the client's stack. -/
structure Inv (b : Buf) (acc : List UInt8) (stk0 : List Slot) : Prop where
  len : b.mem.length = b.size
  le : b.n ≤ b.size
  small : b.size < 18446744073709551616
  bytes : b.mem.take b.n = acc
  stk : b.stk = if b.onstack then .box :: stk0 else stk0

theorem Inv.n {b : Buf} {acc : List UInt8} {stk0 : List Slot} (h : Inv b acc stk0) :
    b.n = acc.length := by
  have := congrArg List.length h.bytes
  rw [List.length_take, h.len] at this
  have := h.le; omega

theorem usub_le {a b : Nat} (h : b ≤ a) (ha : a < 18446744073709551616) : usub a b = a - b := by
  unfold usub uw; omega

theorem usub_ge {a b : Nat} (h : a < b) (hb : b < 18446744073709551616) :
    usub a b = a + 18446744073709551616 - b := by
  unfold usub uw; omega

theorem uw_lt (n : Nat) : uw n < 18446744073709551616 := by unfold uw; omega

theorem realloc_len (m : List UInt8) (k : Nat) : (realloc m k).length = k := by
  unfold realloc; simp; omega

/-- Space is made, or there is an error. -/
theorem prep_spec (alloc : Nat → Bool) {b : Buf} {acc : List UInt8} {stk0 : List Slot}
    (h : Inv b acc stk0) (sz : Nat) (hsz : sz < 18446744073709551616) :
    (∃ b', prep alloc b sz = .ok b' ∧ Inv b' acc stk0 ∧ b'.n = b.n ∧ b.n + sz ≤ b'.size ∧
      (b'.size = b.size ∨ (b.size < b.n + sz ∧ (b'.size ≤ b.size * 2 ∨ b'.size ≤ b.n + sz)))) ∨
    (∃ m, prep alloc b sz = .err m ∧
      (18446744073709551616 ≤ 2 * b.size ∨ 18446744073709551616 ≤ b.n + sz ∨
       (b.size < b.n + sz ∧ ∃ k, alloc k = false ∧ (k ≤ 2 * b.size ∨ k ≤ b.n + sz)))) := by
  unfold prep
  have hle := h.le; have hsm := h.small; have hlen := h.len
  rw [usub_le h.le h.small]
  by_cases h1 : b.size - b.n < sz
  · rw [if_pos h1]
    dsimp only
    generalize hns : (if usub (uw (b.size * 2)) b.n < sz then uw (b.n + sz) else uw (b.size * 2)) = ns
    have hns64 : ns < 18446744073709551616 := by
      rw [← hns]; split <;> exact uw_lt _
    have hnsle : ns ≤ b.size * 2 ∨ ns ≤ b.n + sz := by
      rw [← hns]; split
      · right; unfold uw; omega
      · left; unfold uw; omega
    by_cases h2 : ns < b.n ∨ usub ns b.n < sz
    · rw [if_pos h2]
      refine .inr ⟨_, rfl, ?_⟩
      by_cases ha : 18446744073709551616 ≤ 2 * b.size
      · exact .inl ha
      by_cases hb : 18446744073709551616 ≤ b.n + sz
      · exact .inr (.inl hb)
      exfalso
      have e1 : uw (b.size * 2) = b.size * 2 := by unfold uw; omega
      have e2 : uw (b.n + sz) = b.n + sz := by unfold uw; omega
      rw [e1, e2, usub_le (by omega) (by omega)] at hns
      split at hns
      · subst hns
        rw [usub_le (by omega) (by omega)] at h2; omega
      · subst hns
        rw [usub_le (by omega) (by omega)] at h2; omega
    · rw [if_neg h2]
      have h3 : b.n ≤ ns := by omega
      have h4 : b.n + sz ≤ ns := by
        have : ¬ usub ns b.n < sz := fun hh => h2 (.inr hh)
        rw [usub_le h3 hns64] at this; omega
      by_cases ho : b.onstack = true
      · rw [if_pos ho]
        have hst := h.stk; rw [if_pos ho] at hst
        unfold resizebox
        rw [hst]
        dsimp only
        by_cases hal : alloc ns = true
        · rw [if_pos hal]
          refine .inl ⟨_, rfl, ⟨realloc_len _ _, ?_, hns64, ?_, ?_⟩, rfl, h4, .inr ⟨by omega, hnsle⟩⟩
          · exact h3
          · show (realloc b.mem ns).take b.n = acc
            unfold realloc
            rw [List.take_append_of_le_length (by rw [List.length_take]; omega), List.take_take,
              Nat.min_eq_left h3]
            exact h.bytes
          · simp [ho]
        · rw [if_neg hal]
          refine .inr ⟨_, rfl, .inr (.inr ⟨by omega, ns, by simpa using hal, ?_⟩)⟩
          omega
      · rw [if_neg ho]
        have hst := h.stk; rw [if_neg ho] at hst
        unfold newbox
        by_cases hal : alloc ns = true
        · rw [if_pos hal, if_pos ⟨h3, by omega⟩]
          refine .inl ⟨_, rfl, ⟨?_, h3, hns64, ?_, ?_⟩, rfl, h4, .inr ⟨by omega, hnsle⟩⟩
          · show (b.mem.take b.n ++ List.replicate (ns - b.n) 0).length = ns
            rw [List.length_append, List.length_take, List.length_replicate]; omega
          · show (b.mem.take b.n ++ List.replicate (ns - b.n) 0).take b.n = acc
            rw [List.take_append_of_le_length (by rw [List.length_take]; omega), List.take_take,
              Nat.min_self]
            exact h.bytes
          · show Slot.box :: b.stk = if true = true then _ else _
            rw [if_pos rfl, hst]
        · rw [if_neg hal]
          refine .inr ⟨_, rfl, .inr (.inr ⟨by omega, ns, by simpa using hal, ?_⟩)⟩
          omega
  · rw [if_neg h1]
    exact .inl ⟨b, rfl, h, rfl, by omega, .inl rfl⟩

/-- A write into reserved space extends the content. -/
theorem write_spec {b : Buf} {acc : List UInt8} {stk0 : List Slot} (h : Inv b acc stk0)
    (s : List UInt8) (hs : b.n + s.length ≤ b.size) :
    ∃ b', write b s = .ok b' ∧ Inv (addsize b' s.length) (acc ++ s) stk0 ∧
      (addsize b' s.length).size = b.size ∧ (addsize b' s.length).n = b.n + s.length := by
  have hle := h.le; have hsm := h.small; have hlen := h.len
  unfold write
  rw [if_pos (by omega)]
  refine ⟨_, rfl, ⟨?_, ?_, hsm, ?_, h.stk⟩, rfl, ?_⟩
  · show (b.mem.take b.n ++ s ++ b.mem.drop (b.n + s.length)).length = b.size
    simp only [List.length_append, List.length_take, List.length_drop]; omega
  · show uw (b.n + s.length) ≤ b.size
    unfold uw; omega
  · show (b.mem.take b.n ++ s ++ b.mem.drop (b.n + s.length)).take (uw (b.n + s.length)) = acc ++ s
    have e : uw (b.n + s.length) = (b.mem.take b.n ++ s).length := by
      rw [List.length_append, List.length_take]; unfold uw; omega
    rw [e, List.take_left, h.bytes]
  · show uw (b.n + s.length) = _
    unfold uw; omega

/-- Good outcomes of an operation that adds `s` after asking for `sz` bytes. -/
def Good (alloc : Nat → Bool) (b : Buf) (acc s : List UInt8) (sz : Nat) (stk0 : List Slot)
    (r : Res Buf) : Prop :=
  (∃ b', r = .ok b' ∧ Inv b' (acc ++ s) stk0 ∧
      (b'.size = b.size ∨ (b.size < b.n + sz ∧ (b'.size ≤ b.size * 2 ∨ b'.size ≤ b.n + sz)))) ∨
  (∃ m, r = .err m ∧
      (18446744073709551616 ≤ 2 * b.size ∨ 18446744073709551616 ≤ b.n + sz ∨
       (b.size < b.n + sz ∧ ∃ k, alloc k = false ∧ (k ≤ 2 * b.size ∨ k ≤ b.n + sz))))

theorem fill_good (alloc : Nat → Bool) {b : Buf} {acc : List UInt8} {stk0 : List Slot}
    (h : Inv b acc stk0) (sz : Nat) (s : List UInt8) (hs : s.length ≤ sz)
    (hsz : sz < 18446744073709551616) : Good alloc b acc s sz stk0 (fill alloc b sz s) := by
  unfold fill
  rcases prep_spec alloc h sz hsz with ⟨b1, he, hI, hn, hroom, hsize⟩ | ⟨m, he, hm⟩
  · rw [he]; simp only [Res.bind_ok]
    obtain ⟨b2, he2, hI2, hs2, _⟩ := write_spec hI s (by omega)
    rw [he2]; simp only [Res.bind_ok]
    exact .inl ⟨_, rfl, hI2, by rw [hs2]; exact hsize⟩
  · rw [he]; simp only [Res.bind_err]
    exact .inr ⟨m, rfl, hm⟩

theorem addlstring_good (alloc : Nat → Bool) {b : Buf} {acc : List UInt8} {stk0 : List Slot}
    (h : Inv b acc stk0) (s : List UInt8) (hsz : s.length < 18446744073709551616) :
    Good alloc b acc s s.length stk0 (addlstring alloc b s) := by
  unfold addlstring
  by_cases h0 : s.length > 0
  · rw [if_pos h0]
    exact fill_good alloc h s.length s (Nat.le_refl _) hsz
  · rw [if_neg h0]
    have : s = [] := List.eq_nil_of_length_eq_zero (by omega)
    subst this
    exact .inl ⟨b, rfl, by simpa using h, .inl rfl⟩

theorem addchar_good (alloc : Nat → Bool) {b : Buf} {acc : List UInt8} {stk0 : List Slot}
    (h : Inv b acc stk0) (c : UInt8) : Good alloc b acc [c] 1 stk0 (addchar alloc b c) := by
  unfold addchar room
  by_cases h1 : b.n < b.size
  · rw [if_pos h1]
    simp only [Res.pure_eq, Res.bind_ok]
    obtain ⟨b2, he2, hI2, hs2, _⟩ := write_spec h [c] (by simp only [List.length_singleton]; omega)
    rw [he2]; simp only [Res.bind_ok]
    exact .inl ⟨_, rfl, hI2, .inl hs2⟩
  · rw [if_neg h1]
    exact fill_good alloc h 1 [c] (by simp) (by decide)

theorem addvalue_good (alloc : Nat → Bool) {b : Buf} {acc : List UInt8} {stk0 : List Slot}
    (h : Inv b acc stk0) (s : List UInt8) (hsz : s.length < 18446744073709551616) :
    Good alloc b acc s s.length stk0 (addvalue alloc { b with stk := .str s :: b.stk }) := by
  unfold addvalue
  dsimp only
  have hst := h.stk
  -- with the value below the box, the rest of the stack looks like a client's stack
  have key : ∃ stk1, below { b with stk := .str s :: b.stk } = .ok stk1 ∧
      Inv { b with stk := stk1 } acc (.str s :: stk0) := by
    unfold below
    by_cases ho : b.onstack = true
    · rw [if_pos ho] at hst
      dsimp only
      rw [if_pos ho, hst]
      exact ⟨_, rfl, h.len, h.le, h.small, h.bytes, by show _ = if b.onstack = true then _ else _; rw [if_pos ho]⟩
    · rw [if_neg ho] at hst
      dsimp only
      rw [if_neg ho, hst]
      exact ⟨_, rfl, h.len, h.le, h.small, h.bytes, by show _ = if b.onstack = true then _ else _; rw [if_neg ho]⟩
  obtain ⟨stk1, he, hI⟩ := key
  rw [he]; simp only [Res.bind_ok]
  rcases addlstring_good alloc hI s hsz with ⟨b2, he2, hI2, hs2⟩ | ⟨m, he2, hm⟩
  · rw [he2]; simp only [Res.bind_ok]
    have hst2 := hI2.stk
    by_cases ho : b2.onstack = true
    · rw [if_pos ho] at hst2
      rw [ho, hst2]
      refine .inl ⟨_, rfl, ⟨hI2.len, hI2.le, hI2.small, hI2.bytes, ?_⟩, hs2⟩
      simp
    · rw [if_neg ho] at hst2
      have hof : b2.onstack = false := by simpa using ho
      rw [hof, hst2]
      have hr : removeAt false (Slot.str s :: stk0) = .ok stk0 := by
        cases stk0 <;> rfl
      rw [hr]; simp only [Res.bind_ok]
      refine .inl ⟨_, rfl, ⟨hI2.len, hI2.le, hI2.small, hI2.bytes, ?_⟩, hs2⟩
      simp
  · rw [he2]; simp only [Res.bind_err]
    exact .inr ⟨m, rfl, hm⟩

theorem step_good (alloc : Nat → Bool) {b : Buf} {acc : List UInt8} {stk0 : List Slot}
    (h : Inv b acc stk0) (op : Op) (hop : op.Ok) :
    Good alloc b acc op.bytes op.space stk0 (step alloc b op) := by
  obtain ⟨h1, h2⟩ := hop
  cases op with
  | lstring s => exact addlstring_good alloc h s (by simpa [Op.space] using h2)
  | char c => exact addchar_good alloc h c
  | value s => exact addvalue_good alloc h s (by simpa [Op.space] using h2)
  | fill sz w => exact fill_good alloc h sz w h1 (by simpa [Op.space] using h2)

theorem run_spec (alloc : Nat → Bool) {b : Buf} {acc : List UInt8} {stk0 : List Slot}
    (h : Inv b acc stk0) (ops : List Op) (hok : ∀ op ∈ ops, op.Ok) :
    (∃ b', run alloc b ops = .ok b' ∧ Inv b' (acc ++ (ops.map Op.bytes).flatten) stk0) ∨
    (∃ m, run alloc b ops = .err m) := by
  induction ops generalizing b acc with
  | nil => exact .inl ⟨b, rfl, by simpa using h⟩
  | cons op ops ih =>
    unfold run
    rcases step_good alloc h op (hok op (by simp)) with ⟨b1, he, hI, _⟩ | ⟨m, he, _⟩
    · rw [he]; simp only [Res.bind_ok]
      rcases ih hI (fun o ho => hok o (by simp [ho])) with ⟨b2, he2, hI2⟩ | hm
      · exact .inl ⟨b2, he2, by simpa [List.append_assoc] using hI2⟩
      · exact .inr hm
    · rw [he]; exact .inr ⟨m, rfl⟩

theorem init_inv (B0 : Nat) (hB : B0 < 2 ^ 64) (stk0 : List Slot) :
    Inv (buffinit B0 stk0) [] stk0 := by
  refine ⟨by simp [buffinit], by simp [buffinit], ?_, by simp [buffinit], by simp [buffinit]⟩
  show B0 < _; omega

theorem pushresult_spec {b : Buf} {acc : List UInt8} {stk0 : List Slot} (h : Inv b acc stk0) :
    pushresult b = .ok (.str acc :: stk0) := by
  unfold pushresult
  have hst := h.stk
  rw [if_pos (by rw [h.len]; exact h.le)]
  dsimp only
  by_cases ho : b.onstack = true
  · rw [if_pos ho] at hst
    rw [if_pos ho, hst, h.bytes]; rfl
  · rw [if_neg ho] at hst
    rw [if_neg ho, hst, h.bytes]; rfl

/-- C35. For every initial size, allocator, client stack and sequence of operations: the buffer
is never written outside its block nor read where the stack is not as expected (no
undefined outcome), and unless an error was raised, `luaL_pushresult` leaves exactly the
concatenation of the added pieces on top of the client's stack. -/
theorem buffer_correct (alloc : Nat → Bool) (B0 : Nat) (hB : B0 < 2 ^ 64) (stk0 : List Slot)
    (ops : List Op) (hok : ∀ op ∈ ops, op.Ok) :
    (run alloc (buffinit B0 stk0) ops >>= pushresult) =
        .ok (.str (ops.map Op.bytes).flatten :: stk0) ∨
    ∃ m, run alloc (buffinit B0 stk0) ops = .err m := by
  rcases run_spec alloc (init_inv B0 hB stk0) ops hok with ⟨b, he, hI⟩ | h
  · left
    rw [he]; simp only [Res.bind_ok]
    rw [pushresult_spec hI]; simp
  · exact .inr h

/-- The space in use when each operation starts, and what it asks for, stays within `M`. -/
def Within (M : Nat) : Nat → List Op → Prop
  | _, [] => True
  | used, op :: ops => used + op.space ≤ M ∧ Within M (used + op.bytes.length) ops

theorem run_succeeds (alloc : Nat → Bool) (M : Nat) (hM : M < 2 ^ 62)
    (hal : ∀ k, k ≤ 2 * M → alloc k = true) {b : Buf} {acc : List UInt8} {stk0 : List Slot}
    (h : Inv b acc stk0) (ops : List Op) (hok : ∀ op ∈ ops, op.Ok) (hw : Within M acc.length ops)
    (hsize : b.size < 2 ^ 63) :
    ∃ b', run alloc b ops = .ok b' ∧ Inv b' (acc ++ (ops.map Op.bytes).flatten) stk0 := by
  induction ops generalizing b acc with
  | nil => exact ⟨b, rfl, by simpa using h⟩
  | cons op ops ih =>
    obtain ⟨hw1, hw2⟩ := hw
    have hn := h.n
    unfold run
    rcases step_good alloc h op (hok op (by simp)) with ⟨b1, he, hI, hs⟩ | ⟨m, he, hm⟩
    · rw [he]; simp only [Res.bind_ok]
      obtain ⟨b2, he2, hI2⟩ := ih hI (fun o ho => hok o (by simp [ho]))
        (by rw [List.length_append]; exact hw2) (by omega)
      exact ⟨b2, he2, by simpa [List.append_assoc] using hI2⟩
    · exfalso
      rcases hm with hm | hm | ⟨hm0, k, hk, hm⟩
      · omega
      · omega
      · have := hal k (by omega)
        rw [hk] at this; cases this

/-- Growing never fails for lack of anything but memory: if no operation needs more than `M`
bytes in all and the allocator provides blocks of up to `2 M` bytes, the result is
delivered. -/
theorem buffer_succeeds (alloc : Nat → Bool) (B0 M : Nat) (hB : B0 < 2 ^ 63) (hM : M < 2 ^ 62)
    (hal : ∀ k, k ≤ 2 * M → alloc k = true) (stk0 : List Slot)
    (ops : List Op) (hok : ∀ op ∈ ops, op.Ok) (hw : Within M 0 ops) :
    (run alloc (buffinit B0 stk0) ops >>= pushresult) =
        .ok (.str (ops.map Op.bytes).flatten :: stk0) := by
  obtain ⟨b, he, hI⟩ := run_succeeds alloc M hM hal (init_inv B0 (by omega) stk0) ops hok hw
    (by show B0 < _; exact hB)
  rw [he]; simp only [Res.bind_ok]
  rw [pushresult_spec hI]; simp

-- a four-byte buffer grows twice; values are added while the box is on the stack
example : (run (fun _ => true) (buffinit 4 [.other 1]) [.char 1, .lstring [2, 3, 4, 5, 6], .value [7, 8],
    .fill 10 [9], .char 10] >>= pushresult) = .ok [.str [1, 2, 3, 4, 5, 6, 7, 8, 9, 10], .other 1] := by
  decide +kernel
-- an impossible request is an error
example : (match prep (fun _ => true) ⟨[], [1, 2], 2, 2, false⟩ (2 ^ 64 - 1) with
    | .err _ => true | _ => false) = true := by decide +kernel
example : Within 100 0 [.char 1, .lstring [2, 3], .fill 90 [1]] := by
  simp [Within, Op.space, Op.bytes]

end Verif.Buf
