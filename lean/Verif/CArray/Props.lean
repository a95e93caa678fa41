import Verif.CArray.Model

/-!
# C103: arrays of the compiler library
-/
namespace Verif.CArray
variable {α : Type}

/-- Elements added one by one. -/
def pushAll (asserts : Bool) (zero : α) : Arr α → List α → Res (Arr α)
  | a, [] => .ok a
  | a, x :: xs => do pushAll asserts zero (← push asserts zero a x) xs

/-- An array that holds `xs`: they are its first places, and the block has `capacity` places. -/
structure Holds (a : Arr α) (xs : List α) : Prop where
  count : a.count = xs.length
  fits : a.count ≤ a.capacity
  block : a.data.length = a.capacity
  elems : a.data.take a.count = xs.map some

/-- The new array. -/
theorem empty_holds : Holds (⟨0, 0, []⟩ : Arr α) [] := ⟨rfl, Nat.le_refl _, rfl, rfl⟩

theorem take_set_end (l : List (Option α)) (n : Nat) (x : Option α) (h : n < l.length) :
    (l.set n x).take (n + 1) = l.take n ++ [x] := by
  rw [List.take_succ_eq_append_getElem (by simpa using h), List.getElem_set_self,
    List.take_set_of_le (Nat.le_refl _)]

/-- With assertions compiled in, a push to a full array never succeeds: the assertion of
`raviX_realloc_array` fails.  In particular the first push to a new array. -/
theorem push_full_asserts (zero : α) (a : Arr α) (h : a.count = a.capacity) (x : α) :
    push true zero a x = .err "assertion" := by
  have hr : reallocArray true zero a.data (a.capacity + 10) (a.capacity + 10) = .err "assertion" := by
    unfold reallocArray
    rw [if_neg (by omega), if_pos (by simp)]
  unfold push
  rw [if_pos h]
  simp only [hr, Res.bind_err]

/-- Hence with assertions no element at all can be added to a new array. -/
theorem pushAll_asserts (zero : α) (x : α) (xs : List α) :
    pushAll true zero ⟨0, 0, []⟩ (x :: xs) = .err "assertion" := by
  rw [pushAll, push_full_asserts zero _ rfl]
  rfl

/-- Without assertions a push appends, whether or not the array has to grow. -/
theorem push_holds_partial (zero : α) (a : Arr α) (xs : List α) (h : Holds a xs) (x : α) :
    ∃ b, push false zero a x = .ok b ∧ Holds b (xs ++ [x]) ∧
      b.capacity = if a.count = a.capacity then a.capacity + 10 else a.capacity := by
  have key : ∀ c : Arr α, Holds c xs → c.count < c.data.length →
      Holds (⟨c.capacity, c.count + 1, c.data.set c.count (some x)⟩ : Arr α) (xs ++ [x]) := by
    intro c hc hl
    refine ⟨by simp [hc.count], ?_, by simp [hc.block], ?_⟩
    · have := hc.block; simp only; omega
    · simp only
      rw [take_set_end _ _ _ hl, hc.elems]
      simp
  by_cases hf : a.count = a.capacity
  · have hlen : a.data.length = a.count := by rw [h.block, hf]
    have hd : reallocArray false zero a.data (a.capacity + 10) (a.capacity + 10)
        = .ok (a.data ++ List.replicate 10 none) := by
      unfold reallocArray crealloc
      rw [if_neg (by omega), if_neg (by simp), if_neg (by omega)]
      have e1 : a.data.take (a.capacity + 10) = a.data := List.take_of_length_le (by omega)
      have e2 : a.capacity + 10 - a.data.length = 10 := by omega
      rw [e1, e2, List.take_of_length_le (by simp; omega)]
      simp
    have hh : Holds (⟨a.capacity + 10, a.count, a.data ++ List.replicate 10 none⟩ : Arr α) xs := by
      refine ⟨h.count, by simp only; omega, by simp [h.block], ?_⟩
      simp only
      rw [List.take_append_of_le_length (by omega), h.elems]
    have hl : a.count < (a.data ++ List.replicate 10 (none : Option α)).length := by simp; omega
    refine ⟨_, ?_, key _ hh hl, by rw [if_pos hf]⟩
    unfold push
    rw [if_pos hf]
    simp only [hd, Res.bind_ok]
    rw [if_pos hl]
  · have hl : a.count < a.data.length := by have := h.fits; have := h.block; omega
    refine ⟨_, ?_, key a h hl, by rw [if_neg hf]⟩
    unfold push
    rw [if_neg hf]
    simp only [Res.bind_ok]
    rw [if_pos hl]

/-- Without assertions, elements added one by one to a new array are all there, in order. -/
theorem pushAll_holds_partial (zero : α) (xs : List α) :
    ∃ b, pushAll false zero ⟨0, 0, []⟩ xs = .ok b ∧ Holds b xs := by
  have key : ∀ (ys xs : List α) (a : Arr α), Holds a xs →
      ∃ b, pushAll false zero a ys = .ok b ∧ Holds b (xs ++ ys) := by
    intro ys
    induction ys with
    | nil => intro xs a h; exact ⟨a, rfl, by simpa using h⟩
    | cons y ys ih =>
      intro xs a h
      obtain ⟨b, k1, k2, _⟩ := push_holds_partial zero a xs h y
      obtain ⟨c, j1, j2⟩ := ih _ b k2
      refine ⟨c, by simp only [pushAll, k1, Res.bind_ok, j1], ?_⟩
      simpa using j2
  simpa using key xs [] _ empty_holds

/-- Clearing an array never fails, with or without assertions, and gives the new array. -/
theorem clear_holds (asserts : Bool) (zero : α) (a : Arr α) :
    clear asserts zero a = .ok ⟨0, 0, []⟩ ∧ Holds (⟨0, 0, []⟩ : Arr α) [] := ⟨rfl, empty_holds⟩

/-- Growing with the right sizes keeps every old place and zeroes every new one. -/
theorem realloc_zeroes (asserts : Bool) (zero : α) (d : List (Option α)) (newn : Nat) (h : d.length < newn) :
    reallocArray asserts zero d d.length newn
      = .ok (d ++ List.replicate (newn - d.length) (some zero)) := by
  unfold reallocArray crealloc
  rw [if_neg (by omega), if_neg (by simp; intro _; omega), if_neg (by omega),
    List.take_of_length_le (l := d) (by omega), List.take_left']
  rfl

/-- `array_push` does not zero: the new places after the element are as the allocator left them,
although `raviX_realloc_array` is there to zero them. -/
theorem push_not_zeroed (zero x : α) :
    push false zero ⟨0, 0, []⟩ x = .ok ⟨10, 1, some x :: List.replicate 9 none⟩ := by
  rfl

/-- Deletion: of `pre ++ del ++ suf`, followed by anything, exactly `del` goes; the space left is
zero and what follows is not touched. -/
theorem delElems_exact (zero : α) (pre del suf rest : List α) :
    delElems zero (pre ++ del ++ suf ++ rest) (pre ++ del ++ suf).length pre.length del.length
      = .ok (pre ++ suf ++ List.replicate del.length zero ++ rest, (pre ++ suf).length) := by
  unfold delElems memmove
  rw [if_neg (by simp), if_neg (by simp)]
  have e1 : (pre ++ del ++ suf).length - del.length - pre.length = suf.length := by simp; omega
  have e2 : (pre ++ del ++ suf).length - del.length = (pre ++ suf).length := by simp; omega
  have e3 : (pre ++ del ++ suf).length - (pre ++ suf).length = del.length := by simp; omega
  rw [e1]
  simp only [e2, e3]
  have a1 : (pre ++ del ++ suf ++ rest).take pre.length = pre := by simp
  have a2 : ((pre ++ del ++ suf ++ rest).drop (pre.length + del.length)).take suf.length = suf := by
    have : pre.length + del.length = (pre ++ del).length := by simp
    rw [this, List.append_assoc (pre ++ del), List.drop_left, List.take_left]
  rw [a1, a2]
  have a3 : (pre ++ suf ++ (pre ++ del ++ suf ++ rest).drop (pre.length + suf.length)).take (pre ++ suf).length
      = pre ++ suf := List.take_left
  have a4 : (pre ++ suf ++ (pre ++ del ++ suf ++ rest).drop (pre.length + suf.length)).drop
      (pre ++ del ++ suf).length = rest := by
    have b1 : (pre ++ del ++ suf).length = (pre ++ suf).length + del.length := by simp; omega
    rw [b1, ← List.drop_drop, List.drop_left, List.drop_drop]
    have b2 : pre.length + suf.length + del.length = (pre ++ del ++ suf).length := by simp; omega
    rw [b2, List.drop_left]
  rw [a3, a4]

/-- A deletion that goes past the end is stopped by the assertion. -/
theorem delElems_past (zero : α) (d : List α) (size i n : Nat) (h : size < i + n) :
    delElems zero d size i n = .err "assertion" := by
  unfold delElems
  rw [if_pos (by omega)]

/-- Twelve elements, with growth at the first and the eleventh. -/
example : (match pushAll false 0 ⟨0, 0, []⟩ (List.range 12) with
    | .ok b => (b.capacity, b.count) | _ => (0, 0)) = (20, 12) := by decide
example : delElems 0 [1, 2, 3, 4, 5, 9] 5 1 2 = .ok ([1, 4, 5, 0, 0, 9], 3) := by decide

end Verif.CArray
