import Verif.Trace.Model

/-!
# C106: a traceback shows the calls that are active
-/
namespace Verif.Trace
variable {α : Type}

theorem walk_eq (frames : List α) (n : Nat) : walk frames n = frames[n]? := by
  induction frames generalizing n with
  | nil => simp [walk]
  | cons fr fs ih =>
    cases n with
    | zero => simp [walk]
    | succ n => simp [walk, ih]

/-- `lua_getstack` gives the frame of a level, and none exactly if the level is negative or not less
than the number of active calls. -/
theorem getstack_exact (frames : List α) (n : Nat) :
    getstack frames n = frames[n]? ∧ getstack frames (-(n : Int) - 1) = none := by
  constructor
  · unfold getstack
    rw [if_neg (by omega), walk_eq]
    simp
  · unfold getstack
    rw [if_pos (by omega)]

theorem getstack_some (frames : List α) (n : Nat) :
    (getstack frames (n : Int)).isSome = true ↔ n < frames.length := by
  rw [(getstack_exact frames n).1]
  simp

theorem bound_spec (frames : List α) (hN : frames.length ≤ 2 ^ 28) (f li le : Nat)
    (h1 : 1 ≤ li) (h2 : li ≤ le) (h3 : li ≤ max frames.length 1) (h4 : le ≤ 2 * li)
    (hf : frames.length < f + le) (hf' : 0 < f) :
    ∃ a b, bound frames f li le = .ok (a, b) ∧ 1 ≤ a ∧ a ≤ max frames.length 1 ∧ max frames.length 1 ≤ b ∧
      b ≤ 2 * a := by
  induction f generalizing li le with
  | zero => omega
  | succ f ih =>
    by_cases hs : (getstack frames (le : Int)).isSome = true
    · have hlt := (getstack_some frames le).1 hs
      obtain ⟨a, b, k⟩ := ih le (le * 2) (by omega) (by omega) (by omega) (by omega) (by omega) (by omega)
      refine ⟨a, b, ?_, k.2⟩
      simp only [bound, hs, if_true]
      rw [if_neg (by omega)]
      exact k.1
    · have hge : frames.length ≤ le := by
        rw [getstack_some] at hs
        omega
      refine ⟨li, le, ?_, h1, h3, by omega, h4⟩
      simp only [bound]
      rw [if_neg hs]

theorem bsearch_spec (frames : List α) (hN : frames.length ≤ 2 ^ 28) (f li le : Nat) (h1 : 1 ≤ li)
    (h2 : li ≤ max frames.length 1) (h3 : max frames.length 1 ≤ le) (h4 : le < 2 ^ 30) (hf : le < f + li) :
    bsearch frames f li le = .ok (max frames.length 1) := by
  induction f generalizing li le with
  | zero => omega
  | succ f ih =>
    simp only [bsearch]
    by_cases hlt : li < le
    · rw [if_pos hlt, if_neg (by omega)]
      by_cases hs : (getstack frames (((li + le) / 2 : Nat) : Int)).isSome = true
      · rw [if_pos hs]
        rw [getstack_some] at hs
        exact ih _ _ (by omega) (by omega) h3 h4 (by omega)
      · rw [if_neg hs]
        rw [getstack_some] at hs
        exact ih _ _ h1 h2 (by omega) (by omega) (by omega)
    · rw [if_neg hlt]
      congr 1
      omega

/-- `lastlevel` is the level of the outermost call (0 if there is none). -/
theorem lastlevel_exact (frames : List α) (hN : frames.length ≤ 2 ^ 28) :
    lastlevel frames = .ok (frames.length - 1) := by
  obtain ⟨a, b, k1, k2, k3, k4, k5⟩ := bound_spec frames hN (frames.length + 2) 1 1 (by omega) (by omega)
    (by omega) (by omega) (by omega) (by omega)
  have := bsearch_spec frames hN (frames.length + 2) a b k2 k3 k4 (by omega) (by omega)
  simp only [lastlevel, k1, this, Res.bind_ok]
  congr 1
  omega

theorem loop_plain (frames : List α) (hN : frames.length ≤ 2 ^ 28) (last f level : Nat) (n1 : Int)
    (hl : (level : Int) < 2 ^ 31 - 1) (hn : n1 < 0) (hn' : -2 ^ 30 + (frames.length - level : Nat) ≤ n1)
    (hf : frames.length - level < f) :
    loop frames last f level n1 = .ok ((frames.drop level).map .frame) := by
  induction f generalizing level n1 with
  | zero => omega
  | succ f ih =>
    simp only [loop]
    rw [if_neg (by omega), (getstack_exact frames level).1]
    by_cases hlt : level < frames.length
    · rw [List.getElem?_eq_getElem hlt]
      dsimp only
      rw [if_neg (by omega), if_neg (by omega)]
      have := ih (level + 1) (n1 - 1) (by push_cast; omega) (by omega) (by push_cast; omega) (by omega)
      push_cast at this
      rw [this, Res.bind_ok, List.drop_eq_getElem_cons hlt]
      rfl
    · rw [List.getElem?_eq_none (by omega), List.drop_eq_nil_of_le (by omega)]
      rfl

theorem loop_dots (frames : List α) (hN : frames.length ≤ 2 ^ 28) (k f level : Nat)
    (hk : level + k < frames.length) (h11 : 11 ≤ frames.length) (hf : k + 12 < f) :
    loop frames (frames.length - 1) f level k
      = .ok (((frames.drop level).take k).map .frame ++ .dots ::
          (frames.drop (frames.length - 11)).map .frame) := by
  induction k generalizing f level with
  | zero =>
    obtain ⟨f, rfl⟩ : ∃ f', f = f' + 1 := ⟨f - 1, by omega⟩
    simp only [loop]
    rw [if_neg (by omega), (getstack_exact frames level).1, List.getElem?_eq_getElem (by omega)]
    dsimp only
    rw [if_neg (by omega), if_pos (by omega)]
    have e : ((frames.length - 1 : Nat) : Int) - 11 + 1 = ((frames.length - 11 : Nat) : Int) := by omega
    rw [e, loop_plain frames hN _ f _ _ (by omega) (by omega) (by omega) (by omega)]
    simp
  | succ k ih =>
    obtain ⟨f, rfl⟩ : ∃ f', f = f' + 1 := ⟨f - 1, by omega⟩
    simp only [loop]
    rw [if_neg (by omega), (getstack_exact frames level).1, List.getElem?_eq_getElem (by omega)]
    dsimp only
    rw [if_neg (by omega), if_neg (by omega)]
    have := ih f (level + 1) (by omega) (by omega)
    have e : ((k + 1 : Nat) : Int) - 1 = (k : Int) := by omega
    have e2 : (level : Int) + 1 = ((level + 1 : Nat) : Int) := by omega
    rw [e, e2, this, Res.bind_ok, List.drop_eq_getElem_cons (i := level) (by omega)]
    rfl

/-- A traceback from a level that is not negative shows all the calls from that level outwards if
these are at most 22, and otherwise the first ten, `...`, and the eleven outermost calls. -/
theorem traceback_exact (frames : List α) (hN : frames.length ≤ 2 ^ 28) (level : Nat)
    (hl : (level : Int) < 2 ^ 31 - 1) :
    traceback frames level = .ok (
      if (frames.drop level).length ≤ 22 then (frames.drop level).map .frame
      else ((frames.drop level).take 10).map .frame ++ [.dots] ++
        (frames.drop (frames.length - 11)).map .frame) := by
  simp only [traceback, lastlevel_exact frames hN, Res.bind_ok]
  rw [if_neg (by omega), List.length_drop]
  by_cases h : frames.length - level ≤ 22
  · rw [if_neg (by omega), if_pos h, loop_plain frames hN _ _ _ _ hl (by omega) (by omega) (by omega)]
  · rw [if_pos (by omega), if_neg h]
    have := loop_dots frames hN 10 (frames.length + 14) level (by omega) (by omega) (by omega)
    simpa using this

/-- So no call is shown twice, and where `...` is, at least two calls are left out. -/
theorem traceback_no_overlap (frames : List α) (level : Nat) (h : ¬ (frames.drop level).length ≤ 22) :
    ∃ middle, 2 ≤ middle.length ∧ frames.drop level =
      (frames.drop level).take 10 ++ middle ++ frames.drop (frames.length - 11) := by
  rw [List.length_drop] at h
  refine ⟨((frames.drop level).drop 10).take (frames.length - level - 21), ?_, ?_⟩
  · simp only [List.length_take, List.length_drop]
    omega
  · have e : frames.drop (frames.length - 11)
        = ((frames.drop level).drop 10).drop (frames.length - level - 21) := by
      rw [List.drop_drop, List.drop_drop]
      congr 1
      omega
    rw [e, List.append_assoc, List.take_append_drop, List.take_append_drop]

/-- The level that `debug.traceback` passes on is not checked: with the largest `int` the increment
overflows, and with the smallest the difference does. -/
theorem traceback_level_ub (frames : List α) (hN : frames.length ≤ 2 ^ 28) (level : Int)
    (h : level = 2 ^ 31 - 1 ∨ level = -2 ^ 31) : traceback frames level = .ub := by
  simp only [traceback, lastlevel_exact frames hN, Res.bind_ok]
  rcases h with h | h
  · rw [if_neg (by omega)]
    generalize (if ((frames.length - 1 : Nat) : Int) - level > 10 + 11 then (10 : Int) else -1) = n1
    simp only [loop]
    rw [if_pos h]
  · rw [if_pos (by omega)]

example : (match traceback (List.range 24) 1 with
    | .ok l => l.length | _ => 0) = 22 := by decide +kernel

end Verif.Trace
