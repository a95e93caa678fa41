import Verif.Stack.Model
/-!
Property C36: `lua_rotate` and the operations derived from it.
-/
namespace Verif.Stack
variable {α : Type}

theorem load_mid (pre post : List α) (x : α) : load (pre ++ x :: post) pre.length = .ok x := by
  unfold load
  rw [if_pos (by omega)]
  simp

theorem store_mid (pre post : List α) (x y : α) : store (pre ++ x :: post) pre.length y = .ok (pre ++ y :: post) := by
  unfold store
  rw [if_pos (by simp; omega)]
  simp

theorem list_ends : ∀ (l : List α), l = [] ∨ (∃ a, l = [a]) ∨ ∃ a m b, l = a :: m ++ [b]
  | [] => .inl rfl
  | [a] => .inr (.inl ⟨a, rfl⟩)
  | a :: b :: l => by
    right; right
    refine ⟨a, (b :: l).dropLast, (b :: l).getLast (by simp), ?_⟩
    rw [List.cons_append, List.dropLast_concat_getLast]

theorem reverseF_spec : ∀ (fuel : Nat) (pre seg post : List α), seg.length < fuel →
    reverseF fuel (pre ++ seg ++ post) pre.length ((pre.length : Int) + seg.length - 1) = .ok (pre ++ seg.reverse ++ post)
  | 0, _, _, _, h => by omega
  | fuel + 1, pre, seg, post, h => by
    unfold reverseF
    rcases list_ends seg with rfl | ⟨a, rfl⟩ | ⟨a, m, b, rfl⟩
    · rw [if_neg (by simp; omega)]; simp
    · rw [if_neg (by simp)]; simp
    · have hlen : (a :: m ++ [b]).length = m.length + 2 := by simp
      have e0 : (pre.length : Int) + (a :: m ++ [b]).length - 1 = ((pre ++ a :: m).length : Nat) := by
        rw [hlen]; simp; omega
      have e0' : (pre.length : Int) + (a :: m ++ [b]).length - 1 = ((pre ++ b :: m).length : Nat) := by
        rw [hlen]; simp; omega
      rw [if_pos (by rw [hlen]; omega)]
      have s1 : pre ++ (a :: m ++ [b]) ++ post = pre ++ a :: (m ++ [b] ++ post) := by simp
      have s2 : pre ++ (a :: m ++ [b]) ++ post = (pre ++ a :: m) ++ b :: post := by simp
      have s3 : pre ++ b :: (m ++ [b] ++ post) = (pre ++ b :: m) ++ b :: post := by simp
      have l1 : load (pre ++ (a :: m ++ [b]) ++ post) pre.length = .ok a := by rw [s1]; exact load_mid ..
      have l2 : load (pre ++ (a :: m ++ [b]) ++ post) ((pre.length : Int) + (a :: m ++ [b]).length - 1) = .ok b := by
        rw [e0, s2]; exact load_mid ..
      have l3 : store (pre ++ (a :: m ++ [b]) ++ post) pre.length b = .ok (pre ++ b :: (m ++ [b] ++ post)) := by
        rw [s1]; exact store_mid ..
      have l4 : store (pre ++ b :: (m ++ [b] ++ post)) ((pre.length : Int) + (a :: m ++ [b]).length - 1) a =
          .ok ((pre ++ b :: m) ++ a :: post) := by
        rw [e0', s3]; exact store_mid ..
      rw [l1, Res.bind_ok, l2, Res.bind_ok, l3, Res.bind_ok, l4, Res.bind_ok]
      have ih := reverseF_spec fuel (pre ++ [b]) m (a :: post) (by rw [hlen] at h; omega)
      have e1 : (pre.length : Int) + 1 = ((pre ++ [b]).length : Nat) := by simp
      have e2 : (pre.length : Int) + (a :: m ++ [b]).length - 1 - 1 = ((pre ++ [b]).length : Nat) + (m.length : Int) - 1 := by
        rw [hlen]; simp; omega
      have e3 : (pre ++ b :: m) ++ a :: post = (pre ++ [b]) ++ m ++ a :: post := by simp
      rw [e1, e2, e3, ih]
      simp

theorem reverse_spec (pre seg post : List α) :
    reverse (pre ++ seg ++ post) pre.length ((pre.length : Int) + seg.length - 1) = .ok (pre ++ seg.reverse ++ post) :=
  reverseF_spec _ pre seg post (by simp; omega)

/-- **C36.** If `idx` names the position after `pre`, and the rest of the stack is `A ++ B` where `B` has `n` elements (`n ≥ 0`) or
`A` has `-n` elements (`n < 0`), then `lua_rotate(L, idx, n)` leaves `pre ++ B ++ A`. -/
theorem rotate_spec (pre A B : List α) (func : Nat) (idx n : Int)
    (hidx : index2addr ⟨pre ++ A ++ B, func⟩ idx = some (pre.length : Int))
    (hn : (0 ≤ n ∧ n = B.length) ∨ (n < 0 ∧ -n = A.length)) :
    rotate ⟨pre ++ A ++ B, func⟩ idx n = .ok ⟨pre ++ B ++ A, func⟩ := by
  unfold rotate
  simp only [hidx]
  have hm : (if 0 ≤ n then ((⟨pre ++ A ++ B, func⟩ : St α).top : Int) - 1 - n else (pre.length : Int) - n - 1) =
      (pre.length : Int) + A.length - 1 := by
    simp only [St.top, List.length_append]
    rcases hn with ⟨h1, h2⟩ | ⟨h1, h2⟩
    · rw [if_pos h1]; omega
    · rw [if_neg (by omega)]; omega
  rw [hm, reverse_spec pre A B, Res.bind_ok]
  have e1 : (pre.length : Int) + A.length - 1 + 1 = ((pre ++ A.reverse).length : Nat) := by simp
  have e2 : ((⟨pre ++ A ++ B, func⟩ : St α).top : Int) - 1 = ((pre ++ A.reverse).length : Nat) + (B.length : Int) - 1 := by
    simp only [St.top]; simp; omega
  have r2 := reverse_spec (pre ++ A.reverse) B []
  simp only [List.append_nil] at r2
  rw [e1, e2, r2, Res.bind_ok]
  have e3 : ((pre ++ A.reverse).length : Nat) + (B.length : Int) - 1 = (pre.length : Int) + (A.reverse ++ B.reverse).length - 1 := by
    simp; omega
  have r3 := reverse_spec pre (A.reverse ++ B.reverse) []
  simp only [List.append_nil] at r3
  rw [e3, List.append_assoc, r3, Res.bind_ok]
  simp [List.append_assoc]

/-- **C36.** Rotating by `n` and then by `-n` restores the stack (the index being a positive one, which names the same slot in both calls). -/
theorem rotate_inverse (s : St α) (idx n : Int) (hpos : 0 < idx) (hidx : (s.func : Int) + idx < s.top)
    (hn : n.natAbs ≤ s.top - (s.func + idx.toNat)) :
    ∃ s', rotate s idx n = .ok s' ∧ rotate s' idx (-n) = .ok s := by
  obtain ⟨slots, func⟩ := s
  have hp : func + idx.toNat < slots.length := by simp only [St.top] at hidx; omega
  generalize hpp : func + idx.toNat = p at *
  have hia : ∀ l : List α, l.length = slots.length → index2addr ⟨l, func⟩ idx = some (p : Int) := by
    intro l hl
    simp only [index2addr, St.top, hl]
    rw [if_pos hpos, if_neg (by omega)]
    congr 1; omega
  simp only [St.top] at hn
  -- length of the prefix of the rotated segment
  obtain ⟨k, hk1, hk2⟩ : ∃ k : Nat, k ≤ slots.length - p ∧
      ((0 ≤ n ∧ n = ((slots.length - p - k : Nat) : Int)) ∨ (n < 0 ∧ -n = (k : Int))) := by
    by_cases h : 0 ≤ n
    · exact ⟨slots.length - p - n.natAbs, by omega, .inl ⟨h, by omega⟩⟩
    · exact ⟨n.natAbs, hn, .inr ⟨by omega, by omega⟩⟩
  let pre := slots.take p
  let A := (slots.drop p).take k
  let B := (slots.drop p).drop k
  have hpre : pre.length = p := by simp [pre]; omega
  have hA : A.length = k := by simp [A]; omega
  have hB : B.length = slots.length - p - k := by simp [B]; omega
  have hs : slots = pre ++ A ++ B := by
    rw [List.append_assoc, List.take_append_drop, List.take_append_drop]
  have e : ∀ m, rotate (⟨slots, func⟩ : St α) idx m = rotate ⟨pre ++ A ++ B, func⟩ idx m := by intro m; rw [← hs]
  refine ⟨⟨pre ++ B ++ A, func⟩, ?_, ?_⟩
  · rw [e]
    apply rotate_spec
    · rw [hpre]; exact hia _ (by rw [← hs])
    · rw [hA, hB]; exact hk2
  · by_cases h0 : n = 0
    · subst h0
      have hk : k = slots.length - p := by omega
      have : B = [] := by
        have : B.length = 0 := by omega
        exact List.length_eq_zero_iff.1 this
      have hs' : slots = pre ++ A := by rw [hs, this, List.append_nil]
      simp only [this, List.append_nil]
      have := rotate_spec pre A [] func idx (-0) (by rw [List.append_nil, hpre]; exact hia _ (by rw [← hs'])) (.inl ⟨by omega, by simp⟩)
      simp only [List.append_nil] at this
      rw [this, hs']
    · have := rotate_spec pre B A func idx (-n) (by rw [hpre]; exact hia _ (by simp [hpre, hA, hB]; omega)) (by rw [hA, hB]; omega)
      rw [this, hs]

/-- **C36.** `lua_insert` moves the top element into the given position, shifting up the elements above it. -/
theorem insert_spec (pre A : List α) (x : α) (func : Nat) (idx : Int)
    (hidx : index2addr ⟨pre ++ A ++ [x], func⟩ idx = some (pre.length : Int)) :
    insert ⟨pre ++ A ++ [x], func⟩ idx = .ok ⟨pre ++ x :: A, func⟩ := by
  have := rotate_spec pre A [x] func idx 1 hidx (.inl ⟨by omega, by simp⟩)
  simpa [insert] using this

/-- **C36.** `lua_remove` deletes the element at the given position, shifting down the elements above it. -/
theorem remove_spec (nil : α) (pre A : List α) (x : α) (func : Nat) (idx : Int)
    (hidx : index2addr ⟨pre ++ x :: A, func⟩ idx = some (pre.length : Int)) :
    remove nil ⟨pre ++ x :: A, func⟩ idx = .ok ⟨pre ++ A, func⟩ := by
  have e : pre ++ x :: A = pre ++ [x] ++ A := by simp
  rw [e] at hidx ⊢
  have := rotate_spec pre [x] A func idx (-1) hidx (.inr ⟨by omega, by simp⟩)
  simp only [remove, this, Res.bind_ok, pop, settop]
  rw [if_neg (by omega)]
  simp only [St.top, List.length_append, List.length_singleton]
  rw [if_neg (by omega)]
  refine congrArg Res.ok ?_
  congr 1
  have : (((pre.length + A.length + 1 : Nat) : Int) + (-1 - 1 + 1)).toNat = (pre ++ A).length := by simp; omega
  rw [this, List.take_left']
  rfl

/-- **C36.** `lua_replace` pops the top element and puts it at the given position. -/
theorem replace_spec (nil : α) (pre A : List α) (x y : α) (func : Nat) (idx : Int)
    (hidx : index2addr ⟨pre ++ x :: A ++ [y], func⟩ idx = some (pre.length : Int)) :
    replace nil ⟨pre ++ x :: A ++ [y], func⟩ idx = .ok ⟨pre ++ y :: A, func⟩ := by
  have h1 : index2addr ⟨pre ++ x :: A ++ [y], func⟩ (-1) = some ((pre ++ x :: A).length : Int) := by
    simp only [index2addr, St.top]; rw [if_neg (by omega)]; congr 1; simp; omega
  have l1 : load (pre ++ x :: A ++ [y]) ((pre ++ x :: A).length : Int) = .ok y := load_mid _ [] y
  have e : pre ++ x :: A ++ [y] = pre ++ x :: (A ++ [y]) := by simp
  have l2 : store (pre ++ x :: A ++ [y]) (pre.length : Int) y = .ok (pre ++ y :: (A ++ [y])) := by rw [e]; exact store_mid ..
  simp only [replace, copy, h1, hidx, l1, l2, Res.bind_ok, pop, settop, Res.pure_eq]
  rw [if_neg (by omega), if_neg (by simp only [St.top]; simp; omega)]
  simp only [St.top]
  refine congrArg Res.ok ?_
  congr 1
  have : (((pre ++ y :: (A ++ [y])).length : Int) + (-1 - 1 + 1)).toNat = (pre ++ y :: A).length := by simp; omega
  have e2 : pre ++ y :: (A ++ [y]) = (pre ++ y :: A) ++ [y] := by simp
  rw [this, e2, List.take_left']
  rfl

/-- hypotheses are met: a frame with five values, rotated from its second slot -/
example : rotate ⟨[0, 1, 2, 3, 4, 5], 0⟩ 2 2 = .ok ⟨[0, 1, 4, 5, 2, 3], 0⟩ ∧ rotate ⟨[0, 1, 2, 3, 4, 5], 0⟩ (-4) (-1) = .ok ⟨[0, 1, 3, 4, 5, 2], 0⟩ :=
  ⟨rotate_spec [0, 1] [2, 3] [4, 5] 0 2 2 rfl (.inl ⟨by decide, rfl⟩), rotate_spec [0, 1] [2] [3, 4, 5] 0 (-4) (-1) rfl (.inr ⟨by decide, rfl⟩)⟩

example : ∃ s', rotate (⟨[0, 1, 2, 3, 4, 5], 0⟩ : St Nat) 2 (-3) = .ok s' ∧ rotate s' 2 3 = .ok ⟨[0, 1, 2, 3, 4, 5], 0⟩ :=
  rotate_inverse ⟨[0, 1, 2, 3, 4, 5], 0⟩ 2 (-3) (by decide) (by decide) (by decide)

end Verif.Stack
