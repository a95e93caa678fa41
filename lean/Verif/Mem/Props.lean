import Verif.Mem.Model

/-!
# C100: memory is counted exactly.  C101: vectors grow as far as their limit, at linear cost.
-/
namespace Verif.Mem

/-! ## C100 -/

/-- The bytes in use. -/
def inUse (h : Heap) : Nat := (h.map Prod.snd).sum

/-- No two blocks have the same address. -/
def Distinct (h : Heap) : Prop := (h.map Prod.fst).Nodup

/-- The count of the state is right. -/
def Exact (s : State) : Prop := Distinct s.heap ∧ gettotalbytes s = inUse s.heap

theorem sizeOf_none {h : Heap} {b : Nat} (hn : sizeOf h b = none) : b ∉ h.map Prod.fst := by
  induction h with
  | nil => simp
  | cons p h ih =>
    obtain ⟨c, n⟩ := p
    unfold sizeOf at hn ih
    by_cases hc : b = c
    · subst hc; simp [List.lookup] at hn
    · have hb : (b == c) = false := by simpa using hc
      simp only [List.lookup, hb] at hn
      simp only [List.map_cons, List.mem_cons, not_or]
      exact ⟨hc, ih hn⟩

theorem remove_notin {h : Heap} {b : Nat} (hn : b ∉ h.map Prod.fst) : remove h b = h := by
  unfold remove
  rw [List.filter_eq_self]
  intro p hp
  have : p.1 ≠ b := by
    rintro rfl
    exact hn (List.mem_map_of_mem hp)
  simpa using this

theorem remove_spec {h : Heap} {b n : Nat} (hd : Distinct h) (hs : sizeOf h b = some n) :
    inUse (remove h b) + n = inUse h ∧ Distinct (remove h b) := by
  refine ⟨?_, ?_⟩
  · induction h with
    | nil => cases hs
    | cons p h ih =>
      obtain ⟨c, m⟩ := p
      have hd' : c ∉ h.map Prod.fst ∧ Distinct h := by
        unfold Distinct at hd
        rw [List.map_cons, List.nodup_cons] at hd
        exact hd
      unfold sizeOf at hs ih
      by_cases hc : b = c
      · subst hc
        simp only [List.lookup, beq_self_eq_true] at hs
        cases hs
        have e : remove ((b, n) :: h) b = remove h b := by simp [remove]
        rw [e, remove_notin hd'.1]
        simp only [inUse, List.map_cons, List.sum_cons]
        omega
      · have hb : (b == c) = false := by simpa using hc
        simp only [List.lookup, hb] at hs
        have e : remove ((c, m) :: h) b = (c, m) :: remove h b := by
          have : (c != b) = true := by simpa using fun h => hc h.symm
          simp [remove, this]
        rw [e]
        have := ih hd'.2 hs
        simp only [inUse, List.map_cons, List.sum_cons] at this ⊢
        omega
  · exact (List.Sublist.map Prod.fst List.filter_sublist).nodup hd

/-- What the allocator does to the bytes in use. -/
theorem frealloc_spec {h h' : Heap} {b : Option Nat} {o n : Nat} {a r} (hd : Distinct h)
    (hf : frealloc h b o n a = .ok (r, h')) :
    Distinct h' ∧ ((r = none ∧ 0 < n ∧ h' = h) ∨
      ((r = none ↔ n = 0) ∧ (inUse h' : Int) = inUse h + n - (if b.isSome then (o : Int) else 0))) := by
  have new : ∀ (g : Heap) (c : Nat), Distinct g → (sizeOf g c).isNone = true → Distinct ((c, n) :: g) := by
    intro g c hg hc
    have := sizeOf_none (Option.isNone_iff_eq_none.1 hc)
    unfold Distinct
    rw [List.map_cons, List.nodup_cons]
    exact ⟨this, hg⟩
  cases b with
  | some b =>
    simp only [frealloc] at hf
    split at hf
    · rename_i hs
      obtain ⟨k1, k2⟩ := remove_spec hd hs
      split at hf
      · rename_i hn
        cases hf
        refine ⟨k2, .inr ⟨by simp [hn], ?_⟩⟩
        simp only [Option.isSome_some, if_true]
        omega
      · rename_i hn
        split at hf
        · cases hf
          exact ⟨hd, .inl ⟨rfl, by omega, rfl⟩⟩
        · split at hf
          · rename_i hc
            cases hf
            refine ⟨new _ _ k2 hc, .inr ⟨by simp [hn], ?_⟩⟩
            simp only [Option.isSome_some, if_true, inUse, List.map_cons, List.sum_cons] at k1 ⊢
            omega
          · cases hf
    · cases hf
  | none =>
    simp only [frealloc] at hf
    split at hf
    · rename_i hn
      cases hf
      refine ⟨hd, .inr ⟨by simp [hn], ?_⟩⟩
      simp [hn]
    · rename_i hn
      split at hf
      · cases hf
        exact ⟨hd, .inl ⟨rfl, by omega, rfl⟩⟩
      · split at hf
        · rename_i hc
          cases hf
          refine ⟨new _ _ hd hc, .inr ⟨by simp [hn], ?_⟩⟩
          simp only [Option.isSome_none, Bool.false_eq_true, if_false, inUse, List.map_cons, List.sum_cons]
          omega
        · cases hf

theorem account_exact {s : State} {h : Heap} {b : Option Nat} {o n : Nat} (hs : Exact s) (hd : Distinct h)
    (he : (inUse h : Int) = inUse s.heap + n - (if b.isSome then (o : Int) else 0)) :
    Exact (account s h b o n) := by
  refine ⟨hd, ?_⟩
  have := hs.2
  unfold gettotalbytes at this ⊢
  simp only [account]
  omega

theorem free_exact {s s' : State} {b o} (hs : Exact s) (h : free s b o = .ok s') : Exact s' := by
  unfold free at h
  rw [Res.bind_eq_ok] at h
  obtain ⟨⟨r, g⟩, h1, h2⟩ := h
  cases h2
  obtain ⟨k1, k2 | k2⟩ := frealloc_spec hs.1 h1
  · omega
  · exact account_exact hs k1 k2.2

theorem gc_exact (fs : List (Nat × Nat)) {s s' : State} (hs : Exact s) (h : gc s fs = .ok s') :
    Exact s' := by
  induction fs generalizing s with
  | nil => cases h; exact hs
  | cons p fs ih =>
    obtain ⟨b, n⟩ := p
    simp only [gc] at h
    rw [Res.bind_eq_ok] at h
    obtain ⟨t, h1, h2⟩ := h
    exact ih (free_exact hs h1) h2

theorem realloc_exact {s s' : State} {b o n a1 a2 fs out} (hs : Exact s)
    (h : realloc s b o n a1 a2 fs = .ok (out, s')) :
    Exact s' ∧ (out = .block none ↔ n = 0) ∧ (out = .errmem → ∀ m, b = some m → sizeOf s'.heap m = some o) := by
  unfold realloc at h
  rw [Res.bind_eq_ok] at h
  obtain ⟨⟨r, g⟩, h1, h2⟩ := h
  obtain ⟨k1, k2⟩ := frealloc_spec hs.1 h1
  dsimp only at h2
  split at h2
  · rename_i hc
    have hg : g = s.heap := by
      rcases k2 with k2 | k2
      · exact k2.2.2
      · have := k2.1.1 (Option.isNone_iff_eq_none.1 hc.1)
        omega
    split at h2
    · rw [Res.bind_eq_ok] at h2
      obtain ⟨t, h3, h4⟩ := h2
      have ht := gc_exact fs hs h3
      rw [Res.bind_eq_ok] at h4
      obtain ⟨⟨r', g'⟩, h5, h6⟩ := h4
      obtain ⟨j1, j2⟩ := frealloc_spec ht.1 h5
      dsimp only at h6
      split at h6
      · cases h6
        refine ⟨ht, ⟨(fun h => by cases h), (fun h => by omega)⟩, ?_⟩
        rintro _ m rfl
        simp only [frealloc] at h5
        split at h5
        · assumption
        · cases h5
      · rename_i hr
        cases h6
        rcases j2 with j2 | j2
        · rw [j2.1] at hr; simp at hr
        · refine ⟨account_exact ht j1 j2.2, ?_, fun h => by cases h⟩
          rw [← j2.1]
          simp
    · cases h2
      refine ⟨hs, ⟨(fun h => by cases h), (fun h => by omega)⟩, ?_⟩
      rintro _ m rfl
      simp only [frealloc] at h1
      split at h1
      · assumption
      · cases h1
  · rename_i hc
    cases h2
    rcases k2 with k2 | k2
    · exact absurd ⟨by rw [k2.1]; rfl, k2.2.1⟩ hc
    · refine ⟨account_exact hs k1 k2.2, ?_, fun h => by cases h⟩
      rw [← k2.1]
      simp

theorem setdebt_exact {s : State} (hs : Exact s) (d : Int) :
    Exact (setdebt s d) ∧ (setdebt s d).total ≤ maxLmem ∧
      (s.total + s.debt - maxLmem ≤ d → (setdebt s d).debt = d) := by
  refine ⟨⟨hs.1, ?_⟩, ?_, ?_⟩
  · have := hs.2
    unfold gettotalbytes at this ⊢
    simp only [setdebt]
    omega
  · simp only [setdebt]
    split <;> omega
  · intro h
    simp only [setdebt]
    rw [if_neg (by omega)]

/-- Whatever the program allocates, reallocates and frees, whenever the allocator refuses and
emergency collections run or memory errors are raised and caught, and however the collector sets its
debt: `gettotalbytes` is the number of bytes in use. -/
theorem count_exact (os : List Op) (s s' : State) (hs : Exact s) (h : run s os = .ok s') :
    gettotalbytes s' = ((s'.heap.map Prod.snd).sum : Nat) := by
  suffices Exact s' from this.2
  induction os generalizing s with
  | nil => cases h; exact hs
  | cons o os ih =>
    cases o with
    | realloc b o n a1 a2 fs =>
      simp only [run] at h
      rw [Res.bind_eq_ok] at h
      obtain ⟨⟨out, t⟩, h1, h2⟩ := h
      exact ih t (realloc_exact hs h1).1 h2
    | setdebt d => exact ih _ (setdebt_exact hs d).1 h

/-- A call that ends returns NULL exactly if the new size is 0; otherwise a block or a memory error. -/
theorem realloc_null (s s' : State) (b : Option Nat) (o n : Nat) (a1 a2 : Option Nat)
    (fs : List (Nat × Nat)) (out : Out) (hs : Exact s)
    (h : realloc s b o n a1 a2 fs = .ok (out, s')) : out = .block none ↔ n = 0 :=
  (realloc_exact hs h).2.1

/-- After a memory error the old block is still there, with its size. -/
theorem errmem_keeps (s s' : State) (b o n : Nat) (a1 a2 : Option Nat)
    (fs : List (Nat × Nat)) (hs : Exact s)
    (h : realloc s (some b) o n a1 a2 fs = .ok (.errmem, s')) : sizeOf s'.heap b = some o :=
  (realloc_exact hs h).2.2 rfl b rfl

/-- A new object (its tag in place of an old size), a refusal with a collection, a debt, a free. -/
example : (match run ⟨[], 0, 0, true⟩ [.realloc none 5 40 (some 1) none [], .realloc none 4 100 (some 2) none [],
      .setdebt (-7), .realloc (some 2) 100 300 none (some 3) [(1, 40)], .realloc (some 3) 300 0 none none [],
      .realloc none 0 8 (some 1) none []] with
    | .ok s => s.heap == [(1, 8)] && gettotalbytes s == 8
    | _ => false) = true := by decide +kernel

example : Exact ⟨[], 0, 0, true⟩ := ⟨List.nodup_nil, rfl⟩

/-! ## C101 -/

/-- The size of a vector that must grow: more than before, at most the limit; an error exactly if
the limit is reached. -/
theorem growaux_spec (size limit : Int) (h0 : 0 ≤ size) (h4 : 4 ≤ limit) (hl : limit ≤ 2147483647) :
    (limit ≤ size ∧ growaux size limit = .err "too many") ∨
    size < limit ∧ ∃ n, growaux size limit = .ok n ∧ size < n ∧ n ≤ limit ∧ (2 * size ≤ n ∨ n = limit) ∧
      n ≤ 2 * size + 4 := by
  unfold growaux
  split
  · split
    · exact .inl ⟨by omega, rfl⟩
    · exact .inr ⟨by omega, limit, rfl, by omega, by omega, .inr rfl, by omega⟩
  · rw [if_neg (by omega)]
    split
    · exact .inr ⟨by omega, 4, rfl, by omega, by omega, .inl (by omega), by omega⟩
    · exact .inr ⟨by omega, size * 2, rfl, by omega, by omega, .inl (by omega), by omega⟩

/-- The state of a vector. -/
def Ok {α : Type} (limit : Int) (v : Vec α) : Prop :=
  (v.elems.length : Int) ≤ v.size ∧ v.size ≤ limit ∧ 0 ≤ v.size ∧ v.size ≤ 2 * v.elems.length + 4 ∧
    0 ≤ v.moved ∧ (v.moved ≤ v.size ∨ v.size = limit ∧ v.moved ≤ 2 * v.size)

theorem push_ok {α : Type} (limit : Int) (h4 : 4 ≤ limit) (hl : limit ≤ 2147483647) (v : Vec α) (x : α)
    (h : Ok limit v) :
    ((v.elems.length : Int) < limit ∧ ∃ w, push limit v x = .ok w ∧ Ok limit w ∧ w.elems = v.elems ++ [x]) ∨
    ((v.elems.length : Int) = limit ∧ push limit v x = .err "too many") := by
  obtain ⟨a1, a2, a3, a4, a5, a6⟩ := h
  unfold push
  by_cases hf : (v.elems.length : Int) + 1 > v.size
  · rw [if_pos hf]
    rcases growaux_spec v.size limit a3 h4 hl with ⟨b1, b2⟩ | ⟨b1, n, b2, b3, b4, b5, b6⟩
    · right
      refine ⟨by omega, ?_⟩
      rw [b2]
      rfl
    · left
      refine ⟨by omega, ⟨v.elems ++ [x], n, v.moved + v.size⟩, ?_, ⟨?_, ?_, ?_, ?_, ?_, ?_⟩, rfl⟩
      · rw [b2]
        simp only [Res.bind_ok]
        rw [if_pos (by omega)]
      all_goals simp only [List.length_append, List.length_cons, List.length_nil]
      all_goals omega
  · left
    rw [if_neg hf]
    refine ⟨by omega, ⟨v.elems ++ [x], v.size, v.moved⟩, ?_, ⟨?_, ?_, ?_, ?_, ?_, ?_⟩, rfl⟩
    · simp only [Res.bind_ok]
      rw [if_pos (by omega)]
    all_goals simp only [List.length_append, List.length_cons, List.length_nil]
    all_goals omega

theorem pushAll_ok {α : Type} (limit : Int) (h4 : 4 ≤ limit) (hl : limit ≤ 2147483647) (xs : List α)
    (v : Vec α) (h : Ok limit v) :
    ((v.elems.length + xs.length : Int) ≤ limit ∧
      ∃ w, pushAll limit v xs = .ok w ∧ Ok limit w ∧ w.elems = v.elems ++ xs) ∨
    (limit < (v.elems.length + xs.length : Int) ∧ pushAll limit v xs = .err "too many") := by
  induction xs generalizing v with
  | nil =>
    left
    have := h.1
    have := h.2.1
    exact ⟨by simp only [List.length_nil]; omega, v, rfl, h, by simp⟩
  | cons x xs ih =>
    simp only [pushAll]
    rcases push_ok limit h4 hl v x h with ⟨a1, w, a2, a3, a4⟩ | ⟨a1, a2⟩
    · rw [a2]
      simp only [Res.bind_ok]
      have hlen : (w.elems.length : Int) = v.elems.length + 1 := by rw [a4]; simp
      rcases ih w a3 with ⟨b1, u, b2, b3, b4⟩ | ⟨b1, b2⟩
      · left
        exact ⟨by simp only [List.length_cons]; omega, u, b2, b3, by rw [b4, a4]; simp⟩
      · right
        exact ⟨by simp only [List.length_cons]; omega, b2⟩
    · right
      rw [a2]
      exact ⟨by simp only [List.length_cons]; omega, rfl⟩

/-- Elements added to an empty vector are all in it, in order, if they are not more than the limit;
otherwise there is an error.  No store is outside of the vector, no size overflows; the vector has at
most 4 places more than twice its elements, and all moves together took at most 4 places per element
and 8 more. -/
theorem vector_spec {α : Type} (limit : Int) (h4 : 4 ≤ limit) (hl : limit ≤ 2147483647) (xs : List α) :
    (limit < xs.length ∧ pushAll limit ⟨[], 0, 0⟩ xs = .err "too many") ∨
    ((xs.length : Int) ≤ limit ∧ ∃ w, pushAll limit ⟨[], 0, 0⟩ xs = .ok w ∧ w.elems = xs ∧
      w.size ≤ limit ∧ w.size ≤ 2 * xs.length + 4 ∧ w.moved ≤ 4 * xs.length + 8) := by
  have h0 : Ok limit (⟨[], 0, 0⟩ : Vec α) := by
    refine ⟨?_, ?_, ?_, ?_, ?_, ?_⟩ <;> simp <;> omega
  rcases pushAll_ok limit h4 hl xs _ h0 with ⟨a1, w, a2, a3, a4⟩ | ⟨a1, a2⟩
  · right
    simp only [List.length_nil, List.nil_append] at a1 a4
    obtain ⟨b1, b2, b3, b5, b6, b7⟩ := a3
    rw [a4] at b5 b1
    exact ⟨by omega, w, a2, a4, b2, b5, by omega⟩
  · left
    simp only [List.length_nil] at a1
    exact ⟨by omega, a2⟩

example : (match pushAll 255 ⟨[], 0, 0⟩ (List.replicate 200 7) with
    | .ok w => w.size == 255 && w.moved == 252
    | _ => false) = true := by decide +kernel

end Verif.Mem
