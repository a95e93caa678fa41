import Verif.PtrList.Look

/-!
Changing lists: one node at a time, putting nodes in and taking them out.
-/
namespace Verif.PtrList

/-- what an operation on the list with the nodes `ps` leaves alone: after it the list has the
nodes `ps'`, of which the new ones were not in use, nodes it gave up are freed, and nothing
else has changed -/
structure Frame (h : Heap) (ps : List Nat) (h' : Heap) (ps' : List Nat) : Prop where
  other : ∀ q, q ∉ ps → q ∉ ps' → h' q = h q
  new : ∀ q ∈ ps', q ∈ ps ∨ h q = none
  gone : ∀ q ∈ ps, q ∉ ps' → h' q = none

theorem Frame.refl (h : Heap) (ps : List Nat) : Frame h ps h ps :=
  ⟨fun _ _ _ => rfl, fun _ hq => .inl hq, fun _ hq hn => absurd hq hn⟩

theorem Frame.trans {h h1 h2 : Heap} {ps ps1 ps2 : List Nat} (f1 : Frame h ps h1 ps1)
    (f2 : Frame h1 ps1 h2 ps2) : Frame h ps h2 ps2 := by
  refine ⟨fun q hq hq2 => ?_, fun q hq => ?_, fun q hq hq2 => ?_⟩
  · by_cases h1q : q ∈ ps1
    · rw [f2.gone q h1q hq2]
      rcases f1.new q h1q with hh | hh
      · exact absurd hh hq
      · exact hh.symm
    · rw [f2.other q h1q hq2, f1.other q hq h1q]
  · by_cases hqs : q ∈ ps
    · exact .inl hqs
    · right
      rcases f2.new q hq with hh | hh
      · rcases f1.new q hh with h3 | h3
        · exact absurd h3 hqs
        · exact h3
      · by_cases h1q : q ∈ ps1
        · rcases f1.new q h1q with h3 | h3
          · exact absurd h3 hqs
          · exact h3
        · rw [← f1.other q hqs h1q]; exact hh
  · by_cases h1q : q ∈ ps1
    · exact f2.gone q h1q hq2
    · rw [f2.other q h1q hq2]; exact f1.gone q hq h1q

theorem le_of_mem_sum : ∀ {L : List Nat} {x : Nat}, x ∈ L → x ≤ L.sum
  | y :: L, x, hx => by
    rw [List.sum_cons]
    rcases List.mem_cons.mp hx with rfl | hx
    · omega
    · have := le_of_mem_sum hx; omega

theorem Frame.fine {h h' : Heap} {ps ps' : List Nat} (f : Frame h ps h' ps') (hf : h.Fine)
    (h0 : 0 ∉ ps) (h0' : 0 ∉ ps') : h'.Fine := by
  obtain ⟨hz, b, hb⟩ := hf
  refine ⟨by rw [f.other 0 h0 h0']; exact hz, b + ps.sum + ps'.sum + 1, fun q hq => ?_⟩
  rw [f.other q, hb q (by omega)]
  · intro hm; have := le_of_mem_sum hm; omega
  · intro hm; have := le_of_mem_sum hm; omega

theorem ents_congr {h h' : Heap} {p : Nat} (e : h' p = h p) : ents h' p = ents h p := by
  simp [ents, e]

theorem contents_congr {h h' : Heap} : ∀ {ps : List Nat}, (∀ p ∈ ps, h' p = h p) →
    contents h' ps = contents h ps
  | [], _ => rfl
  | p :: ps, hp => by
    rw [contents_cons, contents_cons, ents_congr (hp p (by simp)),
      contents_congr (fun q hq => hp q (List.mem_cons_of_mem _ hq))]

/-- a list is not affected by what happens elsewhere -/
theorem Is.frame {h h' : Heap} {l : Nat} {ps xs : List Nat} (H : Is h l ps xs)
    (he : ∀ p ∈ ps, h' p = h p) : Is h' l ps xs := by
  refine ⟨H.head, H.nodup, H.nz, cyc_congr H.cyc (fun a ha => ?_) (fun a ha => ?_), ?_, ?_⟩
  · rw [nxt, nxt, he a ha]
  · rw [prv, prv, he a ha]
  · intro p hp
    rw [he p hp]
    exact H.ok p hp
  · rw [contents_congr he]; exact H.xs

theorem At.frame {h h' : Heap} {l : Nat} {ps : List Nat} {it : It} {pre post : List Nat}
    (H : At h l ps it pre post) (he : ∀ p ∈ ps, h' p = h p) : At h' l ps it pre post := by
  rcases H with hh | ⟨A, p, B, n, rfl, h2, h3, h4, h5, h6, h7⟩
  · exact .inl hh
  · refine .inr ⟨A, p, B, n, rfl, ?_, h3, h4, h5, ?_, ?_⟩
    · rw [he p (by simp)]; exact h2
    · rw [contents_congr (fun q hq => he q (by simp [hq]))]; exact h6
    · rw [contents_congr (fun q hq => he q (by simp [hq]))]; exact h7

@[simp] theorem set_same (h : Heap) (p : Nat) (n : Node) : h.set p n p = some n := if_pos rfl
theorem set_other (h : Heap) {p q : Nat} (n : Node) (hq : q ≠ p) : h.set p n q = h q := if_neg hq

/-- a change inside one node -/
theorem Is.update {h : Heap} {l : Nat} {A B xs : List Nat} {p : Nat} {n n' : Node}
    (H : Is h l (A ++ p :: B) xs) (hp : h p = some n) (h1 : n'.next = n.next)
    (h2 : n'.prev = n.prev) (hok : n'.OK) :
    Is (h.set p n') l (A ++ p :: B) (contents h A ++ (n'.ents ++ contents h B)) ∧
    contents (h.set p n') A = contents h A ∧ contents (h.set p n') B = contents h B ∧
    Frame h (A ++ p :: B) (h.set p n') (A ++ p :: B) := by
  have hnd := H.nodup
  have hpA : ∀ q ∈ A, h.set p n' q = h q := by
    intro q hq
    refine set_other _ _ ?_
    rintro rfl
    exact (List.nodup_append.mp hnd).2.2 _ hq _ (by simp) rfl
  have hpB : ∀ q ∈ B, h.set p n' q = h q := by
    intro q hq
    refine set_other _ _ ?_
    rintro rfl
    exact (List.nodup_cons.mp (List.nodup_append.mp hnd).2.1).1 hq
  have e1 := contents_congr hpA
  have e2 := contents_congr hpB
  refine ⟨⟨H.head, H.nodup, H.nz, cyc_congr H.cyc (fun a _ => ?_) (fun a _ => ?_), ?_, ?_⟩,
    e1, e2, ⟨fun q hq _ => set_other _ _ (fun e => hq (by simp [e])), fun q hq => .inl hq,
      fun q hq hq' => absurd hq hq'⟩⟩
  · by_cases hap : a = p
    · subst hap; simp [nxt, hp, h1]
    · rw [nxt, nxt, set_other _ _ hap]
  · by_cases hap : a = p
    · subst hap; simp [prv, hp, h2]
    · rw [prv, prv, set_other _ _ hap]
  · intro q hq
    by_cases hqp : q = p
    · subst hqp; exact ⟨n', by simp, hok⟩
    · rw [set_other _ _ hqp]; exact H.ok q hq
  · rw [contents_split, e1, e2, ents_some (set_same h p n')]

theorem perm_mid (A B : List Nat) (p q : Nat) : (A ++ p :: q :: B).Perm (q :: (A ++ p :: B)) := by
  have : A ++ p :: q :: B = (A ++ [p]) ++ q :: B := by simp
  rw [this]
  refine List.perm_middle.trans ?_
  simp

/-- a new node after `p` -/
theorem Is.insert {h h' : Heap} {l : Nat} {A B xs : List Nat} {p q : Nat}
    (H : Is h l (A ++ p :: B) xs) (hq : q ∉ A ++ p :: B) (hq0 : q ≠ 0)
    (h1 : nxt h' p = some q) (h2 : prv h' q = some p) (h3 : nxt h' q = nxt h p)
    (h4 : ∀ n0, nxt h p = some n0 → prv h' n0 = some q)
    (hx : ∀ a, a ≠ p → a ≠ q → nxt h' a = nxt h a)
    (hy : ∀ a, nxt h p ≠ some a → a ≠ q → prv h' a = prv h a)
    (hok : Okay h' (A ++ p :: q :: B)) :
    Is h' l (A ++ p :: q :: B) (contents h' (A ++ p :: q :: B)) := by
  refine ⟨?_, ?_, ?_, ?_, hok, rfl⟩
  · have := H.head
    cases A <;> simpa using this
  · rw [(perm_mid A B p q).nodup_iff, List.nodup_cons]
    exact ⟨hq, H.nodup⟩
  · rw [(perm_mid A B p q).mem_iff, List.mem_cons]
    rintro (hh | hh)
    · exact hq0 hh.symm
    · exact H.nz hh
  · have hc := (cyc_rotate h A (p :: B)).mp H.cyc
    have hnd : (p :: (B ++ A)).Nodup :=
      (List.perm_append_comm (l₁ := A) (l₂ := p :: B)).nodup_iff.mp H.nodup
    have hq' : q ∉ p :: (B ++ A) := by
      intro hh
      apply hq
      simp only [List.mem_cons, List.mem_append] at hh ⊢
      rcases hh with hh | hh | hh
      · exact .inr (.inl hh)
      · exact .inr (.inr hh)
      · exact .inl hh
    obtain ⟨n0, rest, he⟩ : ∃ n0 rest, (B ++ A) ++ [p] = n0 :: rest := by
      cases hBA : B ++ A with
      | nil => exact ⟨p, [], rfl⟩
      | cons x L => exact ⟨x, L ++ [p], rfl⟩
    have hnp : nxt h p = some n0 := by
      rw [(cyc_at H.cyc).1, he]; rfl
    have := cyc_insert (h' := h') hnd hc hq' he h1 h2 (h3.trans hnp) (h4 n0 hnp) hx
      (fun a ha haq => hy a (by rw [hnp]; intro e; exact ha (Option.some.inj e).symm) haq)
    have e1 : p :: q :: (B ++ A) = (p :: q :: B) ++ A := by simp
    rw [e1, cyc_rotate] at this
    exact this

/-- a node less -/
theorem Is.unlink {h h' : Heap} {l : Nat} {A B xs : List Nat} {q : Nat}
    (H : Is h l (A ++ q :: B) xs) (hne : A ++ B ≠ []) (hq : ents h q = [])
    (h1 : ∀ n0 l0, nxt h q = some n0 → prv h q = some l0 →
      nxt h' l0 = some n0 ∧ prv h' n0 = some l0)
    (hx : ∀ a, prv h q ≠ some a → a ≠ q → nxt h' a = nxt h a)
    (hy : ∀ a, nxt h q ≠ some a → a ≠ q → prv h' a = prv h a)
    (hok : Okay h' (A ++ B)) (hc : ∀ a ∈ A ++ B, ents h' a = ents h a) :
    Is h' ((A ++ B).head?.getD 0) (A ++ B) xs := by
  have hnd : (q :: (A ++ B)).Nodup := List.perm_middle.nodup_iff.mp H.nodup
  refine ⟨rfl, (List.nodup_cons.mp hnd).2, ?_, ?_, hok, ?_⟩
  · intro hh
    apply H.nz
    simp only [List.mem_append, List.mem_cons] at hh ⊢
    rcases hh with hh | hh
    · exact .inl hh
    · exact .inr (.inr hh)
  · have hcy := (cyc_rotate h A (q :: B)).mp H.cyc
    have hnd : (q :: (B ++ A)).Nodup :=
      (List.perm_append_comm (l₁ := A) (l₂ := q :: B)).nodup_iff.mp H.nodup
    have hne' : B ++ A ≠ [] := by
      intro hh
      rw [List.append_eq_nil_iff] at hh
      exact hne (by simp [hh.1, hh.2])
    rw [cyc_rotate]
    have hat := cyc_at H.cyc
    have hf : (B ++ A).head? = some ((B ++ A).head hne') := List.head?_eq_some_head hne'
    have hl : (B ++ A).getLast? = some ((B ++ A).getLast hne') :=
      List.getLast?_eq_some_getLast hne'
    have hn0 : nxt h q = some ((B ++ A).head hne') := by
      rw [hat.1, List.head?_append, hf]; rfl
    have hl0 : prv h q = some ((B ++ A).getLast hne') := by
      rw [hat.2, List.getLast?_cons, hl]; rfl
    obtain ⟨e1, e2⟩ := h1 _ _ hn0 hl0
    exact cyc_remove hnd hcy hf hl e1 e2
      (fun a ha haq => hx a (by rw [hl0]; intro e; exact ha (Option.some.inj e).symm) haq)
      (fun a ha haq => hy a (by rw [hn0]; intro e; exact ha (Option.some.inj e).symm) haq)
  · rw [← H.xs, contents_split, hq, List.nil_append, ← contents_append]
    have : ∀ (L : List Nat), (∀ a ∈ L, ents h' a = ents h a) → contents h' L = contents h L := by
      intro L
      induction L with
      | nil => intro _; rfl
      | cons a L ih =>
        intro hL
        rw [contents_cons, contents_cons, hL a (by simp), ih (fun b hb => hL b (by simp [hb]))]
    exact this _ hc

theorem wr_ok {n : Node} {i : Int} {v : Nat} (h0 : 0 ≤ i) (h1 : i < 7) :
    n.wr i v = .ok { n with slot := fun j => if j = i.toNat then v else n.slot j } :=
  if_pos ⟨h0, h1⟩

theorem shiftDown_spec : ∀ (k : Nat) (n : Node) (i : Int), 0 ≤ i → i + k < 7 →
    shiftDown n i k = .ok ({ n with slot := fun j =>
      if i.toNat ≤ j ∧ j < i.toNat + k then n.slot (j + 1) else n.slot j }, i + k) := by
  intro k
  induction k with
  | zero =>
    intro n i _ _
    rw [shiftDown]
    congr 1
    simp only [Int.natCast_zero, Int.add_zero, Prod.mk.injEq, and_true, Nat.add_zero]
    cases n
    congr
    funext j
    rw [if_neg (by omega)]
  | succ k ih =>
    intro n i h0 h1
    simp only [shiftDown]
    rw [rd_ok (by omega) (by omega), Res.bind_ok, wr_ok h0 (by omega), Res.bind_ok,
      ih _ (i + 1) (by omega) (by omega)]
    congr 1
    simp only [Prod.mk.injEq, Node.mk.injEq, true_and]
    refine ⟨?_, by omega⟩
    funext j
    have h2 : (i + 1).toNat = i.toNat + 1 := by omega
    rw [h2]
    by_cases ha : i.toNat + 1 ≤ j ∧ j < i.toNat + 1 + k
    · rw [if_pos ha, if_neg (by omega), if_pos (by omega)]
    · rw [if_neg ha]
      by_cases hb : j = i.toNat
      · rw [if_pos hb, if_pos (by omega), hb]
      · rw [if_neg hb, if_neg (by omega)]

theorem shiftUp_spec : ∀ (k : Nat) (n : Node) (i : Int), 0 ≤ i → i + k < 7 →
    shiftUp n i k = .ok { n with slot := fun j =>
      if i.toNat < j ∧ j ≤ i.toNat + k then n.slot (j - 1) else n.slot j } := by
  intro k
  induction k with
  | zero =>
    intro n i _ _
    rw [shiftUp]
    congr 1
    cases n
    congr
    funext j
    rw [if_neg (by omega)]
  | succ k ih =>
    intro n i h0 h1
    simp only [shiftUp]
    rw [rd_ok (by omega) (by omega), Res.bind_ok, wr_ok (by omega) (by omega), Res.bind_ok,
      ih _ i (by omega) (by omega)]
    congr 1
    simp only [Node.mk.injEq, true_and]
    funext j
    have h2 : (i + k + 1).toNat = i.toNat + k + 1 := by omega
    have h3 : (i + k).toNat = i.toNat + k := by omega
    rw [h2, h3]
    by_cases ha : i.toNat < j ∧ j ≤ i.toNat + k
    · rw [if_pos ha, if_neg (by omega), if_pos (by omega)]
    · rw [if_neg ha]
      by_cases hb : j = i.toNat + k + 1
      · rw [if_pos hb, if_pos (by omega), hb]; congr 1
      · rw [if_neg hb, if_neg (by omega)]

end Verif.PtrList
