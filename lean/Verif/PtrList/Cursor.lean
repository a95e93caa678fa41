import Verif.PtrList.Change

/-!
What the operations at an iterator do to the list.
-/
namespace Verif.PtrList

theorem list_ext_map {n m : Nat} {f g : Nat → Nat} (e : n = m) (h : ∀ i, i < m → f i = g i) :
    (List.range n).map f = (List.range m).map g := by
  subst e
  exact List.map_congr_left (fun i hi => h i (List.mem_range.mp hi))

theorem ents_eq {n : Node} {L : List Nat} (hl : n.nr.toNat = L.length)
    (h : ∀ i (hi : i < L.length), n.slot i = L[i]) : n.ents = L := by
  apply List.ext_getElem
  · rw [ents_length]; exact hl
  · intro i h1 h2
    rw [ents_get]
    exact h i h2

theorem iterRemove_spec {h : Heap} {l : Nat} {ps xs : List Nat} (H : Is h l ps xs) {it : It}
    {pre post : List Nat} {x : Nat} (ho : On h l ps it pre x post) (hx : x ≠ 0) :
    ∃ h' it', iterRemove h it = .ok (h', it') ∧ Is h' l ps (pre ++ post) ∧
      At h' l ps it' pre post ∧ Frame h ps h' ps := by
  obtain ⟨A, p, B, n, hps, hp, e1, e2, h0, h1, rfl, rfl, rfl⟩ := ho
  subst hps
  have hok := H.okOf hp
  have hhi := hok.hi
  have hk : it.nr + ((n.nr - 1 - it.nr).toNat : Int) = n.nr - 1 := by omega
  have hsd := shiftDown_spec (n.nr - 1 - it.nr).toNat n it.nr h0 (by omega)
  rw [hk] at hsd
  -- the node after the removal
  obtain ⟨n', hn', hnr, hrm, hnx, hpv, hents⟩ : ∃ n', iterRemove h it =
      .ok (h.set p n', { it with nr := it.nr - 1 }) ∧ n'.nr = n.nr - 1 ∧ n'.rm = n.rm ∧
      n'.next = n.next ∧ n'.prev = n.prev ∧
      n'.ents = n.ents.take it.nr.toNat ++ n.ents.drop (it.nr.toNat + 1) := by
    refine ⟨⟨n.nr - 1, n.rm, n.prev, n.next, fun j => if j = (n.nr - 1).toNat then 0xf0f0f0f0 else
      if it.nr.toNat ≤ j ∧ j < it.nr.toNat + (n.nr - 1 - it.nr).toNat then n.slot (j + 1)
      else n.slot j⟩, ?_, rfl, rfl, rfl, rfl, ?_⟩
    · rw [iterRemove, if_pos h0, e2, get_some hp, Res.bind_ok, hsd, Res.bind_ok]
      simp only
      rw [wr_ok (by omega) (by omega), Res.bind_ok]
    · apply ents_eq
      · simp only [List.length_append, List.length_take, List.length_drop, ents_length]
        omega
      · intro i hi
        simp only [List.length_append, List.length_take, List.length_drop, ents_length] at hi
        simp only
        rw [if_neg (by omega)]
        by_cases hc : i < it.nr.toNat
        · rw [if_neg (by omega), List.getElem_append_left
            (by rw [List.length_take, ents_length]; omega), List.getElem_take, ents_get]
        · rw [if_pos (by omega), List.getElem_append_right
            (by rw [List.length_take, ents_length]; omega), List.getElem_drop, ents_get]
          congr 1
          rw [List.length_take, ents_length]
          omega
  have hok' : n'.OK := by
    refine ⟨by omega, by omega, ?_⟩
    rw [hrm, hok.rm, hents]
    have := ents_drop h0 h1
    conv => lhs; rw [← List.take_append_drop it.nr.toNat n.ents, this]
    rw [List.count_append, List.count_append, List.count_cons_of_ne hx]
  obtain ⟨g1, g2, g3, g4⟩ := H.update hp hnx hpv hok'
  refine ⟨_, _, hn', ?_, ?_, g4⟩
  · rw [hents] at g1
    simpa [List.append_assoc] using g1
  · refine .inr ⟨A, p, B, n', rfl, set_same .., e1, e2, by simp only; omega, ?_, ?_⟩
    · rw [g2, hents]
      have : (it.nr - 1 + 1).toNat = it.nr.toNat := by omega
      simp only [this]
      rw [List.take_left' (by rw [List.length_take, ents_length]; omega)]
    · rw [g3, hents]
      have : (it.nr - 1 + 1).toNat = it.nr.toNat := by omega
      simp only [this]
      rw [List.drop_left' (by rw [List.length_take, ents_length]; omega)]

/-- writing the current entry of a node -/
theorem set_ents {n : Node} {i : Int} (h0 : 0 ≤ i) (h1 : i < n.nr) (v : Nat) :
    ({ n with slot := fun j => if j = i.toNat then v else n.slot j } : Node).ents =
      n.ents.take i.toNat ++ v :: n.ents.drop (i.toNat + 1) := by
  apply ents_eq
  · simp only [List.length_append, List.length_take, List.length_drop, ents_length,
      List.length_cons]
    omega
  · intro j hj
    simp only [List.length_append, List.length_take, List.length_drop, ents_length,
      List.length_cons] at hj
    simp only
    by_cases hc : j < i.toNat
    · rw [if_neg (by omega), List.getElem_append_left
        (by rw [List.length_take, ents_length]; omega), List.getElem_take, ents_get]
    · rw [List.getElem_append_right (by rw [List.length_take, ents_length]; omega)]
      by_cases hd : j = i.toNat
      · rw [if_pos hd]
        have : j - (n.ents.take i.toNat).length = 0 := by
          rw [List.length_take, ents_length]; omega
        simp only [this, List.getElem_cons_zero]
      · rw [if_neg hd]
        have : j - (n.ents.take i.toNat).length = (j - i.toNat - 1) + 1 := by
          rw [List.length_take, ents_length]; omega
        simp only [this, List.getElem_cons_succ]
        rw [List.getElem_drop, ents_get]
        congr 1
        omega

theorem On.write {h : Heap} {l : Nat} {A B : List Nat} {p : Nat} {n n' : Node} {it : It} {v : Nat}
    (hp : h p = some n') (e1 : it.head = l) (e2 : it.list = p) (h0 : 0 ≤ it.nr)
    (h1 : it.nr < n.nr) (hnr : n'.nr = n.nr) (hs : n'.slot it.nr.toNat = v)
    (he : n'.ents = n.ents.take it.nr.toNat ++ v :: n.ents.drop (it.nr.toNat + 1)) :
    On h l (A ++ p :: B) it (contents h A ++ n.ents.take it.nr.toNat) v
      (n.ents.drop (it.nr.toNat + 1) ++ contents h B) := by
  refine ⟨A, p, B, n', rfl, hp, e1, e2, h0, by omega, hs.symm, ?_, ?_⟩
  · rw [he, List.take_left' (by rw [List.length_take, ents_length]; omega)]
  · congr 1
    have e : n.ents.take it.nr.toNat ++ v :: n.ents.drop (it.nr.toNat + 1) =
        (n.ents.take it.nr.toNat ++ [v]) ++ n.ents.drop (it.nr.toNat + 1) := by simp
    rw [he, e, List.drop_left' (by
      rw [List.length_append, List.length_take, ents_length, List.length_singleton]; omega)]

theorem iterSet_spec {h : Heap} {l : Nat} {ps xs : List Nat} (H : Is h l ps xs) {it : It}
    {pre post : List Nat} {x v : Nat} (ho : On h l ps it pre x post) (hx : x ≠ 0) (hv : v ≠ 0) :
    ∃ h', iterSet h it v = .ok h' ∧ Is h' l ps (pre ++ v :: post) ∧
      On h' l ps it pre v post ∧ Frame h ps h' ps := by
  obtain ⟨A, p, B, n, hps, hp, e1, e2, h0, h1, rfl, rfl, rfl⟩ := ho
  subst hps
  have hok := H.okOf hp
  have hhi := hok.hi
  have hents := set_ents h0 h1 v
  have hpz : p ≠ 0 := fun e => H.nz (by rw [e]; simp)
  have hok' : ({ n with slot := fun j => if j = it.nr.toNat then v else n.slot j } : Node).OK := by
    refine ⟨hok.lo, hok.hi, ?_⟩
    rw [hents]
    simp only
    rw [hok.rm]
    have := ents_drop h0 h1
    conv => lhs; rw [← List.take_append_drop it.nr.toNat n.ents, this]
    rw [List.count_append, List.count_append, List.count_cons_of_ne hx, List.count_cons_of_ne hv]
  obtain ⟨g1, g2, g3, g4⟩ := H.update hp (by rfl) (by rfl) hok'
  refine ⟨_, ?_, ?_, ?_, g4⟩
  · rw [iterSet, e2, if_neg hpz, get_some hp, Res.bind_ok, if_pos ⟨h0, h1⟩,
      wr_ok h0 (by omega), Res.bind_ok]
  · rw [hents] at g1
    simpa [List.append_assoc] using g1
  · rw [← g2, ← g3]
    exact On.write (set_same ..) e1 e2 h0 h1 rfl (by simp) hents

theorem iterMarkDeleted_spec {h : Heap} {l : Nat} {ps xs : List Nat} (H : Is h l ps xs) {it : It}
    {pre post : List Nat} {x : Nat} (ho : On h l ps it pre x post) (hx : x ≠ 0) :
    ∃ h', iterMarkDeleted h it = .ok h' ∧ Is h' l ps (pre ++ 0 :: post) ∧
      On h' l ps it pre 0 post ∧ Frame h ps h' ps := by
  obtain ⟨A, p, B, n, hps, hp, e1, e2, h0, h1, rfl, rfl, rfl⟩ := ho
  subst hps
  have hok := H.okOf hp
  have hhi := hok.hi
  have hents := set_ents h0 h1 0
  have hpz : p ≠ 0 := fun e => H.nz (by rw [e]; simp)
  let n' : Node := { n with
    slot := fun j => if j = it.nr.toNat then 0 else n.slot j, rm := n.rm + 1 }
  have hents' : n'.ents = n.ents.take it.nr.toNat ++ 0 :: n.ents.drop (it.nr.toNat + 1) := hents
  have hok' : n'.OK := by
    refine ⟨hok.lo, hok.hi, ?_⟩
    rw [hents']
    show n.rm + 1 = _
    rw [hok.rm]
    have := ents_drop h0 h1
    conv => lhs; rw [← List.take_append_drop it.nr.toNat n.ents, this]
    rw [List.count_append, List.count_append, List.count_cons_of_ne hx, List.count_cons_self]
    omega
  obtain ⟨g1, g2, g3, g4⟩ := H.update hp (n' := n') rfl rfl hok'
  refine ⟨_, ?_, ?_, ?_, g4⟩
  · rw [iterMarkDeleted, iterSet, e2, if_neg hpz, get_some hp, Res.bind_ok, if_pos ⟨h0, h1⟩,
      wr_ok h0 (by omega), Res.bind_ok, Res.bind_ok, mod, set_same]
    simp only
    congr 1
    funext q
    simp only [Heap.set]
    split <;> rfl
  · rw [hents'] at g1
    simpa [List.append_assoc] using g1
  · rw [← g2, ← g3]
    exact On.write (n' := n') (set_same ..) e1 e2 h0 h1 rfl (by simp [n']) hents'

/-- the node that keeps the first half -/
def lower (n : Node) (p q : Nat) : Node :=
  { nr := 4, rm := n.rm, prev := if n.next = p then q else n.prev, next := q,
    slot := fun j => if 4 ≤ j ∧ j < 4 + 3 then poison else n.slot j }

/-- the node that gets the second half -/
def upper (n : Node) (p : Nat) : Node :=
  { nr := 3, rm := 0, prev := p, next := n.next,
    slot := fun j => if j < 3 then n.slot (4 + j) else 0 }

/-- the heap after a split -/
def splitHeap (h : Heap) (n : Node) (p q : Nat) : Heap := fun x =>
  if x = p then some (lower n p q)
  else if x = q then some (upper n p)
  else if x = n.next then (h x).map (fun m => { m with prev := q })
  else h x

theorem mod_some {h : Heap} {p : Nat} {n : Node} (e : h p = some n) (f : Node → Node) :
    mod h p f = .ok (h.set p (f n)) := by
  simp [mod, e]

theorem splitNode_heap (al : Alloc) {h : Heap} {p : Nat} {n m : Node} (hp : h p = some n)
    (h7 : n.nr = 7) (hq : h (al.new h) = none) (hm : h n.next = some m) :
    splitNode al h p = .ok (splitHeap h n p (al.new h)) := by
  generalize hqq : al.new h = q at hq
  have hpq : p ≠ q := by rintro rfl; rw [hp] at hq; cases hq
  have hnq : n.next ≠ q := by rintro e; rw [e, hq] at hm; cases hm
  have ht : (7 : Int).tdiv 2 = 3 := by decide
  simp only [splitNode, get_some hp, Res.bind_ok, h7, ht, hqq, cap]
  rw [if_pos (by omega)]
  by_cases hnp : n.next = p
  · rw [hnp] at hm hnq
    rw [hp] at hm; injection hm with hm; subst hm
    rw [mod_some (n := n) (by rw [set_other _ _ hpq]; exact hp), Res.bind_ok,
      mod_some (n := Node.zero) (by rw [set_other _ _ hpq.symm, set_same]), Res.bind_ok, hnp,
      mod_some (p := p) (by rw [set_other _ _ hpq, set_same]), Res.bind_ok,
      mod_some (p := q) (by rw [set_other _ _ hpq.symm, set_same]), Res.bind_ok,
      mod_some (p := p) (by rw [set_other _ _ hpq, set_same]), Res.bind_ok,
      mod_some (p := q) (by rw [set_other _ _ hpq.symm, set_same]), Res.bind_ok,
      get_some (p := p) (by rw [set_other _ _ hpq, set_same]), Res.bind_ok,
      mod_some (p := q) (by rw [set_same]), Res.bind_ok,
      mod_some (p := p) (by rw [set_other _ _ hpq, set_other _ _ hpq, set_same])]
    congr 1
    funext x
    simp only [Heap.set, splitHeap, hnp, lower, upper, if_true]
    by_cases h1 : x = p
    · simp only [h1, if_true]; rfl
    · by_cases h2 : x = q
      · simp only [h1, h2, if_true, if_neg hpq.symm, hpq.symm, if_false]
        rfl
      · simp only [h1, h2, if_false]
  · have hnp' : p ≠ n.next := fun e => hnp e.symm
    rw [mod_some (n := n) (by rw [set_other _ _ hpq]; exact hp), Res.bind_ok,
      mod_some (n := Node.zero) (by rw [set_other _ _ hpq.symm, set_same]), Res.bind_ok,
      mod_some (p := n.next) (n := m)
        (by rw [set_other _ _ hnq, set_other _ _ hnp, set_other _ _ hnq]; exact hm), Res.bind_ok,
      mod_some (p := q) (by rw [set_other _ _ hnq.symm, set_same]), Res.bind_ok,
      mod_some (p := p)
        (by rw [set_other _ _ hpq, set_other _ _ hnp', set_other _ _ hpq, set_same]), Res.bind_ok,
      mod_some (p := q) (by rw [set_other _ _ hpq.symm, set_same]), Res.bind_ok,
      get_some (p := p) (by rw [set_other _ _ hpq, set_same]), Res.bind_ok,
      mod_some (p := q) (by rw [set_same]), Res.bind_ok,
      mod_some (p := p) (by rw [set_other _ _ hpq, set_other _ _ hpq, set_same])]
    congr 1
    funext x
    simp only [Heap.set, splitHeap, lower, upper]
    by_cases h1 : x = p
    · simp only [h1, if_true, if_neg hnp]; rfl
    · by_cases h2 : x = q
      · simp only [h1, h2, if_true, if_neg hpq.symm, hpq.symm, if_false]
        rfl
      · by_cases h3 : x = n.next
        · simp only [h1, h2, h3, if_false, if_true, hm, hnp, hnq]
          rfl
        · simp only [h1, h2, h3, if_false]

/-- `raviX_ptrlist_split_node` on a full node -/
theorem splitNode_spec (al : Alloc) {h : Heap} (hf : h.Fine) {l : Nat} {A B xs : List Nat} {p : Nat}
    {n : Node} (H : Is h l (A ++ p :: B) xs) (hp : h p = some n) (h7 : n.nr = 7)
    (hz : 0 ∉ n.ents) :
    ∃ h' q a b, splitNode al h p = .ok h' ∧ Is h' l (A ++ p :: q :: B) xs ∧
      h' p = some a ∧ h' q = some b ∧ a.nr = 4 ∧ b.nr = 3 ∧ a.next = q ∧
      a.ents = n.ents.take 4 ∧ b.ents = n.ents.drop 4 ∧
      contents h' A = contents h A ∧ contents h' B = contents h B ∧
      Frame h (A ++ p :: B) h' (A ++ p :: q :: B) := by
  obtain ⟨hq, hq0⟩ := al.fresh h hf
  have hnm : n.next ∈ A ++ p :: B := by
    have h1 := (cyc_at H.cyc).1
    simp only [nxt, hp, Option.map_some] at h1
    have := List.mem_of_mem_head? (l := B ++ A ++ [p]) (a := n.next) (by rw [← h1]; rfl)
    simp only [List.mem_append, List.mem_cons, List.not_mem_nil, or_false] at this ⊢
    grind
  obtain ⟨m, hm, hmok⟩ := H.ok _ hnm
  have hsp := splitNode_heap al hp h7 hq hm
  generalize al.new h = q at hq hq0 hsp
  have hok := H.okOf hp
  have hall : ∀ x ∈ A ++ p :: B, x ≠ q := by
    rintro x hx rfl
    obtain ⟨_, e, _⟩ := H.ok x hx
    rw [hq] at e; cases e
  have hqm : q ∉ A ++ p :: B := fun hh => hall q hh rfl
  have hpq : p ≠ q := hall p (by simp)
  have hnq : n.next ≠ q := hall _ hnm
  have hea : (lower n p q).ents = n.ents.take 4 := by
    apply ents_eq
    · rw [List.length_take, ents_length, h7]; rfl
    · intro i hi
      rw [List.length_take, ents_length, h7] at hi
      rw [List.getElem_take, ents_get]
      simp only [lower]
      rw [if_neg (by omega)]
  have heb : (upper n p).ents = n.ents.drop 4 := by
    apply ents_eq
    · rw [List.length_drop, ents_length, h7]; rfl
    · intro i hi
      rw [List.length_drop, ents_length, h7] at hi
      rw [List.getElem_drop, ents_get]
      simp only [upper]
      rw [if_pos (by omega)]
  have hp' : splitHeap h n p q p = some (lower n p q) := by simp [splitHeap]
  have hq' : splitHeap h n p q q = some (upper n p) := by simp [splitHeap, hpq.symm]
  have hrm : n.rm = 0 := by rw [hok.rm, List.count_eq_zero.mpr hz]; rfl
  have hother : ∀ x, x ≠ p → x ≠ q → ∀ k, h x = some k →
      ∃ k', splitHeap h n p q x = some k' ∧ k'.next = k.next ∧ k'.ents = k.ents ∧ k'.rm = k.rm ∧
        k'.nr = k.nr := by
    intro x h1 h2 k hk
    by_cases h3 : x = n.next
    · exact ⟨{ k with prev := q }, by
        simp only [splitHeap, if_neg h1, if_neg h2, if_pos h3, hk, Option.map_some], rfl, rfl, rfl,
        rfl⟩
    · exact ⟨k, by simp only [splitHeap, if_neg h1, if_neg h2, if_neg h3, hk], rfl, rfl, rfl, rfl⟩
  have hokay : Okay (splitHeap h n p q) (A ++ p :: q :: B) := by
    intro x hx
    by_cases h1 : x = p
    · subst h1
      refine ⟨_, hp', by simp [lower], by simp [lower], ?_⟩
      rw [hea, List.count_eq_zero.mpr (fun hh => hz (List.mem_of_mem_take hh))]
      exact hrm
    · by_cases h2 : x = q
      · subst h2
        refine ⟨_, hq', by simp [upper], by simp [upper], ?_⟩
        rw [heb, List.count_eq_zero.mpr (fun hh => hz (List.mem_of_mem_drop hh))]
        rfl
      · have hx' : x ∈ A ++ p :: B := by
          simp only [List.mem_append, List.mem_cons] at hx ⊢
          grind
        obtain ⟨k, hk, hkok⟩ := H.ok x hx'
        obtain ⟨k', e1, e2, e3, e4, e5⟩ := hother x h1 h2 k hk
        refine ⟨k', e1, by rw [e5]; exact hkok.lo, by rw [e5]; exact hkok.hi, ?_⟩
        rw [e3, e4]; exact hkok.rm
  have hcont : ∀ L : List Nat, (∀ x ∈ L, x ≠ p ∧ x ≠ q ∧ x ∈ A ++ p :: B) →
      contents (splitHeap h n p q) L = contents h L := by
    intro L
    induction L with
    | nil => intro _; rfl
    | cons x L ih =>
      intro hL
      obtain ⟨h1, h2, h3⟩ := hL x (by simp)
      obtain ⟨k, hk, _⟩ := H.ok x h3
      obtain ⟨k', e1, _, e3, _⟩ := hother x h1 h2 k hk
      rw [contents_cons, contents_cons, ih (fun y hy => hL y (by simp [hy])), ents_some e1,
        ents_some hk, e3]
  have hnd := H.nodup
  have hcA := hcont A (fun x hx => ⟨by
    rintro rfl
    exact (List.nodup_append.mp hnd).2.2 _ hx _ (by simp) rfl, hall x (by simp [hx]),
    by simp [hx]⟩)
  have hcB := hcont B (fun x hx => ⟨by
    rintro rfl
    exact (List.nodup_cons.mp (List.nodup_append.mp hnd).2.1).1 hx, hall x (by simp [hx]),
    by simp [hx]⟩)
  have hins := H.insert (h' := splitHeap h n p q) hqm hq0 (by simp [nxt, hp', lower])
    (by simp [prv, hq', upper]) (by simp [nxt, hq', hp, upper])
    (by
      intro n0 e
      simp only [nxt, hp, Option.map_some, Option.some.injEq] at e
      subst e
      by_cases hnp : n.next = p
      · rw [hnp, prv, hp']; simp [lower, hnp]
      · simp [prv, splitHeap, hnp, hnq, hm])
    (by
      intro a h1 h2
      by_cases h3 : a = n.next
      · rw [nxt, nxt, splitHeap, if_neg h1, if_neg h2, if_pos h3, h3, hm]; rfl
      · rw [nxt, nxt, splitHeap, if_neg h1, if_neg h2, if_neg h3])
    (by
      intro a h1 h2
      simp only [nxt, hp, Option.map_some, ne_eq, Option.some.injEq] at h1
      by_cases h3 : a = p
      · subst h3
        rw [prv, prv, hp', hp]; simp [lower, h1]
      · rw [prv, prv, splitHeap, if_neg h3, if_neg h2, if_neg (fun e => h1 e.symm)])
    hokay
  refine ⟨splitHeap h n p q, q, _, _, hsp, ?_, hp', hq', rfl, rfl, rfl, hea, heb, hcA, hcB, ?_⟩
  · have e : contents (splitHeap h n p q) (A ++ p :: q :: B) = xs := by
      rw [contents_split, contents_cons, hcA, hcB, ents_some hp', ents_some hq', hea, heb,
        ← List.append_assoc (List.take _ _), List.take_append_drop, ← ents_some hp,
        ← contents_split, H.xs]
    rw [e] at hins
    exact hins
  · refine ⟨fun x h1 h2 => ?_, fun x hx => ?_, fun x hx hx' => ?_⟩
    · have h3 : x ≠ p := by rintro rfl; exact h1 (by simp)
      have h4 : x ≠ q := by rintro rfl; exact h2 (by simp)
      have h5 : x ≠ n.next := by rintro rfl; exact h1 hnm
      rw [splitHeap, if_neg h3, if_neg h4, if_neg h5]
    · rw [(perm_mid A B p q).mem_iff, List.mem_cons] at hx
      rcases hx with rfl | hx
      · exact .inr hq
      · exact .inl hx
    · exact absurd ((perm_mid A B p q).mem_iff.mpr (List.mem_cons_of_mem _ hx)) hx'

end Verif.PtrList
