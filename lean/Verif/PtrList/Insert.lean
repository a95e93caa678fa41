import Verif.PtrList.Cursor

/-!
Inserting at an iterator, and adding and taking away at the end.
-/
namespace Verif.PtrList

/-- after a split the iterator is on the same element, and there is room -/
theorem iterSplit_spec (al : Alloc) {h : Heap} (hf : h.Fine) {l : Nat} {ps xs : List Nat}
    (H : Is h l ps xs) {it : It} {pre post : List Nat} {x : Nat} (ho : On h l ps it pre x post)
    (hz : 0 ∉ xs) :
    ∃ h' it' ps', iterSplitCurrent al h it = .ok (h', it') ∧ Is h' l ps' xs ∧
      On h' l ps' it' pre x post ∧ (∃ n, h' it'.list = some n ∧ n.nr < 7) ∧ Frame h ps h' ps' := by
  obtain ⟨A, p, B, n, hps, hp, e1, e2, h0, h1, hx, hpre, hpost⟩ := ho
  subst hps
  by_cases h7 : n.nr = 7
  · have hzn : 0 ∉ n.ents := by
      intro hh
      apply hz
      rw [← H.xs, contents_split, ents_some hp]
      simp [hh]
    obtain ⟨h', q, a, b, hs, H', ha, hb, ha4, hb3, haq, hea, heb, hcA, hcB, hfr⟩ :=
      splitNode_spec al hf H hp h7 hzn
    have hsl : ∀ i : Nat, i < 4 → a.slot i = n.slot i := by
      intro i hi
      have h2 : i < a.ents.length := by rw [ents_length]; omega
      have h3 := ents_get a i h2
      have h4 : a.ents[i] = (n.ents.take 4)[i]'(by rw [← hea]; exact h2) := by simp only [hea]
      rw [← h3, h4, List.getElem_take, ents_get]
    have hsu : ∀ i : Nat, i < 3 → b.slot i = n.slot (4 + i) := by
      intro i hi
      have h2 : i < b.ents.length := by rw [ents_length]; omega
      have h3 := ents_get b i h2
      have h4 : b.ents[i] = (n.ents.drop 4)[i]'(by rw [← heb]; exact h2) := by simp only [heb]
      rw [← h3, h4, List.getElem_drop, ents_get]
    have hsplit : iterSplitCurrent al h it = if it.nr ≥ 4 then
        .ok (h', { it with nr := it.nr - 4, list := q }) else .ok (h', it) := by
      rw [iterSplitCurrent, e2, get_some hp, Res.bind_ok, if_pos (show n.nr = cap from h7), hs, Res.bind_ok, get_some ha,
        Res.bind_ok, ha4, haq]
    by_cases h4 : it.nr ≥ 4
    · refine ⟨h', { it with nr := it.nr - 4, list := q }, A ++ p :: q :: B, ?_, H', ?_,
        ⟨b, hb, by omega⟩, hfr⟩
      · rw [hsplit, if_pos h4]
      · have hi : (it.nr - 4).toNat = it.nr.toNat - 4 := by omega
        refine ⟨A ++ [p], q, B, b, by simp, hb, e1, rfl, by simp only; omega, by simp only; omega,
          ?_, ?_, ?_⟩
        · simp only [hi]
          rw [hsu _ (by omega), hx]
          congr 1; omega
        · simp only [hi]
          rw [hpre, contents_append, hcA, contents_cons, contents_nil, List.append_nil,
            ents_some ha, hea, heb, List.append_assoc]
          congr 1
          have : it.nr.toNat = 4 + (it.nr.toNat - 4) := by omega
          conv => lhs; rw [this, List.take_add]
        · simp only [hi]
          rw [hpost, hcB, heb, List.drop_drop]
          congr 2; omega
    · refine ⟨h', it, A ++ p :: q :: B, ?_, H', ?_, ⟨a, by rw [e2]; exact ha, by omega⟩, hfr⟩
      · rw [hsplit, if_neg h4]
      · refine ⟨A, p, q :: B, a, rfl, ha, e1, e2, h0, by omega, ?_, ?_, ?_⟩
        · rw [hsl _ (by omega), hx]
        · rw [hpre, hcA, hea, List.take_take]
          congr 2; omega
        · rw [hpost, contents_cons, hcB, ents_some hb, hea, heb, ← List.append_assoc]
          congr 1
          conv => lhs; rw [← List.take_append_drop 4 n.ents]
          rw [List.drop_append_of_le_length (by rw [List.length_take, ents_length, h7]; omega)]
  · refine ⟨h, it, _, ?_, H, ⟨A, p, B, n, rfl, hp, e1, e2, h0, h1, hx, hpre, hpost⟩,
      ⟨n, by rw [e2]; exact hp, ?_⟩, Frame.refl ..⟩
    · rw [iterSplitCurrent, e2, get_some hp, Res.bind_ok, if_neg (show ¬ n.nr = cap from h7)]
    · have := (H.okOf hp).hi; omega

theorem iterInsert_spec (al : Alloc) {h : Heap} (hf : h.Fine) {l : Nat} {ps xs : List Nat}
    (H : Is h l ps xs) {it : It} {pre post : List Nat} {x v : Nat} (ho : On h l ps it pre x post)
    (hz : 0 ∉ xs) (hv : v ≠ 0) :
    ∃ h' it' ps', iterInsert al h it v = .ok (h', it') ∧ Is h' l ps' (pre ++ v :: x :: post) ∧
      On h' l ps' it' pre v (x :: post) ∧ Frame h ps h' ps' := by
  have hit : it.nr ≥ 0 := by obtain ⟨_, _, _, _, _, _, _, _, h0, _⟩ := ho; exact h0
  obtain ⟨h1, it1, ps1, hs, H1, ho1, ⟨n', hn', hn7⟩, hfr⟩ := iterSplit_spec al hf H ho hz
  obtain ⟨A, p, B, n, hps, hp, e1, e2, h0, h1', hx, hpre, hpost⟩ := ho1
  subst hps
  rw [e2, hp] at hn'
  injection hn' with hn'
  subst hn'
  have hok := H1.okOf hp
  have hk : it1.nr.toNat + (n.nr - it1.nr).toNat = n.nr.toNat := by omega
  let m : Node := ⟨n.nr + 1, n.rm, n.prev, n.next, fun j => if j = it1.nr.toNat then v else
      if it1.nr.toNat < j ∧ j ≤ n.nr.toNat then n.slot (j - 1) else n.slot j⟩
  have hin : iterInsert al h it v = .ok (h1.set p m, it1) := by
    rw [iterInsert, if_pos hit, hs, Res.bind_ok]
    simp only
    rw [e2, get_some hp, Res.bind_ok, shiftUp_spec _ n it1.nr h0 (by omega), Res.bind_ok,
      wr_ok h0 (by omega), Res.bind_ok, hk]
  have hents : m.ents = n.ents.take it1.nr.toNat ++ v :: n.ents.drop it1.nr.toNat := by
    apply ents_eq
    · simp only [List.length_append, List.length_take, List.length_drop, ents_length,
        List.length_cons, m]
      omega
    · intro j hj
      simp only [List.length_append, List.length_take, List.length_drop, ents_length,
        List.length_cons] at hj
      simp only [m]
      by_cases hc : j < it1.nr.toNat
      · rw [if_neg (by omega), if_neg (by omega), List.getElem_append_left
          (by rw [List.length_take, ents_length]; omega), List.getElem_take, ents_get]
      · rw [List.getElem_append_right (by rw [List.length_take, ents_length]; omega)]
        by_cases hd : j = it1.nr.toNat
        · rw [if_pos hd]
          have : j - (n.ents.take it1.nr.toNat).length = 0 := by
            rw [List.length_take, ents_length]; omega
          simp only [this, List.getElem_cons_zero]
        · rw [if_neg hd, if_pos (by omega)]
          have : j - (n.ents.take it1.nr.toNat).length = (j - it1.nr.toNat - 1) + 1 := by
            rw [List.length_take, ents_length]; omega
          simp only [this, List.getElem_cons_succ]
          rw [List.getElem_drop, ents_get]
          congr 1
          omega
  have hmok : m.OK := by
    refine ⟨by simp only [m]; omega, by simp only [m]; omega, ?_⟩
    rw [hents, List.count_append, List.count_cons_of_ne hv, ← List.count_append,
      List.take_append_drop]
    exact hok.rm
  obtain ⟨g1, g2, g3, g4⟩ := H1.update hp (n' := m) rfl rfl hmok
  have hdx := ents_drop h0 h1'
  refine ⟨_, _, A ++ p :: B, hin, ?_, ?_, hfr.trans g4⟩
  · rw [hents, hdx, ← hx] at g1
    rw [hpre, hpost]
    simpa [List.append_assoc] using g1
  · refine ⟨A, p, B, m, rfl, set_same .., e1, e2, h0, by simp only [m]; omega, by simp [m], ?_, ?_⟩
    · rw [hpre, g2, hents, List.take_left' (by rw [List.length_take, ents_length]; omega)]
    · rw [hpost, g3]
      have e : n.ents.take it1.nr.toNat ++ v :: n.ents.drop it1.nr.toNat =
          (n.ents.take it1.nr.toNat ++ [v]) ++ n.ents.drop it1.nr.toNat := by simp
      rw [hents, e, List.drop_left' (by
        rw [List.length_append, List.length_take, ents_length, List.length_singleton]; omega),
        hdx, ← hx]
      rfl

/-- one more entry in a node that has room -/
theorem fill_ents {n : Node} (h0 : 0 ≤ n.nr) (v : Nat) :
    ({ n with nr := n.nr + 1, slot := fun j => if j = n.nr.toNat then v else n.slot j } :
      Node).ents = n.ents ++ [v] := by
  apply ents_eq
  · simp only [List.length_append, ents_length, List.length_singleton]
    omega
  · intro j hj
    simp only [List.length_append, ents_length, List.length_singleton] at hj
    simp only
    by_cases hc : j < n.nr.toNat
    · rw [if_neg (by omega), List.getElem_append_left (by rw [ents_length]; omega), ents_get]
    · rw [if_pos (by omega), List.getElem_append_right (by rw [ents_length]; omega)]
      simp

/-- where `prev_` of the first node leads -/
theorem Is.lastOf {h : Heap} {l : Nat} {A xs : List Nat} {e : Nat} (H : Is h l (A ++ [e]) xs) :
    ∃ n, h l = some n ∧ n.prev = e := by
  have hh := H.head
  have hlm : l ∈ A ++ [e] := by
    rw [← hh]
    cases A <;> simp
  obtain ⟨n, hn, _⟩ := H.ok l hlm
  refine ⟨n, hn, ?_⟩
  cases A with
  | nil =>
    have hh : e = l := by simpa using hh
    have := (show Is h l ([] ++ l :: []) xs from by rw [hh] at H; exact H).prev hn
    simp at this; omega
  | cons a A =>
    have hh : a = l := by simpa using hh
    have := (show Is h l ([] ++ l :: (A ++ [e])) xs from by rw [hh] at H; exact H).prev hn
    rw [List.append_nil, ← List.cons_append, List.getLast?_concat] at this
    exact Option.some.inj this

/-- the heap after a new node `q` with the only entry `v` was put after the last node -/
def addHeap (h : Heap) (l e q v : Nat) : Heap := fun x =>
  if x = q then some ⟨1, 0, e, l, fun j => if j = 0 then v else 0⟩
  else if x = e then (h x).map (fun m => { m with next := q, prev := if x = l then q else m.prev })
  else if x = l then (h x).map (fun m => { m with prev := q })
  else h x

theorem add_heap (al : Alloc) {h : Heap} {l e v : Nat} {n m : Node} (hl : l ≠ 0)
    (hn : h l = some n) (hne : n.prev = e) (hm : h e = some m) (h7 : m.nr ≥ 7)
    (hq : h (al.new h) = none) :
    add al h l v = .ok (addHeap h l e (al.new h) v, l, al.new h, 0) := by
  generalize hqq : al.new h = q at hq
  have hlq : l ≠ q := by rintro rfl; rw [hn] at hq; cases hq
  have heq : e ≠ q := by rintro rfl; rw [hm] at hq; cases hq
  simp only [add, if_neg hl, get_some hn, Res.bind_ok, hne, get_some hm, hqq, cap, fill]
  rw [if_pos h7]
  rw [mod_some (p := q) (by rw [set_same]), Res.bind_ok,
    mod_some (p := q) (by rw [set_same]), Res.bind_ok,
    mod_some (p := l) (n := n) (by
      rw [set_other _ _ hlq, set_other _ _ hlq, set_other _ _ hlq]; exact hn), Res.bind_ok]
  by_cases hel : e = l
  · subst hel
    rw [hn] at hm; injection hm with hm; subst hm
    rw [mod_some (p := e) (by rw [set_same]), Res.bind_ok,
      get_some (p := q) (by
        rw [set_other _ _ heq.symm, set_other _ _ heq.symm, set_same]), Res.bind_ok,
      wr_ok (by omega) (by omega), Res.bind_ok, Res.bind_ok]
    congr 2
    funext x
    simp only [Heap.set, addHeap]
    by_cases h1 : x = q
    · simp only [h1, if_true]; rfl
    · by_cases h2 : x = e
      · simp only [h2, heq, if_true, if_false, hn, Option.map_some]
      · simp only [h1, h2, if_false]
  · have hle : l ≠ e := fun x => hel x.symm
    rw [mod_some (p := e) (n := m) (by
        rw [set_other _ _ hel, set_other _ _ heq, set_other _ _ heq, set_other _ _ heq]; exact hm),
      Res.bind_ok,
      get_some (p := q) (by
        rw [set_other _ _ heq.symm, set_other _ _ hlq.symm, set_same]), Res.bind_ok,
      wr_ok (by omega) (by omega), Res.bind_ok, Res.bind_ok]
    congr 2
    funext x
    simp only [Heap.set, addHeap]
    by_cases h1 : x = q
    · simp only [h1, if_true]; rfl
    · by_cases h2 : x = e
      · simp only [h2, heq, hel, if_true, if_false, hm, Option.map_some]
      · by_cases h3 : x = l
        · simp only [h3, hlq, hle, if_true, if_false, hn, Option.map_some]
        · simp only [h1, h2, h3, if_false]

/-- a node with an entry -/
def Packed (h : Heap) (ps : List Nat) : Prop := ∀ p ∈ ps, ents h p ≠ []

theorem add_spec (al : Alloc) {h : Heap} (hf : h.Fine) {l : Nat} {ps xs : List Nat}
    (H : Is h l ps xs) {v : Nat} (hv : v ≠ 0) :
    ∃ h' l' ps' p i, add al h l v = .ok (h', l', p, i) ∧ Is h' l' ps' (xs ++ [v]) ∧
      (ps ≠ [] → l' = l) ∧ (∃ n, h' p = some n ∧ n.rd i = .ok v) ∧
      Frame h ps h' ps' ∧ (Packed h ps → Packed h' ps') := by
  obtain ⟨hq, hq0⟩ := al.fresh h hf
  have hx := H.xs
  rcases List.eq_nil_or_concat ps with rfl | ⟨A, e, rfl⟩
  · have hl : l = 0 := by simpa using H.head.symm
    subst hl
    let b : Node := ⟨1, 0, al.new h, al.new h, fun j => if j = 0 then v else 0⟩
    have hadd : add al h 0 v = .ok (h.set (al.new h) b, al.new h, al.new h, 0) := by
      simp only [add, if_true, Res.bind_ok, fill]
      rw [mod_some (p := al.new h) (by rw [set_same]), Res.bind_ok,
        mod_some (p := al.new h) (by rw [set_same]), Res.bind_ok, get_some (by rw [set_same]),
        Res.bind_ok, wr_ok (by omega) (by omega), Res.bind_ok, Res.bind_ok]
      congr 2
      funext x
      simp only [Heap.set]
      split
      · rfl
      · rfl
    have hb : b.ents = [v] := by simp [Node.ents, b]
    refine ⟨_, _, [al.new h], _, _, hadd, ⟨rfl, by simp, by simpa using fun e => hq0 e.symm, ?_, ?_, ?_⟩,
      by simp, ⟨b, set_same .., ?_⟩, ?_, ?_⟩
    · simp [Cyc, Linked, nxt, prv, b]
    · intro p hp
      simp only [List.mem_singleton] at hp
      subst hp
      refine ⟨b, set_same .., by simp [b], by simp [b], ?_⟩
      rw [hb, List.count_cons_of_ne hv]; rfl
    · rw [contents_cons, ents_some (set_same ..), hb, ← hx]; rfl
    · simp [b, Node.rd, cap]
    · refine ⟨fun q _ h2 => set_other _ _ (by simpa using h2), fun q hq' => .inr ?_, by simp⟩
      simp only [List.mem_singleton] at hq'
      rw [hq']; exact hq
    · intro _ p hp
      simp only [List.mem_singleton] at hp
      rw [hp, ents_some (set_same ..), hb]; simp
  · rw [List.concat_eq_append] at *
    have hl := H.ne_zero (by simp)
    obtain ⟨n, hn, hne⟩ := H.lastOf
    obtain ⟨m, hm, hmok⟩ := H.ok e (by simp)
    by_cases h7 : m.nr ≥ 7
    · have hadd := add_heap al (v := v) hl hn hne hm h7 hq
      generalize al.new h = q at hq hq0 hadd
      have hall : ∀ x ∈ A ++ [e], x ≠ q := by
        rintro x hx rfl
        obtain ⟨_, e, _⟩ := H.ok x hx
        rw [hq] at e; cases e
      have hqm : q ∉ A ++ [e] := fun hh => hall q hh rfl
      have hlm : l ∈ A ++ [e] := by
        have := H.head
        rw [← this]
        cases A <;> simp
      have heq : e ≠ q := hall e (by simp)
      have hlq : l ≠ q := hall l hlm
      have hne' : m.next = l := by
        have := H.next hm
        simpa using this
      let b : Node := ⟨1, 0, e, l, fun j => if j = 0 then v else 0⟩
      have hb : b.ents = [v] := by simp [Node.ents, b]
      have hq' : addHeap h l e q v q = some b := by simp [addHeap, b]
      have hother : ∀ x, x ≠ q → ∀ k, h x = some k →
          ∃ k', addHeap h l e q v x = some k' ∧ k'.ents = k.ents ∧ k'.rm = k.rm ∧
            k'.nr = k.nr ∧ (x ≠ e → k'.next = k.next) ∧ (x ≠ l → k'.prev = k.prev) ∧
            (x = e → k'.next = q) ∧ (x = l → k'.prev = q) := by
        intro x h2 k hk
        by_cases h3 : x = e
        · refine ⟨{ k with next := q, prev := if x = l then q else k.prev }, by
            simp only [addHeap, if_neg h2, if_pos h3, hk, Option.map_some], rfl, rfl, rfl,
            fun hh => absurd h3 hh, fun hh => if_neg hh, fun _ => rfl, fun hh => if_pos hh⟩
        · by_cases h4 : x = l
          · exact ⟨{ k with prev := q }, by
              simp only [addHeap, if_neg h2, if_neg h3, if_pos h4, hk, Option.map_some], rfl, rfl,
              rfl, fun _ => rfl, fun hh => absurd h4 hh, fun hh => absurd hh h3, fun _ => rfl⟩
          · exact ⟨k, by simp only [addHeap, if_neg h2, if_neg h3, if_neg h4, hk], rfl, rfl, rfl,
              fun _ => rfl, fun _ => rfl, fun hh => absurd hh h3, fun hh => absurd hh h4⟩
      have hnone : ∀ x, x ≠ q → h x = none → addHeap h l e q v x = none := by
        intro x h2 hk
        simp only [addHeap, if_neg h2, hk, Option.map_none, ite_self]
      have hins := H.insert (h' := addHeap h l e q v) (q := q) hqm hq0
        (by
          obtain ⟨k', e1, _, _, _, _, _, e7, _⟩ := hother e heq m hm
          rw [nxt, e1, Option.map_some, e7 rfl])
        (by simp [prv, hq', b]) (by simp [nxt, hq', hm, b, hne'])
        (by
          intro n0 en
          simp only [nxt, hm, Option.map_some, Option.some.injEq] at en
          rw [hne'] at en
          subst en
          obtain ⟨k', e1, _, _, _, _, _, _, e8⟩ := hother l hlq n hn
          rw [prv, e1, Option.map_some, e8 rfl])
        (by
          intro a h1 h2
          cases hk : h a with
          | none => rw [nxt, nxt, hnone a h2 hk, hk]
          | some k =>
            obtain ⟨k', e1, _, _, _, e5, _⟩ := hother a h2 k hk
            rw [nxt, nxt, e1, hk, Option.map_some, Option.map_some, e5 h1])
        (by
          intro a h1 h2
          simp only [nxt, hm, Option.map_some, ne_eq, Option.some.injEq, hne'] at h1
          cases hk : h a with
          | none => rw [prv, prv, hnone a h2 hk, hk]
          | some k =>
            obtain ⟨k', e1, _, _, _, _, e6, _⟩ := hother a h2 k hk
            rw [prv, prv, e1, hk, Option.map_some, Option.map_some, e6 (fun e => h1 e.symm)])
        (by
          intro x hx
          by_cases h2 : x = q
          · subst h2
            refine ⟨b, hq', by simp [b], by simp [b], ?_⟩
            rw [hb, List.count_cons_of_ne hv]; rfl
          · obtain ⟨k, hk, hkok⟩ := H.ok x (by
              simp only [List.mem_append, List.mem_cons] at hx ⊢; grind)
            obtain ⟨k', e1, e2, e3, e4, _⟩ := hother x h2 k hk
            refine ⟨k', e1, by rw [e4]; exact hkok.lo, by rw [e4]; exact hkok.hi, ?_⟩
            rw [e2, e3]; exact hkok.rm)
      have hents : ∀ x ∈ A ++ [e], ents (addHeap h l e q v) x = ents h x := by
        intro x hx
        obtain ⟨k, hk, _⟩ := H.ok x hx
        obtain ⟨k', e1, e2, _⟩ := hother x (hall x hx) k hk
        rw [ents_some e1, ents_some hk, e2]
      have hcont : contents (addHeap h l e q v) (A ++ [e, q]) = xs ++ [v] := by
        have e1 : A ++ [e, q] = (A ++ [e]) ++ [q] := by simp
        have e2 : ∀ L : List Nat, (∀ x ∈ L, ents (addHeap h l e q v) x = ents h x) →
            contents (addHeap h l e q v) L = contents h L := by
          intro L
          induction L with
          | nil => intro _; rfl
          | cons a L ih =>
            intro hL
            rw [contents_cons, contents_cons, hL a (by simp), ih (fun b hb => hL b (by simp [hb]))]
        rw [e1, contents_append, e2 _ hents, hx, contents_cons, ents_some hq', hb]; rfl
      rw [hcont] at hins
      refine ⟨_, l, A ++ [e, q], q, 0, hadd, hins, fun _ => rfl, ⟨b, hq', ?_⟩, ?_, ?_⟩
      · simp [b, Node.rd, cap]
      · refine ⟨fun x h1 h2 => ?_, fun x hx => ?_, fun x hx hx' => ?_⟩
        · have h3 : x ≠ q := by rintro rfl; exact h2 (by simp)
          have h4 : x ≠ e := by rintro rfl; exact h1 (by simp)
          have h5 : x ≠ l := by rintro rfl; exact h1 hlm
          simp only [addHeap, if_neg h3, if_neg h4, if_neg h5]
        · simp only [List.mem_append, List.mem_cons, List.not_mem_nil, or_false] at hx ⊢
          rcases hx with hx | hx | hx
          · exact .inl (.inl hx)
          · exact .inl (.inr hx)
          · rw [hx]; exact .inr hq
        · exfalso; apply hx'
          simp only [List.mem_append, List.mem_cons, List.not_mem_nil, or_false] at hx ⊢
          grind
      · intro hpk x hx
        by_cases h2 : x = q
        · rw [h2, ents_some hq', hb]; simp
        · have hx2 : x ∈ A ++ [e] := by
            simp only [List.mem_append, List.mem_cons] at hx ⊢; grind
          rw [hents x hx2]; exact hpk x hx2
    · have hok7 : ({ m with
          nr := m.nr + 1, slot := fun j => if j = m.nr.toNat then v else m.slot j } : Node).OK := by
        have h0 := hmok.lo
        refine ⟨by simp only; omega, by simp only; omega, ?_⟩
        rw [fill_ents hmok.lo, List.count_append, List.count_cons_of_ne hv]
        simpa using hmok.rm
      obtain ⟨g1, g2, g3, g4⟩ := H.update hm (by rfl) (by rfl) hok7
      refine ⟨_, l, A ++ [e], e, m.nr, ?_, ?_, fun _ => rfl, ⟨_, set_same .., ?_⟩, g4, ?_⟩
      · simp only [add, if_neg hl, get_some hn, Res.bind_ok, hne, get_some hm, cap, fill, if_neg h7]
        rw [wr_ok hmok.lo (by omega), Res.bind_ok, Res.bind_ok]
      · rw [fill_ents hmok.lo] at g1
        rw [← hx, contents_split, ents_some hm]
        simpa [List.append_assoc] using g1
      · rw [Node.rd, if_pos ⟨hmok.lo, by simp only [cap]; omega⟩]
        simp
      · intro hpk x hx
        by_cases h2 : x = e
        · rw [h2, ents_some (set_same ..), fill_ents hmok.lo]; simp
        · rw [ents_congr (set_other _ _ h2)]; exact hpk x hx

end Verif.PtrList
