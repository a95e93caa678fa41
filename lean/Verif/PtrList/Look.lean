import Verif.PtrList.Walk

/-!
Looking backwards, and the functions that read a list without an iterator.
-/
namespace Verif.PtrList

theorem Is.okOf {h : Heap} {l : Nat} {A B xs : List Nat} {p : Nat} {n : Node}
    (H : Is h l (A ++ p :: B) xs) (hp : h p = some n) : n.OK := by
  obtain ⟨n', e, hn'⟩ := H.ok p (by simp)
  rw [hp] at e; injection e with e; rw [e]; exact hn'

/-- where `prev_` of a node leads: to the node before it, from the first to the last -/
theorem Is.prev {h : Heap} {l : Nat} {A B xs : List Nat} {p : Nat} {n : Node}
    (H : Is h l (A ++ p :: B) xs) (hn : h p = some n) :
    some n.prev = ((p :: B) ++ A).getLast? := by
  have h1 := (cyc_at H.cyc).2
  simpa [prv, hn] using h1

/-- elements `pre` are before the position and have not been seen by a loop that goes back -/
def Back (h : Heap) (ps : List Nat) (it : It) (pre : List Nat) : Prop :=
  (ps = [] ∧ it.head = 0 ∧ pre = []) ∨
  ∃ A p B n, ps = A ++ p :: B ∧ h p = some n ∧ some it.head = ps.getLast? ∧ it.list = p ∧
    0 ≤ it.nr ∧ it.nr ≤ n.nr ∧ pre = contents h A ++ n.ents.take it.nr.toNat

theorem prevLoop_spec {h : Heap} {l e : Nat} {ps xs : List Nat} (H : Is h l ps xs)
    (he : some e = ps.getLast?) :
    ∀ (f : Nat) (A : List Nat) (p : Nat) (B : List Nat) (n : Node) (nr : Int),
      ps = A ++ p :: B → h p = some n → -1 ≤ nr → nr < n.nr →
      (nr + 1).toNat + 1 + 8 * A.length ≤ f →
      ∃ it', prevLoop h f ⟨e, p, nr⟩ =
          .ok (((contents h A ++ n.ents.take (nr + 1).toNat).reverse.dropWhile (· == 0)).headD 0,
            it') ∧
        (∀ x rest, (contents h A ++ n.ents.take (nr + 1).toNat).reverse.dropWhile (· == 0) =
          x :: rest → Back h ps it' rest.reverse) := by
  intro f
  induction f with
  | zero => intro A p B n nr _ _ _ _ hf; omega
  | succ f ih =>
    intro A p B n nr hps hp h0 h1 hf
    have hok : n.OK := (hps ▸ H).okOf hp
    have := hok.hi
    simp only [prevLoop, get_some hp, Res.bind_ok]
    by_cases hge : 0 ≤ nr
    · rw [if_pos ⟨hge, h1⟩, rd_ok hge (by omega), Res.bind_ok]
      have hnx : (nr + 1).toNat = nr.toNat + 1 := by omega
      rw [hnx, ents_take hge h1]
      have hrev : (contents h A ++ (n.ents.take nr.toNat ++ [n.slot nr.toNat])).reverse =
          n.slot nr.toNat :: (contents h A ++ n.ents.take nr.toNat).reverse := by simp
      rw [hrev]
      by_cases hz : n.slot nr.toNat = 0
      · rw [if_pos ⟨count_zero hok nr.toNat (by omega) hz, hz⟩]
        have hdw : (n.slot nr.toNat :: (contents h A ++ n.ents.take nr.toNat).reverse).dropWhile
            (· == 0) = (contents h A ++ n.ents.take nr.toNat).reverse.dropWhile (· == 0) := by
          simp [hz]
        obtain ⟨it', e1, e2⟩ := ih A p B n (nr - 1) hps hp (by omega) (by omega) (by omega)
        have h3 : (nr - 1 + 1).toNat = nr.toNat := by omega
        rw [h3] at e1 e2
        rw [hdw]
        exact ⟨it', e1, e2⟩
      · rw [if_neg (fun hc => hz hc.2)]
        have hdw : (n.slot nr.toNat :: (contents h A ++ n.ents.take nr.toNat).reverse).dropWhile
            (· == 0) = n.slot nr.toNat :: (contents h A ++ n.ents.take nr.toNat).reverse := by
          simp [hz]
        rw [hdw]
        refine ⟨_, rfl, ?_⟩
        intro x rest hx
        injection hx with hx1 hx2
        exact .inr ⟨A, p, B, n, hps, hp, he, rfl, hge, by simp only; omega, by rw [← hx2]; simp⟩
    · have h3 : (nr + 1).toNat = 0 := by omega
      rw [if_neg (fun hc => hge hc.1), h3, List.take_zero, List.append_nil]
      have hprev := (hps ▸ H).prev hp
      rcases List.eq_nil_or_concat A with rfl | ⟨A', a, rfl⟩
      · have : n.prev = e := by
          rw [List.append_nil] at hprev
          rw [hps, List.nil_append] at he
          rw [← he] at hprev
          exact Option.some.inj hprev
        rw [if_neg (by simp [this])]
        exact ⟨_, by simp; rfl, by simp⟩
      · rw [List.concat_eq_append] at hps hprev hf ⊢
        have ha : n.prev = a := by
          rw [← List.append_assoc, List.getLast?_concat] at hprev
          exact Option.some.inj hprev
        have hae : a ≠ e := by
          rintro rfl
          have hnd := H.nodup
          rw [hps] at he hnd
          rw [List.append_assoc, List.nodup_append] at hnd
          have hnd := hnd.2.1
          have hmem : a ∈ p :: B := by
            rw [List.getLast?_append] at he
            have h4 : (p :: B).getLast? = some ((p :: B).getLast (by simp)) :=
              List.getLast?_eq_some_getLast (by simp)
            rw [h4] at he
            simp only [Option.some_or, Option.some.injEq] at he
            rw [he]
            exact List.getLast_mem _
          rw [List.singleton_append, List.nodup_cons] at hnd
          exact hnd.1 hmem
        rw [if_pos (by rw [ha]; exact hae), ha]
        obtain ⟨m, hm, hmok⟩ := H.ok a (by rw [hps]; simp)
        have h5 := hmok.hi
        have h6 := hmok.lo
        rw [get_some hm, Res.bind_ok]
        obtain ⟨it', e1, e2⟩ := ih A' a (p :: B) m (m.nr - 1) (by rw [hps]; simp) hm (by omega)
          (by omega) (by
            simp only [List.length_append, List.length_singleton] at hf
            omega)
        have h7 : (m.nr - 1 + 1).toNat = m.nr.toNat := by omega
        have h8 : m.ents.take m.nr.toNat = m.ents := by
          apply List.take_of_length_le; rw [ents_length]; omega
        rw [h7, h8] at e1 e2
        rw [contents_append, contents_cons, contents_nil, List.append_nil, ents_some hm]
        exact ⟨it', e1, e2⟩

theorem iterPrev_spec {h : Heap} {l : Nat} {ps xs : List Nat} (H : Is h l ps xs) {it : It}
    {pre : List Nat} (ha : Back h ps it pre) {f : Nat} (hf : 8 * ps.length < f) :
    ∃ it', iterPrev h f it = .ok ((pre.reverse.dropWhile (· == 0)).headD 0, it') ∧
      ∀ x rest, pre.reverse.dropWhile (· == 0) = x :: rest → Back h ps it' rest.reverse := by
  rcases ha with ⟨rfl, h1, rfl⟩ | ⟨A, p, B, n, hps, hp, h1, h2, h3, h4, rfl⟩
  · exact ⟨it, by simp [iterPrev, h1], by simp⟩
  · have hz : it.head ≠ 0 := by
      intro e
      apply H.nz
      rw [e] at h1
      obtain ⟨ys, hy⟩ := List.getLast?_eq_some_iff.mp h1.symm
      rw [hy]; simp
    have hlen : ps.length = A.length + B.length + 1 := by rw [hps]; simp; omega
    have hok : n.OK := (hps ▸ H).okOf hp
    have := hok.hi
    obtain ⟨it', e1, e2⟩ := prevLoop_spec H h1 f A p B n (it.nr - 1) hps hp (by omega) (by omega)
      (by omega)
    have h5 : (it.nr - 1 + 1).toNat = it.nr.toNat := by omega
    rw [h5] at e1 e2
    refine ⟨it', ?_, e2⟩
    rw [iterPrev, if_neg hz, h2]
    exact e1

theorem reverse_back {h : Heap} {l : Nat} {ps xs : List Nat} (H : Is h l ps xs) :
    ∃ it, reverse h l = .ok it ∧ Back h ps it xs := by
  have hx := H.xs
  have hh := H.head
  rcases List.eq_nil_or_concat ps with rfl | ⟨A, e, rfl⟩
  · refine ⟨⟨0, 0, 0⟩, ?_, .inl ⟨rfl, rfl, by rw [← hx]; rfl⟩⟩
    have : l = 0 := by simpa using hh.symm
    simp [reverse, this]
  · rw [List.concat_eq_append] at *
    have hl := H.ne_zero (by simp)
    obtain ⟨m, hm, hmok⟩ := H.ok e (by simp)
    have hlm : l ∈ A ++ [e] := by
      rw [← hh]
      cases A <;> simp
    obtain ⟨n, hn, _⟩ := H.ok l hlm
    have hpe : n.prev = e := by
      cases A with
      | nil =>
        have hh : e = l := by simpa using hh
        have := (show Is h l ([] ++ l :: []) xs from by rw [hh] at H; exact H).prev hn
        simp at this; omega
      | cons a A =>
        have hh : a = l := by simpa using hh
        have := (show Is h l ([] ++ l :: (A ++ [e])) xs from by rw [hh] at H; exact H).prev hn
        rw [List.append_nil, ← List.cons_append, List.getLast?_concat] at this
        exact Option.some.inj this
    refine ⟨⟨e, e, m.nr⟩, ?_, .inr ⟨A, e, [], m, rfl, hm, by simp, rfl, hmok.lo, Int.le_refl _, ?_⟩⟩
    · rw [reverse, if_neg hl, get_some hn, Res.bind_ok, hpe, get_some hm, Res.bind_ok]
    · rw [← hx, contents_split, ents_some hm, contents_nil, List.append_nil]
      have h8 : m.ents.take m.nr.toNat = m.ents := by
        apply List.take_of_length_le; rw [ents_length]; omega
      rw [h8]

theorem walkBack_at {h : Heap} {l : Nat} {ps xs : List Nat} (H : Is h l ps xs) {f : Nat}
    (hf : 8 * ps.length < f) : ∀ (g : Nat) (it : It) (pre : List Nat), Back h ps it pre →
    pre.length < g → walkBack h f g it = .ok ((pre.filter (· ≠ 0)).reverse) := by
  intro g
  induction g with
  | zero => intro it pre _ hg; omega
  | succ g ih =>
    intro it pre ha hg
    obtain ⟨it', e1, e2⟩ := iterPrev_spec H ha hf
    rw [walkBack, e1, Res.bind_ok]
    rw [← List.filter_reverse]
    cases hd : pre.reverse.dropWhile (· == 0) with
    | nil =>
      rw [filter_of_dropWhile hd]
      simp
    | cons x rest =>
      have hx : x ≠ 0 := by
        have := List.head_dropWhile_not (p := (· == 0)) (l := pre.reverse) (by rw [hd]; simp)
        simpa [hd] using this
      have hsp : pre.reverse = pre.reverse.takeWhile (· == 0) ++ x :: rest := by
        rw [← hd, List.takeWhile_append_dropWhile]
      have hlen : rest.length < g := by
        have := congrArg List.length hsp
        simp only [List.length_append, List.length_cons, List.length_reverse] at this
        omega
      simp only [List.headD_cons]
      rw [ih it' _ (e2 x rest hd) (by simpa using hlen), Res.bind_ok]
      congr 1
      conv => rhs; rw [hsp]
      rw [List.filter_append, List.filter_cons_of_pos (by simpa using hx), filter_takeWhile,
        List.nil_append, ← List.filter_reverse, List.reverse_reverse]
      exact if_neg hx

/-- a loop over the nodes, from one of them to the last -/
theorem sizeLoop_spec {h : Heap} {l : Nat} {ps xs : List Nat} (H : Is h l ps xs) :
    ∀ (f : Nat) (A : List Nat) (p : Nat) (B : List Nat) (acc : Int), ps = A ++ p :: B →
      B.length < f →
      sizeLoop h l f p acc = .ok (acc + ((contents h (p :: B)).filter (· ≠ 0)).length) := by
  intro f
  induction f with
  | zero => intro A p B acc _ hf; omega
  | succ f ih =>
    intro A p B acc hps hf
    obtain ⟨n, hp, hok⟩ := H.ok p (by rw [hps]; simp)
    have hnext := (hps ▸ H).next hp
    have hcount : n.nr - n.rm = ((n.ents.filter (· ≠ 0)).length : Int) := by
      rw [hok.rm]
      have h1 : n.ents.length = (n.ents.filter (· ≠ 0)).length + n.ents.count 0 := by
        generalize n.ents = L
        induction L with
        | nil => rfl
        | cons x L ih =>
          by_cases hx : x = 0
          · subst hx; simp only [List.length_cons, List.count_cons_self, ne_eq, not_true_eq_false,
              decide_false, Bool.false_eq_true, not_false_eq_true, List.filter_cons_of_neg] at ih ⊢
            omega
          · rw [List.filter_cons_of_pos (by simpa using hx), List.count_cons_of_ne hx,
              List.length_cons, List.length_cons]
            omega
      rw [ents_length] at h1
      have := hok.lo
      omega
    simp only [sizeLoop, get_some hp, Res.bind_ok]
    rw [contents_cons, ents_some hp, List.filter_append, List.length_append, hcount]
    cases B with
    | nil =>
      have : n.next = l := by simpa using hnext
      rw [if_neg (by simp [this])]
      simp
    | cons b B =>
      have hb : n.next = b := by simpa using hnext
      have hbl : b ≠ l := (hps ▸ H).mem_ne
      rw [if_pos (by rw [hb]; exact hbl), hb, ih (A ++ [p]) b B _ (by rw [hps]; simp)
        (by simp only [List.length_cons] at hf; omega)]
      congr 1
      simp only [Int.natCast_add]
      omega

theorem nthLoop_spec {h : Heap} {l : Nat} {ps xs : List Nat} (H : Is h l ps xs) :
    ∀ (f : Nat) (A : List Nat) (p : Nat) (B : List Nat) (idx : Nat), ps = A ++ p :: B →
      B.length < f → nthLoop h l f p idx = .ok ((contents h (p :: B))[idx]?.getD 0) := by
  intro f
  induction f with
  | zero => intro A p B idx _ hf; omega
  | succ f ih =>
    intro A p B idx hps hf
    obtain ⟨n, hp, hok⟩ := H.ok p (by rw [hps]; simp)
    have hnext := (hps ▸ H).next hp
    have := hok.hi
    have := hok.lo
    simp only [nthLoop, get_some hp, Res.bind_ok]
    rw [contents_cons, ents_some hp]
    by_cases hlt : (idx : Int) < n.nr
    · rw [if_pos hlt, rd_ok (by omega) (by omega)]
      have hl : idx < n.ents.length := by rw [ents_length]; omega
      rw [List.getElem?_append_left hl, List.getElem?_eq_getElem hl, ents_get]
      simp
    · have hl : n.ents.length ≤ idx := by rw [ents_length]; omega
      rw [if_neg hlt, List.getElem?_append_right hl]
      cases B with
      | nil =>
        have : n.next = l := by simpa using hnext
        rw [if_neg (by simp [this])]
        simp
      | cons b B =>
        have hb : n.next = b := by simpa using hnext
        have hbl : b ≠ l := (hps ▸ H).mem_ne
        have hi : (idx : Int) - n.nr = ((idx - n.ents.length : Nat) : Int) := by
          rw [ents_length] at hl ⊢; omega
        rw [if_pos (by rw [hb]; exact hbl), hb, hi, ih (A ++ [p]) b B _ (by rw [hps]; simp)
          (by simp only [List.length_cons] at hf; omega)]

theorem linearizeLoop_spec {h : Heap} {l : Nat} {ps xs : List Nat} (H : Is h l ps xs) :
    ∀ (f : Nat) (A : List Nat) (p : Nat) (B : List Nat) (mx : Int) (acc : List Nat),
      ps = A ++ p :: B → 0 < mx → B.length < f →
      linearizeLoop h l f p mx acc = .ok (acc ++ (contents h (p :: B)).take mx.toNat) := by
  intro f
  induction f with
  | zero => intro A p B mx acc _ _ hf; omega
  | succ f ih =>
    intro A p B mx acc hps h0 hf
    obtain ⟨n, hp, hok⟩ := H.ok p (by rw [hps]; simp)
    have hnext := (hps ▸ H).next hp
    have hhi := hok.hi
    have hlo := hok.lo
    simp only [linearizeLoop, get_some hp, Res.bind_ok]
    rw [contents_cons, ents_some hp]
    have htk : ∀ i : Int, 0 ≤ i → i ≤ n.nr → n.copy i = .ok (n.ents.take i.toNat) := by
      intro i hi1 hi2
      rw [Node.copy, if_pos ⟨hi1, by simp only [cap]; omega⟩, Node.ents, ← List.map_take,
        List.take_range, Nat.min_eq_left (by omega)]
    by_cases hgt : n.nr > mx
    · rw [if_pos hgt, htk mx (by omega) (by omega), Res.bind_ok, if_pos (by omega)]
      rw [List.take_append_of_le_length (by rw [ents_length]; omega)]
    · rw [if_neg hgt, htk n.nr (by omega) (by omega), Res.bind_ok]
      have h8 : n.ents.take n.nr.toNat = n.ents := by
        apply List.take_of_length_le; rw [ents_length]; omega
      rw [h8]
      by_cases heq : mx - n.nr = 0
      · rw [if_pos heq]
        have : mx.toNat = n.ents.length := by rw [ents_length]; omega
        rw [this, List.take_left]
      · rw [if_neg heq]
        have h9 : (n.ents ++ contents h B).take mx.toNat =
            n.ents ++ (contents h B).take (mx - n.nr).toNat := by
          rw [List.take_append, ents_length]
          have : mx.toNat - n.nr.toNat = (mx - n.nr).toNat := by omega
          rw [this, List.take_of_length_le (by rw [ents_length]; omega)]
        rw [h9]
        cases B with
        | nil =>
          have : n.next = l := by simpa using hnext
          rw [if_neg (by simp [this])]
          simp
        | cons b B =>
          have hb : n.next = b := by simpa using hnext
          have hbl : b ≠ l := (hps ▸ H).mem_ne
          rw [if_pos (by rw [hb]; exact hbl), hb, ih (A ++ [p]) b B _ _ (by rw [hps]; simp)
            (by omega) (by simp only [List.length_cons] at hf; omega), List.append_assoc]

end Verif.PtrList
