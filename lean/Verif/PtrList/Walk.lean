import Verif.PtrList.Ring

/-!
Lists in the heap, positions in them, and the two directions of iteration.
-/
namespace Verif.PtrList

/-- the entries of a node -/
def Node.ents (n : Node) : List Nat := (List.range n.nr.toNat).map n.slot

def ents (h : Heap) (p : Nat) : List Nat :=
  match h p with
  | some n => n.ents
  | none => []

/-- the entries of some nodes, in order -/
def contents (h : Heap) (ps : List Nat) : List Nat := ps.flatMap (ents h)

/-- between none and seven entries, and `rm_` says how many of them are `NULL` -/
structure Node.OK (n : Node) : Prop where
  lo : 0 ≤ n.nr
  hi : n.nr ≤ 7
  rm : n.rm = (n.ents.count 0 : Int)

/-- the nodes `ps` are in the heap, all of them fine -/
def Okay (h : Heap) (ps : List Nat) : Prop := ∀ p ∈ ps, ∃ n, h p = some n ∧ n.OK

/-- `l` points to a list made of the nodes `ps` with the entries `xs` -/
structure Is (h : Heap) (l : Nat) (ps : List Nat) (xs : List Nat) : Prop where
  head : ps.head?.getD 0 = l
  nodup : ps.Nodup
  nz : 0 ∉ ps
  cyc : Cyc h ps
  ok : Okay h ps
  xs : contents h ps = xs

@[simp] theorem contents_nil (h : Heap) : contents h [] = [] := rfl
theorem contents_cons (h : Heap) (p : Nat) (ps : List Nat) :
    contents h (p :: ps) = ents h p ++ contents h ps := rfl
theorem contents_append (h : Heap) (a b : List Nat) :
    contents h (a ++ b) = contents h a ++ contents h b := List.flatMap_append ..
theorem contents_split (h : Heap) (a b : List Nat) (p : Nat) :
    contents h (a ++ p :: b) = contents h a ++ (ents h p ++ contents h b) := by
  rw [contents_append, contents_cons]

theorem ents_some {h : Heap} {p : Nat} {n : Node} (e : h p = some n) : ents h p = n.ents := by
  simp [ents, e]

@[simp] theorem ents_length (n : Node) : n.ents.length = n.nr.toNat := by simp [Node.ents]
theorem ents_get (n : Node) (i : Nat) (hi : i < n.ents.length) : n.ents[i] = n.slot i := by
  simp [Node.ents]

theorem get_some {h : Heap} {p : Nat} {n : Node} (e : h p = some n) : get h p = .ok n := by
  simp [get, e]

theorem Is.ne_zero {h : Heap} {l : Nat} {ps xs : List Nat} (H : Is h l ps xs) (hp : ps ≠ []) :
    l ≠ 0 := by
  cases ps with
  | nil => exact absurd rfl hp
  | cons p r =>
    have := H.head
    simp only [List.head?_cons, Option.getD_some] at this
    intro e
    apply H.nz
    rw [this, e]
    simp

/-- where `next_` of a node of the list leads -/
theorem Is.next {h : Heap} {l : Nat} {A B xs : List Nat} {p : Nat} {n : Node}
    (H : Is h l (A ++ p :: B) xs) (hn : h p = some n) :
    n.next = (B ++ [l]).head (by simp) := by
  have h1 := (cyc_at H.cyc).1
  have h2 := H.head
  simp only [nxt, hn, Option.map_some] at h1
  cases B with
  | cons b B => simpa using h1
  | nil =>
    cases A with
    | nil => simp at h1 h2 ⊢; omega
    | cons a A => simp at h1 h2 ⊢; omega

theorem Is.mem_ne {h : Heap} {l : Nat} {A B xs : List Nat} {p b : Nat}
    (H : Is h l (A ++ p :: b :: B) xs) : b ≠ l := by
  have h2 := H.head
  have hn := H.nodup
  cases A with
  | nil =>
    simp at h2 hn
    omega
  | cons a A =>
    simp at h2 hn
    omega

/-- between the elements `pre` and `post`: the next element is the first of `post` -/
def At (h : Heap) (l : Nat) (ps : List Nat) (it : It) (pre post : List Nat) : Prop :=
  (ps = [] ∧ it.head = 0 ∧ pre = [] ∧ post = []) ∨
  ∃ A p B n, ps = A ++ p :: B ∧ h p = some n ∧ it.head = l ∧ it.list = p ∧ -1 ≤ it.nr ∧
    pre = contents h A ++ n.ents.take (it.nr + 1).toNat ∧
    post = n.ents.drop (it.nr + 1).toNat ++ contents h B

/-- on the element `x`, which is between `pre` and `post` -/
def On (h : Heap) (l : Nat) (ps : List Nat) (it : It) (pre : List Nat) (x : Nat) (post : List Nat) :
    Prop :=
  ∃ A p B n, ps = A ++ p :: B ∧ h p = some n ∧ it.head = l ∧ it.list = p ∧ 0 ≤ it.nr ∧
    it.nr < n.nr ∧ x = n.slot it.nr.toNat ∧ pre = contents h A ++ n.ents.take it.nr.toNat ∧
    post = n.ents.drop (it.nr.toNat + 1) ++ contents h B

theorem ents_drop {n : Node} {i : Int} (h0 : 0 ≤ i) (h1 : i < n.nr) :
    n.ents.drop i.toNat = n.slot i.toNat :: n.ents.drop (i.toNat + 1) := by
  have hl : i.toNat < n.ents.length := by rw [ents_length]; omega
  rw [List.drop_eq_getElem_cons hl, ents_get]

theorem ents_take {n : Node} {i : Int} (h0 : 0 ≤ i) (h1 : i < n.nr) :
    n.ents.take (i.toNat + 1) = n.ents.take i.toNat ++ [n.slot i.toNat] := by
  have hl : i.toNat < n.ents.length := by rw [ents_length]; omega
  rw [List.take_succ_eq_append_getElem hl, ents_get]

theorem On.at {h : Heap} {l : Nat} {ps : List Nat} {it : It} {pre post : List Nat} {x : Nat}
    (H : On h l ps it pre x post) : At h l ps it (pre ++ [x]) post := by
  obtain ⟨A, p, B, n, h1, h2, h3, h4, h5, h6, rfl, rfl, rfl⟩ := H
  refine .inr ⟨A, p, B, n, h1, h2, h3, h4, by omega, ?_, ?_⟩
  · have : (it.nr + 1).toNat = it.nr.toNat + 1 := by omega
    rw [this, ents_take h5 h6, List.append_assoc]
  · have : (it.nr + 1).toNat = it.nr.toNat + 1 := by omega
    rw [this]

theorem At.all {h : Heap} {l : Nat} {ps : List Nat} {it : It} {pre post : List Nat}
    (H : At h l ps it pre post) : pre ++ post = contents h ps := by
  rcases H with ⟨rfl, _, rfl, rfl⟩ | ⟨A, p, B, n, rfl, h2, _, _, _, rfl, rfl⟩
  · rfl
  · rw [contents_split, ents_some h2, List.append_assoc, ← List.append_assoc (List.take _ _),
      List.take_append_drop]

theorem rd_ok {n : Node} {i : Int} (h0 : 0 ≤ i) (h1 : i < 7) : n.rd i = .ok (n.slot i.toNat) :=
  if_pos ⟨h0, h1⟩

theorem count_zero {n : Node} (hn : n.OK) (i : Nat) (hi : i < n.nr.toNat) (hz : n.slot i = 0) :
    n.rm ≠ 0 := by
  rw [hn.rm]
  have hm : 0 ∈ n.ents := by
    rw [Node.ents, List.mem_map]
    exact ⟨i, List.mem_range.mpr hi, hz⟩
  have := List.count_pos_iff.mpr hm
  omega

theorem dropWhile_zero (L : List Nat) :
    (L = [] ∧ L.dropWhile (· == 0) = [] ∧ L.takeWhile (· == 0) = []) ∨
    (∃ L', L = 0 :: L' ∧ L.dropWhile (· == 0) = L'.dropWhile (· == 0) ∧
      L.takeWhile (· == 0) = 0 :: L'.takeWhile (· == 0)) ∨
    (∃ x L', L = x :: L' ∧ x ≠ 0 ∧ L.dropWhile (· == 0) = L ∧ L.takeWhile (· == 0) = []) := by
  cases L with
  | nil => simp
  | cons x L =>
    by_cases hx : x = 0
    · subst hx; right; left; exact ⟨L, rfl, by simp, by simp⟩
    · right; right; exact ⟨x, L, rfl, hx, by simp [hx], by simp [hx]⟩

theorem filter_of_dropWhile : ∀ {L : List Nat}, L.dropWhile (· == 0) = [] → L.filter (· ≠ 0) = []
  | [], _ => rfl
  | x :: L, h => by
    by_cases hx : x = 0
    · subst hx
      simp only [List.dropWhile_cons, beq_self_eq_true, if_true] at h
      rw [List.filter_cons_of_neg (by simp)]
      exact filter_of_dropWhile h
    · simp [hx] at h

theorem filter_takeWhile : ∀ (L : List Nat), (L.takeWhile (· == 0)).filter (· ≠ 0) = []
  | [] => rfl
  | x :: L => by
    by_cases hx : x = 0
    · subst hx
      simp only [List.takeWhile_cons, beq_self_eq_true, if_true]
      rw [List.filter_cons_of_neg (by simp)]
      exact filter_takeWhile L
    · simp [hx]

/-- `Lretry` of `iterNext` -/
theorem nextLoop_spec {h : Heap} {l : Nat} {ps xs : List Nat} (H : Is h l ps xs) :
    ∀ (f : Nat) (A : List Nat) (p : Nat) (B : List Nat) (n : Node) (nr : Int),
      ps = A ++ p :: B → h p = some n → 0 ≤ nr → (n.nr - nr).toNat + 1 + 8 * B.length ≤ f →
      ∃ it', nextLoop h f ⟨l, p, nr⟩ =
          .ok (((n.ents.drop nr.toNat ++ contents h B).dropWhile (· == 0)).headD 0, it') ∧
        (∀ x post, (n.ents.drop nr.toNat ++ contents h B).dropWhile (· == 0) = x :: post →
          On h l ps it' (contents h A ++ n.ents.take nr.toNat ++
            (n.ents.drop nr.toNat ++ contents h B).takeWhile (· == 0)) x post) ∧
        ((n.ents.drop nr.toNat ++ contents h B).dropWhile (· == 0) = [] →
          At h l ps it' (contents h ps) []) := by
  intro f
  induction f with
  | zero => intro A p B n nr _ _ _ hf; omega
  | succ f ih =>
    intro A p B n nr hps hp h0 hf
    have hok : n.OK := by
      obtain ⟨n', e, hn'⟩ := H.ok p (by rw [hps]; simp)
      rw [hp] at e; injection e with e; rw [e]; exact hn'
    simp only [nextLoop, get_some hp, Res.bind_ok]
    by_cases hlt : nr < n.nr
    · rw [if_pos hlt, rd_ok h0 (by have := hok.hi; omega), Res.bind_ok, ents_drop h0 hlt]
      have hnx : (nr + 1).toNat = nr.toNat + 1 := by omega
      by_cases hz : n.slot nr.toNat = 0
      · rw [if_pos ⟨count_zero hok nr.toNat (by omega) hz, hz⟩]
        obtain ⟨it', e1, e2, e3⟩ := ih A p B n (nr + 1) hps hp (by omega) (by omega)
        rw [hnx] at e1 e2 e3
        have hdw : (n.slot nr.toNat :: List.drop (nr.toNat + 1) n.ents ++ contents h B).dropWhile
            (· == 0) = (List.drop (nr.toNat + 1) n.ents ++ contents h B).dropWhile (· == 0) := by
          simp [hz]
        refine ⟨it', ?_, ?_, ?_⟩
        · rw [hdw]; exact e1
        · intro x post hx
          rw [hdw] at hx
          have := e2 x post hx
          rw [ents_take h0 hlt] at this
          simpa [hz] using this
        · intro hx
          rw [hdw] at hx
          exact e3 hx
      · rw [if_neg (fun hc => hz hc.2)]
        have hdw : (n.slot nr.toNat :: List.drop (nr.toNat + 1) n.ents ++ contents h B).dropWhile
            (· == 0) = n.slot nr.toNat :: (List.drop (nr.toNat + 1) n.ents ++ contents h B) := by
          simp [hz]
        refine ⟨⟨l, p, nr⟩, ?_, ?_, ?_⟩
        · rw [hdw]; rfl
        · intro x post hx
          rw [hdw] at hx
          injection hx with hx1 hx2
          refine ⟨A, p, B, n, hps, hp, rfl, rfl, h0, hlt, hx1.symm, ?_, hx2.symm⟩
          simp [hz]
        · intro hx; rw [hdw] at hx; cases hx
    · rw [if_neg hlt]
      have hd : n.ents.drop nr.toNat = [] := by
        rw [List.drop_eq_nil_iff, ents_length]; omega
      have ht : n.ents.take nr.toNat = n.ents := by
        apply List.take_of_length_le; rw [ents_length]; omega
      rw [hd, ht, List.nil_append]
      have hnext := (hps ▸ H).next hp
      cases B with
      | nil =>
        have : n.next = l := by simpa using hnext
        rw [if_neg (by simp [this])]
        refine ⟨⟨l, p, nr⟩, by simp, by simp, fun _ => .inr ⟨A, p, [], n, hps, hp, rfl, rfl,
          by simp only; omega, ?_, ?_⟩⟩
        · have : n.ents.take (nr + 1).toNat = n.ents := by
            apply List.take_of_length_le; rw [ents_length]; omega
          rw [this, hps, contents_split, ents_some hp, contents_nil, List.append_nil]
        · have : n.ents.drop (nr + 1).toNat = [] := by
            rw [List.drop_eq_nil_iff, ents_length]; omega
          rw [this]; rfl
      | cons b B =>
        have hb : n.next = b := by simpa using hnext
        have hbl : b ≠ l := (hps ▸ H).mem_ne
        rw [if_pos (by rw [hb]; exact hbl), hb]
        obtain ⟨m, hm, hmok⟩ := H.ok b (by rw [hps]; simp)
        have := hmok.hi
        obtain ⟨it', e1, e2, e3⟩ := ih (A ++ [p]) b B m 0 (by rw [hps]; simp) hm (by omega)
          (by simp only [List.length_cons] at hf; omega)
        simp only [Int.toNat_zero, List.drop_zero, List.take_zero, List.append_nil] at e1 e2 e3
        rw [contents_cons, ents_some hm]
        refine ⟨it', e1, ?_, e3⟩
        intro x post hx
        have := e2 x post hx
        rw [contents_append, contents_cons, contents_nil, List.append_nil, ents_some hp] at this
        exact this

theorem iterNext_spec {h : Heap} {l : Nat} {ps xs : List Nat} (H : Is h l ps xs) {it : It}
    {pre post : List Nat} (ha : At h l ps it pre post) {f : Nat} (hf : 8 * ps.length < f) :
    (∀ x post', post.dropWhile (· == 0) = x :: post' → ∃ it', iterNext h f it = .ok (x, it') ∧
      On h l ps it' (pre ++ post.takeWhile (· == 0)) x post') ∧
    (post.dropWhile (· == 0) = [] → ∃ it', iterNext h f it = .ok (0, it') ∧
      At h l ps it' (contents h ps) []) := by
  rcases ha with ⟨rfl, h1, rfl, rfl⟩ | ⟨A, p, B, n, hps, hp, h1, h2, h3, rfl, rfl⟩
  · refine ⟨by simp, fun _ => ⟨it, ?_, .inl ⟨rfl, h1, rfl, rfl⟩⟩⟩
    simp [iterNext, h1]
  · have hl : l ≠ 0 := H.ne_zero (by rw [hps]; simp)
    have hok : n.OK := by
      obtain ⟨n', e, hn'⟩ := H.ok p (by rw [hps]; simp)
      rw [hp] at e; injection e with e; rw [e]; exact hn'
    have hlen : ps.length = A.length + B.length + 1 := by rw [hps]; simp; omega
    have := hok.hi
    have := hok.lo
    obtain ⟨it', e1, e2, e3⟩ := nextLoop_spec H f A p B n (it.nr + 1) hps hp (by omega) (by omega)
    have hit : iterNext h f it = nextLoop h f ⟨l, p, it.nr + 1⟩ := by
      rw [iterNext, if_neg (by rw [h1]; exact hl), h1, h2]
    rw [hit]
    refine ⟨fun x post' hx => ⟨it', ?_, e2 x post' hx⟩, fun hx => ⟨it', ?_, e3 hx⟩⟩
    · rw [e1, hx]; rfl
    · rw [e1, hx]; rfl

theorem forward_at {h : Heap} {l : Nat} {ps xs : List Nat} (H : Is h l ps xs) :
    At h l ps (forward l) [] xs := by
  have hx := H.xs
  cases ps with
  | nil =>
    have := H.head
    exact .inl ⟨rfl, by simpa [forward] using this.symm, rfl, by rw [← hx]; rfl⟩
  | cons p r =>
    have hh := H.head
    simp only [List.head?_cons, Option.getD_some] at hh
    obtain ⟨n, hn, _⟩ := H.ok p (by simp)
    refine .inr ⟨[], p, r, n, rfl, hn, rfl, hh.symm, by simp [forward], by simp [forward], ?_⟩
    rw [← hx, contents_cons, ents_some hn]
    simp [forward]

/-- looking at everything from where the iterator is -/
theorem walk_at {h : Heap} {l : Nat} {ps xs : List Nat} (H : Is h l ps xs) {f : Nat}
    (hf : 8 * ps.length < f) : ∀ (g : Nat) (it : It) (pre post : List Nat),
    At h l ps it pre post → post.length < g → walk h f g it = .ok (post.filter (· ≠ 0)) := by
  intro g
  induction g with
  | zero => intro it pre post _ hg; omega
  | succ g ih =>
    intro it pre post ha hg
    obtain ⟨e1, e2⟩ := iterNext_spec H ha hf
    cases hd : post.dropWhile (· == 0) with
    | nil =>
      obtain ⟨it', e, _⟩ := e2 hd
      rw [walk, e]
      simp only [Res.bind_ok, if_pos]
      congr 1
      symm
      exact filter_of_dropWhile hd
    | cons x post' =>
      obtain ⟨it', e, ho⟩ := e1 x post' hd
      have hx : x ≠ 0 := by
        have := List.head_dropWhile_not (p := (· == 0)) (l := post) (by rw [hd]; simp)
        simpa [hd] using this
      have hsp : post = post.takeWhile (· == 0) ++ x :: post' := by
        rw [← hd, List.takeWhile_append_dropWhile]
      have hlen : post'.length < g := by
        have := congrArg List.length hsp
        simp only [List.length_append, List.length_cons] at this
        omega
      rw [walk, e]
      simp only [Res.bind_ok, if_neg hx]
      rw [ih it' _ post' ho.at hlen, Res.bind_ok]
      congr 1
      conv => rhs; rw [hsp]
      rw [List.filter_append, List.filter_cons_of_pos (by simpa using hx)]
      have : (post.takeWhile (· == 0)).filter (· ≠ 0) = [] := filter_takeWhile post
      rw [this, List.nil_append]

end Verif.PtrList
