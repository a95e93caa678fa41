import Verif.PtrList.Insert

/-!
Taking elements from the end, packing, and the operations made of loops over a list.
-/
namespace Verif.PtrList

theorem ents_pred {n : Node} (h1 : 0 < n.nr) (s : Nat → Nat)
    (hs : ∀ j, j < (n.nr - 1).toNat → s j = n.slot j) :
    n.ents = (⟨n.nr - 1, n.rm, n.prev, n.next, s⟩ : Node).ents ++ [n.slot (n.nr - 1).toNat] := by
  have hl : n.nr.toNat = (n.nr - 1).toNat + 1 := by omega
  simp only [Node.ents]
  rw [hl, List.range_succ, List.map_append]
  congr 1
  exact List.map_congr_left (fun j hj => (hs j (List.mem_range.mp hj)).symm)

/-- one entry less at the end of a node -/
theorem Is.dropEntry {h : Heap} {l : Nat} {A B xs ys : List Nat} {p : Nat} {n : Node} {v : Nat}
    (H : Is h l (A ++ p :: B) xs) (hp : h p = some n) (hn : 0 < n.nr) (hB : contents h B = [])
    (hx : xs = ys ++ [v]) (hv : v ≠ 0) (s : Nat → Nat)
    (hs : ∀ j, j < (n.nr - 1).toNat → s j = n.slot j) :
    n.rd (n.nr - 1) = .ok v ∧
    Is (h.set p ⟨n.nr - 1, n.rm, n.prev, n.next, s⟩) l (A ++ p :: B) ys ∧
    Frame h (A ++ p :: B) (h.set p ⟨n.nr - 1, n.rm, n.prev, n.next, s⟩) (A ++ p :: B) := by
  have hok := H.okOf hp
  have hhi := hok.hi
  have he := ents_pred hn s hs
  have hxs := H.xs
  rw [contents_split, hB, List.append_nil, ents_some hp, he, hx, ← List.append_assoc] at hxs
  obtain ⟨hys, hvv⟩ := List.append_inj' hxs rfl
  have hvv : n.slot (n.nr - 1).toNat = v := by simpa using hvv
  have hok' : (⟨n.nr - 1, n.rm, n.prev, n.next, s⟩ : Node).OK := by
    refine ⟨by simp only; omega, by simp only; omega, ?_⟩
    have := hok.rm
    rw [he, List.count_append, hvv, List.count_cons_of_ne hv] at this
    simpa using this
  obtain ⟨g1, g2, g3, g4⟩ := H.update hp (by rfl) (by rfl) hok'
  refine ⟨?_, ?_, g4⟩
  · rw [rd_ok (by omega) (by omega), hvv]
  · rw [hB, List.append_nil, hys] at g1
    exact g1

theorem contents_nil_of {h : Heap} {p : Nat} {n : Node} (hp : h p = some n) (h0 : n.nr = 0) :
    ents h p = [] := by
  rw [ents_some hp, Node.ents, h0]; rfl

theorem undoLoop_spec {h : Heap} {l : Nat} {ps xs : List Nat} (H : Is h l ps xs) (hz : 0 ∉ xs) :
    ∀ (f : Nat) (A : List Nat) (a : Nat) (B : List Nat) (p : Nat) (n : Node), ps = A ++ a :: B →
      h p = some n → n.prev = a → contents h B = [] → A.length < f →
      (xs = [] ∧ undoLoop h l f p = .ok (h, 0)) ∨
      ∃ ys v h', xs = ys ++ [v] ∧ undoLoop h l f p = .ok (h', v) ∧ Is h' l ps ys ∧
        Frame h ps h' ps := by
  intro f
  induction f with
  | zero => intro A a B p n _ _ _ _ hf; omega
  | succ f ih =>
    intro A a B p n hps hp hpa hB hf
    obtain ⟨m, hm, hmok⟩ := H.ok a (by rw [hps]; simp)
    have hlo := hmok.lo
    have hhi := hmok.hi
    simp only [undoLoop, get_some hp, Res.bind_ok, hpa, get_some hm]
    by_cases h0 : m.nr = 0
    · rw [if_neg (by simp [h0])]
      have hE := contents_nil_of hm h0
      rcases List.eq_nil_or_concat A with rfl | ⟨A', a', rfl⟩
      · left
        have hal : a = l := by
          have := H.head
          rw [hps] at this
          simpa using this
        rw [if_neg (by simp [hal])]
        refine ⟨?_, rfl⟩
        rw [← H.xs, hps, List.nil_append, contents_cons, hE, hB]; rfl
      · rw [List.concat_eq_append] at *
        have hal : a ≠ l := by
          have h1 := H.head
          have h2 := H.nodup
          rw [hps] at h1 h2
          cases A' with
          | nil => simp at h1 h2; omega
          | cons c A' => simp at h1 h2; omega
        rw [if_pos hal]
        refine ih A' a' (a :: B) a m (by rw [hps]; simp) hm ?_ ?_ ?_
        · have := (hps ▸ H).prev hm
          rw [← List.append_assoc, List.getLast?_concat] at this
          exact Option.some.inj this
        · rw [contents_cons, hE, hB]; rfl
        · simp only [List.length_append, List.length_singleton] at hf; omega
    · right
      rw [if_pos h0]
      have hpos : 0 < m.nr := by omega
      have hne : xs ≠ [] := by
        rw [← H.xs, hps, contents_split, ents_some hm]
        intro e
        have := congrArg List.length e
        simp only [List.length_append, ents_length, List.length_nil] at this
        omega
      have hys := List.dropLast_concat_getLast hne
      have hv : xs.getLast hne ≠ 0 := fun e => hz (e ▸ List.getLast_mem hne)
      subst hps
      obtain ⟨e1, e2, e3⟩ := H.dropEntry hm hpos hB hys.symm hv
        (fun j => if j = (m.nr - 1).toNat then 0xf1f1f1f1 else m.slot j)
        (fun j hj => if_neg (by omega))
      refine ⟨xs.dropLast, xs.getLast hne, _, hys.symm, ?_, e2, e3⟩
      rw [e1, Res.bind_ok, wr_ok (by omega) (by omega), Res.bind_ok]

theorem undoLast_spec {h : Heap} {l : Nat} {ps xs : List Nat} (H : Is h l ps xs) (hz : 0 ∉ xs)
    {f : Nat} (hf : ps.length ≤ f) :
    (xs = [] ∧ undoLast h f l = .ok (h, 0)) ∨
    ∃ ys v h', xs = ys ++ [v] ∧ undoLast h f l = .ok (h', v) ∧ Is h' l ps ys ∧
      Frame h ps h' ps := by
  rcases List.eq_nil_or_concat ps with rfl | ⟨A, e, rfl⟩
  · left
    have hl : l = 0 := by simpa using H.head.symm
    exact ⟨by rw [← H.xs]; rfl, by simp [undoLast, hl]⟩
  · rw [List.concat_eq_append] at *
    obtain ⟨n, hn, hne⟩ := H.lastOf
    rw [undoLast, if_neg (H.ne_zero (by simp))]
    refine undoLoop_spec H hz f A e [] l n rfl hn hne rfl ?_
    simp only [List.length_append, List.length_singleton] at hf
    omega

theorem free_some {h : Heap} {p : Nat} {n : Node} (e : h p = some n) :
    h.free p = .ok (fun q => if q = p then none else h q) := by
  simp [Heap.free, e]

/-- the heap after the node `q` between `a` and `b` is taken out -/
def outHeap (h : Heap) (q a b : Nat) : Heap := fun x =>
  if x = q then none
  else (h x).map (fun m => { m with
    next := if x = a then b else m.next, prev := if x = b then a else m.prev })

theorem outHeap_some {h : Heap} {q a b x : Nat} {m : Node} (hx : x ≠ q) (hm : h x = some m) :
    outHeap h q a b x = some { m with
      next := if x = a then b else m.next, prev := if x = b then a else m.prev } := by
  simp only [outHeap, if_neg hx, hm, Option.map_some]

theorem outHeap_ents {h : Heap} {q a b x : Nat} (hx : x ≠ q) :
    ents (outHeap h q a b) x = ents h x := by
  cases hm : h x with
  | none => simp [ents, outHeap, hx, hm]
  | some m => rw [ents_some (outHeap_some hx hm), ents_some hm]; rfl

/-- taking an empty node out of a list that has others -/
theorem Is.out {h : Heap} {l : Nat} {A B xs : List Nat} {q : Nat} {n : Node}
    (H : Is h l (A ++ q :: B) xs) (hq : h q = some n) (h0 : n.nr = 0) (hne : A ++ B ≠ []) :
    Is (outHeap h q n.prev n.next) ((A ++ B).head?.getD 0) (A ++ B) xs ∧
    Frame h (A ++ q :: B) (outHeap h q n.prev n.next) (A ++ B) ∧
    n.prev ∈ A ++ B ∧ n.next ∈ A ++ B := by
  have hnd : (q :: (A ++ B)).Nodup := List.perm_middle.nodup_iff.mp H.nodup
  obtain ⟨hqm, _⟩ := List.nodup_cons.mp hnd
  have hat := cyc_at H.cyc
  simp only [nxt, prv, hq, Option.map_some] at hat
  have hne' : B ++ A ≠ [] := by
    intro hh
    rw [List.append_eq_nil_iff] at hh
    exact hne (by simp [hh.1, hh.2])
  have hnm : n.next ∈ A ++ B := by
    have h1 := hat.1
    rw [List.head?_append, List.head?_eq_some_head hne'] at h1
    have h2 : n.next = (B ++ A).head hne' := by simpa using h1
    have := List.head_mem hne'
    rw [← h2] at this
    simp only [List.mem_append] at this ⊢
    exact this.symm
  have hpm : n.prev ∈ A ++ B := by
    have h1 := hat.2
    rw [List.getLast?_cons, List.getLast?_eq_some_getLast hne'] at h1
    have h2 : n.prev = (B ++ A).getLast hne' := by simpa using h1
    have := List.getLast_mem hne'
    rw [← h2] at this
    simp only [List.mem_append] at this ⊢
    exact this.symm
  have hmq : ∀ x ∈ A ++ B, x ≠ q ∧ ∃ m, h x = some m ∧ m.OK := by
    intro x hx
    refine ⟨by rintro rfl; exact hqm hx, H.ok x ?_⟩
    simp only [List.mem_append, List.mem_cons] at hx ⊢
    grind
  refine ⟨H.unlink hne (contents_nil_of hq h0) ?_ ?_ ?_ ?_ ?_, ?_, hpm, hnm⟩
  · intro n0 l0 e1 e2
    simp only [nxt, prv, hq, Option.map_some, Option.some.injEq] at e1 e2
    subst e1; subst e2
    obtain ⟨h1, m1, h2, _⟩ := hmq _ hpm
    obtain ⟨h3, m3, h4, _⟩ := hmq _ hnm
    constructor
    · rw [nxt, outHeap_some h1 h2]; simp
    · rw [prv, outHeap_some h3 h4]; simp
  · intro a h1 h2
    simp only [prv, hq, Option.map_some, ne_eq, Option.some.injEq] at h1
    cases hm : h a with
    | none => simp [nxt, outHeap, h2, hm]
    | some m => rw [nxt, nxt, outHeap_some h2 hm, hm]; simp; exact fun e => absurd e.symm h1
  · intro a h1 h2
    simp only [nxt, hq, Option.map_some, ne_eq, Option.some.injEq] at h1
    cases hm : h a with
    | none => simp [prv, outHeap, h2, hm]
    | some m => rw [prv, prv, outHeap_some h2 hm, hm]; simp; exact fun e => absurd e.symm h1
  · intro x hx
    obtain ⟨h1, m, h2, h3⟩ := hmq x hx
    exact ⟨_, outHeap_some h1 h2, h3.lo, h3.hi, h3.rm⟩
  · intro x hx
    exact outHeap_ents (hmq x hx).1
  · refine ⟨fun x h1 h2 => ?_, fun x hx => .inl ?_, fun x hx hx' => ?_⟩
    · have h3 : x ≠ q := by rintro rfl; exact h1 (by simp)
      have h4 : x ≠ n.prev := by rintro rfl; exact h2 hpm
      have h5 : x ≠ n.next := by rintro rfl; exact h2 hnm
      cases hm : h x with
      | none => simp [outHeap, h3, hm]
      | some m => rw [outHeap_some h3 hm, if_neg h4, if_neg h5]
    · simp only [List.mem_append, List.mem_cons] at hx ⊢
      grind
    · have : x = q := by
        simp only [List.mem_append, List.mem_cons] at hx hx'
        grind
      simp [outHeap, this]

/-- the three writes of `pack` and of `deleteLast` -/
theorem out_writes {α : Type} (k : Heap → Res α) {h : Heap} {q : Nat} {n m1 m2 : Node} (hq : h q = some n) (h1 : n.prev ≠ q)
    (h2 : n.next ≠ q) (hm1 : h n.prev = some m1) (hm2 : h n.next = some m2) :
    (do
      let h ← mod h n.prev (fun k => { k with next := n.next })
      let h ← mod h n.next (fun k => { k with prev := n.prev })
      let h ← h.free q
      k h) = k (outHeap h q n.prev n.next) ∧
    (do
      let h ← mod h n.next (fun k => { k with prev := n.prev })
      let h ← mod h n.prev (fun k => { k with next := n.next })
      let h ← h.free q
      k h) = k (outHeap h q n.prev n.next) := by
  generalize n.prev = a at *
  generalize n.next = b at *
  constructor
  · by_cases hab : a = b
    · subst hab
      rw [mod_some hm1, Res.bind_ok, mod_some (set_same ..), Res.bind_ok,
        free_some (p := q) (n := n)
          (by rw [set_other _ _ h1.symm, set_other _ _ h1.symm]; exact hq), Res.bind_ok]
      congr 1
      funext x
      simp only [outHeap, Heap.set]
      split
      · rfl
      · split
        · next hxa => subst hxa; rw [hm1]; simp
        · next hxa => cases h x <;> simp
    · rw [mod_some hm1, Res.bind_ok,
        mod_some (n := m2) (by rw [set_other _ _ (fun e => hab e.symm)]; exact hm2), Res.bind_ok,
        free_some (p := q) (n := n)
          (by rw [set_other _ _ h2.symm, set_other _ _ h1.symm]; exact hq), Res.bind_ok]
      congr 1
      funext x
      simp only [outHeap, Heap.set]
      split
      · rfl
      · split
        · next hxb => subst hxb; rw [hm2]; simp; exact fun e => absurd e.symm hab
        · next hxb =>
          split
          · next hxa => subst hxa; rw [hm1]; simp
          · cases h x <;> simp
  · by_cases hab : a = b
    · subst hab
      rw [mod_some hm1, Res.bind_ok, mod_some (set_same ..), Res.bind_ok,
        free_some (p := q) (n := n)
          (by rw [set_other _ _ h1.symm, set_other _ _ h1.symm]; exact hq), Res.bind_ok]
      congr 1
      funext x
      simp only [outHeap, Heap.set]
      split
      · rfl
      · split
        · next hxa => subst hxa; rw [hm1]; simp
        · next hxa => cases h x <;> simp
    · rw [mod_some hm2, Res.bind_ok,
        mod_some (n := m1) (by rw [set_other _ _ hab]; exact hm1), Res.bind_ok,
        free_some (p := q) (n := n)
          (by rw [set_other _ _ h1.symm, set_other _ _ h2.symm]; exact hq), Res.bind_ok]
      congr 1
      funext x
      simp only [outHeap, Heap.set]
      split
      · rfl
      · split
        · next hxa => subst hxa; rw [hm1]; simp [hab]
        · next hxa =>
          split
          · next hxb => subst hxb; rw [hm2]; simp
          · cases h x <;> simp

theorem packLoop_spec {xs : List Nat} : ∀ (f : Nat) (h : Heap) (l : Nat) (A : List Nat) (p : Nat)
    (B : List Nat), Is h l (A ++ p :: B) xs → Packed h A → B.length < f →
    ∃ h' l' ps', packLoop f h l p = .ok (h', l') ∧ Is h' l' ps' xs ∧ Packed h' ps' ∧
      Frame h (A ++ p :: B) h' ps' := by
  intro f
  induction f with
  | zero => intro h l A p B _ _ hf; omega
  | succ f ih =>
    intro h l A p B H hA hf
    obtain ⟨n, hp, hok⟩ := H.ok p (by simp)
    have hnext := H.next hp
    have hlo := hok.lo
    simp only [packLoop, get_some hp, Res.bind_ok]
    by_cases h0 : n.nr = 0
    · rw [if_pos h0]
      by_cases hne : A ++ B = []
      · rw [List.append_eq_nil_iff] at hne
        obtain ⟨rfl, rfl⟩ := hne
        have hl : p = l := by simpa using H.head
        have hn : n.next = l := by simpa using hnext
        rw [if_pos (by omega), free_some hp, Res.bind_ok]
        refine ⟨_, 0, [], rfl, ⟨rfl, by simp, by simp, trivial, by intro q hq; simp at hq, ?_⟩,
          by intro q hq; simp at hq, ?_, by simp, ?_⟩
        · rw [← H.xs, List.nil_append, contents_cons, contents_nil_of hp h0]; rfl
        · intro q hq _
          exact if_neg (by simpa using hq)
        · intro q hq _
          simp only [List.nil_append, List.mem_singleton] at hq
          simp [hq]
      · obtain ⟨g1, g2, g3, g4⟩ := H.out hp h0 hne
        have hnd : (p :: (A ++ B)).Nodup := List.perm_middle.nodup_iff.mp H.nodup
        obtain ⟨hpm, _⟩ := List.nodup_cons.mp hnd
        have hn1 : n.prev ≠ p := fun e => hpm (e ▸ g3)
        have hn2 : n.next ≠ p := fun e => hpm (e ▸ g4)
        have hmem : ∀ x ∈ A ++ B, ∃ m, h x = some m := by
          intro x hx
          obtain ⟨m, hm, _⟩ := H.ok x (by
            simp only [List.mem_append, List.mem_cons] at hx ⊢; grind)
          exact ⟨m, hm⟩
        obtain ⟨m1, hm1⟩ := hmem _ g3
        obtain ⟨m2, hm2⟩ := hmem _ g4
        rw [if_neg hn2, (out_writes _ hp hn1 hn2 hm1 hm2).1]
        have hA' : Packed (outHeap h p n.prev n.next) A := by
          intro x hx
          rw [outHeap_ents (by rintro rfl; exact hpm (by simp [hx]))]
          exact hA x hx
        cases A with
        | nil =>
          have hl : p = l := by simpa using H.head
          rw [if_pos hl]
          cases B with
          | nil => exact absurd rfl hne
          | cons b B =>
            have hb : n.next = b := by simpa using hnext
            have g1' : Is (outHeap h p n.prev n.next) n.next ([] ++ n.next :: B) xs := by
              rw [hb] at g1 ⊢; exact g1
            obtain ⟨h', l', ps', e1, e2, e3, e4⟩ := ih _ n.next [] n.next B g1' hA'
              (by simp only [List.length_cons] at hf; omega)
            refine ⟨h', l', ps', e1, e2, e3, Frame.trans g2 ?_⟩
            rw [hb] at e4 ⊢; exact e4
        | cons a A =>
          have ha : a = l := by simpa using H.head
          have hpl : p ≠ l := by
            rintro rfl
            exact hpm (by simp [ha])
          rw [if_neg hpl]
          have g1' : Is (outHeap h p n.prev n.next) l ((a :: A) ++ B) xs := by
            have : ((a :: A ++ B).head?.getD 0) = l := by simpa using ha
            rw [this] at g1; exact g1
          cases B with
          | nil =>
            have hn : n.next = l := by simpa using hnext
            rw [if_neg (by simp [hn])]
            rw [List.append_nil] at g1' g2
            exact ⟨_, l, a :: A, rfl, g1', hA', g2⟩
          | cons b B =>
            have hb : n.next = b := by simpa using hnext
            have hbl : b ≠ l := H.mem_ne
            rw [if_pos (by rw [hb]; exact hbl)]
            rw [hb] at g1' g2 hA' ⊢
            obtain ⟨h', l', ps', e1, e2, e3, e4⟩ := ih _ l (a :: A) b B g1' hA'
              (by simp only [List.length_cons] at hf; omega)
            exact ⟨h', l', ps', e1, e2, e3, Frame.trans g2 e4⟩
    · rw [if_neg h0]
      have hpk : Packed h (A ++ [p]) := by
        intro x hx
        rw [List.mem_append, List.mem_singleton] at hx
        rcases hx with hx | rfl
        · exact hA x hx
        · rw [ents_some hp]
          intro e
          have := congrArg List.length e
          rw [ents_length] at this
          simp only [List.length_nil] at this
          omega
      cases B with
      | nil =>
        have hn : n.next = l := by simpa using hnext
        rw [if_neg (by simp [hn])]
        exact ⟨_, l, A ++ [p], rfl, H, hpk, Frame.refl ..⟩
      | cons b B =>
        have hb : n.next = b := by simpa using hnext
        have hbl : b ≠ l := H.mem_ne
        rw [if_pos (by rw [hb]; exact hbl), hb]
        have e : A ++ p :: b :: B = (A ++ [p]) ++ b :: B := by simp
        rw [e] at H ⊢
        exact ih h l (A ++ [p]) b B H hpk (by simp only [List.length_cons] at hf; omega)

theorem pack_spec {h : Heap} {l : Nat} {ps xs : List Nat} (H : Is h l ps xs) {f : Nat}
    (hf : ps.length ≤ f) :
    ∃ h' l' ps', pack h f l = .ok (h', l') ∧ Is h' l' ps' xs ∧ Packed h' ps' ∧
      Frame h ps h' ps' := by
  cases ps with
  | nil =>
    have hl : l = 0 := by simpa using H.head.symm
    subst hl
    exact ⟨h, 0, [], by simp [pack], H, by intro q hq; simp at hq, Frame.refl ..⟩
  | cons p B =>
    have hl : p = l := by simpa using H.head
    rw [pack, if_neg (H.ne_zero (by simp))]
    subst hl
    exact packLoop_spec f h p [] p B H (by intro q hq; simp at hq)
      (by simp only [List.length_cons] at hf; omega)

theorem deleteLast_spec {h : Heap} {l : Nat} {ps xs ys : List Nat} {v : Nat} (H : Is h l ps xs)
    (hpk : Packed h ps) (hx : xs = ys ++ [v]) (hv : v ≠ 0) :
    ∃ h' l' ps', deleteLast h l = .ok (h', l', v) ∧ Is h' l' ps' ys ∧ Packed h' ps' ∧
      Frame h ps h' ps' := by
  have hps : ps ≠ [] := by
    rintro rfl
    have := H.xs
    rw [hx] at this
    simp at this
  rcases List.eq_nil_or_concat ps with rfl | ⟨A, e, rfl⟩
  · exact absurd rfl hps
  rw [List.concat_eq_append] at *
  have hl := H.ne_zero hps
  obtain ⟨n, hn, hne⟩ := H.lastOf
  obtain ⟨m, hm, hmok⟩ := H.ok e (by simp)
  have hpos : 0 < m.nr := by
    have h1 := hpk e (by simp)
    rw [ents_some hm] at h1
    have h2 : m.ents.length ≠ 0 := fun hh => h1 (List.length_eq_zero_iff.mp hh)
    rw [ents_length] at h2
    omega
  obtain ⟨e1, e2, e3⟩ := H.dropEntry hm hpos rfl hx hv m.slot (fun _ _ => rfl)
  simp only [deleteLast, if_neg hl, get_some hn, Res.bind_ok, hne, get_some hm]
  rw [if_pos (by omega), e1, Res.bind_ok, Res.bind_ok]
  simp only
  by_cases h1 : m.nr - 1 ≤ 0
  · rw [if_pos h1, get_some (set_same ..), Res.bind_ok]
    simp only
    have hm0 : m.nr - 1 = 0 := by omega
    rcases List.eq_nil_or_concat A with rfl | ⟨A', a', rfl⟩
    · have hel : e = l := by simpa using H.head
      subst hel
      have hpe : m.prev = e := by
        rw [hm] at hn; injection hn with hn; rw [hn]; exact hne
      rw [mod_some (set_same ..), Res.bind_ok, get_some (set_same ..), Res.bind_ok]
      simp only [hpe]
      rw [mod_some (set_same ..), Res.bind_ok, free_some (set_same ..), Res.bind_ok, if_pos trivial]
      have hys : ys = [] := by
        have := e2.xs
        rw [List.nil_append, contents_cons, contents_nil_of (set_same ..) hm0] at this
        rw [← this]; rfl
      refine ⟨_, 0, [], rfl, ⟨rfl, by simp, by simp, trivial, by intro q hq; simp at hq, ?_⟩,
          by intro q hq; simp at hq, ?_, by simp, ?_⟩
      · rw [hys]; rfl
      · intro q hq _
        have hq : q ≠ e := by simpa using hq
        simp only [if_neg hq, set_other _ _ hq]
      · intro q hq _
        simp only [List.nil_append, List.mem_singleton] at hq
        simp [hq]
    · rw [List.concat_eq_append] at *
      have hne0 : (A' ++ [a']) ++ ([] : List Nat) ≠ [] := by simp
      obtain ⟨g1, g2, g3, g4⟩ := e2.out (set_same ..) hm0 hne0
      have hnext := e2.next (set_same ..)
      simp only [List.nil_append, List.head_cons] at hnext g1 g2 g3 g4
      rw [List.append_nil] at g1 g2 g3 g4
      have hnd := H.nodup
      have hem : e ∉ A' ++ [a'] := by
        intro hh
        exact (List.nodup_append.mp hnd).2.2 _ hh _ (by simp) rfl
      have hn1 : m.prev ≠ e := fun x => hem (x ▸ g3)
      have hn2 : m.next ≠ e := fun x => hem (x ▸ g4)
      have hmem : ∀ x ∈ A' ++ [a'], ∃ k, h x = some k := by
        intro x hx
        obtain ⟨k, hk, _⟩ := H.ok x (List.mem_append_left _ hx)
        exact ⟨k, hk⟩
      obtain ⟨m1, hm1⟩ := hmem _ g3
      obtain ⟨m2, hm2⟩ := hmem _ g4
      have hle : l ≠ e := by rw [← hnext]; exact hn2
      have hm1' := (set_other h ⟨m.nr - 1, m.rm, m.prev, m.next, m.slot⟩ hn1).trans hm1
      have hm2' := (set_other h ⟨m.nr - 1, m.rm, m.prev, m.next, m.slot⟩ hn2).trans hm2
      have hw := (out_writes (fun h' => Res.ok (h', l, v)) (q := e)
        (n := ⟨m.nr - 1, m.rm, m.prev, m.next, m.slot⟩) (set_same h e _) hn1 hn2 hm1' hm2').2
      simp only [hnext] at hw e3 g1 g2 ⊢
      have hln := (set_other h ⟨m.nr - 1, m.rm, m.prev, l, m.slot⟩ hle).trans hn
      rw [mod_some hln, Res.bind_ok] at hw ⊢
      rw [get_some (n := ⟨m.nr - 1, m.rm, m.prev, l, m.slot⟩)
        (by rw [set_other _ _ hle.symm, set_same]), Res.bind_ok]
      simp only [if_neg hle.symm]
      rw [hw]
      refine ⟨_, l, A' ++ [a'], rfl, ?_, ?_, Frame.trans e3 g2⟩
      · have hh := H.head
        have : (A' ++ [a']).head?.getD 0 = l := by
          cases A' <;> simpa using hh
        rw [this] at g1
        exact g1
      · intro x hx
        have hxe : x ≠ e := fun hh => hem (hh ▸ hx)
        rw [outHeap_ents hxe, ents_congr (set_other _ _ hxe)]
        exact hpk x (List.mem_append_left _ hx)
  · rw [if_neg h1]
    refine ⟨_, l, A ++ [e], rfl, e2, ?_, e3⟩
    intro x hx
    by_cases hxe : x = e
    · rw [hxe, ents_some (set_same ..)]
      intro hh
      have := congrArg List.length hh
      rw [ents_length] at this
      simp only [List.length_nil] at this
      omega
    · rw [ents_congr (set_other _ _ hxe)]
      exact hpk x hx

/-- the nodes in a row, the last of them leading to `NULL` -/
def Row (h : Heap) : List Nat → Prop
  | [] => True
  | a :: r => nxt h a = some (r.head?.getD 0) ∧ Row h r

theorem row_congr {h h' : Heap} : ∀ {L : List Nat}, Row h L → (∀ a ∈ L, nxt h' a = nxt h a) →
    Row h' L
  | [], _, _ => trivial
  | a :: r, H, e => ⟨by rw [e a (by simp)]; exact H.1,
      row_congr H.2 (fun x hx => e x (by simp [hx]))⟩

theorem freeLoop_spec : ∀ (L : List Nat) (f : Nat) (h : Heap), Row h L → L.Nodup → 0 ∉ L →
    L.length < f → ∃ h', freeLoop f h (L.head?.getD 0) = .ok h' ∧
      ∀ x, h' x = if x ∈ L then none else h x
  | [], f + 1, h, _, _, _, _ => ⟨h, by simp [freeLoop], by simp⟩
  | a :: r, f + 1, h, hr, hnd, hz, hf => by
    obtain ⟨ha, hnd⟩ := List.nodup_cons.mp hnd
    have ha0 : a ≠ 0 := by rintro rfl; simp at hz
    have h1 := hr.1
    cases hn : h a with
    | none => simp [nxt, hn] at h1
    | some n =>
      have hnx : n.next = r.head?.getD 0 := by simpa [nxt, hn] using h1
      obtain ⟨h', e1, e2⟩ := freeLoop_spec r f (fun q => if q = a then none else h q)
        (row_congr hr.2 (fun x hx => by
          have : x ≠ a := fun e => ha (e ▸ hx)
          simp only [nxt, if_neg this])) hnd (fun hh => hz (by simp [hh]))
        (by simp only [List.length_cons] at hf; omega)
      refine ⟨h', ?_, fun x => ?_⟩
      · simp only [freeLoop, List.head?_cons, Option.getD_some, if_neg ha0, get_some hn,
          Res.bind_ok, free_some hn, hnx]
        exact e1
      · rw [e2 x]
        by_cases hxa : x = a
        · simp [hxa, ha]
        · simp [hxa]

theorem removeAll_spec {h : Heap} {l : Nat} {ps xs : List Nat} (H : Is h l ps xs) {f : Nat}
    (hf : ps.length < f) :
    ∃ h', removeAll h f l = .ok h' ∧ Frame h ps h' [] := by
  rcases List.eq_nil_or_concat ps with rfl | ⟨A, e, rfl⟩
  · have hl : l = 0 := by simpa using H.head.symm
    exact ⟨h, by simp [removeAll, hl], Frame.refl ..⟩
  · rw [List.concat_eq_append] at *
    obtain ⟨n, hn, hne⟩ := H.lastOf
    obtain ⟨m, hm, _⟩ := H.ok e (by simp)
    rw [removeAll, if_neg (H.ne_zero (by simp)), get_some hn, Res.bind_ok, hne, mod_some hm,
      Res.bind_ok]
    have hrow : ∀ (B C : List Nat), A ++ [e] = C ++ B →
        Row (h.set e { m with next := 0 }) B := by
      intro B
      induction B with
      | nil => intro C _; trivial
      | cons b B ih =>
        intro C hC
        refine ⟨?_, ih (C ++ [b]) (by rw [hC]; simp)⟩
        have hat := (cyc_at (A := C) (B := B) (p := b) (by rw [← hC]; exact H.cyc)).1
        have hnd := H.nodup
        rcases List.eq_nil_or_concat B with rfl | ⟨B', b', rfl⟩
        · obtain ⟨rfl, hb⟩ := List.append_inj' hC rfl
          have hb : e = b := by simpa using hb
          subst hb
          simp [nxt]
        · rw [List.concat_eq_append] at hC hat ⊢
          have hbe : b ≠ e := by
            have h1 : C ++ b :: (B' ++ [b']) = (C ++ b :: B') ++ [b'] := by simp
            rw [h1] at hC
            obtain ⟨rfl, hb⟩ := List.append_inj' hC rfl
            rintro rfl
            exact (List.nodup_append.mp hnd).2.2 b (by simp) b (by simp) rfl
          rw [nxt, set_other _ _ hbe]
          rw [nxt] at hat
          rw [hat]
          cases B' <;> simp
    have hlh : (A ++ [e]).head?.getD 0 = l := H.head
    obtain ⟨h', e1, e2⟩ := freeLoop_spec (A ++ [e]) f _ (hrow (A ++ [e]) [] rfl) H.nodup H.nz hf
    rw [hlh] at e1
    refine ⟨h', e1, fun x hx _ => ?_, by simp, fun x hx _ => ?_⟩
    · rw [e2 x, if_neg hx, set_other _ _ (by rintro rfl; exact hx (by simp))]
    · rw [e2 x, if_pos hx]

end Verif.PtrList
