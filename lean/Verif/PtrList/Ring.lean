import Verif.PtrList.Model

/-!
Rings of nodes: what it means that a list of addresses is linked in a circle, and the two
operations on links, putting a node in and taking one out.
-/
namespace Verif.PtrList

/-- the address in `next_` -/
def nxt (h : Heap) (p : Nat) : Option Nat := (h p).map Node.next
/-- the address in `prev_` -/
def prv (h : Heap) (p : Nat) : Option Nat := (h p).map Node.prev

/-- each address leads to the one after it and back -/
def Linked (h : Heap) : List Nat → Prop
  | [] => True
  | [_] => True
  | a :: b :: r => nxt h a = some b ∧ prv h b = some a ∧ Linked h (b :: r)

/-- a circle -/
def Cyc (h : Heap) : List Nat → Prop
  | [] => True
  | p :: r => Linked h (p :: (r ++ [p]))

theorem linked_append (h : Heap) (A : List Nat) (x : Nat) (B : List Nat) :
    Linked h (A ++ x :: B) ↔ Linked h (A ++ [x]) ∧ Linked h (x :: B) := by
  induction A with
  | nil => simp [Linked]
  | cons a A ih =>
    cases A with
    | nil =>
      cases B <;> simp [Linked, and_assoc]
    | cons b A =>
      simp only [List.cons_append, Linked] at ih ⊢
      rw [ih]
      simp [and_assoc]

theorem linked_congr {h h' : Heap} : ∀ {L : List Nat}, Linked h L →
    (∀ a ∈ L.dropLast, nxt h' a = nxt h a) → (∀ b ∈ L.tail, prv h' b = prv h b) → Linked h' L
  | [], _, _, _ => trivial
  | [_], _, _, _ => trivial
  | a :: b :: r, hl, hn, hp => by
    refine ⟨?_, ?_, ?_⟩
    · rw [hn a (by simp)]; exact hl.1
    · rw [hp b (by simp)]; exact hl.2.1
    · refine linked_congr hl.2.2 (fun x hx => hn x ?_) (fun x hx => hp x ?_)
      · rw [List.dropLast_cons_cons]; exact List.mem_cons_of_mem _ hx
      · simp only [List.tail_cons] at hx ⊢; exact List.mem_cons_of_mem _ hx

theorem cyc_rotate (h : Heap) (A B : List Nat) : Cyc h (A ++ B) ↔ Cyc h (B ++ A) := by
  suffices H : ∀ A B, Cyc h (A ++ B) → Cyc h (B ++ A) from ⟨H A B, H B A⟩
  intro A B hc
  cases A with
  | nil => simpa using hc
  | cons a A =>
    cases B with
    | nil => simpa using hc
    | cons b B =>
      simp only [List.cons_append, Cyc] at hc ⊢
      have e1 : a :: (A ++ b :: B ++ [a]) = (a :: A) ++ b :: (B ++ [a]) := by simp
      rw [e1, linked_append] at hc
      have e2 : b :: (B ++ a :: A ++ [b]) = (b :: B) ++ a :: (A ++ [b]) := by simp
      rw [e2, linked_append]
      exact ⟨by simpa using hc.2, by simpa using hc.1⟩

/-- put `q` after `p` -/
theorem cyc_insert {h h' : Heap} {p q n0 : Nat} {R rest : List Nat} (hn : (p :: R).Nodup)
    (hc : Cyc h (p :: R)) (hq : q ∉ p :: R) (e : R ++ [p] = n0 :: rest)
    (h1 : nxt h' p = some q) (h2 : prv h' q = some p) (h3 : nxt h' q = some n0)
    (h4 : prv h' n0 = some q)
    (hx : ∀ a, a ≠ p → a ≠ q → nxt h' a = nxt h a) (hy : ∀ a, a ≠ n0 → a ≠ q → prv h' a = prv h a) :
    Cyc h' (p :: q :: R) := by
  simp only [Cyc, List.cons_append] at hc ⊢
  rw [e] at hc ⊢
  refine ⟨h1, h2, h3, h4, ?_⟩
  have hnd : (n0 :: rest).Nodup := by
    rw [← e]
    exact (List.perm_append_comm (l₁ := [p]) (l₂ := R)).nodup_iff.mp hn
  have hmem : ∀ x, x ∈ n0 :: rest → x ∈ p :: R := by
    intro x hx
    rw [← e] at hx
    simp only [List.mem_append, List.mem_cons, List.not_mem_nil, or_false] at hx ⊢
    exact hx.symm
  refine linked_congr hc.2.2 (fun a ha => ?_) (fun b hb => ?_)
  · have hd : (n0 :: rest).dropLast = R := by rw [← e]; simp
    rw [hd] at ha
    refine hx a ?_ ?_
    · rintro rfl
      exact (List.nodup_cons.mp hn).1 ha
    · rintro rfl
      exact hq (List.mem_cons_of_mem _ ha)
  · simp only [List.tail_cons] at hb
    refine hy b ?_ ?_
    · rintro rfl
      exact (List.nodup_cons.mp hnd).1 hb
    · rintro rfl
      exact hq (hmem _ (List.mem_cons_of_mem _ hb))

/-- take `q` out; `l0` is the last and `n0` the first of the others -/
theorem cyc_remove {h h' : Heap} {q n0 l0 : Nat} {R : List Nat} (hn : (q :: R).Nodup)
    (hc : Cyc h (q :: R)) (hf : R.head? = some n0) (hl : R.getLast? = some l0)
    (h1 : nxt h' l0 = some n0) (h2 : prv h' n0 = some l0)
    (hx : ∀ a, a ≠ l0 → a ≠ q → nxt h' a = nxt h a) (hy : ∀ a, a ≠ n0 → a ≠ q → prv h' a = prv h a) :
    Cyc h' R := by
  obtain ⟨R', rfl⟩ : ∃ R', R = n0 :: R' := by
    cases R with
    | nil => simp at hf
    | cons x R' => simp only [List.head?_cons, Option.some.injEq] at hf; exact ⟨R', by rw [hf]⟩
  obtain ⟨R2, hR2⟩ : ∃ R2, n0 :: R' = R2 ++ [l0] := by
    exact List.getLast?_eq_some_iff.mp hl
  obtain ⟨hq, hnd⟩ := List.nodup_cons.mp hn
  simp only [Cyc] at hc ⊢
  have e1 : q :: (n0 :: R' ++ [q]) = (q :: R2) ++ l0 :: [q] := by rw [hR2]; simp
  rw [e1, linked_append] at hc
  have hin : Linked h (n0 :: R') := by
    have := hc.1
    rw [List.cons_append, ← hR2] at this
    exact this.2.2
  have e2 : n0 :: (R' ++ [n0]) = R2 ++ l0 :: [n0] := by
    rw [← List.cons_append, hR2]; simp
  rw [e2, linked_append, ← hR2]
  refine ⟨linked_congr hin (fun a ha => hx a ?_ ?_) (fun b hb => hy b ?_ ?_), h1, h2, trivial⟩
  · rintro rfl
    rw [hR2, List.dropLast_concat] at ha
    rw [hR2] at hnd
    exact (List.nodup_append.mp hnd).2.2 _ ha _ (by simp) rfl
  · rintro rfl
    rw [hR2, List.dropLast_concat] at ha
    refine hq ?_
    rw [hR2]; exact List.mem_append_left _ ha
  · rintro rfl
    exact (List.nodup_cons.mp hnd).1 hb
  · rintro rfl
    exact hq (List.mem_cons_of_mem _ hb)

theorem cyc_congr {h h' : Heap} {ps : List Nat} (hc : Cyc h ps)
    (hn : ∀ a ∈ ps, nxt h' a = nxt h a) (hp : ∀ a ∈ ps, prv h' a = prv h a) : Cyc h' ps := by
  cases ps with
  | nil => trivial
  | cons p R =>
    refine linked_congr hc (fun a ha => hn a ?_) (fun a ha => hp a ?_)
    · rw [← List.cons_append, List.dropLast_concat] at ha; exact ha
    · simp only [List.tail_cons, List.mem_append, List.mem_singleton] at ha
      rcases ha with ha | rfl
      · exact List.mem_cons_of_mem _ ha
      · simp

/-- the links of one node -/
theorem cyc_at {h : Heap} {A B : List Nat} {p : Nat} (hc : Cyc h (A ++ p :: B)) :
    nxt h p = (B ++ A ++ [p]).head? ∧ prv h p = (p :: (B ++ A)).getLast? := by
  rw [cyc_rotate] at hc
  simp only [List.cons_append, Cyc] at hc
  constructor
  · cases hh : B ++ A with
    | nil => rw [hh] at hc; exact hc.1
    | cons x L => rw [hh] at hc; exact hc.1
  · rcases List.eq_nil_or_concat (B ++ A) with hh | ⟨L, x, hh⟩
    · rw [hh] at hc ⊢; exact hc.2.1
    · rw [List.concat_eq_append] at hh
      rw [hh] at hc ⊢
      have e : p :: (L ++ [x] ++ [p]) = (p :: L) ++ x :: [p] := by simp
      rw [e, linked_append] at hc
      rw [← List.cons_append, List.getLast?_concat]
      exact hc.2.2.1

end Verif.PtrList
