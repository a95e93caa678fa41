import Verif.Graph.Model

/-!
# C59 — building control-flow graphs

After any history of edge insertions and deletions, `raviX_has_edge` answers membership in the set
of edges inserted and not deleted since, the predecessor lists mirror the successor lists, and no
list has duplicates.  A list that reaches 65528 entries cannot be extended.
-/
namespace Verif.Graph

theorem upd_same {α : Type} (f : Nat → α) (i : Nat) (x : α) : upd f i x i = x := by unfold upd; rw [if_pos rfl]
theorem upd_ne {α : Type} (f : Nat → α) {i j : Nat} (x : α) (h : j ≠ i) : upd f i x j = f j := by
  unfold upd; rw [if_neg h]

/-- Well-formed graphs. -/
structure WF (g : Graph) : Prop where
  bound : ∀ i, g.present i = true → i < g.allocated
  sync : ∀ a b, b ∈ g.succs a ↔ a ∈ g.preds b
  nodupS : ∀ a, (g.succs a).Nodup
  nodupP : ∀ a, (g.preds a).Nodup
  ends : ∀ a b, b ∈ g.succs a → g.present a = true ∧ g.present b = true

theorem addNode_spec {g : Graph} (h : WF g) (i : Nat) :
    WF (addNode g i) ∧ (addNode g i).present i = true ∧
    (∀ j, g.present j = true → (addNode g i).present j = true) ∧
    (∀ j, (addNode g i).present j = true → j = i ∨ g.present j = true) ∧
    (∀ a, (addNode g i).succs a = g.succs a) ∧ (∀ a, (addNode g i).preds a = g.preds a) ∧
    (addNode g i).entry = g.entry ∧ (addNode g i).exit = g.exit := by
  unfold addNode
  by_cases hc : i < g.allocated ∧ g.present i = true
  · rw [if_pos hc]
    exact ⟨h, hc.2, fun _ x => x, fun _ x => Or.inr x, fun _ => rfl, fun _ => rfl, rfl, rfl⟩
  · rw [if_neg hc]
    have hnp : g.present i ≠ true := fun hp => hc ⟨h.bound i hp, hp⟩
    have hs : g.succs i = [] := by
      cases hl : g.succs i with
      | nil => rfl
      | cons x l => exact absurd (h.ends i x (by rw [hl]; exact List.mem_cons_self ..)).1 hnp
    have hp : g.preds i = [] := by
      cases hl : g.preds i with
      | nil => rfl
      | cons x l =>
        exact absurd (h.ends x i ((h.sync x i).2 (by rw [hl]; exact List.mem_cons_self ..))).2 hnp
    have es : ∀ a, upd g.succs i [] a = g.succs a := by
      intro a
      by_cases ha : a = i
      · rw [ha, upd_same, hs]
      · rw [upd_ne _ _ ha]
    have ep : ∀ a, upd g.preds i [] a = g.preds a := by
      intro a
      by_cases ha : a = i
      · rw [ha, upd_same, hp]
      · rw [upd_ne _ _ ha]
    have pm : ∀ j, g.present j = true → upd g.present i true j = true := by
      intro j hj
      by_cases ha : j = i
      · rw [ha, upd_same]
      · rw [upd_ne _ _ ha]; exact hj
    refine ⟨⟨?_, ?_, ?_, ?_, ?_⟩, upd_same _ _ _, pm, ?_, es, ep, rfl, rfl⟩
    · intro j hj
      dsimp only at hj ⊢
      by_cases ha : j = i
      · subst ha; split <;> omega
      · rw [upd_ne _ _ ha] at hj
        have := h.bound j hj
        split <;> omega
    · intro a b; dsimp only; rw [es, ep]; exact h.sync a b
    · intro a; dsimp only; rw [es]; exact h.nodupS a
    · intro a; dsimp only; rw [ep]; exact h.nodupP a
    · intro a b hab
      dsimp only at hab ⊢
      rw [es] at hab
      exact ⟨pm _ (h.ends a b hab).1, pm _ (h.ends a b hab).2⟩
    · intro j hj
      dsimp only at hj
      by_cases ha : j = i
      · exact Or.inl ha
      · rw [upd_ne _ _ ha] at hj; exact Or.inr hj

theorem init_correct (entry exit : Nat) :
    WF (init entry exit) ∧ (∀ a b, hasEdge (init entry exit) a b = false) ∧
    (∀ i, (init entry exit).present i = true ↔ i = entry ∨ i = exit) := by
  have h0 : WF ⟨0, fun _ => false, fun _ => [], fun _ => [], 0, 0⟩ :=
    ⟨fun i h => by simp at h, fun a b => by simp, fun a => by simp, fun a => by simp, fun a b h => by simp at h⟩
  obtain ⟨h1, p1, q1, r1, s1, t1, _⟩ := addNode_spec h0 entry
  obtain ⟨h2, p2, q2, r2, s2, t2, _⟩ := addNode_spec h1 exit
  refine ⟨⟨h2.bound, h2.sync, h2.nodupS, h2.nodupP, h2.ends⟩, ?_, ?_⟩
  · intro a b
    unfold hasEdge
    split
    · show listHas ((addNode (addNode _ entry) exit).succs a) b = false
      rw [s2, s1]; rfl
    · rfl
  · intro i
    constructor
    · intro hi
      rcases r2 i hi with h | h
      · exact Or.inr h
      · rcases r1 i h with h | h
        · exact Or.inl h
        · exact absurd h (by simp)
    · rintro (h | h)
      · subst h; exact q2 _ p1
      · subst h; exact p2

theorem listAdd_spec {l l' : List Nat} {x : Nat} (h : listAdd l x = .ok l') (hn : l.Nodup) :
    l'.Nodup ∧ ∀ y, y ∈ l' ↔ y = x ∨ y ∈ l := by
  unfold listAdd listHas at h
  by_cases hc : l.contains x = true
  · rw [if_pos hc] at h
    injection h with h; subst h
    refine ⟨hn, fun y => ⟨Or.inr, ?_⟩⟩
    rintro (h | h)
    · subst h; simpa using hc
    · exact h
  · rw [if_neg hc] at h
    split at h
    · cases h
    · injection h with h; subst h
      have hx : x ∉ l := by simpa using hc
      refine ⟨?_, ?_⟩
      · rw [List.nodup_append]
        refine ⟨hn, by simp, ?_⟩
        intro a ha b hb
        simp at hb
        subst hb
        intro e; subst e; exact hx ha
      · intro y; simp [or_comm]

theorem hasEdge_iff {g : Graph} (h : WF g) (a b : Nat) : hasEdge g a b = true ↔ b ∈ g.succs a := by
  unfold hasEdge listHas
  constructor
  · intro he
    split at he
    · simpa using he
    · simp at he
  · intro hb
    have hp := (h.ends a b hb).1
    rw [if_pos ⟨h.bound a hp, hp⟩]
    simpa using hb

/-- Adding an edge. -/
theorem addEdge_spec {g g' : Graph} (h : WF g) {a b : Nat} (he : addEdge g a b = .ok g') :
    WF g' ∧ (∀ x y, hasEdge g' x y = true ↔ (x = a ∧ y = b) ∨ hasEdge g x y = true) ∧
    (∀ i, g'.present i = true ↔ i = a ∨ i = b ∨ g.present i = true) := by
  obtain ⟨h1, p1, q1, r1, s1, t1, _⟩ := addNode_spec h a
  obtain ⟨h2, p2, q2, r2, s2, t2, _⟩ := addNode_spec h1 b
  unfold addEdge at he
  dsimp only at he
  generalize hg2 : addNode (addNode g a) b = g2 at *
  obtain ⟨s, hs, he⟩ := Res.bind_eq_ok.1 he
  obtain ⟨p, hp, he⟩ := Res.bind_eq_ok.1 he
  injection he with he
  subst he
  obtain ⟨ns, ms⟩ := listAdd_spec hs (h2.nodupS a)
  obtain ⟨np, mp⟩ := listAdd_spec hp (h2.nodupP b)
  have hsucc : ∀ x y, y ∈ upd g2.succs a s x ↔ (x = a ∧ y = b) ∨ y ∈ g2.succs x := by
    intro x y
    by_cases hx : x = a
    · subst hx; rw [upd_same, ms]; simp
    · rw [upd_ne _ _ hx]; simp [hx]
  have hpred : ∀ x y, x ∈ upd g2.preds b p y ↔ (x = a ∧ y = b) ∨ x ∈ g2.preds y := by
    intro x y
    by_cases hy : y = b
    · subst hy; rw [upd_same, mp]; simp
    · rw [upd_ne _ _ hy]; simp [hy]
  have hwf : WF { g2 with succs := upd g2.succs a s, preds := upd g2.preds b p } := by
    refine ⟨h2.bound, ?_, ?_, ?_, ?_⟩
    · intro x y
      show y ∈ upd g2.succs a s x ↔ x ∈ upd g2.preds b p y
      rw [hsucc, hpred, h2.sync]
    · intro x
      show (upd g2.succs a s x).Nodup
      by_cases hx : x = a
      · subst hx; rw [upd_same]; exact ns
      · rw [upd_ne _ _ hx]; exact h2.nodupS x
    · intro x
      show (upd g2.preds b p x).Nodup
      by_cases hx : x = b
      · subst hx; rw [upd_same]; exact np
      · rw [upd_ne _ _ hx]; exact h2.nodupP x
    · intro x y hxy
      rcases (hsucc x y).1 hxy with ⟨e1, e2⟩ | h'
      · subst e1; subst e2; exact ⟨q2 _ p1, p2⟩
      · exact h2.ends x y h'
  refine ⟨hwf, ?_, ?_⟩
  · intro x y
    rw [hasEdge_iff hwf, hasEdge_iff h]
    show y ∈ upd g2.succs a s x ↔ _
    rw [hsucc, s2, s1]
  · intro i
    show g2.present i = true ↔ _
    constructor
    · intro hi
      rcases r2 i hi with e | e
      · exact Or.inr (Or.inl e)
      · rcases r1 i e with e | e
        · exact Or.inl e
        · exact Or.inr (Or.inr e)
    · rintro (e | e | e)
      · subst e; exact q2 _ p1
      · subst e; exact p2
      · exact q2 _ (q1 _ e)

/-- Deleting an edge between existing nodes. -/
theorem deleteEdge_spec {g : Graph} (h : WF g) {a b : Nat} (ha : g.present a = true) (hb : g.present b = true) :
    ∃ g', deleteEdge g a b = .ok g' ∧ WF g' ∧
    (∀ x y, hasEdge g' x y = true ↔ ¬ (x = a ∧ y = b) ∧ hasEdge g x y = true) ∧
    (∀ i, g'.present i = g.present i) := by
  have hsucc : ∀ x y, y ∈ upd g.succs a (listDelete (g.succs a) b) x ↔ ¬ (x = a ∧ y = b) ∧ y ∈ g.succs x := by
    intro x y
    by_cases hx : x = a
    · subst hx; rw [upd_same]
      unfold listDelete
      rw [(h.nodupS x).mem_erase_iff]
      simp
    · rw [upd_ne _ _ hx]; simp [hx]
  have hpred : ∀ x y, x ∈ upd g.preds b (listDelete (g.preds b) a) y ↔ ¬ (x = a ∧ y = b) ∧ x ∈ g.preds y := by
    intro x y
    by_cases hy : y = b
    · subst hy; rw [upd_same]
      unfold listDelete
      rw [(h.nodupP y).mem_erase_iff]
      simp
    · rw [upd_ne _ _ hy]; simp [hy]
  have hwf : WF { g with succs := upd g.succs a (listDelete (g.succs a) b), preds := upd g.preds b (listDelete (g.preds b) a) } := by
    refine ⟨h.bound, ?_, ?_, ?_, ?_⟩
    · intro x y
      show y ∈ upd g.succs a _ x ↔ x ∈ upd g.preds b _ y
      rw [hsucc, hpred, h.sync]
    · intro x
      show (upd g.succs a _ x).Nodup
      by_cases hx : x = a
      · subst hx; rw [upd_same]; exact (h.nodupS x).erase b
      · rw [upd_ne _ _ hx]; exact h.nodupS x
    · intro x
      show (upd g.preds b _ x).Nodup
      by_cases hx : x = b
      · subst hx; rw [upd_same]; exact (h.nodupP x).erase a
      · rw [upd_ne _ _ hx]; exact h.nodupP x
    · intro x y hxy
      exact h.ends x y ((hsucc x y).1 hxy).2
  refine ⟨_, ?_, hwf, ?_, fun i => rfl⟩
  · unfold deleteEdge needNode
    rw [if_pos ⟨h.bound a ha, ha⟩, if_pos ⟨h.bound b hb, hb⟩]
    rfl
  · intro x y
    rw [hasEdge_iff hwf, hasEdge_iff h]
    exact hsucc x y

/-- Operations on a graph. -/
inductive Op
  | add (a b : Nat)
  | del (a b : Nat)

/-- Running them. -/
def run : List Op → Graph → Res Graph
  | [], g => .ok g
  | .add a b :: ops, g => do let g ← addEdge g a b; run ops g
  | .del a b :: ops, g => do let g ← deleteEdge g a b; run ops g

/-- The edges present after a history: the last operation on an edge was an insertion. -/
def edgeSet : List Op → (Nat → Nat → Prop) → Nat → Nat → Prop
  | [], E => E
  | .add a b :: ops, E => edgeSet ops (fun x y => (x = a ∧ y = b) ∨ E x y)
  | .del a b :: ops, E => edgeSet ops (fun x y => ¬ (x = a ∧ y = b) ∧ E x y)

theorem edgeSet_congr : ∀ (ops : List Op) (E F : Nat → Nat → Prop), (∀ x y, E x y ↔ F x y) →
    ∀ x y, edgeSet ops E x y ↔ edgeSet ops F x y := by
  intro ops
  induction ops with
  | nil => intro E F h; exact h
  | cons op ops ih =>
    intro E F h
    cases op with
    | add a b => exact ih _ _ (fun x y => by rw [h])
    | del a b => exact ih _ _ (fun x y => by rw [h])

theorem run_spec : ∀ (ops : List Op) (g g' : Graph), WF g → run ops g = .ok g' →
    WF g' ∧ ∀ x y, hasEdge g' x y = true ↔ edgeSet ops (fun x y => hasEdge g x y = true) x y := by
  intro ops
  induction ops with
  | nil => intro g g' h he; injection he with he; subst he; exact ⟨h, fun _ _ => Iff.rfl⟩
  | cons op ops ih =>
    intro g g' h he
    cases op with
    | add a b =>
      obtain ⟨g1, e1, e2⟩ := Res.bind_eq_ok.1 he
      obtain ⟨w1, hE, _⟩ := addEdge_spec h e1
      obtain ⟨w2, hE2⟩ := ih g1 g' w1 e2
      refine ⟨w2, fun x y => ?_⟩
      rw [hE2]
      exact edgeSet_congr ops _ _ hE x y
    | del a b =>
      obtain ⟨g1, e1, e2⟩ := Res.bind_eq_ok.1 he
      have hn : ∀ i, (∃ u, needNode g i = .ok u) → g.present i = true := by
        rintro i ⟨u, hu⟩
        unfold needNode at hu
        split at hu
        · rename_i hc; exact hc.2
        · cases hu
      have hab : g.present a = true ∧ g.present b = true := by
        unfold deleteEdge at e1
        obtain ⟨u, hu, e1⟩ := Res.bind_eq_ok.1 e1
        obtain ⟨v, hv, _⟩ := Res.bind_eq_ok.1 e1
        exact ⟨hn a ⟨u, hu⟩, hn b ⟨v, hv⟩⟩
      obtain ⟨g1', e1', w1, hE, _⟩ := deleteEdge_spec h hab.1 hab.2
      rw [e1'] at e1; injection e1 with e1; subst e1
      obtain ⟨w2, hE2⟩ := ih _ g' w1 e2
      refine ⟨w2, fun x y => ?_⟩
      rw [hE2]
      exact edgeSet_congr ops _ _ hE x y

/-- Any history from a new graph: `raviX_has_edge` is membership in the edge set, predecessors mirror
successors, and no list has duplicates. -/
theorem history_correct (entry exit : Nat) (ops : List Op) (g : Graph) (h : run ops (init entry exit) = .ok g) :
    (∀ x y, hasEdge g x y = true ↔ edgeSet ops (fun _ _ => False) x y) ∧
    (∀ x y, hasEdge g x y = true ↔ y ∈ g.succs x) ∧ (∀ x y, hasEdge g x y = true ↔ x ∈ g.preds y) ∧
    (∀ x, (g.succs x).Nodup ∧ (g.preds x).Nodup) := by
  obtain ⟨w, hE⟩ := run_spec ops _ g (init_correct entry exit).1 h
  refine ⟨?_, hasEdge_iff w, fun x y => by rw [hasEdge_iff w, w.sync], fun x => ⟨w.nodupS x, w.nodupP x⟩⟩
  intro x y
  rw [hE]
  exact edgeSet_congr ops _ _ (fun x y => by rw [(init_correct entry exit).2.1]; simp) x y

/-- Insertion succeeds as long as neither list is full. -/
theorem addEdge_total (g : Graph) (h : WF g) (a b : Nat) (hs : (g.succs a).length < listMax)
    (hp : (g.preds b).length < listMax) : ∃ g', addEdge g a b = .ok g' := by
  obtain ⟨h1, p1, q1, r1, s1, t1, _⟩ := addNode_spec h a
  obtain ⟨h2, p2, q2, r2, s2, t2, _⟩ := addNode_spec h1 b
  have key : ∀ (l : List Nat) (x : Nat), l.length < listMax → ∃ l', listAdd l x = .ok l' := by
    intro l x hl
    unfold listAdd
    split
    · exact ⟨_, rfl⟩
    · rw [if_neg (by omega)]; exact ⟨_, rfl⟩
  unfold addEdge
  dsimp only
  obtain ⟨l1, e1⟩ := key ((addNode (addNode g a) b).succs a) b (by rw [s2, s1]; exact hs)
  rw [e1, Res.bind_ok]
  obtain ⟨l2, e2⟩ := key ((addNode (addNode g a) b).preds b) a (by rw [t2, t1]; exact hp)
  rw [e2, Res.bind_ok]
  exact ⟨_, rfl⟩

/-- A full list makes the insertion of a new edge undefined. -/
theorem addEdge_full (g : Graph) (h : WF g) (a b : Nat) (hs : (g.succs a).length ≥ listMax)
    (hn : hasEdge g a b = false) : addEdge g a b = .ub := by
  obtain ⟨h1, p1, q1, r1, s1, t1, _⟩ := addNode_spec h a
  obtain ⟨h2, p2, q2, r2, s2, t2, _⟩ := addNode_spec h1 b
  unfold addEdge
  dsimp only
  have : listAdd ((addNode (addNode g a) b).succs a) b = .ub := by
    rw [s2, s1]
    unfold listAdd listHas
    have hb : b ∉ g.succs a := by
      intro hb; rw [(hasEdge_iff h a b).2 hb] at hn; cases hn
    rw [if_neg (by simpa using hb), if_pos hs]
  rw [this]; rfl

/-- Deleting an edge that is not there changes no edge; the history above is not vacuous. -/
example : (run [.add 0 2, .add 2 3, .add 0 2, .del 0 2, .add 3 1] (init 0 1) >>= fun g =>
    Res.ok (hasEdge g 0 2, hasEdge g 2 3, g.preds 3, g.succs 0, size g)) = .ok (false, true, [2], [], 4) := by rfl

end Verif.Graph
