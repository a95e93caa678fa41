import Verif.Dom.Pass
import Verif.Graph.Classify

/-!
# C42 — the dominator tree is the dominator tree

For every graph whose node identifiers are contiguous and whose nodes are all reachable,
`raviX_calculate_dominator_tree` ends, and the array it fills holds the immediate dominators: the
node recorded for `b` is on every path from the entry to `b`, differs from `b`, and every other node
on all paths to `b` is on all paths to it.  Graphs outside these conditions run into the assertion or
outside the array.
-/
namespace Verif.Dom
open Verif.Graph

/-- The nodes of a path from node 0 to `b`, last first. -/
inductive Path (g : Graph) : Nat → List Nat → Prop
  | entry : Path g 0 [0]
  | step {a b : Nat} {l : List Nat} : Path g a l → b ∈ g.succs a → Path g b (b :: l)

/-- `d` is on every path from the entry to `b`. -/
def Dominates (g : Graph) (d b : Nat) : Prop := ∀ l, Path g b l → d ∈ l

theorem dom_zero {g : Graph} {d : Nat} (h : Dominates g d 0) : d = 0 := by
  have := h _ .entry
  simpa using this

theorem dom_pred {g : Graph} {d b p : Nat} (h : Dominates g d b) (hne : d ≠ b) (hp : b ∈ g.succs p) : Dominates g d p := by
  intro l hl
  rcases List.mem_cons.1 (h _ (.step hl hp)) with e | e
  · exact absurd e hne
  · exact e

theorem path_head {g : Graph} {b : Nat} {l : List Nat} (h : Path g b l) : b ∈ l := by
  cases h <;> simp

section
variable {g : Graph} {N : Nat} {rpo : Nat → Nat}

theorem tree_path (hg : WF g) (hC : Ctx N g.preds rpo) :
    ∀ k b, rpo b ≤ k → b < N → ∃ l, Path g b l ∧ ∀ x ∈ l, x = b ∨ rpo x < rpo b := by
  intro k
  induction k with
  | zero =>
    intro b hk hb
    have h0 : b = 0 := by
      by_cases h0 : b = 0
      · exact h0
      · have := root_min hC hb h0; omega
    subst h0
    exact ⟨[0], .entry, fun x hx => by simp at hx; exact Or.inl hx⟩
  | succ k ih =>
    intro b hk hb
    by_cases h0 : b = 0
    · subst h0
      exact ⟨[0], .entry, fun x hx => by simp at hx; exact Or.inl hx⟩
    · obtain ⟨p, p1, p2⟩ := hC.par b hb h0
      obtain ⟨l, l1, l2⟩ := ih p (by omega) (hC.rng b p p1)
      refine ⟨b :: l, .step l1 ((hg.sync p b).2 p1), ?_⟩
      intro x hx
      rcases List.mem_cons.1 hx with e | e
      · exact Or.inl e
      · rcases l2 x e with e | e
        · subst e; exact Or.inr p2
        · exact Or.inr (by omega)

theorem dom_rpo (hg : WF g) (hC : Ctx N g.preds rpo) {d b : Nat} (hb : b < N) (h : Dominates g d b) :
    d = b ∨ rpo d < rpo b := by
  obtain ⟨l, l1, l2⟩ := tree_path hg hC _ b (Nat.le_refl _) hb
  exact l2 d (h l l1)

/-- No dominator is skipped by a step up the array. -/
def DomLocal (g : Graph) (T : Nat → Option Nat) : Prop :=
  ∀ x z, x ≠ 0 → T x = some z → ∀ d, Dominates g d x → d ≠ x → Dominates g d z

theorem dom_anc {T : Nat → Option Nat} (hT : OK N rpo T) (hl : DomLocal g T) :
    ∀ k x, rpo x ≤ k → T x ≠ none → ∀ d, Dominates g d x → Anc T x d := by
  have step : ∀ x, T x ≠ none → ∀ d, Dominates g d x →
      (∀ z, rpo z < rpo x → T z ≠ none → ∀ d, Dominates g d z → Anc T z d) → Anc T x d := by
    intro x hx d hd hrec
    by_cases hne : d = x
    · subst hne; exact .refl _
    · by_cases h0 : x = 0
      · subst h0; exact absurd (dom_zero hd) hne
      · cases hz : T x with
        | none => exact absurd hz hx
        | some z =>
          obtain ⟨a1, a2, a3, a4⟩ := hT.edge x z h0 hz
          exact .step h0 hz (hrec z a3 a4 d (hl x z h0 hz d hd hne))
  intro k
  induction k with
  | zero => intro x hk hx d hd; exact step x hx d hd (fun z hz => by omega)
  | succ k ih => intro x hk hx d hd; exact step x hx d hd (fun z hz hzn => ih z (by omega) hzn)

theorem dom_walk {T : Nat → Option Nat} (hT : OK N rpo T) (hl : DomLocal g T) {p r : Nat} (h : Anc T p r) :
    ∀ e, Dominates g e p → rpo e ≤ rpo r → Dominates g e r := by
  induction h with
  | refl => intro e h1 _; exact h1
  | @step x w y h1 h2 h3 ih =>
    intro e hd hle
    have ha := hT.edge x w h1 h2
    have hne : e ≠ x := by
      intro heq
      subst heq
      rcases anc_rpo hT h3 with q | q
      · subst q; omega
      · omega
    exact ih e (hl x w h1 h2 e hd hne) hle

theorem domLocal_pass (hg : WF g) (hC : Ctx N g.preds rpo) {S T : Nat → Option Nat} (hS : OK N rpo S)
    (hl : DomLocal g S) (h : PassRel N g.preds rpo S T) : DomLocal g T := by
  have main : ∀ k b, rpo b ≤ k → ∀ z, b ≠ 0 → T b = some z → ∀ d, Dominates g d b → d ≠ b → Dominates g d z := by
    have step : ∀ b, (∀ x, rpo x < rpo b → ∀ z, x ≠ 0 → T x = some z → ∀ d, Dominates g d x → d ≠ x → Dominates g d z) →
        ∀ z, b ≠ 0 → T b = some z → ∀ d, Dominates g d b → d ≠ b → Dominates g d z := by
      intro b hrec z h0 hz e he hne
      have hbN := (h.ok.edge b z h0 hz).1
      obtain ⟨d, d1, d2, d3, d4⟩ := h.new b hbN h0
      rw [hz] at d1; injection d1 with d1; subst d1
      have hm := mix_ok hS h b
      have hml : DomLocal g (mix rpo S T b) := by
        intro x w hx0 hx
        unfold mix at hx
        by_cases c : rpo x < rpo b
        · rw [if_pos c] at hx; exact hrec x c w hx0 hx
        · rw [if_neg c] at hx; exact hl x w hx0 hx
      have hanc : ∀ p ∈ g.preds b, mix rpo S T b p ≠ none → Anc (mix rpo S T b) p e := by
        intro p hp hpd
        exact dom_anc hm hml _ p (Nat.le_refl _) hpd e (dom_pred he hne ((hg.sync p b).2 hp))
      have hde := d4.2 e hanc
      obtain ⟨p, p1, p2⟩ := hC.par b hbN h0
      have hpN := hC.rng b p p1
      have hpd : mix rpo S T b p ≠ none := by unfold mix; rw [if_pos p2]; exact h.total hpN
      have hpz := d4.1 p p1 hpd
      refine dom_walk hm hml hpz e (dom_pred he hne ((hg.sync p b).2 p1)) ?_
      rcases anc_rpo hm hde with q | q
      · rw [q]; exact Nat.le_refl _
      · omega
    intro k
    induction k with
    | zero => intro b hk; exact step b (fun x hx => by omega)
    | succ k ih => intro b hk; exact step b (fun x hx => ih x (by omega))
  intro x z h0 hz d hd hne
  exact main _ x (Nat.le_refl _) z h0 hz d hd hne

/-- At a fixed point every node of a chain is a dominator. -/
theorem anc_dom (hg : WF g) (hC : Ctx N g.preds rpo) {S : Nat → Option Nat} (h : PassRel N g.preds rpo S S) {b : Nat}
    {l : List Nat} (hp : Path g b l) : b < N → ∀ y, Anc S b y → y ∈ l := by
  have hmix : ∀ b, mix rpo S S b = S := by
    intro b; funext x; unfold mix; split <;> rfl
  induction hp with
  | entry => intro _ y hy; rw [anc_zero hy]; simp
  | @step a b l p1 p2 ih =>
    intro hb y hy
    by_cases hyb : y = b
    · subst hyb; simp
    · refine List.mem_cons_of_mem _ ?_
      have hab := (hg.sync a b).1 p2
      have haN := hC.rng b a hab
      by_cases h0 : b = 0
      · subst h0; exact absurd (anc_zero hy) hyb
      · obtain ⟨d, d1, d2, d3, d4⟩ := h.new b hb h0
        rw [hmix] at d4
        exact ih haN y ((d4.1 a hab (h.total haN)).trans (anc_tail hy d1 hyb))

/-! ### Termination -/

/-- The sum of the numbers of the recorded nodes. -/
def measure (rpo : Nat → Nat) (T : Nat → Option Nat) (l : List Nat) : Nat :=
  (l.map fun b => rpo ((T b).getD 0)).sum

theorem measure_le {S T : Nat → Option Nat} : ∀ l : List Nat,
    (∀ b ∈ l, rpo ((T b).getD 0) ≤ rpo ((S b).getD 0)) → measure rpo T l ≤ measure rpo S l := by
  intro l
  induction l with
  | nil => intro _; exact Nat.le_refl _
  | cons b l ih =>
    intro h
    have h1 := h b (List.mem_cons_self ..)
    have h2 := ih (fun x hx => h x (List.mem_cons_of_mem _ hx))
    unfold measure at h2 ⊢
    simp only [List.map_cons, List.sum_cons]
    omega

theorem measure_lt {S T : Nat → Option Nat} : ∀ l : List Nat,
    (∀ b ∈ l, rpo ((T b).getD 0) ≤ rpo ((S b).getD 0)) →
    (∃ b ∈ l, rpo ((T b).getD 0) < rpo ((S b).getD 0)) → measure rpo T l < measure rpo S l := by
  intro l
  induction l with
  | nil => rintro _ ⟨b, hb, _⟩; cases hb
  | cons b l ih =>
    rintro h ⟨x, hx, hlt⟩
    have h1 := h b (List.mem_cons_self ..)
    have hrest := fun x hx => h x (List.mem_cons_of_mem _ hx)
    have h2 := measure_le (rpo := rpo) (S := S) (T := T) l hrest
    rcases List.mem_cons.1 hx with e | e
    · subst e
      unfold measure at h2 ⊢
      simp only [List.map_cons, List.sum_cons]
      omega
    · have h3 := ih hrest ⟨x, e, hlt⟩
      unfold measure at h3 ⊢
      simp only [List.map_cons, List.sum_cons]
      omega

theorem measure_bound {T : Nat → Option Nat} {M : Nat} (h : ∀ b, rpo b ≤ M) : ∀ l : List Nat, measure rpo T l ≤ l.length * M := by
  intro l
  induction l with
  | nil => exact Nat.zero_le _
  | cons b l ih =>
    have := h ((T b).getD 0)
    unfold measure at ih ⊢
    simp only [List.map_cons, List.sum_cons, List.length_cons, Nat.add_mul, Nat.one_mul]
    omega

theorem iter_spec (hg : WF g) (hC : Ctx N g.preds rpo) (hnode : ∀ i, i < N → needNode g i = .ok ()) {fuel : Nat}
    (hfuel : ∀ i j, i < N → j < N → rpo i + rpo j < fuel) {order : List Nat} (hall : ∀ x, x < N ↔ x ∈ order)
    (hsort : order.Pairwise (fun a b => rpo a < rpo b)) :
    ∀ (k : Nat) (R S : Nat → Option Nat), OK N rpo R → TP g.preds rpo R → PassRel N g.preds rpo R S →
    (∀ b, R b ≠ none → ∀ y, Anc S b y → Anc R b y) → DomLocal g S → measure rpo S (List.range N) < k →
    ∃ T, iter g N rpo fuel order k S = .ok T ∧ PassRel N g.preds rpo T T ∧ DomLocal g T := by
  intro k
  induction k with
  | zero => intro R S _ _ _ _ _ h; omega
  | succ k ih =>
    intro R S hR tR hRS hmono hl hm
    have hS := hRS.ok
    obtain ⟨T, ch, e1, hST, hch⟩ := pass_spec (S := S) rfl hC hnode hfuel order [] S false hall hsort hS
      (fun _ _ => rfl) (fun b hb => nomatch hb) (by simp)
    show ∃ T, (pass g N rpo fuel order S false >>= _) = .ok T ∧ _
    rw [e1, Res.bind_ok]
    have hm2 := mono_step hC hR tR hRS hmono hST
    cases hc : ch with
    | false =>
      have heq : T = S := by
        funext x
        exact Classical.byContradiction fun hne => by
          have := hch.2 ⟨x, hne⟩
          rw [hc] at this; exact Bool.noConfusion this
      subst heq
      exact ⟨T, rfl, hST, hl⟩
    | true =>
      obtain ⟨x, hx⟩ := hch.1 hc
      have hxN : x < N := Classical.byContradiction fun hge => hx (hST.out x (by omega))
      have hle : ∀ b, b < N → rpo ((T b).getD 0) ≤ rpo ((S b).getD 0) ∧
          (T b ≠ S b → rpo ((T b).getD 0) < rpo ((S b).getD 0)) := by
        intro b hb
        by_cases h0 : b = 0
        · subst h0
          rw [hST.ok.root, hS.root]
          exact ⟨Nat.le_refl _, fun h => absurd rfl h⟩
        · obtain ⟨d, d1, d2, d3, _⟩ := hST.new b hb h0
          obtain ⟨e, e1', _⟩ := hRS.new b hb h0
          have hdb : d ≠ b := by intro q; subst q; omega
          have := anc_tail (hm2 b hb d (.step h0 d1 (.refl _))) e1' hdb
          rw [d1, e1']
          simp only [Option.getD_some]
          rcases anc_rpo hS this with q | q
          · subst q; exact ⟨Nat.le_refl _, fun h => absurd rfl h⟩
          · exact ⟨Nat.le_of_lt q, fun _ => q⟩
      have hlt := measure_lt (rpo := rpo) (S := S) (T := T) (List.range N) (fun b hb => (hle b (List.mem_range.1 hb)).1)
        ⟨x, List.mem_range.2 hxN, (hle x hxN).2 hx⟩
      refine ih S T hS (hRS.tp hC hR) hST ?_ (domLocal_pass hg hC hS hl hST) (by omega)
      intro b hb y hy
      by_cases hbN : b < N
      · exact hm2 b hbN y hy
      · -- nothing is recorded outside the array
        by_cases h0 : b = 0
        · have := hC.pos; omega
        · cases hz : S b with
          | none => exact absurd hz hb
          | some z => exact absurd (hS.edge b z h0 hz).1 hbN

end

/-- The array holds the immediate dominators. -/
theorem dominator_tree_correct_partial (g : Graph) (hg : WF g) (he : g.entry = ENTRY_BLOCK)
    (hdense : ∀ i, g.present i = true ↔ i < size g) (hreach : ∀ i, i < size g → Reach g i)
    (hstop : ∃ j, (∀ i, i ≤ j → g.present i = true) ∧ (g.succs j).length ≤ j) (st : Num)
    (habs : ∀ v, g.present v = false → st.pre v = 0 ∧ st.rpost v = 0) :
    ∃ st' T, classify g st = .ok st' ∧ calculate g st' = .ok T ∧ T 0 = some 0 ∧
      ∀ b, b < size g → b ≠ 0 → ∃ d, T b = some d ∧ d ≠ b ∧ Dominates g d b ∧
        ∀ e, Dominates g e b → e ≠ b → Dominates g e d := by
  have hpos : 0 < size g := by
    obtain ⟨j, hj, _⟩ := hstop
    have := (hdense 0).1 (hj 0 (Nat.zero_le _)); omega
  have hpe : g.present g.entry = true := by rw [he]; exact (hdense 0).2 hpos
  obtain ⟨st', c1, c2, c3, c4, c5, _⟩ := classify_correct_partial g hg hpe hstop st habs
  have hC : Ctx (size g) g.preds st'.rpost := by
    refine ⟨hpos, fun u v hu _ h => c4 u v (hreach u hu) h, ?_, ?_⟩
    · intro b hb h0
      obtain ⟨p, p1, p2, p3⟩ := c5 b (hreach b hb) (by rw [he]; exact h0)
      exact ⟨p, (hg.sync p b).1 p2, p3⟩
    · intro b p hp
      exact (hdense p).1 (hg.ends p b ((hg.sync p b).2 hp)).1
  have hnode : ∀ i, i < size g → needNode g i = .ok () := fun i hi => needNode_ok hg ((hdense i).2 hi)
  have hfuel : ∀ i j, i < size g → j < size g → st'.rpost i + st'.rpost j < 2 * size g + 1 := by
    intro i j _ _
    have := c3 i; have := c3 j; omega
  have hord : ∀ x, x < size g ↔ x ∈ sorted g st' false := by
    intro x
    unfold sorted
    rw [List.mem_mergeSort, List.mem_filter, List.mem_range]
    constructor
    · intro h; exact ⟨hg.bound x ((hdense x).2 h), (hdense x).2 h⟩
    · intro h; exact (hdense x).1 h.2
  have hsort : (sorted g st' false).Pairwise (fun a b => st'.rpost a < st'.rpost b) := by
    have h1 : (sorted g st' false).Pairwise (fun a b => decide (st'.rpost a ≤ st'.rpost b) = true) := by
      unfold sorted
      exact List.pairwise_mergeSort (le := fun a b => decide (st'.rpost a ≤ st'.rpost b))
        (fun a b c h k => by simp only [decide_eq_true_eq] at h k ⊢; omega)
        (fun a b => by simp only [Bool.or_eq_true, decide_eq_true_eq]; omega) _
    have h2 : (sorted g st' false).Nodup := by
      unfold sorted
      exact (List.mergeSort_perm _ _).nodup_iff.2 (List.nodup_range.filter _)
    refine (h1.and h2).imp_of_mem ?_
    rintro a b ha hb ⟨h3, h4⟩
    have h3 := of_decide_eq_true h3
    have := c4 a b (hreach a ((hord a).2 ha))
    omega
  -- the first pass
  let T0 : Nat → Option Nat := upd (fun _ => none) ENTRY_BLOCK (some ENTRY_BLOCK)
  have hT0 : ∀ x, x ≠ 0 → T0 x = none := fun x hx => upd_ne _ _ hx
  have hT00 : T0 0 = some 0 := upd_same _ _ _
  have hok0 : OK (size g) st'.rpost T0 := by
    refine ⟨hT00, ?_⟩
    intro x z h0 hx; rw [hT0 x h0] at hx; exact nomatch hx
  have htp0 : TP g.preds st'.rpost T0 := by
    intro x d h0 hx; rw [hT0 x h0] at hx; exact nomatch hx
  have hl0 : DomLocal g T0 := by
    intro x d h0 hx; rw [hT0 x h0] at hx; exact nomatch hx
  obtain ⟨S, ch, e1, hS, hch⟩ := pass_spec (S := T0) rfl hC hnode hfuel (sorted g st' false) [] T0 false hord hsort
    hok0 (fun _ _ => rfl) (fun b hb => nomatch hb) (by simp)
  have hlS := domLocal_pass hg hC hok0 hl0 hS
  have hfix : ∃ T, calculate g st' = .ok T ∧ PassRel (size g) g.preds st'.rpost T T ∧ DomLocal g T := by
    unfold calculate
    dsimp only
    rw [show needNode g ENTRY_BLOCK = .ok () from hnode 0 hpos, Res.bind_ok]
    have hwr : wr (size g) (fun _ => none) ENTRY_BLOCK (some ENTRY_BLOCK) = .ok T0 := by
      unfold wr; exact if_pos hpos
    rw [hwr, Res.bind_ok]
    show ∃ T, (pass g (size g) st'.rpost (2 * size g + 1) (sorted g st' false) T0 false >>= _) = .ok T ∧ _
    rw [e1, Res.bind_ok]
    cases hc : ch with
    | false =>
      have heq : S = T0 := by
        funext x
        exact Classical.byContradiction fun hne => by
          have := hch.2 ⟨x, hne⟩
          rw [hc] at this; exact Bool.noConfusion this
      rw [heq] at hS hlS
      exact ⟨S, rfl, by rw [heq]; exact hS, by rw [heq]; exact hlS⟩
    | true =>
      refine iter_spec hg hC hnode hfuel hord hsort _ T0 S hok0 htp0 hS ?_ hlS ?_
      · intro b hb y hy
        by_cases h0 : b = 0
        · subst h0; rw [anc_zero hy]; exact .refl _
        · exact absurd (hT0 b h0) hb
      · have := measure_bound (rpo := st'.rpost) (T := S) c3 (List.range (size g))
        rw [List.length_range] at this
        omega
  obtain ⟨T, t1, t2, t3⟩ := hfix
  refine ⟨st', T, c1, t1, t2.ok.root, ?_⟩
  intro b hb h0
  obtain ⟨d, d1, d2, d3, _⟩ := t2.new b hb h0
  refine ⟨d, d1, fun e => by subst e; omega, ?_, fun e he hne => t3 b d h0 d1 e he hne⟩
  intro l hl
  exact anc_dom hg hC t2 hl hb d (.step h0 d1 (.refl _))

/-! ### Outside the conditions -/

theorem pass_stuck {g : Graph} {b N fuel : Nat} {rpo : Nat → Nat} (hb : ∀ T r, node g N rpo fuel T b ≠ .ok r) :
    ∀ (l : List Nat) (T : Nat → Option Nat) (ch : Bool), b ∈ l → ∀ r, pass g N rpo fuel l T ch ≠ .ok r := by
  intro l
  induction l with
  | nil => intro T ch h; cases h
  | cons x l ih =>
    intro T ch h r hr
    change (node g N rpo fuel T x >>= _) = .ok r at hr
    rw [Res.bind_eq_ok] at hr
    obtain ⟨⟨T', c⟩, h1, h2⟩ := hr
    rcases List.mem_cons.1 h with e | e
    · subst e; exact hb T _ h1
    · exact ih T' _ e r h2

theorem calculate_stuck {g : Graph} (hg : WF g) {st : Num} {b : Nat} (hpb : g.present b = true)
    (hb : ∀ fuel T r, node g (size g) st.rpost fuel T b ≠ .ok r) (T : Nat → Option Nat) : calculate g st ≠ .ok T := by
  intro h
  unfold calculate at h
  dsimp only at h
  rw [Res.bind_eq_ok] at h
  obtain ⟨_, _, h⟩ := h
  rw [Res.bind_eq_ok] at h
  obtain ⟨T0, _, h⟩ := h
  change (pass g (size g) st.rpost _ _ T0 false >>= _) = .ok T at h
  rw [Res.bind_eq_ok] at h
  obtain ⟨r, h, _⟩ := h
  refine pass_stuck (hb _) _ _ _ ?_ _ h
  unfold sorted
  rw [List.mem_mergeSort, List.mem_filter, List.mem_range]
  exact ⟨hg.bound b hpb, hpb⟩

/-- A node other than the entry without predecessors stops the calculation at the assertion, whatever
the numbering: the exit block of a function that never returns is such a node. -/
theorem unreachable_asserts (g : Graph) (hg : WF g) (st : Num) (b : Nat) (hb : b ≠ 0) (hpb : g.present b = true)
    (hp : g.preds b = []) (T : Nat → Option Nat) : calculate g st ≠ .ok T := by
  refine calculate_stuck hg hpb ?_ T
  intro fuel T r h1
  unfold node ENTRY_BLOCK at h1
  rw [if_neg hb] at h1
  unfold newIdom at h1
  rw [hp] at h1
  exact nomatch h1

/-- With a gap in the identifiers the array, sized by the number of nodes, is too short. -/
theorem sparse_overruns (g : Graph) (hg : WF g) (st : Num) (b : Nat) (hpb : g.present b = true) (hb : size g ≤ b)
    (T : Nat → Option Nat) : calculate g st ≠ .ok T := by
  have hs := present_size hg hpb
  refine calculate_stuck hg hpb ?_ T
  intro fuel T r h1
  unfold node ENTRY_BLOCK at h1
  rw [if_neg (by omega), Res.bind_eq_ok] at h1
  obtain ⟨d, _, h1⟩ := h1
  unfold rd at h1
  rw [if_neg (by omega)] at h1
  exact nomatch h1

/-- Such a graph: three edges, the nodes are 0, 1, 3 and 4, all reachable. -/
example : ∃ g, run [.add 0 3, .add 3 4, .add 4 1] (init 0 1) = .ok g ∧ WF g ∧ g.present 4 = true ∧ size g ≤ 4 ∧
    Reach g 1 ∧ Reach g 3 ∧ Reach g 4 := by
  have h : ∃ g, run [.add 0 3, .add 3 4, .add 4 1] (init 0 1) = .ok g := ⟨_, rfl⟩
  obtain ⟨g, hg⟩ := h
  have hs : (run [.add 0 3, .add 3 4, .add 4 1] (init 0 1) >>= fun g =>
      Res.ok (g.entry, g.succs 0, g.succs 3, g.succs 4, g.present 4, size g)) = .ok (0, [3], [4], [1], true, 4) := rfl
  rw [hg] at hs
  injection hs with hs
  simp only [Prod.mk.injEq] at hs
  have r3 : Reach g 3 := .step .entry (by rw [hs.1, hs.2.1]; simp)
  have r4 : Reach g 4 := .step r3 (by rw [hs.2.2.1]; simp)
  exact ⟨g, hg, (run_spec _ _ _ (init_correct 0 1).1 hg).1, hs.2.2.2.2.1, by omega,
    .step r4 (by rw [hs.2.2.2.1]; simp), r3, r4⟩

/-- The hypotheses of `dominator_tree_correct_partial` hold for a loop with a branch in it:
0 → 2, 2 → 3, 2 → 4, 3 → 5, 4 → 5, 5 → 2, 5 → 1. -/
example : ∃ g, run [.add 0 2, .add 2 3, .add 2 4, .add 3 5, .add 4 5, .add 5 2, .add 5 1] (init 0 1) = .ok g ∧ WF g ∧
    g.entry = ENTRY_BLOCK ∧ (∀ i, g.present i = true ↔ i < size g) ∧ (∀ i, i < size g → Reach g i) ∧
    ∃ j, (∀ i, i ≤ j → g.present i = true) ∧ (g.succs j).length ≤ j := by
  have h : ∃ g, run [.add 0 2, .add 2 3, .add 2 4, .add 3 5, .add 4 5, .add 5 2, .add 5 1] (init 0 1) = .ok g := ⟨_, rfl⟩
  obtain ⟨g, hg⟩ := h
  have hw := (run_spec _ _ _ (init_correct 0 1).1 hg).1
  have e : (run [.add 0 2, .add 2 3, .add 2 4, .add 3 5, .add 4 5, .add 5 2, .add 5 1] (init 0 1) >>= fun g =>
      Res.ok (g.entry, size g, (List.range g.allocated).map g.present, (List.range 6).map g.present,
        (List.range 6).map g.succs)) =
      .ok (0, 6, [true, true, true, true, true, true, false, false], [true, true, true, true, true, true],
        [[2], [], [3, 4], [5], [5], [2, 1]]) := rfl
  rw [hg] at e
  injection e with e
  simp only [Prod.mk.injEq] at e
  obtain ⟨e1, e2, e3, e4, e5⟩ := e
  have hlen := congrArg List.length e3
  simp at hlen
  rw [hlen] at e3
  simp [List.range, List.range.loop] at e3 e4 e5
  have hp : ∀ i, g.present i = true ↔ i < size g := by
    intro i
    rw [e2]
    constructor
    · intro h
      have hb := hw.bound i h
      rw [hlen] at hb
      have : i < 6 ∨ i = 6 ∨ i = 7 := by omega
      rcases this with q | q | q
      · exact q
      · subst q; rw [e3.2.2.2.2.2.2.1] at h; exact nomatch h
      · subst q; rw [e3.2.2.2.2.2.2.2] at h; exact nomatch h
    · intro h
      have : i = 0 ∨ i = 1 ∨ i = 2 ∨ i = 3 ∨ i = 4 ∨ i = 5 := by omega
      rcases this with q | q | q | q | q | q <;> subst q <;> simp [e4]
  have r2 : Reach g 2 := .step .entry (by rw [e1, e5.1]; simp)
  have r3 : Reach g 3 := .step r2 (by rw [e5.2.2.1]; simp)
  have r4 : Reach g 4 := .step r2 (by rw [e5.2.2.1]; simp)
  have r5 : Reach g 5 := .step r3 (by rw [e5.2.2.2.1]; simp)
  have r1 : Reach g 1 := .step r5 (by rw [e5.2.2.2.2.2]; simp)
  refine ⟨g, hg, hw, e1, hp, ?_, 1, ?_, by rw [e5.2.1]; simp⟩
  · intro i hi
    rw [e2] at hi
    have : i = 0 ∨ i = 1 ∨ i = 2 ∨ i = 3 ∨ i = 4 ∨ i = 5 := by omega
    rcases this with q | q | q | q | q | q <;> subst q
    · have := Reach.entry (g := g); rw [e1] at this; exact this
    · exact r1
    · exact r2
    · exact r3
    · exact r4
    · exact r5
  · intro i hi
    exact (hp i).2 (by rw [e2]; omega)

end Verif.Dom
