import Verif.Dataflow.Model
import Verif.BitSet.Props
import Verif.Graph.Classify

/-!
# C61 — what the data-flow solver does

The solver is meant to repeat until nothing changes.  The set that keeps a node from entering the
worklist of the next round twice is emptied with `raviX_bitset_clear`, which leaves the old bits in
place; so a node that was put on a worklist once is never put on one again.  For all graphs and
callbacks the solver therefore ends after handling every node at most twice, whether or not the
result is stable.
-/
namespace Verif.Dataflow
open Verif.Graph Verif.BitSet

/-- A bit of the storage, whether or not it is within the logical length. -/
def raw (bm : BS) (n : Nat) : Bool := (wd bm.varr (n / 64)).testBit (n % 64)

theorem setBit_raw (bm : BS) (h : WF bm) (n : Nat) :
    ∃ bm', setBit bm n = .ok (bm', !raw bm n) ∧ WF bm' ∧ ∀ m, raw bm' m = (decide (m = n) || raw bm m) := by
  obtain ⟨hw, hnb, hle, hels, hwd, hcl⟩ := expand_spec (n + 1) h
  unfold setBit
  dsimp only
  have hraw : ∀ m, raw (expand bm (n + 1)) m = raw bm m := fun m => by unfold raw; rw [hwd]
  generalize expand bm (n + 1) = e at *
  have hl := hw.1
  have hi : n / 64 < e.varr.length := by omega
  have hlt := wd_lt hw.2 (n / 64)
  have hone : 1 <<< (n % 64) < 2 ^ 64 := by
    rw [Nat.one_shiftLeft]; exact Nat.pow_lt_pow_right (by decide) (by omega)
  have hor : wd e.varr (n / 64) ||| 1 <<< (n % 64) < 2 ^ 64 := Nat.or_lt_two_pow hlt hone
  rw [get_ok hi, Res.bind_ok, put_ok _ hi, Res.bind_ok]
  refine ⟨{ e with varr := e.varr.set (n / 64) (wd e.varr (n / 64) ||| 1 <<< (n % 64)) },
    ?_, ⟨by rw [List.length_set]; exact hl, mem_set_lt hw.2 hor⟩, ?_⟩
  · show Res.ok (_, _) = _
    rw [bit_test', ← hraw]; rfl
  · intro m
    rw [← hraw]
    unfold raw
    dsimp only
    rw [wd_set hi]
    by_cases e1 : m / 64 = n / 64
    · rw [if_pos e1, Nat.testBit_or, testBit_one_shl, e1, Bool.or_comm]
      congr 1
      by_cases e2 : m = n
      · subst e2; simp
      · have : m % 64 ≠ n % 64 := by omega
        simp [e2, this]
    · rw [if_neg e1]
      have : m ≠ n := by intro q; subst q; exact e1 rfl
      simp [this]

section
variable {U σ : Type} (cb : Callbacks U σ) {g : Graph} {forward : Bool}

theorem push_spec (hg : WF g) : ∀ (is : List Nat), (∀ i ∈ is, g.present i = true) → ∀ (bm : BS) (pending : List Nat), BitSet.WF bm →
    ∃ bm' new, push g is bm pending = .ok (bm', pending ++ new) ∧ BitSet.WF bm' ∧
      (∀ v, raw bm v = true → raw bm' v = true) ∧ (∀ v ∈ new, g.present v = true ∧ raw bm' v = true) ∧
      (∀ v, new.count v ≤ 1) ∧ (∀ v, raw bm v = true → new.count v = 0) := by
  intro is
  induction is with
  | nil => intro _ bm pending h; exact ⟨bm, [], by simp [push], h, fun _ h => h, (fun v hv => nomatch hv), by simp, by simp⟩
  | cons i is ih =>
    intro hp bm pending h
    obtain ⟨bm1, e1, h1, h2⟩ := setBit_raw bm h i
    have hpi := hp i (List.mem_cons_self ..)
    have hp' := fun j hj => hp j (List.mem_cons_of_mem _ hj)
    show ∃ bm' new, (setBit bm i >>= _) = _ ∧ _
    rw [e1, Res.bind_ok]
    have hmono : ∀ v, raw bm v = true → raw bm1 v = true := fun v hv => by rw [h2, hv, Bool.or_true]
    have hi1 : raw bm1 i = true := by rw [h2]; simp
    by_cases hr : raw bm i = true
    · obtain ⟨bm', new, q1, q2, q3, q4, q5, q6⟩ := ih hp' bm1 pending h1
      refine ⟨bm', new, ?_, q2, fun v hv => q3 v (hmono v hv), q4, q5, fun v hv => q6 v (hmono v hv)⟩
      dsimp only
      rw [hr]
      exact q1
    · obtain ⟨bm', new, q1, q2, q3, q4, q5, q6⟩ := ih hp' bm1 (pending ++ [i]) h1
      have hi0 := q6 i hi1
      refine ⟨bm', i :: new, ?_, q2, fun v hv => q3 v (hmono v hv), ?_, ?_, ?_⟩
      · dsimp only
        rw [show (!raw bm i) = true by simpa using hr, if_pos rfl, needNode_ok hg hpi, Res.bind_ok, q1]
        simp
      · intro v hv
        rcases List.mem_cons.1 hv with q | q
        · subst q; exact ⟨hpi, q3 v hi1⟩
        · exact q4 v q
      · intro v
        rw [List.count_cons]
        by_cases q : i = v
        · subst q; rw [hi0]; simp
        · have := q5 v; simp [q]; exact this
      · intro v hv
        rw [List.count_cons, q6 v (hmono v hv)]
        by_cases q : i = v
        · subst q; exact absurd hv hr
        · simp [q]

/-- What a round adds to `pending`. -/
structure Added (g : Graph) (bm bm' : BS) (new : List Nat) : Prop where
  wf : BitSet.WF bm'
  mono : ∀ v, raw bm v = true → raw bm' v = true
  mem : ∀ v ∈ new, g.present v = true ∧ raw bm' v = true
  once : ∀ v, new.count v ≤ 1
  fresh : ∀ v, raw bm v = true → new.count v = 0

theorem Added.nil (g : Graph) {bm : BS} (h : BitSet.WF bm) : Added g bm bm [] :=
  ⟨h, fun _ h => h, (fun v hv => nomatch hv), by simp, by simp⟩

theorem Added.append {g : Graph} {a b c : BS} {l m : List Nat} (h : Added g a b l) (k : Added g b c m) :
    Added g a c (l ++ m) := by
  refine ⟨k.wf, fun v hv => k.mono v (h.mono v hv), ?_, ?_, ?_⟩
  · intro v hv
    rcases List.mem_append.1 hv with q | q
    · exact ⟨(h.mem v q).1, k.mono v (h.mem v q).2⟩
    · exact k.mem v q
  · intro v
    rw [List.count_append]
    by_cases hv : v ∈ l
    · rw [k.fresh v (h.mem v hv).2]; exact h.once v
    · rw [List.count_eq_zero.2 hv, Nat.zero_add]; exact k.once v
  · intro v hv
    rw [List.count_append, h.fresh v hv, k.fresh v (h.mono v hv)]

theorem visit_spec (hg : WF g) (first : Bool) (b : Nat) (s : σ) (bm : BS) (pending : List Nat) (h : BitSet.WF bm) :
    ∃ s' bm' new, visit cb g forward first b s bm pending = .ok (s', bm', pending ++ new) ∧ Added g bm bm' new := by
  have hnil : ∀ s', ∃ s'' bm' new, (Res.ok (s', bm, pending) : Res (σ × BS × List Nat)) = .ok (s'', bm', pending ++ new) ∧
      Added g bm bm' new := fun s' => ⟨s', bm, [], by simp, Added.nil g h⟩
  have hp : ∀ i ∈ (if forward then g.succs b else g.preds b), g.present i = true := by
    intro i hi
    cases forward with
    | true => exact (hg.ends b i hi).2
    | false => exact (hg.ends i b ((hg.sync i b).2 hi)).1
  unfold visit
  dsimp only
  generalize (if (if forward then g.preds b else g.succs b).isEmpty then ((cb.join none b true s).1, first)
    else ((cb.join none b false s).1, first || (cb.join none b false s).2)) = x
  obtain ⟨s1, c⟩ := x
  cases c with
  | false => exact hnil s1
  | true =>
    dsimp only
    rw [if_pos rfl]
    by_cases ht : (cb.transfer none b s1).2 = true
    · rw [if_pos ht]
      obtain ⟨bm', new, q1, q2, q3, q4, q5, q6⟩ := push_spec hg _ hp bm pending h
      rw [q1]
      exact ⟨_, bm', new, rfl, ⟨q2, q3, q4, q5, q6⟩⟩
    · rw [if_neg ht]
      exact hnil _

theorem round_spec (hg : WF g) (first : Bool) : ∀ (bs : List Nat) (s : σ) (bm : BS) (pending : List Nat), BitSet.WF bm →
    ∃ s' bm' new, round cb g forward first bs s bm pending = .ok (s', bm', pending ++ new) ∧ Added g bm bm' new := by
  intro bs
  induction bs with
  | nil => intro s bm pending h; exact ⟨s, bm, [], by simp [round], Added.nil g h⟩
  | cons b bs ih =>
    intro s bm pending h
    obtain ⟨s1, bm1, new1, e1, a1⟩ := visit_spec cb (forward := forward) hg first b s bm pending h
    obtain ⟨s2, bm2, new2, e2, a2⟩ := ih s1 bm1 (pending ++ new1) a1.wf
    refine ⟨s2, bm2, new1 ++ new2, ?_, a1.append a2⟩
    show (visit cb g forward first b s bm pending >>= _) = _
    rw [e1, Res.bind_ok]
    dsimp only
    rw [e2, List.append_assoc]

/-- The number of nodes not yet marked. -/
def unmarked (g : Graph) (bm : BS) : Nat := (List.range g.allocated).countP fun v => g.present v && !raw bm v

theorem loop_spec (hg : WF g) {srt : List Nat → List Nat} (hsrt : ∀ l, (srt l).Perm l) :
    ∀ (fuel : Nat) (first : Bool) (work : List Nat) (s : σ) (bm : BS) (log : List Nat), BitSet.WF bm →
    (∀ v, log.count v + work.count v ≤ 2) → (∀ v, raw bm v = false → log.count v + work.count v ≤ 1) →
    unmarked g bm + 2 ≤ fuel ∨ (work = [] ∧ 1 ≤ fuel) →
    ∃ s' log', loop cb g forward srt fuel first work s bm log = .ok (s', log') ∧ ∀ v, log'.count v ≤ 2 := by
  intro fuel
  induction fuel with
  | zero => intro _ _ _ _ _ _ _ _ h; omega
  | succ fuel ih =>
    intro first work s bm log hb h2 h1 hf
    unfold loop
    by_cases hw : work.isEmpty = true
    · rw [if_pos hw]
      exact ⟨s, log, rfl, fun v => by have := h2 v; omega⟩
    · rw [if_neg hw]
      dsimp only
      have hwne : work ≠ [] := fun e => hw (by rw [e]; rfl)
      have hf : unmarked g bm + 2 ≤ fuel + 1 := by
        rcases hf with h | h
        · exact h
        · exact absurd h.1 hwne
      have hcb : BitSet.WF (clear bm) := (clear_correct bm hb).1
      obtain ⟨s', bm', new, e, a⟩ := round_spec cb (forward := forward) hg first (srt work) s (clear bm) [] hcb
      rw [e, Res.bind_ok]
      dsimp only
      rw [List.nil_append]
      have hraw : ∀ v, raw (clear bm) v = raw bm v := fun v => rfl
      refine ih false new s' bm' (log ++ srt work) a.wf ?_ ?_ ?_
      · intro v
        rw [List.count_append, (hsrt work).count_eq v]
        cases hr : raw bm v with
        | true => rw [a.fresh v (by rw [hraw, hr]), Nat.add_zero]; exact h2 v
        | false => have := h1 v hr; have := a.once v; omega
      · intro v hv
        rw [List.count_append, (hsrt work).count_eq v]
        have hr : raw bm v = false := by
          cases hr : raw bm v with
          | false => rfl
          | true => rw [a.mono v (by rw [hraw, hr])] at hv; exact Bool.noConfusion hv
        have hn : new.count v = 0 := List.count_eq_zero.2 fun hm => by
          rw [(a.mem v hm).2] at hv; exact Bool.noConfusion hv
        rw [hn, Nat.add_zero]; exact h1 v hr
      · cases new with
        | nil => exact Or.inr ⟨rfl, by omega⟩
        | cons x xs =>
          refine Or.inl ?_
          have hx := a.mem x (List.mem_cons_self ..)
          have hx0 : raw bm x = false := by
            cases hr : raw bm x with
            | false => rfl
            | true =>
              have := a.fresh x (by rw [hraw, hr])
              rw [List.count_cons_self] at this; omega
          have := countP_lt (p := fun v => g.present v && !raw bm v) (q := fun v => g.present v && !raw bm' v)
            (l := List.range g.allocated) (a := x) (by
              intro y _ hy
              simp only [Bool.and_eq_true, Bool.not_eq_true'] at hy ⊢
              refine ⟨hy.1, ?_⟩
              cases hr : raw bm y with
              | false => rfl
              | true => have := a.mono y (by rw [hraw, hr]); rw [this] at hy; exact Bool.noConfusion hy.2)
            (List.mem_range.2 (hg.bound x hx.1)) (by simp [hx.1, hx0]) (by simp [hx.2])
          unfold unmarked at hf ⊢
          omega

theorem initial_ok (hg : WF g) : ∀ l : List Nat, (∀ i ∈ l, g.present i = true) → initial g l = .ok () := by
  intro l
  induction l with
  | nil => intro _; rfl
  | cons i l ih =>
    intro h
    show (needNode g i >>= _) = _
    rw [needNode_ok hg (h i (List.mem_cons_self ..)), Res.bind_ok]
    exact ih fun j hj => h j (List.mem_cons_of_mem _ hj)

/-- For every graph with contiguous identifiers, all callbacks and both directions the solver ends,
and no node is handled more than twice.  Missing from the claim: that the result is stable, which is
false (`solve_unstable`). -/
theorem solve_ends_partial (hg : WF g) (hdense : ∀ i, i < size g → g.present i = true)
    {srt : List Nat → List Nat} (hsrt : ∀ l, (srt l).Perm l) (u : U) (s : σ) :
    ∃ s' log, solve cb g forward srt u s = .ok (s', log) ∧ ∀ v, log.count v ≤ 2 := by
  have hcr := create_correct 512
  have hraw : ∀ v, raw (create 512) v = false := by
    intro v
    unfold raw create wd
    dsimp only
    rw [List.getElem?_replicate]
    split <;> simp
  have hcount : ∀ v, (List.range (size g)).count v ≤ 1 := fun v => List.nodup_iff_count.1 List.nodup_range v
  unfold solve
  rw [initial_ok hg _ fun i hi => hdense i (List.mem_range.1 hi), Res.bind_ok]
  refine loop_spec cb hg hsrt _ true _ s (create 512) [] hcr.1 ?_ ?_ (Or.inl ?_)
  · intro v; have := hcount v; simp only [List.count_nil]; omega
  · intro v _; have := hcount v; simp only [List.count_nil]; omega
  · have : unmarked g (create 512) ≤ size g := by
      apply countP_le
      intro x _ hx
      simp only [Bool.and_eq_true] at hx
      exact hx.1
    omega

end

/-! ### The result need not be stable -/

/-- "Which nodes have been passed on the way here": `in` is the union over the predecessors of `out`,
and `out` is `in` with the node added.  Sets of nodes are numbers; the state is `(in, out)`. -/
def passed (g : Graph) : Callbacks Unit ((Nat → Nat) × (Nat → Nat)) where
  join := fun _ b init s =>
    let x := if init then 0 else (g.preds b).foldl (fun a p => a ||| s.2 p) 0
    ((Graph.upd s.1 b x, s.2), x != s.1 b)
  transfer := fun _ b s =>
    let x := s.1 b ||| (1 <<< b)
    ((s.1, Graph.upd s.2 b x), x != s.2 b)

/-- Insertion by the key `rpost`, in the order the solver asks for a forward problem (largest first). -/
def insertBy (key : Nat → Nat) (x : Nat) : List Nat → List Nat
  | [] => [x]
  | y :: ys => if key y ≤ key x then x :: y :: ys else y :: insertBy key x ys

/-- Sorting by insertion. -/
def sortBy (key : Nat → Nat) (l : List Nat) : List Nat := l.foldr (insertBy key) []

theorem insertBy_perm (key : Nat → Nat) (x : Nat) : ∀ l, (insertBy key x l).Perm (x :: l) := by
  intro l
  induction l with
  | nil => exact List.Perm.refl _
  | cons y ys ih =>
    unfold insertBy
    split
    · exact List.Perm.refl _
    · exact (ih.cons y).trans (List.Perm.swap ..)

theorem sortBy_perm (key : Nat → Nat) : ∀ l, (sortBy key l).Perm l := by
  intro l
  induction l with
  | nil => exact List.Perm.refl _
  | cons y ys ih => exact (insertBy_perm key y _).trans (ih.cons y)

/-- On the chain 0 → 1 → 2 → 3 the solver stops with node 3 knowing only of 2 and itself; joining
once more at 3 would still change it. -/
theorem solve_unstable :
    ∃ g st' s log, run [.add 0 1, .add 1 2, .add 2 3] (init 0 3) = .ok g ∧ WF g ∧
      classify g ⟨fun _ => 0, fun _ => 0, fun _ _ => .unclassified, 0, 0⟩ = .ok st' ∧
      solve (passed g) g true (sortBy st'.rpost) () (fun _ => 0, fun _ => 0) = .ok (s, log) ∧
      s.2 3 = 1 <<< 2 ||| 1 <<< 3 ∧ ((passed g).join none 3 false s).2 = true := by
  have h : ∃ g, run [.add 0 1, .add 1 2, .add 2 3] (init 0 3) = .ok g := ⟨_, rfl⟩
  obtain ⟨g, hg⟩ := h
  have h : (run [.add 0 1, .add 1 2, .add 2 3] (init 0 3) >>= fun g =>
      classify g ⟨fun _ => 0, fun _ => 0, fun _ _ => .unclassified, 0, 0⟩ >>= fun st' =>
      solve (passed g) g true (sortBy st'.rpost) () (fun _ => 0, fun _ => 0) >>= fun r =>
      Res.ok (r.1.2 3, ((passed g).join none 3 false r.1).2)) = .ok (12, true) := by decide +kernel
  rw [hg, Res.bind_ok, Res.bind_eq_ok] at h
  obtain ⟨st', h1, h⟩ := h
  rw [Res.bind_eq_ok] at h
  obtain ⟨⟨s, log⟩, h2, h⟩ := h
  injection h with h
  simp only [Prod.mk.injEq] at h
  exact ⟨g, st', s, log, hg, (run_spec _ _ _ (init_correct 0 3).1 hg).1, h1, h2, h.1, h.2⟩

/-- That graph meets the hypotheses of `solve_ends_partial`. -/
example : ∃ g, run [.add 0 1, .add 1 2, .add 2 3] (init 0 3) = .ok g ∧ WF g ∧ size g = 4 ∧
    ∀ i, i < size g → g.present i = true := by
  have h : ∃ g, run [.add 0 1, .add 1 2, .add 2 3] (init 0 3) = .ok g := ⟨_, rfl⟩
  obtain ⟨g, hg⟩ := h
  have e : (run [.add 0 1, .add 1 2, .add 2 3] (init 0 3) >>= fun g =>
      Res.ok (size g, g.present 0, g.present 1, g.present 2, g.present 3)) = .ok (4, true, true, true, true) := rfl
  rw [hg] at e
  injection e with e
  simp only [Prod.mk.injEq] at e
  refine ⟨g, hg, (run_spec _ _ _ (init_correct 0 3).1 hg).1, e.1, ?_⟩
  intro i hi
  have : i = 0 ∨ i = 1 ∨ i = 2 ∨ i = 3 := by omega
  rcases this with q | q | q | q <;> subst q <;> simp [e]

/-- The user data given to the solver never reaches the callbacks. -/
theorem userdata_lost {U σ : Type} (j : Option U → Nat → Bool → σ → σ × Bool) (t : Option U → Nat → σ → σ × Bool)
    (g : Graph) (forward : Bool) (srt : List Nat → List Nat) (u : U) (s : σ) :
    solve ⟨j, t⟩ g forward srt u s = solve ⟨fun _ => j none, fun _ => t none⟩ g forward srt u s := by
  have hv : ∀ first b s bm p, visit ⟨j, t⟩ g forward first b s bm p =
      visit (U := U) ⟨fun _ => j none, fun _ => t none⟩ g forward first b s bm p := fun _ _ _ _ _ => rfl
  have hr : ∀ first bs s bm p, round ⟨j, t⟩ g forward first bs s bm p =
      round (U := U) ⟨fun _ => j none, fun _ => t none⟩ g forward first bs s bm p := by
    intro first bs
    induction bs with
    | nil => intro s bm p; rfl
    | cons b bs ih =>
      intro s bm p
      unfold round
      rw [hv]
      congr 1
      funext r
      exact ih _ _ _
  have hl : ∀ fuel first w s bm log, loop ⟨j, t⟩ g forward srt fuel first w s bm log =
      loop (U := U) ⟨fun _ => j none, fun _ => t none⟩ g forward srt fuel first w s bm log := by
    intro fuel
    induction fuel with
    | zero => intros; rfl
    | succ fuel ih =>
      intro first w s bm log
      unfold loop
      dsimp only
      rw [hr]
      split
      · rfl
      · congr 1
        funext r
        exact ih _ _ _ _ _
  unfold solve
  rw [hl]

end Verif.Dataflow
