import Verif.Stat.Model
import Verif.Assign.Props
/-! Statements for which the code generator is the same without its short cut (see C74). -/
namespace Verif.Stat
open Verif.ExpCode
open Verif.Fold (FOps)

/-- a condition that may be false, as far as the code generator knows, or is a literal -/
def condF (c : E) : Prop :=
  c.tame ∧ (c.may .f = true ∨ c = .tru ∨ (∃ i, c = .int i) ∨ (∃ x, c = .flt x) ∨ ∃ b, c = .str b)

/-- a condition that may be true, or is a literal -/
def condT (c : E) : Prop := c.tame ∧ (c.may .t = true ∨ c = .nil ∨ c = .fls)

/-- All expressions are tame, and conditions may be false (before a goto: true) or are literals. -/
def S.tame : S → Prop
  | .loc _ es | .ret es => ∀ e ∈ es, e.tame
  | .locc _ as | .retc as => as.tame
  | .assignc vs as => (∀ v ∈ vs, v.tame) ∧ as.tame
  | .assign vs es e => (∀ v ∈ vs, v.tame) ∧ ∀ e' ∈ es ++ [e], e'.tame
  | .goto _ | .label _ | .nil | .fi => True
  | .do_ b | .els b | .if_ b | .forin _ b => b.tame
  | .while_ c b => condF c ∧ b.tame
  | .repeat_ b c => condF c ∧ b.tame
  | .for_ e1 e2 e3 b => e1.tame ∧ e2.tame ∧ e3.tame ∧ b.tame
  | .cons s rest => s.tame ∧ rest.tame
  | .test c b rest => (match b with | .cons (.goto _) _ => condT c | _ => condF c) ∧ b.tame ∧ rest.tame

variable {F : FOps}

theorem gen_condF {c : E} (h : condF c) {s s1 : FS} {d : D} (hg : gen F true c s = .ok (s1, d)) :
    hasF d.dtm ∨ d.kind = .tru ∨ (∃ i, d.kind = .kint i) ∨ (∃ x, d.kind = .kflt x) ∨ ∃ i, d.kind = .k i := by
  rcases h.2 with h | rfl | ⟨i, rfl⟩ | ⟨x, rfl⟩ | ⟨b, rfl⟩
  · exact Or.inl ((gen_tm _ _ _ _ hg).2.1 h)
  · simp only [gen] at hg; cases hg; exact Or.inr (Or.inl rfl)
  · simp only [gen] at hg; cases hg; exact Or.inr (Or.inr (Or.inl ⟨_, rfl⟩))
  · simp only [gen] at hg; cases hg; exact Or.inr (Or.inr (Or.inr (Or.inl ⟨_, rfl⟩)))
  · simp only [gen] at hg; cases hg; exact Or.inr (Or.inr (Or.inr (Or.inr ⟨_, rfl⟩)))

theorem condIf_tame {c : E} (h : condF c) (s : FS) : condIf F false c s = condIf F true c s := by
  unfold condIf
  rw [gen_tame _ _ h.1]
  refine bind_congr_ok fun p e => ?_
  obtain ⟨s1, d⟩ := p
  dsimp only
  rw [goiftrue_same (gen_condF h e)]

theorem cond_tame {c : E} (h : condF c) (s : FS) : cond F false c s = cond F true c s := by
  unfold cond
  rw [gen_tame _ _ h.1]
  refine bind_congr_ok fun p e => ?_
  obtain ⟨s1, d⟩ := p
  dsimp only
  have := gen_condF h e
  split
  · rename_i hk
    have : goiftrue false s1 { d with kind := .fls } = goiftrue true s1 { d with kind := .fls } := by
      rcases this with h1 | h1 | ⟨_, h1⟩ | ⟨_, h1⟩ | ⟨_, h1⟩
      · refine goiftrue_same (Or.inl ?_)
        have e2 : D.dtm { d with kind := .fls } = d.dtm := by unfold D.dtm; rw [hk]
        rw [e2]; exact h1
      all_goals rw [hk] at h1; cases h1
    rw [this]
  · rw [goiftrue_same this]

theorem condGoto_tame {c : E} (h : condT c) (s : FS) : condGoto F false c s = condGoto F true c s := by
  unfold condGoto
  rw [gen_tame _ _ h.1]
  refine bind_congr_ok fun p e => ?_
  obtain ⟨s1, d⟩ := p
  dsimp only
  rw [goiffalse_same]
  rcases h.2 with h | rfl | rfl
  · exact Or.inl ((gen_tm _ _ _ _ e).2.2 h)
  · simp only [gen] at e; cases e; exact Or.inr (Or.inl rfl)
  · simp only [gen] at e; cases e; exact Or.inr (Or.inr rfl)

theorem gs_tame2 (s : S) : (s.tame → ∀ u g, gs F false u s g = gs F true u s g) ∧
    ∀ l b, s = .cons (.goto l) b → b.tame → ∀ u g, gs F false u b g = gs F true u b g := by
  induction s with
  | loc n es =>
    refine ⟨fun h u g => ?_, fun _ _ h => nomatch h⟩
    simp only [gs, localstat]
    rw [genList_tame]
    intro e he
    rcases List.mem_append.1 he with he | he
    · exact h e he
    · rw [List.eq_of_mem_replicate he]; exact trivial
  | assign vs es e => exact ⟨fun h u g => by simp only [gs]; rw [Assign.assignment_tame _ h.1 h.2], fun _ _ h => nomatch h⟩
  | locc n as => exact ⟨fun h u g => by simp only [gs, localMulti]; rw [genMulti_tame _ _ _ h], fun _ _ h => nomatch h⟩
  | assignc vs as => exact ⟨fun h u g => by simp only [gs]; rw [Assign.assignMulti_tame _ h.1 h.2], fun _ _ h => nomatch h⟩
  | retc as => exact ⟨fun h u g => by simp only [gs, retMulti]; rw [args_tame _ _ h], fun _ _ h => nomatch h⟩
  | goto l => exact ⟨fun h u g => by simp only [gs], fun _ _ h => nomatch h⟩
  | label l => exact ⟨fun h u g => by simp only [gs], fun _ _ h => nomatch h⟩
  | do_ b ih => exact ⟨fun h u g => by simp only [gs, ih.1 h], fun _ _ h => nomatch h⟩
  | while_ c b ih => exact ⟨fun h u g => by simp only [gs, ih.1 h.2, cond_tame h.1], fun _ _ h => nomatch h⟩
  | repeat_ b c ih => exact ⟨fun h u g => by simp only [gs, ih.1 h.2, cond_tame h.1], fun _ _ h => nomatch h⟩
  | if_ p ih => exact ⟨fun h u g => by simp only [gs, ih.1 h], fun _ _ h => nomatch h⟩
  | for_ e1 e2 e3 b ih =>
    refine ⟨fun h u g => ?_, fun _ _ h => nomatch h⟩
    have : ∀ s, forhead F false e1 e2 e3 s = forhead F true e1 e2 e3 s := by
      intro s
      unfold forhead
      rw [genList_tame]
      intro e he
      rcases List.mem_cons.1 he with rfl | he
      · exact h.1
      rcases List.mem_cons.1 he with rfl | he
      · exact h.2.1
      rcases List.mem_cons.1 he with rfl | he
      · exact h.2.2.1
      · cases he
    simp only [gs, ih.1 h.2.2.2, this]
  | forin n b ih => exact ⟨fun h u g => by simp only [gs, ih.1 h], fun _ _ h => nomatch h⟩
  | ret es =>
    refine ⟨fun h u g => ?_, fun _ _ h => nomatch h⟩
    simp only [gs]
    have : retstat F false es g.fs = retstat F true es g.fs := by
      unfold retstat
      split
      · rw [gen_tame _ _ (h _ (List.mem_singleton.2 rfl))]
      · rw [genList_tame _ _ h]
    rw [this]
  | nil => exact ⟨fun h u g => by simp only [gs], fun _ _ h => nomatch h⟩
  | cons s rest ih1 ih2 =>
    refine ⟨fun h u g => ?_, fun _ _ h hb => by cases h; exact ih2.1 hb⟩
    simp only [gs, ih1.1 h.1, ih2.1 h.2]
  | test c b rest ih1 ih2 =>
    refine ⟨fun h u g => ?_, fun _ _ h => nomatch h⟩
    by_cases hb : ∃ l b', b = .cons (.goto l) b'
    · obtain ⟨l, b', rfl⟩ := hb
      rw [gs, gs]
      simp only [ih1.2 l b' rfl h.2.1.2, ih2.1 h.2.2, condGoto_tame h.1]
    · have hc : condF c := by
        have := h.1
        split at this
        · rename_i l b'; exact absurd ⟨l, b', rfl⟩ hb
        · exact this
      have e : ∀ fixed, gs F fixed u (.test c b rest) g = (do
          let (s, jf) ← condIf F fixed c g.fs
          let (i, _) ← gs F fixed false b (enter s)
          let g ← leave false i g
          let (g, j) := testend rest.isFi jf g
          let (g, esc) ← gs F fixed false rest g
          return (g, j ++ esc)) := by
        intro fixed
        rw [gs]
        exact fun l b' e => hb ⟨l, b', e⟩
      rw [e, e]
      simp only [ih1.1 h.2.1, ih2.1 h.2.2, condIf_tame hc]
  | els b ih => exact ⟨fun h u g => by simp only [gs, ih.1 h], fun _ _ h => nomatch h⟩
  | fi => exact ⟨fun h u g => by simp only [gs], fun _ _ h => nomatch h⟩

theorem genFunc_tame {n : Nat} {b : S} (h : b.tame) : genFunc F false n b = genFunc F true n b := by
  unfold genFunc
  rw [(gs_tame2 b).1 h]

end Verif.Stat
