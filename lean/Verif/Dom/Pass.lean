import Verif.Dom.Tree
import Verif.Graph.Props

/-! One pass over the nodes, and why the passes come to an end. -/
namespace Verif.Dom
open Verif.Graph

/-- The array as node `b` finds it during a pass from `S` to `T`: smaller numbers are done. -/
def mix (rpo : Nat → Nat) (S T : Nat → Option Nat) (b : Nat) : Nat → Option Nat :=
  fun x => if rpo x < rpo b then T x else S x

/-- What a pass does. -/
structure PassRel (N : Nat) (preds : Nat → List Nat) (rpo : Nat → Nat) (S T : Nat → Option Nat) : Prop where
  ok : OK N rpo T
  out : ∀ x, N ≤ x → T x = S x
  new : ∀ b, b < N → b ≠ 0 → ∃ d, T b = some d ∧ d < N ∧ rpo d < rpo b ∧ IsMeet preds (mix rpo S T b) b d

theorem PassRel.total {N : Nat} {preds : Nat → List Nat} {rpo : Nat → Nat} {S T : Nat → Option Nat}
    (h : PassRel N preds rpo S T) {x : Nat} (hx : x < N) : T x ≠ none := by
  by_cases h0 : x = 0
  · rw [h0, h.ok.root]; simp
  · obtain ⟨d, hd, _⟩ := h.new x hx h0
    rw [hd]; simp

theorem mix_ok {N : Nat} {preds : Nat → List Nat} {rpo : Nat → Nat} {S T : Nat → Option Nat} (hS : OK N rpo S)
    (h : PassRel N preds rpo S T) (b : Nat) : OK N rpo (mix rpo S T b) := by
  refine ⟨?_, ?_⟩
  · unfold mix; split
    · exact h.ok.root
    · exact hS.root
  · intro x z h0 hx
    unfold mix at hx ⊢
    by_cases c : rpo x < rpo b
    · rw [if_pos c] at hx
      obtain ⟨a1, a2, a3, a4⟩ := h.ok.edge x z h0 hx
      rw [if_pos (by omega)]
      exact ⟨a1, a2, a3, a4⟩
    · rw [if_neg c] at hx
      obtain ⟨a1, a2, a3, a4⟩ := hS.edge x z h0 hx
      refine ⟨a1, a2, a3, ?_⟩
      split
      · exact h.total a2
      · exact a4

section
variable {N : Nat} {preds : Nat → List Nat} {rpo : Nat → Nat}

theorem mix_lo {S T : Nat → Option Nat} (hS : OK N rpo S) (h : PassRel N preds rpo S T) {b x y : Nat}
    (hx : rpo x < rpo b) : Anc (mix rpo S T b) x y ↔ Anc T x y := by
  constructor
  · intro k
    exact anc_congr (mix_ok hS h b) (B := rpo b) (fun z hz => by unfold mix; rw [if_pos hz]) k hx
  · intro k
    exact anc_congr h.ok (B := rpo b) (fun z hz => by unfold mix; rw [if_pos hz]) k hx

/-- Below every node of the tree lies the chain of a predecessor with a smaller number. -/
def TP (preds : Nat → List Nat) (rpo : Nat → Nat) (S : Nat → Option Nat) : Prop :=
  ∀ x d, x ≠ 0 → S x = some d → ∀ p ∈ preds x, rpo p < rpo x → S p ≠ none ∧ Anc S p d

theorem PassRel.tp (hC : Ctx N preds rpo) {S T : Nat → Option Nat} (hS : OK N rpo S) (h : PassRel N preds rpo S T) :
    TP preds rpo T := by
  intro x d h0 hx p hp hlt
  have hxN := (h.ok.edge x d h0 hx).1
  have hpN := hC.rng x p hp
  refine ⟨h.total hpN, ?_⟩
  obtain ⟨d', e1, e2, e3, e4⟩ := h.new x hxN h0
  rw [hx] at e1; injection e1 with e1; subst e1
  have := e4.1 p hp (by unfold mix; rw [if_pos hlt]; exact h.total hpN)
  exact (mix_lo hS h hlt).1 this

/-- A node that had `z` on its chain and keeps a smaller `y` has it below `z`. -/
theorem no_regain (hC : Ctx N preds rpo) {R S : Nat → Option Nat} (hR : OK N rpo R) (tR : TP preds rpo R)
    (hRS : PassRel N preds rpo R S) (tS : TP preds rpo S) :
    ∀ k p, rpo p ≤ k → p < N → R p ≠ none → ∀ z y, Anc R p z → Anc S p y → rpo y ≤ rpo z → Anc S z y := by
  intro k
  induction k with
  | zero =>
    intro p hk hp hd z y hz hy hle
    have hp0 : p = 0 := by
      by_cases h0 : p = 0
      · exact h0
      · have := root_min hC hp h0; omega
    subst hp0
    rw [anc_zero hz]; exact hy
  | succ k ih =>
    intro p hk hp hd z y hz hy hle
    by_cases hzp : z = p
    · subst hzp; exact hy
    · by_cases h0 : p = 0
      · subst h0; exact absurd (anc_zero hz) hzp
      · cases hRp : R p with
        | none => exact absurd hRp hd
        | some d =>
          have hzlt : rpo z < rpo p := by
            rcases anc_rpo hR hz with e | e
            · exact absurd e.symm hzp
            · exact e
          obtain ⟨q, hq1, hq2⟩ := hC.par p hp h0
          obtain ⟨q3, q4⟩ := tR p d h0 hRp q hq1 hq2
          have hz' : Anc R q z := q4.trans (anc_tail hz hRp hzp)
          obtain ⟨d', e1, _⟩ := hRS.new p hp h0
          have hyp : y ≠ p := by intro e; subst e; omega
          have hy' : Anc S q y := (tS p d' h0 e1 q hq1 hq2).2.trans (anc_tail hy e1 hyp)
          exact ih q (by omega) (hC.rng p q hq1) q3 z y hz' hy' hle

/-- The first node below `b` on the chain of `p` in the previous array. -/
theorem first_below {R S : Nat → Option Nat} (hR : OK N rpo R) {b p y : Nat}
    (h : Anc R p y) : rpo b ≤ rpo p → rpo y < rpo b →
    ∃ z, rpo z < rpo b ∧ rpo y ≤ rpo z ∧ Anc R p z ∧ Anc (mix rpo R S b) p z := by
  induction h with
  | refl => intro h1 h2; omega
  | @step x w y h1 h2 h3 ih =>
    intro hb hy
    have hm : mix rpo R S b x = some w := by
      unfold mix; rw [if_neg (by omega)]; exact h2
    by_cases hw : rpo w < rpo b
    · refine ⟨w, hw, ?_, .step h1 h2 (.refl _), .step h1 hm (.refl _)⟩
      rcases anc_rpo hR h3 with e | e
      · rw [e]; exact Nat.le_refl _
      · omega
    · obtain ⟨z, z1, z2, z3, z4⟩ := ih (by omega) hy
      exact ⟨z, z1, z2, .step h1 h2 z3, .step h1 hm z4⟩

/-- From the second pass on, chains only shrink. -/
theorem mono_step (hC : Ctx N preds rpo) {R S T : Nat → Option Nat} (hR : OK N rpo R) (tR : TP preds rpo R)
    (hRS : PassRel N preds rpo R S) (hmono : ∀ b, R b ≠ none → ∀ y, Anc S b y → Anc R b y)
    (hST : PassRel N preds rpo S T) : ∀ b, b < N → ∀ y, Anc T b y → Anc S b y := by
  have hS := hRS.ok
  have tS : TP preds rpo S := hRS.tp hC hR
  have main : ∀ k b, rpo b ≤ k → b < N → ∀ y, Anc T b y → Anc S b y := by
    intro k
    induction k with
    | zero =>
      intro b hk hb y hy
      have hb0 : b = 0 := by
        by_cases h0 : b = 0
        · exact h0
        · have := root_min hC hb h0; omega
      subst hb0
      rw [anc_zero hy]; exact .refl _
    | succ k ih =>
      intro b hk hb y hy
      by_cases hyb : y = b
      · subst hyb; exact .refl _
      · by_cases h0 : b = 0
        · subst h0; exact absurd (anc_zero hy) hyb
        · obtain ⟨d, d1, d2, d3, d4⟩ := hST.new b hb h0
          obtain ⟨e, e1, e2, e3, e4⟩ := hRS.new b hb h0
          have hdy : Anc T d y := anc_tail hy d1 hyb
          have hylt : rpo y < rpo b := by
            rcases anc_rpo hST.ok hdy with h | h
            · rw [← h]; exact d3
            · omega
          have hdy' : Anc (mix rpo S T b) d y := (mix_lo hS hST d3).2 hdy
          refine .step h0 e1 ((mix_lo hR hRS e3).1 (e4.2 y ?_))
          intro p hp hpd
          have hpN := hC.rng b p hp
          by_cases hlt : rpo p < rpo b
          · have h1 : Anc (mix rpo S T b) p y :=
              (d4.1 p hp (by unfold mix; rw [if_pos hlt]; exact hST.total hpN)).trans hdy'
            exact (mix_lo hR hRS hlt).2 (ih p (by omega) hpN y ((mix_lo hS hST hlt).1 h1))
          · have hRp : R p ≠ none := by
              unfold mix at hpd; rw [if_neg hlt] at hpd; exact hpd
            have h1 : Anc (mix rpo S T b) p y :=
              (d4.1 p hp (by unfold mix; rw [if_neg hlt]; exact hRS.total hpN)).trans hdy'
            -- walking up in the mixed array is walking up in `S`
            have walk : ∀ x y, Anc (mix rpo S T b) x y → ¬ rpo x < rpo b → Anc S x y := by
              clear hy hyb hdy hylt hdy' h1
              intro x y hx
              induction hx with
              | refl => intro _; exact .refl _
              | @step x w y' w1 w2 w3 iw =>
                intro hge
                have w2' : S x = some w := by unfold mix at w2; rw [if_neg hge] at w2; exact w2
                refine .step w1 w2' ?_
                by_cases hw : rpo w < rpo b
                · exact ih w (by omega) (hS.edge x w w1 w2').2.1 _ ((mix_lo hS hST hw).1 w3)
                · exact iw hw
            have hSp : Anc S p y := walk p y h1 hlt
            have hRpy : Anc R p y := hmono p hRp y hSp
            obtain ⟨z, z1, z2, z3, z4⟩ := first_below (S := S) hR hRpy (by omega) hylt
            have hzy : Anc S z y := no_regain hC hR tR hRS tS _ p (Nat.le_refl _) hpN hRp z y z3 hSp z2
            exact z4.trans ((mix_lo hR hRS z1).2 hzy)
  intro b hb y hy
  exact main _ b (Nat.le_refl _) hb y hy

/-! ### One pass of the program -/

theorem pass_spec {g : Graph} (hpreds : g.preds = preds) (hC : Ctx N preds rpo)
    (hnode : ∀ i, i < N → needNode g i = .ok ()) {fuel : Nat}
    (hfuel : ∀ i j, i < N → j < N → rpo i + rpo j < fuel) {S : Nat → Option Nat} :
    ∀ (l2 l1 : List Nat) (T : Nat → Option Nat) (ch : Bool),
    (∀ x, x < N ↔ x ∈ l1 ++ l2) → (l1 ++ l2).Pairwise (fun a b => rpo a < rpo b) → OK N rpo T →
    (∀ x, x ∉ l1 → T x = S x) →
    (∀ b, b ∈ l1 → b ≠ 0 → ∃ d, T b = some d ∧ d < N ∧ rpo d < rpo b ∧ IsMeet preds (mix rpo S T b) b d) →
    (ch = true ↔ ∃ x, T x ≠ S x) →
    ∃ T' ch', pass g N rpo fuel l2 T ch = .ok (T', ch') ∧ PassRel N preds rpo S T' ∧
      (ch' = true ↔ ∃ x, T' x ≠ S x) := by
  subst hpreds
  intro l2
  induction l2 with
  | nil =>
    intro l1 T ch hall _ hT hfr hnew hch
    refine ⟨T, ch, rfl, ⟨hT, ?_, ?_⟩, hch⟩
    · intro x hx
      apply hfr
      intro hm
      have := (hall x).2 (by rw [List.append_nil]; exact hm)
      omega
    · intro b hb h0
      exact hnew b (by have := (hall b).1 hb; rwa [List.append_nil] at this) h0
  | cons b l2 ih =>
    intro l1 T ch hall hsort hT hfr hnew hch
    have hbN : b < N := (hall b).2 (by simp)
    have hsplit := List.pairwise_append.1 hsort
    have hlo : ∀ x ∈ l1, rpo x < rpo b := fun x hx => hsplit.2.2 x hx b (List.mem_cons_self ..)
    have hbl1 : b ∉ l1 := fun h => Nat.lt_irrefl _ (hlo b h)
    have hassoc : l1 ++ b :: l2 = (l1 ++ [b]) ++ l2 := by simp
    -- nodes with smaller numbers are done
    have hdone : ∀ x, x < N → rpo x < rpo b → x ∈ l1 := by
      intro x hx hlt
      rcases List.mem_append.1 ((hall x).1 hx) with h | h
      · exact h
      · rcases List.mem_cons.1 h with e | e
        · subst e; omega
        · have := (List.pairwise_cons.1 hsplit.2.1).1 x e; omega
    -- the array is the mixed one
    have hmixT : b ≠ 0 → mix rpo S T b = T := by
      intro hb0
      funext x
      unfold mix
      by_cases hx : rpo x < rpo b
      · rw [if_pos hx]
      · rw [if_neg hx]
        exact (hfr x (fun hm => hx (hlo x hm))).symm
    show ∃ T' ch', (node g N rpo fuel T b >>= _) = .ok (T', ch') ∧ _
    unfold node ENTRY_BLOCK
    by_cases hb0 : b = 0
    · rw [if_pos hb0, Res.bind_ok]
      have := ih (l1 ++ [b]) T (ch || false) (by rw [← hassoc]; exact hall) (by rw [← hassoc]; exact hsort) hT
        (fun x hx => hfr x (fun h => hx (List.mem_append_left _ h)))
        (fun c hc h0 => by
          rcases List.mem_append.1 hc with h | h
          · exact hnew c h h0
          · simp at h; subst h; exact absurd hb0 h0)
        (by rw [Bool.or_false]; exact hch)
      exact this
    · rw [if_neg hb0]
      -- some predecessor is done
      have hp : ∃ p ∈ g.preds b, rpo p < rpo b ∧ T p ≠ none := by
        obtain ⟨p, p1, p2⟩ := hC.par b hbN hb0
        refine ⟨p, p1, p2, ?_⟩
        have hpN := hC.rng b p p1
        by_cases hp0 : p = 0
        · rw [hp0, hT.root]; simp
        · obtain ⟨d, hd, _⟩ := hnew p (hdone p hpN p2) hp0
          rw [hd]; simp
      obtain ⟨d, d1, d2, d3, d4, d5⟩ := newIdom_spec hC hnode hT hfuel hp
      rw [d1, Res.bind_ok, rd_ok hbN, Res.bind_ok]
      -- the array after the assignment
      have hT' : OK N rpo (upd T b (some d)) := by
        refine ⟨by rw [upd_ne _ _ (Ne.symm hb0)]; exact hT.root, ?_⟩
        intro x z h0 hx
        have hdz : ∀ z, T z ≠ none → upd T b (some d) z ≠ none := by
          intro z hz
          by_cases e : z = b
          · rw [e, upd_same]; simp
          · rw [upd_ne _ _ e]; exact hz
        by_cases e : x = b
        · subst e
          rw [upd_same] at hx; injection hx with hx; subst hx
          exact ⟨hbN, d2, d3, hdz _ d4⟩
        · rw [upd_ne _ _ e] at hx
          obtain ⟨a1, a2, a3, a4⟩ := hT.edge x z h0 hx
          exact ⟨a1, a2, a3, hdz _ a4⟩
      have hfr' : ∀ x, x ∉ l1 ++ [b] → upd T b (some d) x = S x := by
        intro x hx
        rw [upd_ne _ _ (fun e => hx (by rw [e]; simp))]
        exact hfr x (fun h => hx (List.mem_append_left _ h))
      have hmix' : ∀ c, rpo c ≤ rpo b → mix rpo S (upd T b (some d)) c = mix rpo S T c := by
        intro c hc
        funext x
        unfold mix
        by_cases hx : rpo x < rpo c
        · rw [if_pos hx, if_pos hx, upd_ne _ _ (fun e => by subst e; omega)]
        · rw [if_neg hx, if_neg hx]
      have hnew' : ∀ c, c ∈ l1 ++ [b] → c ≠ 0 → ∃ e, upd T b (some d) c = some e ∧ e < N ∧ rpo e < rpo c ∧
          IsMeet g.preds (mix rpo S (upd T b (some d)) c) c e := by
        intro c hc h0
        rcases List.mem_append.1 hc with h | h
        · obtain ⟨e, e1, e2, e3, e4⟩ := hnew c h h0
          refine ⟨e, ?_, e2, e3, ?_⟩
          · rw [upd_ne _ _ (fun e' : c = b => hbl1 (e' ▸ h))]; exact e1
          · rw [hmix' c (Nat.le_of_lt (hlo c h))]; exact e4
        · simp at h
          subst h
          refine ⟨d, upd_same _ _ _, d2, d3, ?_⟩
          rw [hmix' c (Nat.le_refl _), hmixT hb0]; exact d5
      have hall' := hall
      rw [hassoc] at hall'
      have hsort' := hsort
      rw [hassoc] at hsort'
      by_cases hold : T b = some d
      · rw [if_neg (by simpa using hold)]
        show ∃ T' ch', pass g N rpo fuel l2 T (ch || false) = .ok (T', ch') ∧ _
        have hupd : upd T b (some d) = T := by
          funext x
          by_cases e : x = b
          · rw [e, upd_same, hold]
          · rw [upd_ne _ _ e]
        rw [hupd] at hT' hfr' hnew'
        exact ih (l1 ++ [b]) T (ch || false) hall' hsort' hT' hfr' hnew' (by rw [Bool.or_false]; exact hch)
      · rw [if_pos hold]
        have hwr : wr N T b (some d) = .ok (upd T b (some d)) := by unfold wr; rw [if_pos hbN]
        rw [hwr, Res.bind_ok]
        show ∃ T' ch', pass g N rpo fuel l2 (upd T b (some d)) (ch || true) = .ok (T', ch') ∧ _
        refine ih (l1 ++ [b]) (upd T b (some d)) (ch || true) hall' hsort' hT' hfr' hnew' ?_
        rw [Bool.or_true]
        refine ⟨fun _ => ⟨b, ?_⟩, fun _ => rfl⟩
        rw [upd_same, ← hfr b hbl1]
        exact fun e => hold e.symm

end

end Verif.Dom
