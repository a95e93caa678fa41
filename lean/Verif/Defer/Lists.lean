import Verif.Defer.Spec
import Mathlib.Data.List.Forall2

/-!
# Lists of open upvalues
-/
namespace Verif.Defer

/-- The deferred functions in a list of open upvalues. -/
def D (L : List Ent) : List Ent := L.filter (·.d.isSome)

def up (b : Nat) (L : List Ent) : List Ent := L.filter (b ≤ ·.lvl)

def dn (b : Nat) (L : List Ent) : List Ent := L.filter (·.lvl < b)

def Sorted (L : List Ent) : Prop := L.Pairwise fun a b => b.lvl ≤ a.lvl

theorem mem_D {L : List Ent} {e : Ent} : e ∈ D L ↔ e ∈ L ∧ e.d.isSome = true := by simp [D]

theorem mem_up {b : Nat} {L : List Ent} {e : Ent} : e ∈ up b L ↔ e ∈ L ∧ b ≤ e.lvl := by simp [up]

theorem mem_dn {b : Nat} {L : List Ent} {e : Ent} : e ∈ dn b L ↔ e ∈ L ∧ e.lvl < b := by simp [dn]

theorem D_sorted {L : List Ent} (h : Sorted L) : Sorted (D L) := h.filter _

theorem split {L : List Ent} (h : Sorted L) (b : Nat) : up b L ++ dn b L = L := by
  induction L with
  | nil => rfl
  | cons e es ih =>
    have hs := List.pairwise_cons.1 h
    by_cases hb : b ≤ e.lvl
    · rw [up, dn, List.filter_cons_of_pos (by simpa using hb), List.filter_cons_of_neg (by simpa using hb)]
      exact congrArg (e :: ·) (ih hs.2)
    · have h0 : up b (e :: es) = [] := List.filter_eq_nil_iff.2 fun x hx => by
        rcases List.mem_cons.1 hx with rfl | hx
        · simpa using hb
        · have := hs.1 x hx
          simp only [decide_eq_true_eq]; omega
      have h1 : dn b (e :: es) = e :: es := List.filter_eq_self.2 fun x hx => by
        rcases List.mem_cons.1 hx with rfl | hx
        · simpa using hb
        · have := hs.1 x hx
          simp only [decide_eq_true_eq]; omega
      rw [h0, h1]
      rfl

theorem up_nil {b : Nat} {L : List Ent} (h : ∀ e ∈ L, e.lvl < b) : up b L = [] :=
  List.filter_eq_nil_iff.2 fun e he => by have := h e he; simp only [decide_eq_true_eq]; omega

theorem dn_all {b : Nat} {L : List Ent} (h : ∀ e ∈ L, e.lvl < b) : dn b L = L :=
  List.filter_eq_self.2 fun e he => by have := h e he; simp only [decide_eq_true_eq]; omega

theorem dn_dn {a b : Nat} (L : List Ent) (h : a ≤ b) : dn a (dn b L) = dn a L := by
  unfold dn
  rw [List.filter_filter]
  apply List.filter_congr
  intro e _
  by_cases h1 : e.lvl < a <;> simp [h1]
  omega

theorem up_up {a b : Nat} (L : List Ent) (h : a ≤ b) : up a (up b L) = up b L := by
  unfold up
  rw [List.filter_filter]
  apply List.filter_congr
  intro e _
  by_cases h1 : b ≤ e.lvl <;> simp [h1]
  omega

theorem up_split {a b : Nat} {L : List Ent} (hL : Sorted L) (h : a ≤ b) : up a L = up b L ++ up a (dn b L) := by
  have e := congrArg (up a) (split hL b)
  rw [← e]
  conv => lhs; unfold up
  rw [List.filter_append]
  show up a (up b L) ++ up a (dn b L) = _
  rw [up_up _ h]

theorem up_congr {a b : Nat} {L : List Ent} (h : ∀ e ∈ L, a ≤ e.lvl ↔ b ≤ e.lvl) : up a L = up b L :=
  List.filter_congr fun e he => by simp [h e he]

theorem dn_congr {a b : Nat} {L : List Ent} (h : ∀ e ∈ L, a ≤ e.lvl ↔ b ≤ e.lvl) : dn a L = dn b L :=
  List.filter_congr fun e he => by have := h e he; simp only [decide_eq_decide]; omega

theorem dn_congr_mono {a b : Nat} {L M : List Ent} (h : dn b L = dn b M) (hab : a ≤ b) : dn a L = dn a M := by
  rw [← dn_dn L hab, h, dn_dn M hab]

/-! `find` -/

theorem mem_find {x e : Ent} {L : List Ent} (h : e ∈ find x L) : e ∈ L ∨ e = x := by
  induction L with
  | nil => exact .inr (List.mem_singleton.1 h)
  | cons y ys ih =>
    unfold find at h
    split at h
    · split at h
      · exact .inl h
      · rcases List.mem_cons.1 h with rfl | h
        · exact .inl List.mem_cons_self
        · rcases ih h with h | h
          · exact .inl (List.mem_cons_of_mem _ h)
          · exact .inr h
    · rcases List.mem_cons.1 h with rfl | h
      · exact .inr rfl
      · exact .inl h

theorem find_sorted {x : Ent} {L : List Ent} (h : Sorted L) : Sorted (find x L) := by
  induction L with
  | nil => exact List.pairwise_singleton _ _
  | cons y ys ih =>
    have hs := List.pairwise_cons.1 h
    unfold find
    split
    next hle =>
      split
      · exact h
      · refine List.pairwise_cons.2 ⟨fun e he => ?_, ih hs.2⟩
        rcases mem_find he with he | rfl
        · exact hs.1 e he
        · exact hle
    next hle =>
      refine List.pairwise_cons.2 ⟨fun e he => ?_, h⟩
      rcases List.mem_cons.1 he with rfl | he
      · omega
      · have := hs.1 e he; omega

theorem find_D {l : Nat} {L : List Ent} : D (find ⟨l, none⟩ L) = D L := by
  induction L with
  | nil => rfl
  | cons y ys ih =>
    unfold find
    split
    · split
      · rfl
      · unfold D at ih ⊢
        by_cases hy : y.d.isSome = true
        · simp only [List.filter_cons, hy, if_true, ih]
        · simp only [List.filter_cons, hy, ih]
    · unfold D
      rw [List.filter_cons_of_neg (by simp)]

theorem find_top {x : Ent} {L : List Ent} (h : ∀ e ∈ L, e.lvl < x.lvl) : find x L = x :: L := by
  cases L with
  | nil => rfl
  | cons y ys =>
    have := h y List.mem_cons_self
    unfold find
    rw [if_neg (by omega)]

theorem drop_dn {L : List Ent} (h : Sorted L) (b : Nat) : L.dropWhile (b ≤ ·.lvl) = dn b L := by
  induction L with
  | nil => rfl
  | cons e es ih =>
    have hs := List.pairwise_cons.1 h
    by_cases hb : b ≤ e.lvl
    · rw [List.dropWhile_cons_of_pos (by simpa using hb), ih hs.2, dn, dn, List.filter_cons_of_neg (by simpa using hb)]
    · rw [List.dropWhile_cons_of_neg (by simpa using hb), dn_all]
      intro x hx
      rcases List.mem_cons.1 hx with rfl | hx
      · omega
      · have := hs.1 x hx; omega

theorem dn_sorted {L : List Ent} (h : Sorted L) (b : Nat) : Sorted (dn b L) := h.filter _

theorem D_dn (L : List Ent) (b : Nat) : D (dn b L) = dn b (D L) := by
  unfold D dn
  rw [List.filter_filter, List.filter_filter]
  exact List.filter_congr fun _ _ => Bool.and_comm _ _

theorem D_cons_none {e : Ent} {es : List Ent} (h : e.d = none) : D (e :: es) = D es := by
  unfold D
  rw [List.filter_cons_of_neg (by simp [h])]

theorem D_cons_some {e : Ent} {es : List Ent} {q} (h : e.d = some q) : D (e :: es) = e :: D es := by
  unfold D
  rw [List.filter_cons_of_pos (by simp [h])]

theorem up_cons_pos {b : Nat} {e : Ent} {es : List Ent} (h : b ≤ e.lvl) : up b (e :: es) = e :: up b es :=
  List.filter_cons_of_pos (by simpa using h)

theorem dn_cons_ge {b : Nat} {e : Ent} {es : List Ent} (h : b ≤ e.lvl) : dn b (e :: es) = dn b es :=
  List.filter_cons_of_neg (by simpa using h)

/-! ## The end of a scope -/

/-- The two states agree. -/
def Rel (s : St) (x : X) : Prop := s.tick = x.tick ∧ s.next = x.next ∧ s.tr = x.tr

/-- These entries are these deferred functions. -/
def Ms (es : List Ent) (ds : Pend) : Prop := List.Forall₂ (fun e d => ∃ f, e.d = some (d.1, f) ∧ compFun d.2 = some f) es ds

theorem Ms.nil_left {ds : Pend} (h : Ms [] ds) : ds = [] := by cases h; rfl

theorem Ms.append {a b : List Ent} {p q : Pend} (h : Ms a p) (h' : Ms b q) : Ms (a ++ b) (p ++ q) := List.rel_append h h'

/-- Above `lv` are the functions `p`, below it nothing was changed. -/
structure Fin (lv : Nat) (L : List Ent) (p : Pend) (L' : List Ent) : Prop where
  top : Ms (up lv (D L')) p
  low : dn lv (D L') = dn lv (D L)
  sorted : Sorted L'

theorem Fin.trans {a b : Nat} {L L₁ L₂ : List Ent} {p q : Pend} (h₁ : Fin a L p L₁) (hab : a ≤ b) (h₂ : Fin b L₁ q L₂) (hlt : ∀ e ∈ L₁, e.lvl < b) :
    Fin a L (q ++ p) L₂ where
  top := by
    rw [up_split (D_sorted h₂.sorted) hab, h₂.low, dn_all fun e he => hlt e (mem_D.1 he).1]
    exact h₂.top.append h₁.top
  low := by rw [dn_congr_mono h₂.low hab, h₁.low]
  sorted := h₂.sorted

/-- What was to be called before is still to be called. -/
theorem Fin.out {a b : Nat} {L L₁ : List Ent} {p q : Pend} (h₁ : Fin b L p L₁) (hab : a ≤ b) (hq : Ms (up a (D L)) q) (hlt : ∀ e ∈ L, e.lvl < b) :
    Ms (up a (D L₁)) (p ++ q) := by
  rw [up_split (D_sorted h₁.sorted) hab, h₁.low, dn_all fun e he => hlt e (mem_D.1 he).1]
  exact h₁.top.append hq

theorem Fin.down {a b : Nat} {L L₁ : List Ent} {p q : Pend} (h₁ : Fin b L p L₁) (hab : a ≤ b) (hq : Ms (up a (D L)) q) (hlt : ∀ e ∈ L, e.lvl < b) :
    Fin a L (p ++ q) L₁ :=
  ⟨h₁.out hab hq hlt, dn_congr_mono h₁.low hab, h₁.sorted⟩

theorem Fin.rebase {a b : Nat} {L L₁ L₂ : List Ent} {p q : Pend} (h₁ : Fin b L p L₁) (hab : a ≤ b) (h₂ : Fin a L₁ q L₂) : Fin a L q L₂ :=
  ⟨h₂.top, by rw [h₂.low, dn_congr_mono h₁.low hab], h₂.sorted⟩

theorem Fin.level {a b : Nat} {L L' : List Ent} {p : Pend} (h : Fin b L p L') (hL : ∀ e ∈ L, a ≤ e.lvl ↔ b ≤ e.lvl)
    (hL' : ∀ e ∈ L', a ≤ e.lvl ↔ b ≤ e.lvl) : Fin a L p L' :=
  ⟨by rw [up_congr fun e he => hL' e (mem_D.1 he).1]; exact h.top,
    by rw [dn_congr fun e he => hL' e (mem_D.1 he).1, h.low, dn_congr fun e he => hL e (mem_D.1 he).1], h.sorted⟩

theorem Fin.refl {a : Nat} {L : List Ent} (hs : Sorted L) (h : ∀ e ∈ L, e.lvl < a) : Fin a L [] L :=
  ⟨by rw [up_nil fun e he => h e (mem_D.1 he).1]; exact List.Forall₂.nil, rfl, hs⟩

theorem Fin.D_eq {a : Nat} {L L' : List Ent} {p : Pend} (h : Fin a L p L') (hL : ∀ e ∈ L, e.lvl < a) (hL' : ∀ e ∈ L', e.lvl < a) : D L' = D L := by
  have := h.low
  rwa [dn_all fun e he => hL' e (mem_D.1 he).1, dn_all fun e he => hL e (mem_D.1 he).1] at this

/-- The result of running deferred functions, or of a call, with everything at or above `top` free, and what was at or above `lv` gone. -/
structure CloseR (top lv : Nat) (L : List Ent) (r : Option Nat) (r' : Option (Nat × Pend)) (L' : List Ent) : Prop where
  mem : ∀ e ∈ L', e ∈ L ∨ top ≤ e.lvl
  res : match r, r' with
    | none, none => Fin lv L [] L' ∧ ∀ e ∈ L', e.lvl < lv
    | some v, some (v', p) => v = v' ∧ Fin lv L p L'
    | _, _ => False

end Verif.Defer
