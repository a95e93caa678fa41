import Verif.Stat.Static
import Verif.Stat.Props
/-! C78: the compiler accepts the gotos and breaks of a function exactly if the rules of the language allow them. -/
namespace Verif.Stat
open Verif.ExpCode
open Verif.Fold (FOps)

/-- A function that compiles has no goto or break that the rules forbid, and no block with a label twice. -/
theorem accepted_valid {F : FOps} {fixed : Bool} {n : Nat} {b : S} (hb : b.shape .list) {r : List Instr × List Val}
    (h : genFunc F fixed n b = .ok r) : validFunc n b := by
  unfold genFunc at h
  have hj := (rules F fixed b).1.list hb false { fs := FS.start n [], nact := 0, labels := [], gotos := [] }
  obtain ⟨⟨g, es⟩, h1, h2⟩ := Res.bind_eq_ok.1 h
  obtain ⟨_, _, hn, hv⟩ := hj.ok _ _ h1
  dsimp only at h2
  split at h2
  · rename_i hg
    have := (hv (vis n fun _ => none)).1 (by rw [hg]; exact allG_nil _)
    exact ⟨hn List.nodup_nil, this.2⟩
  · cases h2

/-- A function that is refused because of a goto, a break or a label breaks the rules. -/
theorem refused_invalid {F : FOps} {fixed : Bool} {n : Nat} {b : S} (hb : b.shape .list) {m : String}
    (h : genFunc F fixed n b = .err m) (hm : labelErr m) : ¬ validFunc n b := by
  unfold genFunc at h
  have hj := (rules F fixed b).1.list hb false { fs := FS.start n [], nact := 0, labels := [], gotos := [] }
  rintro ⟨hv1, hv2⟩
  cases h1 : gs F fixed false b { fs := FS.start n [], nact := 0, labels := [], gotos := [] } with
  | err m' =>
    rw [h1] at h
    cases h
    exact hj.bad _ h1 hm (vis n fun _ => none) ⟨hv1, allG_nil _, hv2⟩
  | ub => rw [h1] at h; cases h
  | ok r =>
    obtain ⟨g, es⟩ := r
    rw [h1] at h
    simp only [Res.bind_ok] at h
    split at h
    · cases h
    · rename_i hg
      obtain ⟨_, _, _, hv⟩ := hj.ok _ _ h1
      have ha := (hv (vis n fun _ => none)).2 ⟨allG_nil _, hv2⟩
      cases hgs : g.gotos with
      | nil => exact hg hgs
      | cons p ps =>
        obtain ⟨k, hk, _⟩ := ha p (by rw [hgs]; exact List.mem_cons_self)
        cases hk

/-- A function that follows the rules is never refused because of a goto, a break or a label. -/
theorem valid_not_refused {F : FOps} {fixed : Bool} {n : Nat} {b : S} (hb : b.shape .list) (hv : validFunc n b) {m : String}
    (h : genFunc F fixed n b = .err m) : ¬ labelErr m := fun hm => refused_invalid hb h hm hv

/-! ### examples -/

/-- `sumup` has a goto forward to the end of a validBlock, a goto backward, and a `break`. -/
example : validFunc 1 sumup :=
  let ⟨h, _, _, _, hg⟩ := sumup_ok
  accepted_valid (wf_shape _ _ _ h) hg

/-- The same from the definition of the rules. -/
example : validFunc 1 sumup := by
  simp [validFunc, validBlock, sumup, S.names, S.asLabel, S.valid, S.labs, S.nloc, S.onlyLabels, ext, vis, brk, Option.filter]

/-- `goto l; local x; ::l:: return x`: into the scope of a variable. -/
def into : S := .cons (.goto 1) (.cons (.loc 1 []) (.cons (.label 1) (.cons (.ret [.loc 0]) .nil)))

example : genFunc tiny.F false 0 into = .err "jumps into the scope of local" ∧ into.shape .list ∧ ¬ validFunc 0 into := by
  have h : into.shape .list := by simp [into, S.shape, S.asLabel]
  have e : genFunc tiny.F false 0 into = .err "jumps into the scope of local" := rfl
  exact ⟨e, h, refused_invalid h e (.inl rfl)⟩

/-- `do goto l; local x; ::l:: end` is allowed: the label is at the end of the block. -/
example : validFunc 0 (.cons (.do_ (.cons (.goto 1) (.cons (.loc 1 []) (.cons (.label 1) .nil)))) .nil) :=
  accepted_valid (F := tiny.F) (fixed := false) (by simp [S.shape, S.asLabel]) (r := (_, _)) rfl

/-- `repeat goto l; local x; ::l:: until x` is not. -/
def intoUntil : S := .cons (.repeat_ (.cons (.goto 1) (.cons (.loc 1 []) (.cons (.label 1) .nil))) (.loc 0)) .nil

example : ¬ validFunc 0 intoUntil :=
  refused_invalid (F := tiny.F) (fixed := false) (by simp [intoUntil, S.shape, S.asLabel]) rfl (.inl rfl)

/-- `goto l; do ::l:: end`: the label is not visible. -/
example : ¬ validFunc 0 (.cons (.goto 1) (.cons (.do_ (.cons (.label 1) .nil)) .nil)) :=
  refused_invalid (F := tiny.F) (fixed := false) (by simp [S.shape, S.asLabel]) rfl (.inr (.inr rfl))

/-- `::l:: do ::l:: end` is allowed, `::l:: ::l::` is not. -/
example : validFunc 0 (.cons (.label 1) (.cons (.do_ (.cons (.label 1) .nil)) .nil)) ∧
    ¬ validFunc 0 (.cons (.label 1) (.cons (.label 1) .nil)) :=
  ⟨accepted_valid (F := tiny.F) (fixed := false) (by simp [S.shape, S.asLabel]) (r := (_, _)) rfl,
    refused_invalid (F := tiny.F) (fixed := false) (by simp [S.shape, S.asLabel]) rfl (.inr (.inl rfl))⟩

end Verif.Stat
