import Verif.Pat.Spec
import Verif.Utf8.Props

/-!
# The classes of the matcher are those of the manual
-/
namespace Verif.Pat

theorem class_eq : ∀ l c : UInt8, matchClass c l = classHas l c := by
  have h : ∀ l : UInt8, l ∈ ([97, 99, 100, 103, 108, 112, 115, 117, 119, 120, 122, 65, 67, 68, 71, 76, 80, 83, 85, 87, 88, 90] : List UInt8) ∨
      (tolower l ≠ 97 ∧ tolower l ≠ 99 ∧ tolower l ≠ 100 ∧ tolower l ≠ 103 ∧ tolower l ≠ 108 ∧ tolower l ≠ 112 ∧ tolower l ≠ 115 ∧ tolower l ≠ 117 ∧
        tolower l ≠ 119 ∧ tolower l ≠ 120 ∧ tolower l ≠ 122 ∧ (classes.find? (fun k => k.1 == l || k.1 == l + 32)).isNone = true) :=
    Utf8.u8_forall (by decide +kernel)
  intro l
  rcases h l with hl | ⟨h1, h2, h3, h4, h5, h6, h7, h8, h9, h10, h11, h12⟩
  · simp only [List.mem_cons, List.not_mem_nil, or_false] at hl
    rcases hl with rfl | rfl | rfl | rfl | rfl | rfl | rfl | rfl | rfl | rfl | rfl | rfl | rfl | rfl | rfl | rfl | rfl | rfl | rfl | rfl | rfl | rfl <;>
      exact Utf8.u8_forall (by decide +kernel)
  · intro c
    unfold matchClass classHas
    rw [Option.isNone_iff_eq_none.1 h12]
    dsimp only
    rw [if_neg h1, if_neg h2, if_neg h3, if_neg h4, if_neg h5, if_neg h6, if_neg h7, if_neg h8, if_neg h9, if_neg h10, if_neg h11]

end Verif.Pat
