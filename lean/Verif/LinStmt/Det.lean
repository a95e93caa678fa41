import Verif.LinStmt.Total

/-!
# A statement has one outcome
-/
namespace Verif.LinStmt
open Verif.Lin

variable {P : Par}

/-- `o'` is `o`, or an unfinished run of at most `N` rounds. -/
def Fits (N : Nat) (o o' : Out P) : Prop := (o'.ended = true → o' = o) ∧ ∀ n, o' = .long n → n ≤ N

theorem exec_fits {ty : Nat → Ty} {G : Guard P} {cmd : Cmd P} {ρ s o} (h : Exec ty G cmd ρ s o) :
    o.ended = true → ∃ N, ∀ o', Exec ty G cmd ρ s o' → Fits N o o' := by
  induction h with
  | cut => intro ho; cases ho
  | whlN | repN | loopN => intro ho; cases ho
  | skip => exact fun _ => ⟨0, fun o' h' => by cases h' <;> grind [Fits, Out.ended]⟩
  | fin => exact fun _ => ⟨0, fun o' h' => by cases h' <;> grind [Fits, Out.ended]⟩
  | brk => exact fun _ => ⟨0, fun o' h' => by cases h' <;> grind [Fits, Out.ended]⟩
  | asg | asgE | asgX => exact fun _ => ⟨0, fun o' h' => by cases h' <;> grind [Fits, Out.ended]⟩
  | whl _ ih =>
    intro ho
    obtain ⟨N, k⟩ := ih ho
    exact ⟨N, fun o' h' => by cases h' <;> grind [Fits, Out.ended]⟩
  | rep _ ih =>
    intro ho
    obtain ⟨N, k⟩ := ih ho
    exact ⟨N, fun o' h' => by cases h' <;> grind [Fits, Out.ended]⟩
  | els _ ih =>
    intro ho
    obtain ⟨N, k⟩ := ih ho
    exact ⟨N, fun o' h' => by cases h' <;> grind [Fits, Out.ended]⟩
  | seq _ _ i1 i2 =>
    intro ho
    obtain ⟨N1, k1⟩ := i1 rfl
    obtain ⟨N2, k2⟩ := i2 ho
    exact ⟨N1 + N2, fun o' h' => by cases h' <;> grind [Fits, Out.ended, Out.pass]⟩
  | seqB _ i1 =>
    intro ho
    obtain ⟨N1, k1⟩ := i1 rfl
    exact ⟨N1, fun o' h' => by cases h' <;> grind [Fits, Out.ended, Out.pass]⟩
  | seqP hp _ i1 =>
    intro ho
    obtain ⟨N1, k1⟩ := i1 ho
    exact ⟨N1, fun o' h' => by cases h' <;> grind [Fits, Out.ended, Out.pass]⟩
  | whlC | whlF | whlX | forE | forX | stop | iteC | iteX =>
    exact fun _ => ⟨0, fun o' h' => by cases h' <;> grind [Fits, Out.ended]⟩
  | whlT _ he hv _ _ i1 i2 =>
    intro ho
    obtain ⟨N1, k1⟩ := i1 rfl
    obtain ⟨N2, k2⟩ := i2 ho
    exact ⟨N1 + N2 + 1, fun o' h' => by cases h' <;> grind [Fits, Out.ended, Out.pass]⟩
  | whlB _ he hv _ i1 =>
    intro ho
    obtain ⟨N1, k1⟩ := i1 rfl
    exact ⟨N1, fun o' h' => by cases h' <;> grind [Fits, Out.ended, Out.pass]⟩
  | whlP _ he hv hp _ i1 =>
    intro ho
    obtain ⟨N1, k1⟩ := i1 ho
    exact ⟨N1, fun o' h' => by cases h' <;> grind [Fits, Out.ended, Out.pass]⟩
  | repF _ _ he hv _ i1 i2 =>
    intro ho
    obtain ⟨N1, k1⟩ := i1 rfl
    obtain ⟨N2, k2⟩ := i2 ho
    exact ⟨N1 + N2 + 1, fun o' h' => by cases h' <;> grind [Fits, Out.ended, Out.pass]⟩
  | repC _ _ _ i1 =>
    intro ho
    obtain ⟨N1, k1⟩ := i1 rfl
    exact ⟨N1, fun o' h' => by cases h' <;> grind [Fits, Out.ended, Out.pass]⟩
  | repT _ _ _ _ i1 =>
    intro ho
    obtain ⟨N1, k1⟩ := i1 rfl
    exact ⟨N1, fun o' h' => by cases h' <;> grind [Fits, Out.ended, Out.pass]⟩
  | repB _ i1 =>
    intro ho
    obtain ⟨N1, k1⟩ := i1 rfl
    exact ⟨N1, fun o' h' => by cases h' <;> grind [Fits, Out.ended, Out.pass]⟩
  | repX _ _ i1 =>
    intro ho
    obtain ⟨N1, k1⟩ := i1 rfl
    exact ⟨N1, fun o' h' => by cases h' <;> grind [Fits, Out.ended, Out.pass]⟩
  | repP hp _ i1 =>
    intro ho
    obtain ⟨N1, k1⟩ := i1 ho
    exact ⟨N1, fun o' h' => by cases h' <;> grind [Fits, Out.ended, Out.pass]⟩
  | forn _ he hs _ i1 =>
    intro ho
    obtain ⟨N1, k1⟩ := i1 ho
    exact ⟨N1, fun o' h' => by cases h' <;> grind [Fits, Out.ended, Out.pass]⟩
  | forV _ he hs =>
    exact fun _ => ⟨0, fun o' h' => by cases h' <;> grind [Fits, Out.ended, Out.pass]⟩
  | next _ _ _ _ i1 i2 =>
    intro ho
    obtain ⟨N1, k1⟩ := i1 rfl
    obtain ⟨N2, k2⟩ := i2 ho
    exact ⟨N1 + N2 + 1, fun o' h' => by cases h' <;> grind [Fits, Out.ended, Out.pass]⟩
  | loopB _ _ i1 =>
    intro ho
    obtain ⟨N1, k1⟩ := i1 rfl
    exact ⟨N1, fun o' h' => by cases h' <;> grind [Fits, Out.ended, Out.pass]⟩
  | loopP _ hp _ i1 =>
    intro ho
    obtain ⟨N1, k1⟩ := i1 ho
    exact ⟨N1, fun o' h' => by cases h' <;> grind [Fits, Out.ended, Out.pass]⟩
  | loopX _ _ _ i1 =>
    intro ho
    obtain ⟨N1, k1⟩ := i1 rfl
    exact ⟨N1, fun o' h' => by cases h' <;> grind [Fits, Out.ended, Out.pass]⟩
  | iteT _ he hv _ i1 =>
    intro ho
    obtain ⟨N1, k1⟩ := i1 ho
    exact ⟨N1, fun o' h' => by cases h' <;> grind [Fits, Out.ended, Out.pass]⟩
  | iteF _ he hv _ i1 =>
    intro ho
    obtain ⟨N1, k1⟩ := i1 ho
    exact ⟨N1, fun o' h' => by cases h' <;> grind [Fits, Out.ended, Out.pass]⟩

end Verif.LinStmt
