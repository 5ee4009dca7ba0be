import Verif.Model.KnotPoint
import Verif.Spec.Quadratic

/-!
# C72, continued: the knot points of a solver that has not calculated anything yet
-/

namespace Altro.Props
open Altro.Spec Matrix
variable {K : Type} [Field K] [LinearOrder K] [IsStrictOrderedRing K] {n m : ℕ}

/-- **C72, the data of a new solver.**  Before the first backward pass the policy returns the nominal control, whatever the state and
the step, the gradient measure is zero and no change is announced; every expansion and the cost-to-go are those of the zero
function, and the linearised dynamics map everything to zero. -/
theorem C72_fresh (x xbar : Fin n → K) (u : Fin m → K) (alpha : K) (w : Fin m → K) :
    (KP.new : KP n m K).policy xbar x u alpha = u ∧ (KP.new : KP n m K).gradTerm u = 0 ∧ (KP.new : KP n m K).delta = (0, 0) ∧
    quadModel (KP.new : KP n m K).cost x w = 0 ∧ quadModel (KP.new : KP n m K).q x w = 0 ∧ quadModel (KP.new : KP n m K).qreg x w = 0 ∧
    ctgModel (KP.new : KP n m K).Sx (KP.new : KP n m K).Sxx x = 0 ∧
    (KP.new : KP n m K).A *ᵥ x + (KP.new : KP n m K).B *ᵥ w = 0 := by
  have hg : (KP.new : KP n m K).gradTerm u = 0 := by
    unfold KP.gradTerm
    have : (List.ofFn fun i => |(KP.new : KP n m K).ff i| / (|u i| + 1)) = List.replicate m 0 := by
      refine List.ext_getElem (by simp) fun i h1 h2 => ?_
      simp [KP.new]
    rw [this]
    clear this
    induction m with
    | zero => rfl
    | succ m ih => simpa [List.replicate_succ] using ih 0 0
  refine ⟨?_, hg, rfl, ?_, ?_, ?_, ?_, ?_⟩ <;>
    simp [KP.new, KP.policy, quadModel, ctgModel]

/-- Two states, one control. -/
example : (KP.new : KP 2 1 ℚ).policy ![1, 2] ![3, 5] ![7] (1 / 2) = ![7] := (C72_fresh ![3, 5] ![1, 2] ![7] (1 / 2) 0).1

end Altro.Props
