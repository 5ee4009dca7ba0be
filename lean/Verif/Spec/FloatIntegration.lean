import Verif.Model.Float
import Verif.Model.Integration
import Mathlib.Analysis.Complex.Exponential
import Mathlib.Analysis.Normed.Group.Constructions

/-!
# Specification vocabulary for rollouts with rounding
-/

namespace Altro.Spec
variable {n m : ℕ}

/-- The real vector with these entries. -/
def real {ι : Type} (x : ι → ℚ) : ι → ℝ := fun i => (x i : ℝ)

/-- Roundings to `double` and `float` are accurate up to `ε` and `ε'`. -/
structure RoundsTo (R : Rounding ℚ) (ε ε' : ℝ) : Prop where
  r64 : ∀ q : ℚ, |((R.r64 q : ℚ) : ℝ) - q| ≤ ε * (|(q : ℝ)| + 1)
  r32 : ∀ q : ℚ, |((R.r32 q : ℚ) : ℝ) - q| ≤ ε' * (|(q : ℝ)| + 1)

/-- For controls in `U`, and states and times of size at most `ρ`, the dynamics are bounded by `Q`, and Lipschitz with constant `L`
in the state and `Lt` in the time. -/
structure Regular (d : ContDyn n m ℝ) (U : Set (Fin m → ℝ)) (ρ Q L Lt : ℝ) : Prop where
  bound : ∀ u ∈ U, ∀ x t, ‖x‖ ≤ ρ → |t| ≤ ρ → ‖d.f x u t‖ ≤ Q
  lip : ∀ u ∈ U, ∀ x t x' t', ‖x‖ ≤ ρ → |t| ≤ ρ → ‖x'‖ ≤ ρ → |t'| ≤ ρ → ‖d.f x u t - d.f x' u t'‖ ≤ L * ‖x - x'‖ + Lt * |t - t'|

/-- What `Evaluate` computes there is bounded by `Q` and within `η` of the dynamics. -/
structure Evaluates (f : (Fin n → ℚ) → (Fin m → ℚ) → ℚ → Fin n → ℚ) (d : ContDyn n m ℝ) (U : Set (Fin m → ℝ)) (ρ Q η : ℝ) : Prop where
  bound : ∀ x u (t : ℚ), real u ∈ U → ‖real x‖ ≤ ρ → |(t : ℝ)| ≤ ρ → ‖real (f x u t)‖ ≤ Q
  near : ∀ x u (t : ℚ), real u ∈ U → ‖real x‖ ≤ ρ → |(t : ℝ)| ≤ ρ → ‖real (f x u t) - d.f (real x) (real u) t‖ ≤ η

/-- Rounding errors of one step, relative to the rounding unit: `X` bounds the states and `Q` the dynamics. -/
def roundings (X Q : ℝ) : ℝ := 3 * X + 180 * Q + 77

/-- Error of the times of the stages: `σ` is the error of the stored times, `T` bounds them. -/
def timeError (ε ε' σ T : ℝ) : ℝ := σ + ε * (T + 6) + ε' * (2 * T + 8)

/-- The error of a rollout with rounding after `k` steps and a time `s`: `a` at the start. -/
noncomputable def drift (ε ε' η σ T X Q L Lt a : ℝ) (k : ℕ) (s : ℝ) : ℝ :=
  (a + k * (ε * roundings X Q) + 2 * s * (η + Lt * timeError ε ε' σ T)) * Real.exp (2 * L * s)

/-- What is assumed of the rounding, of the dynamics and of what `Evaluate` computes: `ε`, `ε'` are the rounding units of `double` and
`float`, `η` is the error of `Evaluate`, `σ` that of the stored times, `T` and `X` bound times and states, `H` the steps, and everything
that is evaluated stays in the region of size `ρ`. -/
structure RoundedSetting (R : Rounding ℚ) (f : (Fin n → ℚ) → (Fin m → ℚ) → ℚ → Fin n → ℚ) (d : ContDyn n m ℝ) (U : Set (Fin m → ℝ))
    (ε ε' η σ T X Q L Lt ρ H : ℝ) : Prop where
  rounds : RoundsTo R ε ε'
  e0 : 0 ≤ ε
  e1 : ε ≤ 1
  e0' : 0 ≤ ε'
  eta : 0 ≤ η
  sig : 0 ≤ σ
  Q0 : 0 ≤ Q
  L0 : 0 ≤ L
  Lt0 : 0 ≤ Lt
  H1 : H ≤ 1
  reg : Regular d U ρ Q L Lt
  ev : Evaluates f d U ρ Q η
  room : X + 1 + H * Q + ε * (X + 5 * Q + 7) ≤ ρ
  roomT : T + 1 + timeError ε ε' σ T ≤ ρ

end Altro.Spec
