import Verif.Model.ILQR

/-!
# Specification vocabulary for the iLQR solver
-/

namespace Altro.Spec
variable {X U F C D : Type} [Arith F]

/-- A trajectory obeys the dynamics from the initial state. -/
structure DynFeasible (P : Kernel X U F C D) (Z : Traj X U F) : Prop where
  init : Z.x 0 = P.x0
  step : ∀ k < P.N, Z.x (k + 1) = P.dyn k (Z.x k) (Z.u k) (Z.t k) (Z.h k)

/-- Two trajectories have the same times (at all knot points) and the same steps (on all segments). -/
structure SameTimes (P : Kernel X U F C D) (Z Z' : Traj X U F) : Prop where
  t : ∀ k ≤ P.N, Z.t k = Z'.t k
  h : ∀ k < P.N, Z.h k = Z'.h k

/-- The problem's cost functions are functions: the value does not depend on what was evaluated before.  `inv` is
the part of the cost object that evaluations leave alone (for `ALCost`: multipliers and penalties). -/
structure CostLaw (P : Kernel X U F C D) where
  I : Type
  inv : C → I
  val : ℕ → I → X → U → F
  cost_val : ∀ k c x u, (P.cost k c x u).1 = val k (inv c) x u
  cost_inv : ∀ k c x u, inv (P.cost k c x u).2 = inv c
  expand_inv : ∀ k c x u t h d, inv (P.expand k c x u t h d).2 = inv c

/-- Total cost of a trajectory for given cost objects. -/
def CostLaw.total {P : Kernel X U F C D} (L : CostLaw P) (cs : ℕ → C) (Z : Traj X U F) : F :=
  Arith.sumTo (P.N + 1) fun k => L.val k (L.inv (cs k)) (Z.x k) (Z.u k)

/-- `<` is asymmetric and transitive (true of IEEE doubles, NaN included, and of exact numbers). -/
structure OrderLaws (F : Type) [Arith F] : Prop where
  asymm : ∀ a b : F, Arith.lt a b = true → Arith.lt b a = false
  trans : ∀ a b c : F, Arith.lt a b = true → Arith.lt b c = true → Arith.lt a c = true

/-- Exact arithmetic satisfies the order laws. -/
theorem OrderLaws.ofField {K : Type} [Field K] [LinearOrder K] : OrderLaws K where
  asymm a b h := by
    rw [Arith.lt_iff] at h
    simpa [Arith.lt] using h.le
  trans a b c h h' := by
    rw [Arith.lt_iff] at *
    exact h.trans h'

/-- The step lengths `1, 1/f, 1/f/f, ...`. -/
def stepLength (f : F) : ℕ → F
  | 0 => 1
  | i + 1 => stepLength f i / f

/-- The states and controls obtained by simulating the policy with step length `alpha` around `Z`, with the given
times and steps. -/
def candidate (P : Kernel X U F C D) (kd : ℕ → D) (Z : Traj X U F) (t h : ℕ → F) (alpha : F) : ℕ → X
  | 0 => P.x0
  | k + 1 =>
    let x := candidate P kd Z t h alpha k
    P.dyn k x (P.policy (kd k) x (Z.x k) (Z.u k) alpha) (t k) (h k)

/-- The control of the candidate at knot point `k`. -/
def candidateU (P : Kernel X U F C D) (kd : ℕ → D) (Z : Traj X U F) (t h : ℕ → F) (alpha : F) (k : ℕ) : U :=
  P.policy (kd k) (candidate P kd Z t h alpha k) (Z.x k) (Z.u k) alpha

/-- The state/control limit test of one step of the candidate. -/
def stepWithin (o : Opts F) (P : Kernel X U F C D) (kd : ℕ → D) (Z : Traj X U F) (t h : ℕ → F) (alpha : F)
    (k : ℕ) : Prop :=
  o.checkBounds = true →
    Arith.gt (P.normX (candidate P kd Z t h alpha (k + 1))) o.stateMax = false ∧
    Arith.gt (P.normU (candidateU P kd Z t h alpha k)) o.controlMax = false

/-- The whole candidate respects the limits. -/
def withinLimits (o : Opts F) (P : Kernel X U F C D) (kd : ℕ → D) (Z : Traj X U F) (t h : ℕ → F) (alpha : F) :
    Prop := ∀ k < P.N, stepWithin o P kd Z t h alpha k

/-- The candidate as a trajectory: the terminal control is the one `Zbar` holds. -/
def candidateTraj (P : Kernel X U F C D) (kd : ℕ → D) (Z Zbar : Traj X U F) (alpha : F) : Traj X U F where
  x := candidate P kd Z Zbar.t Zbar.h alpha
  u := fun k => if k < P.N then candidateU P kd Z Zbar.t Zbar.h alpha k else Zbar.u k
  t := Zbar.t
  h := Zbar.h

/-- Improvement predicted by the backward pass for step length `alpha`. -/
def predicted (dV0 dV1 alpha : F) : F := (-alpha) * (dV0 + alpha * dV1)

/-- The documented acceptance test for step length `alpha` in state `s`, where `J0` is the current cost: limits
respected, positive predicted improvement or a lower bound of at most `-1` (the code uses the ratio `-1` when the
predicted improvement is not positive), ratio within bounds, and lower cost. -/
structure Qualifies {P : Kernel X U F C D} (L : CostLaw P) (o : Opts F) (s : St X U F C D) (J0 alpha : F) :
    Prop where
  within : withinLimits o P s.kd s.Z s.Zbar.t s.Zbar.h alpha
  ratio : ∃ z : F,
    (Arith.gt (predicted s.dV0 s.dV1 alpha) 0 = true →
      z = (J0 - L.total s.cs (candidateTraj P s.kd s.Z s.Zbar alpha)) / predicted s.dV0 s.dV1 alpha) ∧
    (Arith.gt (predicted s.dV0 s.dV1 alpha) 0 = false → z = -1) ∧
    Arith.le o.lsLower z = true ∧ Arith.le z o.lsUpper = true
  lower : Arith.lt (L.total s.cs (candidateTraj P s.kd s.Z s.Zbar alpha)) J0 = true

/-- Two trajectories agree on knot points `0..N`: states, controls, times; steps on the segments. -/
structure TrajEq (P : Kernel X U F C D) (Z Z' : Traj X U F) : Prop where
  x : ∀ k ≤ P.N, Z.x k = Z'.x k
  u : ∀ k ≤ P.N, Z.u k = Z'.u k
  times : SameTimes P Z Z'

end Altro.Spec
