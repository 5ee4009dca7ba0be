import Verif.Spec.ILQR

/-!
# Vocabulary for repeated solves
-/

namespace Altro.Spec
variable {X U F C D : Type} [Arith F]

/-- Relations between the objects of two runs that the problem's functions cannot tell apart.

`RC` relates cost objects that behave alike.  `RE`, `RS`, `RG` relate knot-point data with the same expansions, the same
cost-to-go, and the same gains. -/
structure Alike (P : Kernel X U F C D) where
  RC : C → C → Prop
  RE : D → D → Prop
  RS : D → D → Prop
  RG : D → D → Prop
  cost : ∀ k c c' x u, RC c c' →
    (P.cost k c x u).1 = (P.cost k c' x u).1 ∧ RC (P.cost k c x u).2 (P.cost k c' x u).2
  expand : ∀ k c c' x u t h d d', RC c c' →
    RE (P.expand k c x u t h d).1 (P.expand k c' x u t h d').1 ∧
    RC (P.expand k c x u t h d).2 (P.expand k c' x u t h d').2
  term : ∀ d d', RE d d' → RE (P.term d) (P.term d') ∧ RS (P.term d) (P.term d')
  gains : ∀ rho d d' e e', RE d d' → RS e e' →
    (P.gains (P.regularize rho (P.actionValue d e))).2 = (P.gains (P.regularize rho (P.actionValue d' e'))).2 ∧
    RE (P.gains (P.regularize rho (P.actionValue d e))).1 (P.gains (P.regularize rho (P.actionValue d' e'))).1
  toGo : ∀ rho d d' e e', RE d d' → RS e e' → (P.gains (P.regularize rho (P.actionValue d e))).2 = true →
    ∀ a a', a = P.costToGo (P.gains (P.regularize rho (P.actionValue d e))).1 →
      a' = P.costToGo (P.gains (P.regularize rho (P.actionValue d' e'))).1 →
      RE a a' ∧ RS a a' ∧ RG a a' ∧ P.delta a = P.delta a'
  policy : ∀ d d' xb x u alpha, RG d d' → P.policy d xb x u alpha = P.policy d' xb x u alpha
  grad : ∀ d d' u, RG d d' → P.gradTerm d u = P.gradTerm d' u

/-- The problem's functions do not depend on what was computed with them before: evaluations leave a cost object as it was
up to `RC` (for `ALCost`: same multipliers and penalties, whatever constraint values are stored). -/
structure Memoryless (P : Kernel X U F C D) extends Alike P where
  cost_same : ∀ k c c' x u, RC c c' → RC c (P.cost k c' x u).2
  expand_same : ∀ k c c' x u t h d, RC c c' → RC c (P.expand k c' x u t h d).2

/-- Two trajectories agree on knot points `0..N`, in every respect. -/
def SameTraj (P : Kernel X U F C D) (Z Z' : Traj X U F) : Prop :=
  ∀ k ≤ P.N, Z.x k = Z'.x k ∧ Z.u k = Z'.u k ∧ Z.t k = Z'.t k ∧ Z.h k = Z'.h k

/-- The state before iteration `j` of a solve. -/
def iterState (P : Kernel X U F C D) (o : Opts F) (fuel : ℕ) (s : St X U F C D) : ℕ → Option (St X U F C D)
  | 0 => some (ILQR.start P o s)
  | j + 1 => (iterState P o fuel s j).bind (ILQR.iterate P o fuel)

/-- No backward pass of the first `r` iterations gives up. -/
def NoGiveUp (P : Kernel X U F C D) (o : Opts F) (fuel : ℕ) (s : St X U F C D) (r : ℕ) : Prop :=
  ∀ j < r, ∀ a b, iterState P o fuel s j = some a →
    ILQR.backwardPass P o fuel (ILQR.updateExpansions P a) = some b → b.status ≠ .kBackwardPassRegularizationFailed

/-- Any number of solves, each with its own options and initial trajectory. -/
def solveAll (P : Kernel X U F C D) (fuel : ℕ) : List (Opts F × Traj X U F) → St X U F C D → Option (St X U F C D)
  | [], s => some s
  | (o, Z) :: l, s =>
    match ILQR.solve P o fuel { s with Z := Z } with
    | none => none
    | some s1 => solveAll P fuel l s1

end Altro.Spec
