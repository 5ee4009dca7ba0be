import Verif.Spec.LQ
import Verif.Spec.Constraints

/-!
# Convex problems and their multipliers

All constraints of a trajectory problem as one list of scalar rows.
-/

namespace Altro.Spec
variable {K : Type} [Field K] [LinearOrder K] {n m : ℕ} {V : Type}

/-- One scalar constraint of a problem with decision variable in `V`, its multiplier and its penalty. -/
structure Row (V K : Type) where
  kind : ConKind
  fn : V → K
  lam : K
  pen : K

namespace Row

/-- The constraint holds at `z`. -/
def Holds (r : Row V K) (z : V) : Prop :=
  match r.kind with
  | .equality => r.fn z = 0
  | .inequality => r.fn z ≤ 0

/-- How badly it is violated at `z`. -/
def viol (r : Row V K) (z : V) : K := compViolation r.kind (r.fn z)

/-- Its term in the augmented Lagrangian. -/
def term (r : Row V K) (z : V) : K :=
  match r.kind with
  | .equality => eqTerm r.pen r.lam (r.fn z)
  | .inequality => ineqTerm r.pen r.lam (r.fn z)

/-- The textbook multiplier update. -/
def next (r : Row V K) (z : V) : K :=
  match r.kind with
  | .equality => r.lam - r.pen * r.fn z
  | .inequality => min 0 (r.lam - r.pen * r.fn z)

end Row

/-- A convex minimisation problem: `S` is the set of admissible points, `seg t x y` the point at fraction `t` of the way from
`x` to `y`; the objective is convex, equalities are affine, inequalities convex. -/
structure Convex (S : V → Prop) (seg : K → V → V → V) (obj : V → K) (rows : List (Row V K)) : Prop where
  mem : ∀ x y t, S x → S y → 0 ≤ t → t ≤ 1 → S (seg t x y)
  obj : ∀ x y t, S x → S y → 0 ≤ t → t ≤ 1 → obj (seg t x y) ≤ (1 - t) * obj x + t * obj y
  eq : ∀ r ∈ rows, r.kind = .equality → ∀ x y t, S x → S y → 0 ≤ t → t ≤ 1 →
    r.fn (seg t x y) = (1 - t) * r.fn x + t * r.fn y
  ineq : ∀ r ∈ rows, r.kind = .inequality → ∀ x y t, S x → S y → 0 ≤ t → t ≤ 1 →
    r.fn (seg t x y) ≤ (1 - t) * r.fn x + t * r.fn y

/-- `zs` solves the problem and `star` are multipliers for it (one for each row): `zs` is admissible and satisfies the
constraints, it minimises the Lagrangian `obj - λᵀc`, inequality multipliers are nonpositive and vanish where the constraint is
slack. -/
structure Saddle (S : V → Prop) (obj : V → K) (rows : List (Row V K)) (zs : V) (star : List K) : Prop where
  len : star.length = rows.length
  mem : S zs
  holds : ∀ r ∈ rows, r.Holds zs
  sign : ∀ q ∈ rows.zip star, q.1.kind = .inequality → q.2 ≤ 0 ∧ q.2 * q.1.fn zs = 0
  lag : ∀ y, S y → obj zs - ((rows.zip star).map fun q => q.2 * q.1.fn zs).sum
    ≤ obj y - ((rows.zip star).map fun q => q.2 * q.1.fn y).sum

/-- Squared distance of the multipliers from `star`. -/
def gap (rows : List (Row V K)) (star : List K) : K := ((rows.zip star).map fun q => (q.1.lam - q.2) ^ 2).sum

/-! ## Trajectory problems -/

/-- The rows of one constraint at knot point `k`. -/
def conRows (k : ℕ) {κ : ConKind} (v : ConVal κ n m K) : List (Row (Traj (Fin n → K) (Fin m → K) K) K) :=
  List.ofFn fun i => ⟨κ, fun Z => v.con.eval (Z.x k) (Z.u k) i, v.lam i, v.pen i⟩

/-- The rows of knot point `k`. -/
def knotRows (k : ℕ) (c : ALCost n m K) : List (Row (Traj (Fin n → K) (Fin m → K) K) K) :=
  c.eq.flatMap (conRows k) ++ c.ineq.flatMap (conRows k)

/-- All rows. -/
def rows (p : DynProblem n m K) (cs : ℕ → ALCost n m K) : List (Row (Traj (Fin n → K) (Fin m → K) K) K) :=
  (List.range (p.N + 1)).flatMap fun k => knotRows k (cs k)

/-- The objective, without any constraint terms. -/
def plainCost (p : DynProblem n m K) (cs : ℕ → ALCost n m K) (Z : Traj (Fin n → K) (Fin m → K) K) : K :=
  ∑ k ∈ Finset.range (p.N + 1), (cs k).cost.eval (Z.x k) (Z.u k)

/-- The point at fraction `t` of the way between two trajectories. -/
def segTraj (t : K) (Z Z' : Traj (Fin n → K) (Fin m → K) K) : Traj (Fin n → K) (Fin m → K) K :=
  { Z with x := fun k => Z.x k + t • (Z'.x k - Z.x k), u := fun k => Z.u k + t • (Z'.u k - Z.u k) }

/-- A convex trajectory problem: affine dynamics, convex objective, affine equality and convex inequality constraints. -/
structure ConvexProblem (p : DynProblem n m K) (cs : ℕ → ALCost n m K) : Prop where
  dyn : ∀ k < p.N, ∀ x x' u u' τ h, ∀ t : K, 0 ≤ t → t ≤ 1 →
    p.f k (x + t • (x' - x)) (u + t • (u' - u)) τ h = p.f k x u τ h + t • (p.f k x' u' τ h - p.f k x u τ h)
  cost : ∀ k ≤ p.N, ∀ x x' u u', ∀ t : K, 0 ≤ t → t ≤ 1 →
    (cs k).cost.eval (x + t • (x' - x)) (u + t • (u' - u)) ≤ (1 - t) * (cs k).cost.eval x u + t * (cs k).cost.eval x' u'
  eq : ∀ k ≤ p.N, ∀ v ∈ (cs k).eq, ∀ i x x' u u', ∀ t : K, 0 ≤ t → t ≤ 1 →
    v.con.eval (x + t • (x' - x)) (u + t • (u' - u)) i = (1 - t) * v.con.eval x u i + t * v.con.eval x' u' i
  ineq : ∀ k ≤ p.N, ∀ v ∈ (cs k).ineq, ∀ i x x' u u', ∀ t : K, 0 ≤ t → t ≤ 1 →
    v.con.eval (x + t • (x' - x)) (u + t • (u' - u)) i ≤ (1 - t) * v.con.eval x u i + t * v.con.eval x' u' i

/-- All penalties of a cost object are `ρ`. -/
def PenU (c : ALCost n m K) (ρ : K) : Prop :=
  (∀ v ∈ c.eq, ∀ i, v.pen i = ρ) ∧ ∀ v ∈ c.ineq, ∀ i, v.pen i = ρ

/-- All penalty scalings of a cost object are `φ`. -/
def ScaleU (c : ALCost n m K) (φ : K) : Prop := (∀ v ∈ c.eq, v.scaling = φ) ∧ ∀ v ∈ c.ineq, v.scaling = φ

/-- The solver state `t` is what an exact inner solver returns from `s`: the trajectory minimises the augmented cost over all
control sequences (same initial state, same time grid), the stored constraint values are those of that trajectory, multipliers
and penalties are unchanged. -/
structure ExactSolve (p : DynProblem n m K) (s t : St (Fin n → K) (Fin m → K) K (ALCost n m K) (KP n m K)) : Prop where
  core : ∀ k ≤ p.N, (t.cs k).core = (s.cs k).core
  fresh : (alLaw p).Fresh t.cs t.Z
  alt : Alternative p s.Z t.Z
  best : ∀ Z', Alternative p s.Z Z' → trajCost p s.cs t.Z ≤ trajCost p s.cs Z'
  times : ∀ k < p.N, t.Z.t k = s.Z.t k ∧ t.Z.h k = s.Z.h k

/-- The solver state `t` is what an inner solver with error `ε` returns from `s`: no control sequence (same initial state, same time
grid) has an augmented cost lower by more than `ε`, the stored constraint values are those of the returned trajectory, multipliers and
penalties are unchanged. -/
structure NearSolve (p : DynProblem n m K) (s t : St (Fin n → K) (Fin m → K) K (ALCost n m K) (KP n m K)) (ε : K) : Prop where
  core : ∀ k ≤ p.N, (t.cs k).core = (s.cs k).core
  fresh : (alLaw p).Fresh t.cs t.Z
  alt : Alternative p s.Z t.Z
  best : ∀ Z', Alternative p s.Z Z' → trajCost p s.cs t.Z ≤ trajCost p s.cs Z' + ε
  times : ∀ k < p.N, t.Z.t k = s.Z.t k ∧ t.Z.h k = s.Z.h k

end Altro.Spec
