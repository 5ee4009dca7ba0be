import Verif.Model.ALCost

/-!
# Problem definition   (`altro/problem/problem.hpp`, `problem.cpp`, `augmented_lagrangian/al_problem.hpp`)

A build with assertions (`NDEBUG` not defined): a failed `ALTRO_ASSERT` aborts (utils/assert.cpp:18-26).  Null
dereferences and vector accesses out of range are undefined behaviour.  Costs, models and constraints are shared
pointers to objects that the problem never modifies; a pointer is an `Option`.  The initial state is a vector behind
a shared pointer that the problem does write, so it lives in a heap.
-/

namespace Altro

/-- How a call can go wrong. -/
inductive Err
  /-- `ALTRO_ASSERT` failed: the program aborts -/
  | assertion
  /-- an exception (`vector::at`) -/
  | thrown
  /-- undefined behaviour -/
  | undefined
deriving DecidableEq, Repr

/-- `std::vector::operator[]` read. -/
def vread {α : Type*} (l : List α) (k : ℤ) : Except Err α :=
  if 0 ≤ k then match l[k.toNat]? with
    | some a => .ok a
    | none => .error .undefined
  else .error .undefined

/-- `std::vector::at` read. -/
def vat {α : Type*} (l : List α) (k : ℤ) : Except Err α :=
  if 0 ≤ k then match l[k.toNat]? with
    | some a => .ok a
    | none => .error .thrown
  else .error .thrown

/-- `std::vector::operator[]` write. -/
def vwrite {α : Type*} (l : List α) (k : ℤ) (a : α) : Except Err (List α) :=
  if 0 ≤ k ∧ k.toNat < l.length then .ok (l.set k.toNat a) else .error .undefined

/-- `ALTRO_ASSERT` (utils/assert.hpp:6-10). -/
def assertThat (b : Bool) : Except Err Unit := if b then .ok () else .error .assertion

/-- What the problem asks of models and constraints: `StateDimension()`, `ControlDimension()`, the constructor of
`IdentityDynamics` (problem.hpp:25-53) and `OutputDimension()`. -/
structure ProbIface (M E : Type) where
  sdim : M → ℕ
  cdim : M → ℕ
  ident : ℕ → ℕ → M
  dim : E → ℕ

/-- `Problem` (problem.hpp:299-306).  `x0` is the pointer `initial_state_`. -/
structure Prob (C M E : Type) where
  N : ℤ
  x0 : ℕ
  costs : List (Option C)
  models : List (Option M)
  eq : List (List E)
  ineq : List (List E)

namespace Prob
variable {C M E K : Type} (I : ProbIface M E)

/-- The vectors behind `shared_ptr<VectorXd>`. -/
abbrev Heap (K : Type) := ℕ → List K

/-- Constructor (problem.hpp:76-77), `N ≥ 0`. -/
def new (N : ℕ) (x0 : ℕ) : Prob C M E where
  N := N
  x0 := x0
  costs := List.replicate (N + 1) none
  models := List.replicate (N + 1) none
  eq := List.replicate (N + 1) []
  ineq := List.replicate (N + 1) []

/-- `SetInitialState` (problem.hpp:113). -/
def setInitialState (h : Heap K) (p : Prob C M E) (v : List K) : Heap K := Function.update h p.x0 v

/-- `SetCostFunction` (problem.hpp:121-124).  A null pointer is accepted. -/
def setCost (p : Prob C M E) (c : Option C) (k : ℤ) : Except Err (Prob C M E) := do
  assertThat (0 ≤ k ∧ k ≤ p.N)
  let costs ← vwrite p.costs k c
  pure { p with costs := costs }

/-- `IdentityDynamics(n, m)` (problem.hpp:28-31). -/
def mkIdent (n m : ℕ) : Except Err M := do
  assertThat (0 < n)
  assertThat (0 < m)
  pure (I.ident n m)

/-- `SetDynamics` (problem.hpp:155-166). -/
def setDynamics (p : Prob C M E) (model : Option M) (k : ℤ) : Except Err (Prob C M E) := do
  match model with
  | none => .error .assertion
  | some md =>
    assertThat (0 ≤ k ∧ k < p.N)
    let ms ← if k = p.N - 1 then do
        let idm ← mkIdent I (I.sdim md) (I.cdim md)
        let _ ← vat p.models p.N
        vwrite p.models p.N (some idm)
      else pure p.models
    let ms ← vwrite ms k (some md)
    pure { p with models := ms }

/-- `SetConstraint<Equality>` (problem.cpp:43-49): `eq_[k].emplace_back`, `k` is not checked. -/
def setEq (p : Prob C M E) (con : Option E) (k : ℤ) : Except Err (Prob C M E) := do
  match con with
  | none => .error .assertion
  | some e =>
    assertThat (0 < I.dim e)
    let old ← vread p.eq k
    let es ← vwrite p.eq k (old ++ [e])
    pure { p with eq := es }

/-- `SetConstraint<Inequality>` (problem.cpp:51-57). -/
def setIneq (p : Prob C M E) (con : Option E) (k : ℤ) : Except Err (Prob C M E) := do
  match con with
  | none => .error .assertion
  | some e =>
    assertThat (0 < I.dim e)
    let old ← vread p.ineq k
    let es ← vwrite p.ineq k (old ++ [e])
    pure { p with ineq := es }

/-- One definition call. -/
inductive Call (C M E K : Type)
  | initialState (v : List K)
  | cost (c : Option C) (k : ℤ)
  | dynamics (m : Option M) (k : ℤ)
  | equality (e : Option E) (k : ℤ)
  | inequality (e : Option E) (k : ℤ)

/-- The effect of one call. -/
def step (s : Heap K × Prob C M E) : Call C M E K → Except Err (Heap K × Prob C M E)
  | .initialState v => .ok (setInitialState s.1 s.2 v, s.2)
  | .cost c k => (setCost s.2 c k).map fun p => (s.1, p)
  | .dynamics m k => (setDynamics I s.2 m k).map fun p => (s.1, p)
  | .equality e k => (setEq I s.2 e k).map fun p => (s.1, p)
  | .inequality e k => (setIneq I s.2 e k).map fun p => (s.1, p)

/-- A sequence of calls. -/
def run : List (Call C M E K) → Heap K × Prob C M E → Except Err (Heap K × Prob C M E)
  | [], s => .ok s
  | c :: cs, s => step I s c >>= run cs

/-- One pass of the loop of `IsFullyDefined` (problem.cpp:14-26): `valid_k`.  `models_[k]->StateDimension()` is
evaluated when the initial state is not empty, whether or not the pointer is null. -/
def validAt (h : Heap K) (p : Prob C M E) (k : ℤ) : Except Err Bool := do
  let hasCost := (← vread p.costs k).isSome
  let hasDyn ← if k < p.N then (·.isSome) <$> vread p.models k else pure true
  let v := hasCost && hasDyn
  if k = 0 then
    let hasX0 := decide (0 < (h p.x0).length)
    let good ← if hasX0 then do
        match ← vread p.models k with
        | none => .error .undefined
        | some m => pure (decide (I.sdim m = (h p.x0).length))
      else pure false
    pure (v && hasX0 && good)
  else pure v

/-- The loop of `IsFullyDefined` over the first `r` knot points. -/
def validUpTo (h : Heap K) (p : Prob C M E) : ℕ → Except Err Bool
  | 0 => .ok true
  | r + 1 => do
    let v ← validUpTo h p r
    let vk ← validAt I h p r
    pure (v && vk)

/-- `IsFullyDefined` (problem.cpp:12-40) without the printing. -/
def isFullyDefined (h : Heap K) (p : Prob C M E) : Except Err Bool := validUpTo I h p (p.N + 1).toNat

/-- `NumConstraints(k)` (problem.hpp:213-223).  Integer overflow is not modelled. -/
def numConstraintsAt (p : Prob C M E) (k : ℤ) : Except Err ℕ := do
  assertThat (0 ≤ k ∧ k ≤ p.N)
  let es ← vat p.eq k
  let is ← vat p.ineq k
  pure (is.foldl (fun c e => c + I.dim e) (es.foldl (fun c e => c + I.dim e) 0))

/-- `NumConstraints(k)` (problem.hpp:213-223) with `NDEBUG`: only the checks of `at` are left. -/
def numConstraintsAtRelease (p : Prob C M E) (k : ℤ) : Except Err ℕ := do
  let es ← vat p.eq k
  let is ← vat p.ineq k
  pure (is.foldl (fun c e => c + I.dim e) (es.foldl (fun c e => c + I.dim e) 0))

/-- The loop of `NumConstraints()` (problem.hpp:230-236). -/
def numConstraintsUpTo (p : Prob C M E) : ℕ → Except Err ℕ
  | 0 => .ok 0
  | r + 1 => do
    let c ← numConstraintsUpTo p r
    let d ← numConstraintsAt I p r
    pure (c + d)

/-- `NumConstraints()` (problem.hpp:230-236). -/
def numConstraints (p : Prob C M E) : Except Err ℕ := numConstraintsUpTo I p (p.N + 1).toNat

/-- `GetInitialState` (problem.hpp:243). -/
def getInitialState (h : Heap K) (p : Prob C M E) : List K := h p.x0

/-- `GetCostFunction` (problem.hpp:252-255). -/
def getCost (p : Prob C M E) (k : ℤ) : Except Err (Option C) := do
  assertThat (0 ≤ k ∧ k ≤ p.N)
  vread p.costs k

/-- `GetDynamics` (problem.hpp:271-275).  (The documentation says a null pointer is returned for the last knot
point; the code returns the identity model, or aborts when it is missing.) -/
def getDynamics (p : Prob C M E) (k : ℤ) : Except Err M := do
  assertThat (0 ≤ k ∧ k ≤ p.N)
  match ← vread p.models k with
  | none => .error .assertion
  | some m => pure m

/-! ## Copies and moves -/

/-- Copy assignment (problem.hpp:79-86): `N_` is not assigned; the vector is copied into the target's own. -/
def copyAssign (h : Heap K) (target other : Prob C M E) : Heap K × Prob C M E :=
  (Function.update h target.x0 (h other.x0),
   { target with costs := other.costs, models := other.models, eq := other.eq, ineq := other.ineq })

/-- Copy constructor (problem.hpp:88-91).  `N_` has no initialiser: its value is indeterminate (`junk`).  The default
member initialiser allocates a new initial state at `fresh`. -/
def copyCtor (h : Heap K) (fresh : ℕ) (junk : ℤ) (other : Prob C M E) : Heap K × Prob C M E :=
  (Function.update h fresh (h other.x0),
   { N := junk, x0 := fresh, costs := other.costs, models := other.models, eq := other.eq, ineq := other.ineq })

/-- Move assignment (problem.hpp:93-100): target and moved-from object. -/
def moveAssign (h : Heap K) (target other : Prob C M E) : Heap K × Prob C M E × Prob C M E :=
  (Function.update h target.x0 (h other.x0),
   { target with costs := other.costs, models := other.models, eq := other.eq, ineq := other.ineq },
   { other with costs := [], models := [], eq := [], ineq := [] })

/-- Move constructor (problem.hpp:102-107): the initial state pointer is shared, `N_` has no initialiser. -/
def moveCtor (junk : ℤ) (other : Prob C M E) : Prob C M E × Prob C M E :=
  ({ other with N := junk }, { other with costs := [], models := [], eq := [], ineq := [] })

/-! ## The augmented Lagrangian problem -/

/-- `for (k = 0; k < N; ++k) prob_al.SetDynamics(prob.GetDynamics(k), k)` (al_problem.hpp:37-39). -/
def buildDynamics {C' : Type} (p : Prob C M E) : ℕ → Prob C' M E → Except Err (Prob C' M E)
  | 0, q => .ok q
  | r + 1, q => do
    let q ← buildDynamics p r q
    let m ← getDynamics p r
    setDynamics I q (some m) r

/-- `ALCost(prob, k)` (al_cost.hpp:53-61): `mk` builds the object from the cost and the constraints;
`SetCostFunction` (al_cost.hpp:114-117) asserts that the cost is not null. -/
def mkALCost {C' : Type} (mk : C → List E → List E → C') (p : Prob C M E) (k : ℤ) : Except Err C' := do
  let _ ← getDynamics p k
  match ← getCost p k with
  | none => .error .assertion
  | some c =>
    let es ← vat p.eq k
    let is ← vat p.ineq k
    pure (mk c es is)

/-- The second loop of `BuildAugLagProblem` (al_problem.hpp:43-49): the new problem and the list `costs`. -/
def buildCosts {C' : Type} (mk : C → List E → List E → C') (p : Prob C M E) :
    ℕ → Prob C' M E × List C' → Except Err (Prob C' M E × List C')
  | 0, s => .ok s
  | r + 1, s => do
    let s ← buildCosts mk p r s
    let c ← mkALCost mk p r
    let q ← setCost s.1 (some c) r
    pure (q, s.2 ++ [c])

/-- `BuildAugLagProblem` (al_problem.hpp:29-51).  `costs` is the caller's vector; new costs are appended.
`prob_al.SetInitialState(prob.GetInitialState())` assigns the shared vector to itself.  Simplified: a negative number
of segments is refused at once (the vector constructors throw for `N < -1`). -/
def buildAugLag {C' : Type} (mk : C → List E → List E → C') (h : Heap K) (p : Prob C M E) (costs : List C') :
    Except Err (Heap K × Prob C' M E × List C') := do
  if p.N < 0 then throw .thrown
  let q : Prob C' M E := new p.N.toNat p.x0
  let h := setInitialState h q (getInitialState h p)
  let q ← buildDynamics I p p.N.toNat q
  let r ← buildCosts mk p (p.N + 1).toNat (q, costs)
  pure (h, r.1, r.2)

/-- `n == Eigen::Dynamic` or the dimension agrees (ilqr.hpp:105-116). -/
def dimOk (n : Option ℕ) (d : ℕ) : Bool := match n with
  | some a => decide (d = a)
  | none => true

/-- The loop of `CopyFromProblem` (ilqr.hpp:104-120): one `KnotPointFunctions` per knot point, appended.  `n`, `m` are
the compile-time dimensions, `none` for `Eigen::Dynamic`. -/
def copyLoop (n m : Option ℕ) (p : Prob C M E) (kstart : ℕ) :
    ℕ → List (M × Option C) → Except Err (List (M × Option C))
  | 0, kps => .ok kps
  | r + 1, kps => do
    let kps ← copyLoop n m p kstart r kps
    let md ← getDynamics p (kstart + r : ℕ)
    assertThat (dimOk n (I.sdim md))
    assertThat (dimOk m (I.cdim md))
    let c ← getCost p (kstart + r : ℕ)
    pure (kps ++ [(md, c)])

/-- `iLQR::CopyFromProblem(prob, k_start, k_stop)` (ilqr.hpp:97-123) on a solver with `N` segments: the knot points
and the initial state pointer. -/
def copyFromProblem (n m : Option ℕ) (h : Heap K) (N : ℤ) (kps : List (M × Option C)) (p : Prob C M E)
    (kstart kstop : ℕ) : Except Err (List (M × Option C) × ℕ) := do
  assertThat ((kstart : ℤ) ≤ N)
  assertThat ((kstop : ℤ) ≤ N + 1)
  let ok ← isFullyDefined I h p
  assertThat ok
  let kps ← copyLoop I n m p kstart (kstop - kstart) kps
  pure (kps, p.x0)

/-- What the augmented Lagrangian solver holds: `costs_`, the number of segments and knot points of `ilqr_solver_`,
and the initial state pointer. -/
structure ALData (C' M : Type) where
  costs : List C'
  N : ℤ
  kps : List (M × Option C')
  x0 : ℕ

/-- `InitializeFromProblem` (al_solver.hpp:239-249) on a solver constructed with `N` segments. -/
def alInitialize {C' : Type} (n m : Option ℕ) (mk : C → List E → List E → C') (h : Heap K) (s : ALData C' M)
    (p : Prob C M E) : Except Err (Heap K × ALData C' M) := do
  let r ← buildAugLag I mk h p s.costs
  assertThat ((r.2.2.length : ℤ) = p.N + 1)
  let q ← copyFromProblem I n m r.1 s.N s.kps r.2.1 0 (p.N + 1).toNat
  pure (r.1, { costs := r.2.2, N := s.N, kps := q.1, x0 := q.2 })

/-- `AugmentedLagrangianiLQR(prob)` (al_solver.hpp:230-236). -/
def alConstruct {C' : Type} (n m : Option ℕ) (mk : C → List E → List E → C') (h : Heap K) (p : Prob C M E) :
    Except Err (Heap K × ALData C' M) :=
  alInitialize I n m mk h { costs := [], N := p.N, kps := [], x0 := 0 } p

/-- `AugmentedLagrangianiLQR::NumConstraints(k)` (al_solver.hpp:252-260); `count` is `ALCost::NumConstraints`. -/
def alNumConstraintsAt {C' : Type} (count : C' → ℕ) (s : ALData C' M) (k : ℤ) : Except Err ℕ := do
  assertThat (0 ≤ k ∧ k ≤ s.N)
  assertThat ((s.costs.length : ℤ) = s.N + 1)
  count <$> vat s.costs k

/-- The same with `NDEBUG`. -/
def alNumConstraintsAtRelease {C' : Type} (count : C' → ℕ) (s : ALData C' M) (k : ℤ) : Except Err ℕ := count <$> vat s.costs k

/-- The loop of `AugmentedLagrangianiLQR::NumConstraints()` (al_solver.hpp:263-269). -/
def alNumConstraintsUpTo {C' : Type} (count : C' → ℕ) (s : ALData C' M) : ℕ → Except Err ℕ
  | 0 => .ok 0
  | r + 1 => do
    let c ← alNumConstraintsUpTo count s r
    let d ← alNumConstraintsAt count s r
    pure (c + d)

/-- `AugmentedLagrangianiLQR::NumConstraints()` (al_solver.hpp:263-269). -/
def alNumConstraints {C' : Type} (count : C' → ℕ) (s : ALData C' M) : Except Err ℕ :=
  alNumConstraintsUpTo count s (s.N + 1).toNat

end Prob
end Altro
