# Formal model of altro-cpp: design

Source under study: `/repo` (altro-cpp, C++), read as text only. Nothing in `/repo` was built or run.
Properties: `properties.jsonl` (C01 ...). Status and theorem names: `MANIFEST.json`. Mutation log: `seeded/LOG.jsonl`.

## 1. Trusted base

* Lean 4.33 kernel; Mathlib 4.33 as a library of definitions and proved lemmas.
* Axioms: every theorem rests on a subset of `propext`, `Classical.choice`, `Quot.sound`. No own axioms,
  no `sorry`/`admit`, no `native_decide`, no `bv_decide`. Concrete runs are evaluated with `decide +kernel` or `rfl`,
  that is, by the kernel.
* The reading of the C++ source. Each model definition cites file and lines of `/repo`; nothing ties the
  model to the code except that reading.
* Eigen. Vectors and matrices are `Fin n → K` and `Matrix (Fin n) (Fin m) K` (lists where sizes are the point);
  products, norms, blocks are the textbook ones.
  * `Eigen::LLT` is modelled, not assumed: `Model/KnotPoint.lean` has a square-root-free factorization used by the
    backward pass (success exactly on positive definite lower triangles, `solve` solves: both proved), and
    `Model/Cholesky.lean` has the textbook recursion with square roots and its two triangular solves, proved to succeed
    on the same inputs and to give the same solution. In the law-free control-flow model the factorization is an oracle.
  * `Eigen::LDLT` (used only in the checks of `QuadraticCost`) is a parameter with the contract `Factorizes`: *if* it
    reports success it is a factorization. Nothing is assumed about when it succeeds.
* `std::sort` is any sorted permutation (`StdSort`); `std::map` iteration is in key order.
* `std::mutex`, `std::atomic`, `std::future`, `std::condition_variable`: atomic steps of an interleaving semantics
  (sequential consistency; data-race freedom is proved for the queue nodes, so this is adequate there).

### Numbers

1. **Control flow** (solver loops, line search, regularization schedule, status logic, statistics) is modelled
   over a type `F` with *operations but no laws* (class `Arith`): `+ - * /` and Boolean comparisons `<`, `<=`.
   Theorems that assume nothing else about `F` therefore hold for IEEE doubles, NaN and infinities included.
   `std::max`/`std::min` are written through `<` exactly as in the standard.
2. **Algebra and calculus** (projections, augmented Lagrangian, Riccati recursion, integrators, examples, KKT
   conditions, benchmark statistics) is modelled over a linearly ordered field or over `ℝ`. Rounding is *not* modelled
   there; witnesses use `ℚ` where possible.
3. **Rounding** where it is the point (task assignment C51, C74; time consistency C44; integrators C109, `Model/FloatIntegration.lean`): `Model/Float.lean`,
   round-to-nearest-even binary32/binary64 on rationals with subnormals, without overflow. The logger has its own small
   type of doubles with NaN and infinities.
4. **NaN** where it is the point (C77): `Model/NaN.lean`, a number of an ordered field or NaN; the constraint code is
   written down a second time for it and linked to the exact model by `C77_refines`.
5. **Doubles** for the control flow (C82), sums of costs (C107) and for constraints, multipliers and penalties (C97): `Model/Double.lean`, binary64 with NaN, infinities, negative zero, overflow
   and subnormals, round-to-nearest-even, as an instance of `Arith`. The law-free solver of item 1 is instantiated with
   it. Flags, payloads of NaN and other rounding modes are not modelled.

C++ `int` is unbounded except where overflow is the point (C46 `size_t` counter, C60 percentages).

### Undefined behaviour and assertions

`ALTRO_ASSERT` (`altro/utils/assert.hpp:6-10`) aborts in debug builds and is compiled out with `NDEBUG`.
Where it matters the model has an outcome type with separate results for "value", "assertion abort", "exception" and
"undefined behaviour" (`Except Err`, `Queue.Out`).

## 2. What is modelled

| code in `/repo` | model | simplifications |
|---|---|---|
| `altro/constraints/constraint.hpp` | `Cones`, `NaN` | exact arithmetic |
| `altro/constraints/constraint_values.hpp` | `ConstraintValues`, `TwoNorm`, `NaN` | user functions are parameters |
| `altro/augmented_lagrangian/al_cost.hpp` | `ALCost`, `ConInfo` | - |
| `altro/augmented_lagrangian/al_solver.hpp` | `ALSolver` (law-free, any inner solver), `Concrete` (with `ALCost` and the iLQR model), `SolverMove` | printing left out |
| `altro/augmented_lagrangian/al_problem.hpp`, `altro/problem/problem.*` | `Problem`, `ProblemRanges` | vectors behind pointers are a heap |
| `altro/ilqr/ilqr.hpp` | `ILQR` (law-free), `Lifecycle`, `Tasks`, `Parallel` | profiler calls left out |
| `altro/ilqr/knot_point_function_type.hpp`, `cost_expansion.hpp`, `dynamics_expansion.hpp` | `KnotPoint`, `Cholesky`, `InexactGains` | exact arithmetic; in `InexactGains` the gains come from any routine |
| `altro/problem/integration.hpp`, `discretized_model.hpp`, `dynamics.*`, `costfunction.*` | `Integration`, `FloatIntegration`, `Examples`, `DerivCheck` | exact arithmetic, except `FloatIntegration`: every rounding, no FMA, no overflow |
| `altro/common/functionbase.*`, `altro/utils/derivative_checker.hpp` | `DerivCheck`, `Examples` | exact arithmetic; random points are inputs |
| `altro/common/trajectory.hpp`, `knotpoint.hpp` | `Trajectory`; `KnotData` (objects, copies, moves, sizes) | rounding of times modelled in `Trajectory`, not in `KnotData`; text layout left out |
| `altro/common/threadsafe_queue.hpp` | `Queue`, `PoolMove` | node level, every schedule; moves with atomic operations |
| `altro/common/threadpool.*` | `Pool`, `PoolMove` | every schedule; tasks are lists of steps; moves: histories of calls and rounds of the workers |
| `altro/common/solver_stats.*` | `Stats`, `StatsMove`, `StatsCopy` | pointers modelled for copies and moves |
| `altro/common/solver_logger.*`, `log_entry.*` | `Logger`, `LoggerMove` | the text of a number is a parameter; pointers modelled for copies and moves |
| `altro/common/timer.*`, `profile_entry.*` | `Timer`, `ProfileOutput` | the clock is an input; contents and buffering of files left out |
| `altro/common/solver_options.hpp` | options as records in the models that use them | - |
| `altro/utils/benchmarking.hpp` | `Benchmark` | real numbers |
| `examples/*.hpp, *.cpp` | `Examples`, `Validate` | exact arithmetic; `sin`, `cos` real |
| `examples/problems/*` | `ExampleProblems` | - |
| `perf/task_launcher.hpp` | `Launcher` | tasks run one after the other, in any order |

### Not modelled

Rounding (except as said above), Eigen's memory layout and expression templates, size assertions of Eigen, the text
produced by `fmt`, files, wall-clock time (durations are inputs), spurious wake-ups beyond what the schedules already
allow, weak memory, allocation failure, thread-creation failure, object lifetime beyond the explicit pointer models
(problem copies, statistics, solver moves, trajectories), `altro/main.cpp`, the benchmark programs in `perf/`, CMake, docs.

### Layout

`lean/Verif/Model/*`  the code, function by function, with citations.
`lean/Verif/Spec/*`   small independent specifications used in theorem statements.
`lean/Verif/Proofs/*` helper lemmas.
`lean/Verif/Props/*`  the property theorems, each with concrete cases that meet the hypotheses.

### Naming

`CNN_name`: a theorem about property CNN that states (part of) the claim. `CNN_name_partial`: a restricted form; its
comment says what is missing. `CNN_name_counterexample`, `CNN_diverges_...`: the claim, or a part of it, is false of the
code; wherever possible the refutation is general (all problems, all histories of a kind) and not one run. A property with
any of the last two has status `partial` in `MANIFEST.json`.

### Testing the theorems

`seeded/LOG.jsonl`: edits of the model that imitate realistic bugs, made in a copy outside this repository, with the
theorems that no longer prove. An edit under which everything still proved, although the English claim had become false,
led to a tighter theorem; these are marked. `outcome` is `caught`, `survived`, `not a program` (Lean rejects the edited model
itself, so nothing was tested) or `not decided` (the build ran into its time limit).

## 3. Properties

`V` marks a property that is false of the code: the negation is proved with a concrete witness and the part that
does hold is proved as `..._partial`.

| id | what is modelled | how it is proved |
|----|------------------|------------------|
| C01 | projections, violation query | componentwise algebra; nearest point by square completion |
| C02 | `AugLag` | algebra over an ordered field |
| C03 | `AugLag`, `AugLagGradient`, `ALCost::Evaluate/Gradient` over ℝ | `HasFDerivAt`; `min(0,x)^2` is C1 |
| C04 | `AugLagHessian` | Gram form; second derivative for affine equality |
| C05 | constraint-values state machine | invariant by induction over operations |
| C06 | gradient + dual update | algebra; case split on active set |
| C07 | penalty state machine, all levels | induction over updates |
| C08 | `MaxViolation` at the three levels | fold/max lemmas |
| C09 | `Problem`, `BuildAugLagProblem`, counts | induction over knot points |
| C10 | `GetConstraintInfo` | list permutation and sortedness (`std::sort` is a parameter: any sorted permutation) |
| C11 | AL loop over an arbitrary inner solver, law-free numbers | loop invariant |
| C12 | same | fuel-free structural recursion on remaining iterations |
| C13 | same plus cost state | loop invariant |
| C14 | `Init` from arbitrary state | state equality |
| C15 V | full iLQR+AL state with stored constraint values | witness run; `_partial`: runs whose last line search succeeded |
| C16 V | AL loop | witness; `_partial` for `max_iterations_outer ≥ 1` |
| C17 | iLQR state machine, law-free | invariant over the loop |
| C18 | same, plus ordered numbers for the chain | invariant; acceptance test |
| C19 | same | loop invariant |
| C20 | regularization schedule | induction over operation sequences |
| C21 V | backward pass as a small-step loop with a factorization oracle | measure under side conditions; witnesses of divergence |
| C22 V | same | exact value as a sum over stopped sweeps (`Spec/Sweeps.lean`); if-and-only-if for the solver's kernel; witness |
| C23 V | iLQR iteration | status is overwritten by the forward pass; witness and general theorem |
| C24 | forward pass | first-match characterisation |
| C25 V | statistics + forward pass | invariant over the loop; if-and-only-if for whole solves; witness for rejected first step |
| C26 V | `SolveSetup` | simulation between two solves: which state a solve reads; three witnesses |
| C27-C29 | `KnotPointFunctions` over matrices | ring identities on quadratic forms |
| C30 | backward sweep over matrices | induction over the horizon, PSD Schur step |
| C31 | same | quadratic form inequalities |
| C32 | LQ rollout + sweep | dynamic-programming induction |
| C33 | Euler | `HasFDerivAt` |
| C34 V | RK4 | chain rule, `_partial` for time-invariant Jacobians; witness with time-varying dynamics |
| C35 | RK4 on linear systems, triple integrator | algebra |
| C36 | finite differences | loop invariant for the moving perturbation; algebra |
| C37-C40 | examples | `HasFDerivAt`, order lemmas (C39 V for custom indices) |
| C41 V | `Problem` as a state machine with null pointers | invariant over histories; witness of the null dereference |
| C42 | same | induction over histories |
| C43 V | copy/move with uninitialised member | witness; `_partial` for everything but `N` |
| C44 V | trajectory times | exact arithmetic `_partial`; binary32 rounding witness |
| C45-C47 | node-level queue, per-thread program counters | inductive invariant over all schedules; C46 V, C47 V with witnesses |
| C48-C50 | pool, workers, futures | inductive invariant over all schedules; C49 V witness |
| C51 V | `DefaultTaskAssignment` | exact arithmetic `_partial`; binary64 witness; any-rounding conditional theorem |
| C52 V | `SetTaskAssignment` | witness; partial characterisation |
| C53 | block tasks writing disjoint slots | commutation, from partition |
| C54 | statistics state machine | refinement to a history specification |
| C55-C57 | logger | list lemmas, induction (C56 V for frequency 0; C55 V for duplicate titles) |
| C58 | timer | induction over scope trees |
| C59 V | summary table | sorted prefix argument under a character condition; witness |
| C60 V | percentages | `_partial` under a range condition; overflow witness |
| C61 V | pointer model of any number of statistics objects | refutation for every history with a move; what holds without |
| C62 V | block assembly | witness; `_partial` when cross terms vanish |
| C63 | node-level queue | lock-order argument from the invariant; decreasing rank |
| C64 | pool, `StopThreads` | invariant and decreasing rank over all schedules |
| C65 | gradient measure of iLQR over ℝ | first-order conditions from the sweep; derivative of the total cost |
| C66 | sweep and line search over ℝ | directional derivative of the merit along the policy; Armijo argument |
| C67 | outer iteration over ℝ | fixed points ↔ KKT conditions of the whole problem, stated in `Spec/KKT.lean` |
| C68 | derivative checks | exact error of the difference quotients; what acceptance implies and does not |
| C69 V | scalar function interface | memory model of a strided view; refuted for every strided row |
| C70 V | checks of `QuadraticCost` | factorization algebra; first sweep succeeds; non-convex accepted cost |
| C71 V | example problems | evaluation for every horizon; uninitialised memory as an input |
| C72 V | setting up a solver | exact condition for `Solve` to start; refutations for each documented misuse |
| C73 V | benchmark statistics | order statistics of a sorted list; sums of squares |
| C74 V | work launcher | coverage counts from C51; binary64 witness |
| C75 V | solver objects, callback with captured address | invariant over histories; refutation for every history with a move |
| C76 V | knot point objects in a heap, any template sizes | exact characterisation of one operation, then induction over histories |
| C77 V | constraint values, violation, cost and multiplier update over numbers with NaN; the law-free solver instantiated with them | exact characterisation by induction over the lists; refinement to the exact model; runs as counterexamples |
| C78 V | pools at addresses, queue and pool moves, workers that keep the address they were launched with | conservation invariant over histories; exact characterisation of failing calls; general counterexamples |
| C79 | outer loop over any exact inner solver, convex problems (`Spec/Convex.lean`) | proximal-point inequality for the multipliers (`Proofs/Proximal.lean`), invariant over the outer iterations |
| C80 | outer and inner loop on linear-quadratic problems with affine equalities (`Spec/LQEquality.lean`) | inner solve exact in two iterations (`Proofs/LQCore.lean`), existence of multipliers by elimination (`Proofs/QPDual.lean`, `LQMultipliers.lean`), then C79 |
| C81 | `Init`, `Solve`, `MaxViolation(Z)` over histories of operations (`Spec/ALRepeat.lean`) | simulation up to gains that are overwritten before they are read (`Proofs/ALRepeat.lean`); instance for `ALCost`; two kinds of witnesses |
| C82 | the solver's control flow over `Dbl` (`Model/Double.lean`, `Model/Options.lean`) | interval invariants of the regularization, comparison with an exact lower bound of its growth; kernel-computed number of sweeps |
| C83 | the inner loop on linear-quadratic problems with affine equalities and inequalities (`Spec/LQInequality.lean`) | bounds for one backward sweep by induction over the knot points (`Proofs/ConvexSweep.lean`), guaranteed decrease of one iteration (`ConvexIter.lean`), potential argument for the loop (`ConvexSolve.lean`), augmented costs between two quadratics whatever the multipliers (`AffineKnot.lean`) |
| C84 | the whole solver on linear-quadratic problems with affine equalities and inequalities | multipliers by induction over the inequalities (`Proofs/LQSaddle.lean`), strong convexity in the controls (`LQStrong.lean`), the proximal argument of C79 with an error per step (`Inexact.lean`, `Proximal.lean`), an error budget over all outer iterations (`Props/LQWhole.lean`) |
| C85 | progress of the iterations on nonlinear problems | the line search only sees the reported expansions: curvature of the sweep (`Proofs/Progress.lean`) turns an accepted step into a decrease by `unitDecrease`; counting over the states between the iterations (`Spec/Progress.lean`, `Props/Progress.lean`) |
| C86 | convergence of the inner solver on smooth nonlinear problems, over ℝ | compactness: sublevel sets bound the controls, so the sweeps are uniformly bounded and a uniform first-order expansion of the closed loop (`Proofs/SmoothLoop`) makes short enough steps acceptable (`SmoothBounds`, `SmoothIter`); small feedforward terms mean a small derivative (`SmoothStat`); the loop of C85 then ends (`SmoothSolve`); unicycle instance in `Props/SmoothExamples` |
| C87 | derivative checks of `ContinuousDynamics` and `DiscretizedModel` objects, over ℝ | `Model/DynCheck.lean` adds the members `t_`, `h_` and the `FunctionBase` methods to the checks of C68; difference quotients of the step are those of the identity plus `h` times those of the model (`Props/DynCheck.lean`) |
| C88 | the whole solver on smooth nonlinear problems with constraints, over ℝ | the augmented costs depend continuously on the multipliers, so C86 holds uniformly over bounded multipliers (`SmoothFamily`, `SmoothMult`); the gradient of the augmented cost is that of the Lagrangian with updated multipliers (`SmoothLagrangian`), which are updated with values of a trajectory near the returned one (`SmoothOuter`, `SmoothStep`); induction over the outer iterations with growing bounds (`SmoothAL`) |
| C89 V | files of the process and the output members of a timer (`Model/ProfileOutput.lean`) | invariant over histories, exact condition; general counterexamples for repeated solves |
| C90 V | number of summaries; text of the table | invariant over histories; lengths of padded strings |
| C91 V | range setters of costs and dynamics (`Model/ProblemRanges.lean`) | induction over the vector; equality with the sequence of single calls |
| C92 | sequences of approximate KKT points on smooth problems, over ℝ | the Lagrangian gradient as a continuous function of trajectory and multipliers (`Proofs/KKTLimit.lean`), limits of the inequalities, compactness of bounded multipliers and controls |
| C93 | approximate KKT points of convex problems (`Spec/NearOptimal.lean`) | the Lagrangian lies above its tangent; the tangent along a dynamics-feasible change is the reduced gradient (C81), bounded by Cauchy-Schwarz; complementarity and feasibility errors times multipliers |
| C94 | the whole solver on smooth convex problems with a saddle point, over ℝ | each outer iteration nearly minimises the Lagrangian with the new multipliers (C88 and the tangent inequality of C93), so the squared distance of the multipliers to those of the solution drops by the square of penalty times recorded violation (`Proofs/ConvexStep.lean`, `Proofs/ConvexAL.lean`); induction on the number of outer iterations with error bounds chosen last |
| C95 | trajectory objects, blocks of knot points and pointers to knot points | refinement: `Model/TrajectoryMemory.lean` against values without memory (`Spec/TrajectoryValues.lean`); induction over histories |
| C96 | the same with a strictly feasible trajectory in place of the saddle point | a solution exists by compactness of the feasible controls in a sublevel set (`Proofs/Solution.lean`); multipliers by separating achievable constraint and objective values from the optimum in a finite-dimensional space (`Proofs/Slater.lean`); then C94 |
| C97 | constraint values, multipliers and penalties over any arithmetic (`Model/ConArith.lean`), run with `Dbl` | rounding is odd and monotone, so sums, products of nonnegative numbers and squares are (`Proofs/DoubleOrder.lean`); induction over histories, vectors and knot points |
| C98 | results of `AL.solve` as approximate Karush-Kuhn-Tucker points (C88, C92) | multipliers divided by their norm: a limit would be a degenerate set of multipliers (`Proofs/Qualification.lean`); adding a degenerate set keeps a Karush-Kuhn-Tucker point; subsequences |
| C99 | inner and whole solver with and without `check_forwardpass_bounds`, any arithmetic; C86, C88, C94, C96 with the test | induction over runs: a candidate within the limits is computed in the same way (`Proofs/Limits.lean`); closed loops over a compact set of controls, gains and feedforward terms are bounded (`Proofs/SmoothLimits.lean`) |
| C100 | inner solver near a minimiser of the augmented cost, affine dynamics, convex objectives, affine constraints | error of the sweep's closed loop against the minimiser: both make a quadratic model stationary, up to remainder and regularization (`Proofs/NewtonSweep.lean`); the full step passes the line search by Taylor's theorem (`Proofs/NewtonIter.lean`); induction over iterations (`Proofs/NewtonLoop.lean`); away from switching points the augmented cost has the remainder of the objective (`Proofs/NewtonProblem.lean`) |
| C101 | outer iterations on linear-quadratic problems with equality constraints | stationarity of augmented Lagrangian and Lagrangian as functions of the controls, a bound of the multiplier error by the Hessian on the range of the constraints (`Proofs/ALRate.lean`, `Proofs/LQRate.lean`), induction over outer iterations |
| C102 | the triple integrator example, any number of joints | the model is affine, so the problem is in the class of C80 and C96; a jerk pattern reaches the goal strictly inside the bounds (`Proofs/TripleExample.lean`) |
| C103 | the unicycle example as an object (`Model/ExampleSolvers.lean`): fields, problems, trajectories and solvers it makes | induction over programs; `MakeProblem` sets weights and duration together; counterexample for the other order |
| C104 | `Solve` with `reset_duals` off, once and again and again | the invariants of C79 and C101 with the distance at the start as a parameter; a fixed multiplier has term zero; choice of a solve for each call |
| C105 | the outer iteration near a regular solution of a nonlinear problem | the Karush-Kuhn-Tucker system in the controls and active multipliers is injective to first order, hence a local error bound; active constraints are (change of multiplier) / penalty; induction over the outer iterations |
| C106 | the rate of C105 on strongly convex problems, from every start | the distance of the multipliers from those of the solution does not grow (C94), so large penalties bring every inner solve near the solution; then C105; the second-order condition from the curvature |
| C107 | `costs_.sum()` and the line-search test over `Dbl`; orders of addition as trees (`Spec/DoubleSum.lean`) | relative error of one addition without underflow term (numbers of the format are multiples of the smallest one), induction over trees (`Proofs/DoubleSum.lean`); C18 over doubles; monotone rounding for the test |
| C108 | `ContDyn.rk4`, `ContDyn.euler`, outer solver; motions under held controls (`Spec/IntegrationOrder.lean`) | expansion of the stages with explicit remainders (`Proofs/RungeKutta.lean`), Grönwall against the Taylor polynomial, accumulation over non-uniform grids (`Proofs/RungeKuttaGlobal.lean`), bounds by compactness (`Proofs/RungeKuttaJets.lean`), time as a state (`Proofs/IntegrationOrder.lean`); C17 for the solver |
| C109 | the integrators with rounding (`Model/FloatIntegration.lean`), `SetUniformStep`, outer solver | error of every operation, stage by stage, then growth over steps (`Proofs/FloatIntegration.lean`); C17 and C108; 1024 steps in double precision as a case |
| C110 | the backward pass with any routine for the gains (`Model/InexactGains.lean`) | identity for the cost of all deviations by telescoping over the sweep, with the residual of the gains as linear term; C22 for failed sweeps; gains with one decimal as a case |
| C111 | Cholesky factorization, substitutions and gains with rounding (`Model/FloatCholesky.lean`); the sums of products are parameters, `Spec.Accurate` says they are rounded sums in some order | errors of arbitrary addition trees, the factorization and the two substitutions by induction over columns and rows, Cauchy-Schwarz for the scaling by the diagonal; a vector with a small form from the column where it stops; C110 for the policy; sums from left to right with 53 bits as a case; slope of the cost and stationarity by the adjoint recursion of C65 and C66; the line search by the argument of C66 for any routine (C110) |
| C112 | the per-knot-point code over any arithmetic (`Model/ArithKP.lean`), problem functions arbitrary; `Spec.IsNaN` says what is known about NaN | the NaN spreads through the columns and both substitutions by induction; sweeps by induction over the knot points; a NaN announced change gives the ratio -1; over the reals the kernel equals `alKernel`; a double problem with the default options as a case |
| C113 | the whole AL solver with `ALCost` (`Model/Concrete.lean`), default options (`Model/Options.lean`); the solver over `Dbl` with any cost objects that have penalties | a loop invariant: the scaled penalty is stored at the start of iteration j, and the test at the end of iteration j - 1 compared a maximum above it with the limit; the same with `double`, where the powers of ten are exact; runs with four and with ten outer iterations as cases |
| C114 | several loggers with the nodes of their maps and the pointers in `order_` (`Model/LoggerMove.lean`) | refinement to lists of titles (`Spec/LoggerValues.lean`); invariant: pointers lead into the own map, maps share no nodes; counterexample for copies proved |
| C115 | the copy constructor of the statistics (`Model/StatsCopy.lean`) on the heap of C61 | no map leads to the new object, so its vectors are frozen (lemma of C61) |
