{"id": "C01", "title": "Reported constraint violation is the distance to feasibility", "statement": "For an equality constraint the violation vector returned by the constraint's violation query is exactly the constraint value; for an inequality constraint (c <= 0) it is the positive part of the constraint value. The projection used is the nearest point of the feasible cone, it is idempotent, and the violation is zero exactly when the constraint is satisfied.", "quantifier": "every constraint dimension, every constraint value vector, equality and inequality", "why_tests_cant": "a test checks a few vectors; the nearest-point and iff claims range over all real vectors", "anchors": ["altro/constraints/constraint.hpp:ZeroCone::Projection,NegativeOrthant::Projection,IdentityCone::Projection", "altro/constraints/constraint_values.hpp:GetViolation,MaxViolation"]}
{"id": "C02", "title": "Augmented Lagrangian term has its documented value and never penalises a feasible point", "statement": "With a uniform positive penalty rho, the augmented Lagrangian term equals -lambda'c + rho/2 |c|^2 for equality constraints, and the sum over components of -lambda c + rho/2 c^2 (when lambda - rho c <= 0) or -lambda^2/(2 rho) (otherwise) for inequality constraints. At a point that satisfies the constraint, with dual-feasible multipliers, the term is <= 0, so the augmented cost never exceeds the nominal cost at feasible points.", "quantifier": "every dimension, multiplier vector, constraint value, rho > 0", "why_tests_cant": "an identity over all real multipliers, penalties and constraint values", "anchors": ["altro/constraints/constraint_values.hpp:AugLag", "altro/augmented_lagrangian/al_cost.hpp:Evaluate"]}
{"id": "C03", "title": "Augmented Lagrangian gradient is the true derivative", "statement": "For differentiable constraint functions whose reported Jacobian is right, the gradient of the augmented Lagrangian term that is reported for the state and the control is the exact derivative of the reported augmented Lagrangian value, at every point, including points where an inequality switches between active and inactive; the same holds for the complete augmented cost (objective plus all constraints).", "quantifier": "every differentiable constraint, every point, every multiplier, every rho > 0, any number of constraints at a knot point", "why_tests_cant": "finite-difference tests sample points and cannot reach the measure-zero switching surface", "anchors": ["altro/constraints/constraint_values.hpp:AugLagGradient", "altro/augmented_lagrangian/al_cost.hpp:Gradient"]}
{"id": "C04", "title": "Augmented Lagrangian Hessian is a symmetric positive semidefinite Gauss-Newton block matrix", "statement": "The xx, xu and uu blocks reported for a constraint's augmented Lagrangian Hessian form a joint symmetric positive semidefinite matrix for every penalty rho >= 0, so adding constraints never destroys convexity of the cost expansion. For equality constraints that are affine the blocks are the exact second derivative of the reported value.", "quantifier": "every Jacobian, multiplier, constraint value and rho >= 0", "why_tests_cant": "positive semidefiniteness quantifies over all directions and all inputs", "anchors": ["altro/constraints/constraint_values.hpp:AugLagHessian", "altro/augmented_lagrangian/al_cost.hpp:Hessian"]}
{"id": "C05", "title": "Dual variables stay in the dual cone through every history", "statement": "Starting from construction, after any sequence of evaluations, dual updates, penalty updates, penalty settings and dual resets, the multipliers of every inequality constraint are <= 0 in every component (dual feasible).", "quantifier": "every finite sequence of operations, any constraint values (feasible or not), any penalties", "why_tests_cant": "ranges over all operation histories", "anchors": ["altro/constraints/constraint_values.hpp:UpdateDuals,ResetDualVariables,UpdatePenalties,SetPenalty", "altro/augmented_lagrangian/al_cost.hpp:UpdateDuals"]}
{"id": "C06", "title": "The multiplier update makes the augmented gradient the Lagrangian gradient, and is stationary exactly at KKT points", "statement": "With a uniform penalty, after evaluating the augmented Lagrangian gradient at (x,u) and then updating the duals, the gradient just reported equals -J' lambda_new (so stationarity of the augmented cost is stationarity of the Lagrangian at the new multipliers). With rho > 0 and dual-feasible multipliers, the update leaves them unchanged if and only if the constraint is satisfied and complementary slackness holds.", "quantifier": "all constraint values, Jacobians, multipliers and uniform penalties rho > 0", "why_tests_cant": "an algebraic law over all real inputs, with an iff", "anchors": ["altro/constraints/constraint_values.hpp:AugLagGradient,UpdateDuals"]}
{"id": "C07", "title": "Penalties grow geometrically and never shrink", "statement": "After setting the penalty to rho and the scaling factor to phi, k penalty updates leave every penalty of every constraint at rho*phi^k; with accepted arguments (rho >= 0, phi >= 1) penalties are nonnegative and never decrease, and the reported maximum penalty is an upper bound attained by some constraint. Penalties that were never set are ten to the number of updates, and the scaling factor that was never set is ten.", "quantifier": "every k, rho, phi and number/dimension of constraints; every history of dual updates in between", "why_tests_cant": "induction over the number of updates", "anchors": ["altro/constraints/constraint_values.hpp:SetPenalty,SetPenaltyScaling,UpdatePenalties,MaxPenalty", "altro/augmented_lagrangian/al_cost.hpp:SetPenalty,SetPenaltyScaling,UpdatePenalties,MaxPenalty", "altro/augmented_lagrangian/al_solver.hpp:GetMaxPenalty,SetPenalty,UpdatePenalties"]}
{"id": "C08", "title": "Reported maximum violation bounds every individual constraint", "statement": "The solver's maximum violation (infinity norm over components, constraints and knot points) is < tol if and only if (for tol > 0) every component of every equality constraint satisfies |c_i| < tol and every component of every inequality constraint satisfies c_i < tol. For the 1-norm variant the nested norm equals the sum of all individual violations, and for the 2-norm variant its square equals the sum of all squared violations.", "quantifier": "any number of knot points, constraints and components, all values, all tol > 0", "why_tests_cant": "ranges over all shapes and values", "anchors": ["altro/constraints/constraint_values.hpp:MaxViolation", "altro/augmented_lagrangian/al_cost.hpp:MaxViolation", "altro/augmented_lagrangian/al_solver.hpp:GetMaxViolation"]}
{"id": "C09", "title": "Building the augmented Lagrangian problem keeps the problem", "statement": "The unconstrained problem built from a constrained one has the same number of segments, initial state, dynamics at every knot point and no constraints; each knot point's cost is the original objective plus that knot point's equality and inequality constraints; the number of constraints reported by the solver, per knot point and in total, equals the number in the original problem. Before the solver is initialised from a problem its counts stop at an assertion.", "quantifier": "every problem: any N, any number of constraints at any knot points", "why_tests_cant": "structural statement for all problem sizes and constraint placements", "anchors": ["altro/augmented_lagrangian/al_problem.hpp:BuildAugLagProblem", "altro/augmented_lagrangian/al_cost.hpp:ALCost,NumConstraints", "altro/augmented_lagrangian/al_solver.hpp:InitializeFromProblem,NumConstraints", "altro/problem/problem.hpp:NumConstraints"]}
{"id": "C10", "title": "Constraint report lists every constraint once, with the right knot point, sorted on request", "statement": "The constraint-info query returns exactly one record for each constraint in the problem, tagged with its knot point index and carrying that constraint's current violation; when sorting is requested the result is a permutation of the same records in non-increasing order of infinity-norm violation.", "quantifier": "every problem and every set of constraint values, with and without sorting", "why_tests_cant": "a permutation/ordering statement over all shapes", "anchors": ["altro/augmented_lagrangian/al_solver.hpp:GetConstraintInfo", "altro/augmented_lagrangian/al_cost.hpp:GetConstraintInfo", "altro/constraints/constraint_values.hpp:GetConstraintInfo", "altro/constraints/constraint.hpp:ConstraintInfo"]}
{"id": "C11", "title": "kSolved means solved", "statement": "If the augmented Lagrangian solve runs at least one outer iteration and returns with status kSolved, then the last inner solve reported kSolved and the last recorded maximum violation is below the constraint tolerance; otherwise the status names the first failing condition in the documented order (inner failure, penalty limit, outer limit, total limit).", "quantifier": "every inner-solver behaviour, every arithmetic (including NaN), every option setting with max_iterations_outer >= 1", "why_tests_cant": "control flow quantified over all inner-solver behaviours and floating-point results", "anchors": ["altro/augmented_lagrangian/al_solver.hpp:Solve,IsDone,UpdateConvergenceStatistics"]}
{"id": "C12", "title": "The augmented Lagrangian solve always stops within its iteration limits and never returns unsolved", "statement": "For every behaviour of the inner solver, the solve performs at most max_iterations_outer outer iterations; if at least one is performed, the status on return was decided in the last outer iteration by that iteration's data and is not kUnsolved unless the inner solver itself returned kUnsolved.", "quantifier": "every inner-solver behaviour and option setting", "why_tests_cant": "termination over all behaviours", "anchors": ["altro/augmented_lagrangian/al_solver.hpp:Solve,IsDone"]}
{"id": "C13", "title": "Duals and penalties are updated exactly as documented per outer iteration", "statement": "A solve that performs j >= 1 outer iterations applies the dual update exactly j times and the penalty update exactly j-1 times, so starting from initial_penalty the penalties on return are initial_penalty*phi^(j-1), and the recorded maximum penalty is that value.", "quantifier": "every inner-solver behaviour, every j", "why_tests_cant": "counts along all executions", "anchors": ["altro/augmented_lagrangian/al_solver.hpp:Solve,Init,UpdateDuals,UpdatePenalties"]}
{"id": "C14", "title": "Every augmented Lagrangian solve starts from the same solver state", "statement": "With reset_duals enabled and initial_penalty > 0, the duals, penalties and statistics at the first inner iteration do not depend on any earlier solve or on any earlier use of the solver; with reset_duals disabled the duals of the previous solve are kept unchanged.", "quantifier": "every history before the solve", "why_tests_cant": "ranges over all histories", "anchors": ["altro/augmented_lagrangian/al_solver.hpp:Init,ResetDualVariables,SetPenalty", "altro/common/solver_stats.cpp:Reset"]}
{"id": "C15", "title": "The violation the solver reports is the violation of the trajectory it returns", "statement": "When a solve returns, the recorded maximum violation, and the constraint values used for the dual update, are those of the returned trajectory.", "quantifier": "every problem and every run, including runs where a line search fails", "why_tests_cant": "depends on which candidate trajectory was evaluated last, over all runs", "anchors": ["altro/ilqr/ilqr.hpp:ForwardPass,Cost", "altro/constraints/constraint_values.hpp:AugLag,UpdateDuals,MaxViolation", "altro/augmented_lagrangian/al_solver.hpp:UpdateDuals,GetMaxViolation"]}
{"id": "C16", "title": "A solve with no outer iterations does not report a previous result", "statement": "Calling the augmented Lagrangian solve always produces a status about this call: when no outer iteration is allowed (max_iterations_outer <= 0), the status is not the one left from an earlier solve.", "quantifier": "every prior status and every option setting", "why_tests_cant": "histories of repeated solves", "anchors": ["altro/augmented_lagrangian/al_solver.hpp:Solve,GetStatus"]}
{"id": "C17", "title": "The returned trajectory is dynamically feasible", "statement": "After an iLQR solve, and after an augmented Lagrangian solve with at least one outer iteration, the trajectory starts at the problem's initial state and each state equals the discrete dynamics applied to the previous state, control, time and step; the times and steps of the segments are those the user supplied.", "quantifier": "every dynamics, cost, initial guess (feasible or not), number of iterations and line-search outcome; any arithmetic", "why_tests_cant": "an invariant of the whole iteration over all inputs", "anchors": ["altro/ilqr/ilqr.hpp:Solve,SolveSetup,Rollout,RolloutClosedLoop,ForwardPass", "altro/augmented_lagrangian/al_solver.hpp:Solve,SolveSetup"]}
{"id": "C18", "title": "The cost never increases", "statement": "Every accepted step strictly decreases the total cost of the trajectory, a rejected step leaves the trajectory untouched, so the cost of the returned trajectory is never larger than the cost of the initial rollout, and the status kCostIncrease is never reported.", "quantifier": "every problem, option setting and iteration count (for fixed multipliers and penalties); the no-kCostIncrease part under any arithmetic", "why_tests_cant": "an invariant over all runs", "anchors": ["altro/ilqr/ilqr.hpp:ForwardPass,UpdateExpansions,Cost"]}
{"id": "C19", "title": "The iLQR solve stops within its iteration limit with a meaningful status", "statement": "The solve performs at most max_iterations_inner iterations. If at least one is performed the status on return is: kSolved exactly when the last recorded cost change and gradient are below their tolerances; otherwise kMaxInnerIterations when the inner limit is reached, otherwise kMaxIterations when the total limit is reached, otherwise the rollout failure status; it is never kUnsolved.", "quantifier": "every problem, arithmetic and option setting with max_iterations_inner >= 1", "why_tests_cant": "control flow over all behaviours", "anchors": ["altro/ilqr/ilqr.hpp:Solve,IsDone,UpdateConvergenceStatistics"]}
{"id": "C20", "title": "Regularization stays within its configured bounds", "statement": "After any sequence of regularization increases and decreases (at least one), the regularization reported by the solver lies in [bp_reg_min, bp_reg_max]; an increase never lowers it and a decrease at rest never raises it above its previous value (except up to bp_reg_min).", "quantifier": "every sequence of increases/decreases and all settings with 0 <= bp_reg_min <= bp_reg_max and factor >= 1", "why_tests_cant": "induction over operation sequences", "anchors": ["altro/ilqr/ilqr.hpp:IncreaseRegularization,DecreaseRegularization,GetRegularization"]}
{"id": "C21", "title": "The backward pass always terminates", "statement": "The backward pass finishes after finitely many restarts, whatever the cost and dynamics expansions are.", "quantifier": "every outcome sequence of the Cholesky factorizations, every option setting, every horizon length N >= 0", "why_tests_cant": "termination for all inputs", "anchors": ["altro/ilqr/ilqr.hpp:BackwardPass,IncreaseRegularization"]}
{"id": "C22", "title": "The expected cost decrease is that of the policy that is used", "statement": "After a backward pass the expected decrease used by the line search equals the sum over all knot points of the policy's predicted linear and quadratic changes.", "quantifier": "every sequence of factorization successes and failures", "why_tests_cant": "needs runs where some factorization fails part-way", "anchors": ["altro/ilqr/ilqr.hpp:BackwardPass,ForwardPass", "altro/ilqr/knot_point_function_type.hpp:AddCostToGo"]}
{"id": "C23", "title": "A regularization failure is reported", "statement": "If the backward pass gives up because regularization reached its maximum too often, the solve ends with status kBackwardPassRegularizationFailed.", "quantifier": "every run in which the backward pass gives up", "why_tests_cant": "rare failure path over all runs", "anchors": ["altro/ilqr/ilqr.hpp:BackwardPass,RolloutClosedLoop,IsDone"]}
{"id": "C24", "title": "Line-search acceptance is exactly the documented sufficient-decrease test on the geometric step sequence", "statement": "The forward pass tries steps 1, 1/f, 1/f^2, ... in this order, at most line_search_max_iterations of them, and accepts the first one whose rollout respects the state and control limits, whose cost is lower, and whose actual-to-expected improvement ratio lies between the two bounds with a positive expected improvement; if none qualifies the trajectory is unchanged and the regularization is increased.", "quantifier": "every problem, arithmetic and option setting", "why_tests_cant": "first-success search over all candidate outcomes", "anchors": ["altro/ilqr/ilqr.hpp:ForwardPass,RolloutClosedLoop"]}
{"id": "C25", "title": "A recorded cost change is the change of the trajectory's cost", "statement": "After every iteration the recorded cost is the cost of the current trajectory and the recorded cost change is the difference between the previous and the current cost, so convergence is declared on real cost changes.", "quantifier": "every run, including iterations whose line search fails", "why_tests_cant": "depends on the record left by failing iterations", "anchors": ["altro/ilqr/ilqr.hpp:ForwardPass,UpdateConvergenceStatistics", "altro/common/solver_stats.cpp:NewIteration"]}
{"id": "C26", "title": "Repeated iLQR solves are reproducible", "statement": "Calling the iLQR solve again with the same trajectory, problem and options gives the same result as the first call (status, iteration count and trajectory).", "quantifier": "every number of earlier solves", "why_tests_cant": "histories of repeated solves", "anchors": ["altro/ilqr/ilqr.hpp:SolveSetup,ResetInternalVariables,IsDone", "altro/common/solver_stats.hpp:iterations_total"]}
{"id": "C27", "title": "The action-value expansion is the exact composition of cost, dynamics and cost-to-go", "statement": "For every state and control deviation the quadratic model stored for a knot point equals the cost expansion plus the next knot point's cost-to-go model applied to the linearised dynamics.", "quantifier": "all dimensions, all expansions, all deviations", "why_tests_cant": "a polynomial identity over all matrices", "anchors": ["altro/ilqr/knot_point_function_type.hpp:CalcActionValueExpansion"]}
{"id": "C28", "title": "The feedback policy minimises the regularised action-value", "statement": "When the factorization succeeds, for every state deviation the control deviation K dx + d is the unique global minimiser of the regularised quadratic model; when it fails, the previous gains are kept.", "quantifier": "all dimensions, all symmetric positive definite regularised Hessians, all deviations", "why_tests_cant": "optimality over all control deviations", "anchors": ["altro/ilqr/knot_point_function_type.hpp:RegularizeActionValue,CalcGains"]}
{"id": "C29", "title": "The cost-to-go is the value of the policy", "statement": "The cost-to-go model stored for a knot point (gradient, Hessian and predicted change) equals the unregularised action-value model evaluated at the policy, for every state deviation, and the predicted change for step alpha equals the change of the model along alpha*d.", "quantifier": "all dimensions, matrices, gains and deviations", "why_tests_cant": "a polynomial identity over all matrices", "anchors": ["altro/ilqr/knot_point_function_type.hpp:CalcCostToGo,GetCostToGoDelta,AddCostToGo"]}
{"id": "C30", "title": "Convex expansions never make the backward pass fail", "statement": "If every knot point's cost Hessian is symmetric positive semidefinite and the regularization is positive (or the control Hessian is positive definite), every cost-to-go Hessian is symmetric positive semidefinite and every factorization succeeds, so the backward pass finishes in one sweep.", "quantifier": "every horizon, dimension, dynamics Jacobian and convex cost", "why_tests_cant": "induction over the horizon for all problems", "anchors": ["altro/ilqr/knot_point_function_type.hpp:CalcActionValueExpansion,CalcGains,CalcCostToGo", "altro/ilqr/ilqr.hpp:BackwardPass"]}
{"id": "C31", "title": "The predicted improvement is positive away from stationarity", "statement": "After a sweep in which every factorization succeeds with regularization >= 0, the expected improvement for every step 0 < alpha <= 1 is nonnegative, and it is zero exactly when all feedforward terms are zero.", "quantifier": "every horizon, expansion and step", "why_tests_cant": "inequality over all positive definite matrices", "anchors": ["altro/ilqr/ilqr.hpp:BackwardPass,ForwardPass", "altro/ilqr/knot_point_function_type.hpp:CalcCostToGo"]}
{"id": "C32", "title": "Linear-quadratic problems are solved by one iteration", "statement": "For linear(-affine) dynamics and quadratic costs with exact expansions and no regularization, the predicted cost change is exact for every step, the full step is the global optimum among all control sequences, and the improvement ratio is one, so the first full step is accepted whenever it is within limits and not already optimal.", "quantifier": "every horizon, dimension, time-varying LQ problem and initial trajectory", "why_tests_cant": "global optimality over all control sequences", "anchors": ["altro/ilqr/ilqr.hpp:BackwardPass,RolloutClosedLoop,ForwardPass", "altro/ilqr/knot_point_function_type.hpp"]}
{"id": "C33", "title": "Explicit Euler Jacobian is the derivative of the Euler step", "statement": "For every differentiable continuous dynamics with a correct Jacobian, the Jacobian reported by the Euler-discretised model is the exact derivative of its step with respect to state and control, at every time and step size.", "quantifier": "every dynamics, state, control, time and step", "why_tests_cant": "universally quantified derivative identity", "anchors": ["altro/problem/integration.hpp:ExplicitEuler", "altro/problem/discretized_model.hpp"]}
{"id": "C34", "title": "Runge-Kutta 4 Jacobian is the derivative of the RK4 step", "statement": "For every differentiable continuous dynamics with a correct Jacobian, the Jacobian reported by the RK4-discretised model is the exact derivative of its step with respect to state and control, at every time and step size.", "quantifier": "every dynamics (including time-varying), state, control, time and step", "why_tests_cant": "universally quantified derivative identity; time-varying dynamics are untested", "anchors": ["altro/problem/integration.hpp:RungeKutta4::Integrate,RungeKutta4::Jacobian", "altro/problem/discretized_model.hpp"]}
{"id": "C35", "title": "RK4 reproduces polynomial motion exactly", "statement": "For linear time-invariant dynamics the RK4 step is the fourth-order Taylor polynomial of the matrix exponential, and for the triple-integrator example the discretised model is the exact solution of constant-jerk motion for every step size.", "quantifier": "every matrix, state, control and step size", "why_tests_cant": "identity over all inputs", "anchors": ["altro/problem/integration.hpp:RungeKutta4::Integrate", "examples/triple_integrator.cpp:Evaluate"]}
{"id": "C36", "title": "Finite-difference derivatives are what they claim", "statement": "The finite-difference Jacobian has in column i the (forward or central) difference quotient along coordinate i and nothing else; it is exact for affine functions, and the central variant is exact for quadratic functions.", "quantifier": "every dimension, function, point and eps != 0", "why_tests_cant": "ranges over all functions and dimensions", "anchors": ["altro/utils/derivative_checker.hpp:FiniteDiffJacobian,FiniteDiffGradient,FiniteDiffHessian"]}
{"id": "C37", "title": "Quadratic and LQR example costs have exact derivatives and the documented value", "statement": "The quadratic cost's gradient and Hessian are the exact derivatives of its value for all symmetric weights, and the LQR constructor yields 1/2 (x-xref)'Q(x-xref) + 1/2 (u-uref)'R(u-uref).", "quantifier": "all dimensions, symmetric Q and R, reference points and evaluation points", "why_tests_cant": "identity over all matrices", "anchors": ["examples/quadratic_cost.hpp:QuadraticCost,LQRCost", "examples/quadratic_cost.cpp:Evaluate,Gradient,Hessian"]}
{"id": "C38", "title": "Control bounds and goal constraints encode exactly the intended sets", "statement": "The control-bound constraint has one row per finite bound and all rows are <= 0 exactly when the control lies within its bounds (infinite bounds impose nothing); the goal constraint is zero exactly at the goal; the reported Jacobians are the exact derivatives, written over any previous buffer content that is zero.", "quantifier": "all bounds (finite or infinite), controls, goals, dimensions; every sequence of bound updates", "why_tests_cant": "iff over all bounds and points", "anchors": ["examples/basic_constraints.hpp:ControlBound,GoalConstraint"]}
{"id": "C39", "title": "Circular obstacle constraints keep the position outside every circle and have the right Jacobian", "statement": "All rows of the obstacle constraint are <= 0 exactly when the position lies outside (or on) every registered circle, and the reported Jacobian is the exact derivative for the configured position indices.", "quantifier": "any number of circles, positions and position indices", "why_tests_cant": "iff over all circles and points; custom position indices are untested", "anchors": ["examples/obstacle_constraints.hpp:Circle,CircleConstraint"]}
{"id": "C40", "title": "Example dynamics Jacobians are exact", "statement": "The Jacobians (and for the unicycle the vector-weighted Hessian) reported by the triple-integrator and unicycle models are the exact derivatives of their dynamics at every state and control.", "quantifier": "every state and control, every number of degrees of freedom", "why_tests_cant": "derivative identity over all points", "anchors": ["examples/triple_integrator.cpp:Evaluate,Jacobian", "examples/unicycle.cpp:Evaluate,Jacobian,Hessian"]}
{"id": "C41", "title": "IsFullyDefined is exact and safe", "statement": "After any sequence of accepted definition calls, IsFullyDefined is true exactly when the initial state is set with the dimension of the first model and every knot point has a cost and every segment has dynamics, and in that case the dynamics at the terminal knot point exist with the dimensions of the last segment; the query itself is safe to call at any time.", "quantifier": "every sequence of SetDynamics/SetCostFunction/SetConstraint/SetInitialState calls", "why_tests_cant": "ranges over all call histories", "anchors": ["altro/problem/problem.cpp:IsFullyDefined,SetConstraint", "altro/problem/problem.hpp:SetDynamics,SetCostFunction,GetDynamics"]}
{"id": "C42", "title": "NumConstraints counts constraint rows", "statement": "The number of constraints reported for a knot point is the sum of the dimensions of all constraints added at that knot point, and the total is the sum over knot points, after any sequence of definition calls.", "quantifier": "every history of SetConstraint calls", "why_tests_cant": "ranges over all histories", "anchors": ["altro/problem/problem.hpp:NumConstraints", "altro/problem/problem.cpp:SetConstraint"]}
{"id": "C43", "title": "Copying or moving a problem preserves it", "statement": "A copy or move of a problem has the same number of segments, costs, dynamics, constraints and initial state as the original.", "quantifier": "every problem and every copy/move constructor or assignment", "why_tests_cant": "an uninitialised member often happens to hold the right value in a test", "anchors": ["altro/problem/problem.hpp:Problem(const Problem&),operator=,Problem(Problem&&)"]}
{"id": "C44", "title": "A uniform trajectory has consistent times", "statement": "After setting a uniform step h on a trajectory with N segments, knot point k has time k*h, steps are h except a zero terminal step, and the time-consistency check accepts the trajectory.", "quantifier": "every N and h", "why_tests_cant": "all horizon lengths, including long ones where rounding accumulates", "anchors": ["altro/common/trajectory.hpp:SetUniformStep,CheckTimeConsistency,Trajectory", "altro/common/knotpoint.hpp:SetTerminal,IsTerminal"]}
{"id": "C45", "title": "The queue is a linearizable FIFO queue", "statement": "Under every interleaving of any number of pushing and popping threads, the values returned by successful pops are, in order of the pops, exactly a prefix of the values pushed, in order of the pushes: nothing is lost, duplicated or reordered, a pop fails only if the queue was empty at some instant during the pop, and nodes are never accessed by two threads at once.", "quantifier": "every number of threads and every schedule of their atomic steps", "why_tests_cant": "all interleavings", "anchors": ["altro/common/threadsafe_queue.hpp:Push,TryPop,TryPopHead,PopHead,GetTail"]}
{"id": "C46", "title": "The queue size is exact", "statement": "Size() returns the number of elements in the queue.", "quantifier": "every schedule and every instant", "why_tests_cant": "all interleavings, including a pop that overtakes the push's size update", "anchors": ["altro/common/threadsafe_queue.hpp:Push,TryPopHead,Size"]}
{"id": "C47", "title": "Clear empties the queue and returns", "statement": "Clear() (and move assignment, which uses it) returns with an empty queue whose size is zero.", "quantifier": "every queue state and schedule", "why_tests_cant": "a self-deadlock shows up as a hung test, so it is simply not called in tests", "anchors": ["altro/common/threadsafe_queue.hpp:Clear,IsEmpty,operator="]}
{"id": "C48", "title": "The thread pool runs every task at most once and, with Wait, exactly once", "statement": "Under every schedule each added task starts at most once and tasks start in the order they were added; if Wait() returns with no timeout message then every task added since the previous Wait() has finished, and all effects of those tasks are complete.", "quantifier": "every number of workers, tasks and every schedule; any sequence of AddTask/Wait/LaunchThreads/StopThreads by the owner", "why_tests_cant": "all interleavings", "anchors": ["altro/common/threadpool.hpp:AddTask", "altro/common/threadpool.cpp:Wait,WorkerThread"]}
{"id": "C49", "title": "Wait always waits", "statement": "When Wait() returns, every task added before it has finished.", "quantifier": "every schedule and every task duration", "why_tests_cant": "a slow task exceeds the timeout only in rare runs", "anchors": ["altro/common/threadpool.cpp:Wait", "altro/common/threadpool.hpp:kTaskTimeout"]}
{"id": "C50", "title": "Stopping the pool never loses or truncates a task", "statement": "When StopThreads() returns, no task is running, every started task has finished, every unstarted task is still queued in order, and a later LaunchThreads() runs them.", "quantifier": "every schedule", "why_tests_cant": "all interleavings of stop with running workers", "anchors": ["altro/common/threadpool.cpp:StopThreads,LaunchThreads,WorkerThread"]}
{"id": "C51", "title": "The task assignment partitions the knot points", "statement": "The default assignment of knot points to tasks covers every knot point 0..N exactly once, whatever the number of segments, threads and tasks per thread.", "quantifier": "every N >= 1, number of threads and tasks per thread", "why_tests_cant": "floating-point accumulation fails only for particular sizes", "anchors": ["altro/ilqr/ilqr.hpp:DefaultTaskAssignment,GetTaskAssignment,UpdateExpansionsBlock", "perf/task_launcher.hpp"]}
{"id": "C52", "title": "Custom task assignments are validated", "statement": "SetTaskAssignment accepts a vector exactly when it is a strictly increasing list of at least two indices starting with 0 and ending with N+1; an accepted assignment is used by the next solve.", "quantifier": "every vector and every solver state", "why_tests_cant": "ranges over all vectors and prior states", "anchors": ["altro/ilqr/ilqr.hpp:SetTaskAssignment,ShouldRedoTaskAssignment,LaunchThreads"]}
{"id": "C53", "title": "Parallel expansions equal serial expansions", "statement": "Computing the expansions with any number of worker threads and any schedule gives the same expansions and knot point costs as computing them serially.", "quantifier": "every schedule, every partition into tasks", "why_tests_cant": "all interleavings", "anchors": ["altro/ilqr/ilqr.hpp:UpdateExpansions,UpdateExpansionsBlock,LaunchThreads", "altro/common/threadpool.cpp"]}
{"id": "C54", "title": "Statistics columns stay aligned", "statement": "After any sequence of logging, new-iteration and reset calls all recorded statistics have the same length, and entry i of a statistic is the last value logged for it during or before iteration i since the reset (zero if none).", "quantifier": "every sequence of operations", "why_tests_cant": "ranges over all histories", "anchors": ["altro/common/solver_stats.hpp:Log,SetData", "altro/common/solver_stats.cpp:NewIteration,Reset"]}
{"id": "C55", "title": "Logger columns appear where they were inserted", "statement": "Adding an entry at a nonnegative position inserts the column there and at a negative position inserts it counted from the end, keeping the relative order of all others; every column appears exactly once, and printing a level shows exactly the columns enabled at that level, in order.", "quantifier": "every sequence of insertions and every level", "why_tests_cant": "ranges over all histories", "anchors": ["altro/common/solver_logger.hpp:AddEntry,Log,GetEntry", "altro/common/solver_logger.cpp:PrintHeader,PrintData"]}
{"id": "C56", "title": "The header is printed every f lines", "statement": "With header frequency f, the i-th printed line since the last clear is preceded by a header exactly when i is a multiple of f, for every accepted f.", "quantifier": "every number of prints and every accepted frequency, including zero", "why_tests_cant": "unbounded sequences; frequency 0 is accepted but untested", "anchors": ["altro/common/solver_logger.cpp:Print,Clear", "altro/common/solver_logger.hpp:SetFrequency"]}
{"id": "C57", "title": "Value colours follow the configured bounds", "statement": "A logged value is shown in the lower colour exactly when below the lower bound, in the upper colour exactly when above the upper bound and in the default colour otherwise, and the lower bound never exceeds the upper bound after any accepted sequence of bound settings.", "quantifier": "every value and every sequence of bound settings", "why_tests_cant": "ranges over all histories", "anchors": ["altro/common/log_entry.hpp:SetLowerBound,SetUpperBound", "altro/common/log_entry.cpp:GetColor,SetLowerBound,SetUpperBound"]}
{"id": "C58", "title": "Profiler totals are the accumulated durations of each scope path", "statement": "For every well-nested sequence of scoped stopwatches, with the profiler switched on or off at any point in between, the recorded time for a path is the sum of the durations of all timed executions of exactly that nested path, and after the scopes close the nesting stack is as before.", "quantifier": "every program of nested scopes, all durations, any activation pattern", "why_tests_cant": "induction over all nesting structures", "anchors": ["altro/common/timer.cpp:Start,~Stopwatch", "altro/common/timer.hpp:Timer,Stopwatch"]}
{"id": "C59", "title": "The profile summary attributes each entry to its true parent", "statement": "In the printed summary every nested entry's parent percentage is relative to the entry whose path is the entry's path without its last component.", "quantifier": "every set of recorded paths closed under taking parents", "why_tests_cant": "depends on the sort order of arbitrary names", "anchors": ["altro/common/timer.cpp:PrintSummary", "altro/common/profile_entry.cpp:split,CalcStats"]}
{"id": "C60", "title": "Profile percentages are correct", "statement": "The percentages printed for an entry are the integer part of 100*time/total and 100*time/parent and lie between 0 and 100, for all recorded times.", "quantifier": "all recorded durations", "why_tests_cant": "overflow only appears for long runs", "anchors": ["altro/common/profile_entry.cpp:CalcStats"]}
{"id": "C61", "title": "A moved solver keeps recording its own statistics", "statement": "After moving a solver (or its statistics object), logging through the new object changes the statistics read from the new object.", "quantifier": "every history before and after the move", "why_tests_cant": "dangling internal pointers often appear to work in tests", "anchors": ["altro/common/solver_stats.hpp:SolverStats,floats_,DefaultLogger", "altro/ilqr/ilqr.hpp:iLQR(iLQR&&)"]}
{"id": "C62", "title": "The joint Hessian of a cost function is its full symmetric Hessian", "statement": "The Hessian of a cost function taken with respect to the stacked state-control vector is the symmetric matrix with blocks xx, xu, xu' and uu.", "quantifier": "every cost function, including ones with nonzero cross terms", "why_tests_cant": "all shipped examples have zero cross terms", "anchors": ["altro/problem/costfunction.hpp:Hessian", "altro/common/functionbase.cpp:CheckHessian"]}
{"id": "C63", "title": "Queue operations do not deadlock and are bounded", "statement": "As long as no thread calls Clear, whenever some thread is inside a queue operation some thread inside an operation can make a step, and every operation returns after at most 13 steps of its own.", "quantifier": "every number of threads and every schedule", "why_tests_cant": "deadlocks depend on the interleaving", "anchors": ["altro/common/threadsafe_queue.hpp:TryPopHead", "altro/common/threadsafe_queue.hpp:Push"]}
{"id": "C64", "title": "StopThreads always returns", "statement": "From every state in which StopThreads() has been entered, every schedule makes only boundedly many steps before it returns, and until it returns some thread can make a step.", "quantifier": "every schedule, number of workers, number and length of queued tasks", "why_tests_cant": "termination under all interleavings", "anchors": ["altro/common/threadpool.cpp:StopThreads,WorkerThread"]}
{"id": "C65", "title": "The gradient measure vanishes exactly at stationary trajectories", "statement": "If the costs and the discrete dynamics report their first derivatives correctly along the current (dynamically feasible) trajectory and the reported Hessian blocks are symmetric, then after any backward pass that does not give up - whatever the regularization and however many restarts - all feedforward terms are zero if and only if no change of the controls changes the total (augmented) cost to first order. Consequently the number compared with gradient_tolerance is zero exactly when the trajectory the iteration started from is stationary.", "quantifier": "for all horizons N >= 1, dimensions, dynamics and augmented costs with correct first derivatives, trajectories, options, regularization histories", "why_tests_cant": "Stationarity is a statement about all directions of control change and about derivatives; tests can only compare the measure with a tolerance on a few converged runs.", "anchors": ["altro/ilqr/ilqr.hpp:385-445", "altro/ilqr/ilqr.hpp:662-668", "altro/ilqr/knot_point_function_type.hpp:149-230"]}
{"id": "C66", "title": "The backward pass gives a descent direction and the line search eventually accepts", "statement": "The cost of the closed-loop candidate as a function of the step length has a derivative at zero; without regularization it equals the accumulated expected decrease deltaV(0). If the trajectory is not stationary and either the regularization is zero or the cost expansions are convex (any nonnegative regularization), deltaV(0) is negative and the derivative is at most half of it, so every sufficiently small step lowers the cost. If moreover the ratio of the derivative to deltaV(0) lies strictly inside the acceptance bounds (always the case without regularization for bounds around one) and the trajectory is strictly inside the state and control limits, the forward pass accepts a step and lowers the cost provided enough line-search iterations are allowed.", "quantifier": "for all horizons, dimensions, dynamics and augmented costs with correct first derivatives, dynamically feasible trajectories, options with line_search_decrease_factor > 1, first sweeps that succeed", "why_tests_cant": "Existence of an acceptable step for every problem and trajectory is a limit statement; a finite test only sees particular runs.", "anchors": ["altro/ilqr/ilqr.hpp:385-445", "altro/ilqr/ilqr.hpp:468-558", "altro/ilqr/knot_point_function_type.hpp:197-230"]}
{"id": "C67", "title": "Fixed points of the augmented Lagrangian iteration are the KKT points of the whole problem", "statement": "For a dynamically feasible trajectory, the total augmented cost is stationary with respect to the controls exactly when the Lagrangian with the multipliers produced by the next dual update is. The augmented cost is stationary and the dual update changes no multiplier exactly when the trajectory with its current multipliers is a Karush-Kuhn-Tucker point (dynamics, all constraints, stationary Lagrangian, multiplier signs, complementary slackness); equivalently when the solver's gradient measure is zero and the duals are settled. For affine dynamics, convex objective and inequalities and affine equalities, such a trajectory has minimal objective among all feasible trajectories.", "quantifier": "for all horizons, dimensions, differentiable dynamics, costs and constraints, any history of calls on the constraint values with positive penalties", "why_tests_cant": "It is an equivalence between what the solver measures and an optimality condition, over all problems; tests compare against single known optima.", "anchors": ["altro/augmented_lagrangian/al_cost.hpp:264-321", "altro/constraints/constraint_values.hpp:111-194", "altro/ilqr/ilqr.hpp:385-445", "altro/augmented_lagrangian/al_solver.hpp:293-345"]}
{"id": "C68", "title": "What the finite-difference derivative checks establish", "statement": "CheckJacobian is undefined behaviour exactly for functions without inputs. Otherwise it returns true exactly when the Frobenius norm of the difference between the forward difference quotients with step 1e-6 and the reported Jacobian is below the tolerance. If it passes and the second derivatives along the step are bounded by M, every reported entry is within eps + M*5e-7 of the true partial derivative; a correct Jacobian passes when the discretization error over all entries is below eps. For affine functions it passes for every positive tolerance exactly when the Jacobian is right; with a nonpositive tolerance it never passes. CheckGradient of a scalar function agrees with CheckJacobian. For quadratic functions CheckHessian compares against the exact Hessian, and the inherited empty Hessian passes exactly when the true Hessian is below the tolerance. The variants without a point draw state and control from [-1,1] (for the Hessian check of a function with several outputs also the weights): a correct Jacobian whose discretization error on that box is below eps always passes, and passing bounds the error at the drawn point; for affine functions a constant Jacobian passes every positive tolerance exactly when it is right, whatever is drawn; for functions with quadratic components the Hessian passes every draw and every positive tolerance exactly when it is right on the box for all weights there.", "quantifier": "for all functions, dimensions, points, tolerances", "why_tests_cant": "The checks are themselves tests; what passing them implies about the derivative is a statement over all functions.", "anchors": ["altro/common/functionbase.cpp:14-126", "altro/utils/derivative_checker.hpp:10-138"]}
{"id": "C69", "title": "ScalarFunction::Jacobian writes the gradient into the row it is given", "statement": "After ScalarFunction::Jacobian the 1xN matrix view passed in holds the gradient and nothing else is written. This holds when the view is contiguous (outer stride 1) or has at most one column. For a row of a taller matrix with at least two columns it is false: the function reinterprets the data pointer as a contiguous vector, ignoring the outer stride, so it overwrites memory outside the view and leaves entries of the view unset.", "quantifier": "for all views, gradients and memory contents", "why_tests_cant": "Tests only pass standalone matrices, for which the stride is 1.", "anchors": ["altro/common/functionbase.hpp:146-152"]}
{"id": "C70", "title": "What the checks in the constructor of a quadratic cost guarantee", "statement": "With assertions enabled QuadraticCost accepts its arguments exactly when the sizes match, Q and R are symmetric up to relative error 1e-12, the lower triangle of R describes a positive definite matrix (unless terminal), and the LDLT factorization of Q succeeds with nonnegative diagonal; then the lower triangle of Q describes a positive semidefinite matrix and the reported gradients are within 5e-13 |Q| |x| and 5e-13 |R| |u| of the true ones. If all costs of a problem are accepted, exactly symmetric and without coupling term (what LQRCost builds), the first backward sweep succeeds for all dynamics, trajectories, multipliers, nonnegative penalties and nonnegative regularization. The coupling matrix is not checked: an accepted cost with H != 0 can be non-convex and unbounded below. With NDEBUG everything is accepted.", "quantifier": "for all sizes, matrices, dynamics, constraints, trajectories", "why_tests_cant": "Definiteness for all vectors and success of the backward pass for all problems cannot be enumerated.", "anchors": ["examples/quadratic_cost.hpp:14-38", "examples/quadratic_cost.cpp:33-66"]}
{"id": "C71", "title": "The example problems are complete and consist of what they say", "statement": "TripleIntegratorProblem::MakeProblem and UnicycleProblem::MakeProblem succeed for every positive horizon when their costs are accepted; the problem is fully defined; the number of constraint rows is 2*dof*N + 3*dof (or 0 without constraints), respectively 4N + 3 plus 3(N-1) for the obstacles. Calling MakeProblem twice changes nothing. The problem depends only on the fields of the object, constraints are added only on request, and SetScenario selects the scenario: these three are false, because the triple integrator's control reference is uninitialised memory, the obstacle constraints are added regardless of the flag, and returning to the first scenario keeps goal, initial state and initial control of the second.", "quantifier": "for all horizons, numbers of joints, field values, contents of uninitialised memory", "why_tests_cant": "Memory contents and horizons are unbounded; the tests use one default configuration each and one scenario per object.", "anchors": ["examples/problems/triple_integrator.hpp:46-96", "examples/problems/unicycle.cpp:11-95", "examples/problems/unicycle.hpp:37-83"]}
{"id": "C72", "title": "A set-up iLQR solver solves the problem it was given", "statement": "After initialising a solver with N segments from a complete problem with N segments and giving it a trajectory with N segments, in either order, Solve starts, uses at every knot point the problem's cost and dynamics, starts from the problem's initial state, and works in place on the user's trajectory with a second trajectory that has the same times. Copying a problem in consecutive pieces is the same as copying it at once. In general Solve stops with an assertion exactly when no problem or no trajectory was given or the trajectory has the wrong length; it starts exactly when moreover the second trajectory exists and is long enough and there are knot point functions for all knot points. That every documented way of giving a trajectory works, that the assertions are sufficient, and that initialising again replaces the problem are false: a trajectory from MakeTrajectory alone leads to a null pointer dereference, a partially copied problem to a read out of range, and a second initialisation solves the old problem from the new initial state. Constructing the solver from a problem is the same as constructing it with the problem's number of segments and initialising it.", "quantifier": "for all problems, numbers of segments, trajectories, solver states", "why_tests_cant": "Tests always use SetTrajectory and one initialisation per solver; the states of the members are unbounded.", "anchors": ["altro/ilqr/ilqr.hpp:50-131", "altro/ilqr/ilqr.hpp:216-236", "altro/ilqr/ilqr.hpp:284-298", "altro/ilqr/ilqr.hpp:453-459", "altro/ilqr/ilqr.hpp:629-645"]}
{"id": "C73", "title": "Benchmark statistics are the statistics of the samples", "statement": "For at least one sample BenchmarkResults::Calculate returns the mean, the middle of the set of medians, the standard deviation, the maximum and the minimum of the samples, independently of their order, and leaves the vector sorted; minimum <= mean, median <= maximum, the standard deviation is at most half the range and is zero exactly when all samples are equal. Benchmark(f, n) with n > 0 calls f exactly n times and describes the n measured differences. With n = 0 it reads out of range, with n < 0 it throws.", "quantifier": "for all lists of samples, functions, clocks, numbers of samples", "why_tests_cant": "Lists of samples of all lengths and orders cannot be enumerated; there is no test of these functions.", "anchors": ["altro/utils/benchmarking.hpp:20-113"]}
{"id": "C74", "title": "The work launcher runs every work item once", "statement": "Running the tasks of the Launcher in any order works on the first L items exactly once and on no other, where L is the last index it computed and L is at most the number of items; all items are worked on exactly when the solver's own task assignment (the same loop with an assertion) succeeds for these sizes, in particular always in exact arithmetic. In double precision items are left out silently (50 items on 6 threads: the last 8). Without threads nothing is done; without items, or with a negative number of threads, the constructor does not return.", "quantifier": "for all numbers of items and threads, orders of execution, roundings", "why_tests_cant": "The tests and the benchmark use fixed sizes for which the sums are exact.", "anchors": ["perf/task_launcher.hpp:9-76", "perf/benchmark_threadpool.cpp:21-34"]}
{"id": "C75", "title": "A moved augmented Lagrangian solver reports its own constraint violation", "statement": "From its initialisation on, a solver that is neither moved nor destroyed logs in every iteration the violation of its own constraints, whatever happens to other solvers. That this also holds for a solver obtained by moving is false for every history: the callback stored in the inner solver captured the address of the old solver, so the moved solver evaluates GetMaxViolation of the old object, which is undefined (destroyed, or without costs) unless the old object is initialised again, in which case the violation of the other problem is logged. A solver returned by value, as from UnicycleProblem::MakeALSolver, therefore works only if the compiler omits the move. The move also drops a custom task assignment.", "quantifier": "for all histories of constructions, initialisations, moves and destructions of any number of solvers", "why_tests_cant": "The tests' compilers omit the move when a local solver is returned, so the moved state is never exercised; histories are unbounded.", "anchors": ["altro/ilqr/ilqr.hpp:56-71", "altro/ilqr/ilqr.hpp:237-239", "altro/ilqr/ilqr.hpp:583", "altro/augmented_lagrangian/al_solver.hpp:229-249", "altro/augmented_lagrangian/al_solver.hpp:417-424", "examples/problems/unicycle.hpp:110-120"]}
{"id": "C76", "title": "A knot point's dimensions are those of its vectors", "statement": "Starting from knot points whose stored dimensions are the lengths of their vectors, every successful operation (construction, conversion, copy, move, writing the state, control, time or step, SetTerminal) keeps this true of all knot points exactly when vectors are only overwritten by vectors of the same length and a dynamically sized vector is only moved away when empty or exchanged for one of equal length; with sizes fixed at compile time it always does. Receiving a copy or move gives the contents of the source; conversion to another type succeeds if and only if the dimensions agree and otherwise raises an assertion; SetTerminal zeroes the step and controls and nothing else; printing shows all entries. That the dimensions are always right is false: a moved-from knot point keeps its dimensions and loses its vectors, move assignment exchanges vectors but not dimensions, and assigning to State() resizes without updating the dimension. GetStateControl fails for every non-empty knot point with a dynamic size.", "quantifier": "for all histories of operations on any number of knot points, all template sizes, all vectors", "why_tests_cant": "Histories and sizes are unbounded; the tests use only a few sizes, never look at a moved-from knot point and call GetStateControl only for fixed sizes.", "anchors": ["altro/common/knotpoint.hpp:31-183", "altro/common/state_control_sized.hpp:24-75"]}
{"id": "C77", "title": "A value that is not a number is never reported as success", "statement": "If some constraint value or the cost is NaN, the solver does not report success. In detail: which NaN values reach the reported constraint violation, the cost and the multipliers, and whether a step to a trajectory whose cost is NaN can be accepted. This is false: the violation reported by the solver is NaN if and only if the first component of the first equality constraint at the first knot point is NaN; elsewhere a NaN is ignored or hides all other constraints of its knot point, NaN inequality values are treated as inactive in cost and multiplier update, a solve can end with kSolved and violation zero although the only constraint is NaN, and the inner solver can end with kSolved at a trajectory whose cost is NaN. Sorting the constraints by violation meets the requirement of std::sort if and only if no violation is NaN or all numbers among them are equal. What holds: without NaN the reported violation is below the tolerance exactly when every constraint holds up to it; NaN equality values make cost and multipliers NaN for good; the cost of the returned trajectory is a number if and only if that of the initial one was.", "quantifier": "for all numbers of knot points, constraints and components, all positions of NaN, all problems and initial trajectories", "why_tests_cant": "The positions of NaN in the constraint values are unbounded, and no test produces a NaN.", "anchors": ["altro/constraints/constraint.hpp:33-43", "altro/constraints/constraint.hpp:103-117", "altro/constraints/constraint_values.hpp:107-120", "altro/constraints/constraint_values.hpp:207-220", "altro/augmented_lagrangian/al_cost.hpp:340-353", "altro/augmented_lagrangian/al_solver.hpp:86-105", "altro/augmented_lagrangian/al_solver.hpp:410-424", "altro/ilqr/ilqr.hpp:655-680"]}
{"id": "C78", "title": "Moving a thread pool keeps its tasks", "statement": "However thread pools are created, filled, moved, launched, stopped, waited for and destroyed, a task that was added is executed once, is lost with a pool that is destroyed, or waits in exactly one pool, in the order of adding; moving a pool transfers everything it holds. In a debug build a call fails exactly if it names a pool that is gone, needs the queue of a pool that was moved from, moves or launches a running pool, or is a move assignment. False parts: move assignment never returns normally, because it clears the target queue, which locks a mutex twice; with assertions off a running pool can be moved and the next round of its threads is undefined behaviour.", "quantifier": "for all histories of calls on any number of pools and all interleavings of the workers' rounds", "why_tests_cant": "Histories are unbounded; the tests move a pool in one fixed way and never assign one.", "anchors": ["altro/common/threadsafe_queue.hpp:80-99", "altro/common/threadsafe_queue.hpp:131-136", "altro/common/threadpool.cpp:12-29", "altro/common/threadpool.cpp:41-80", "altro/common/threadpool.hpp:57-74"]}
{"id": "C79", "title": "The augmented Lagrangian iteration converges on convex problems", "statement": "On a problem with affine dynamics, convex costs, affine equality and convex inequality constraints that has Lagrange multipliers, if every inner solve returns the minimiser of the augmented cost, then each outer iteration brings the multipliers closer to every optimal multiplier: the squared distance falls by at least the square of penalty times violation. Hence after j outer iterations the violation is at most |lambda*| / (rho0 phi^j), the number of outer iterations until the violation falls below the tolerance is bounded explicitly, the solver returns kSolved if the limits allow that many, and the objective of the returned trajectory is within an explicit bound of the optimal value.", "quantifier": "for all horizons, dimensions, convex problems over every ordered field, exact inner solvers, options with reset duals, and starting trajectories", "why_tests_cant": "Convergence is a statement about all iterations of all problems; tests look at the final violation of a few examples.", "anchors": ["altro/augmented_lagrangian/al_solver.hpp:288-425", "altro/constraints/constraint_values.hpp:111-119", "altro/constraints/constraint_values.hpp:192-208"]}
{"id": "C80", "title": "The whole solver solves equality-constrained linear-quadratic problems", "statement": "On a problem with affine dynamics, quadratic costs with positive semidefinite Hessians and positive definite control Hessians, and affine equality constraints, each inner solve terminates with kSolved in at most two iterations at the exact minimiser of the augmented Lagrangian, from any trajectory. If some trajectory meets the constraints, an optimal trajectory with multipliers exists, and for every positive tolerance the whole solver, with penalties growing by a factor above one and large enough limits, returns kSolved with violation below the tolerance and an objective within a constant times the tolerance of the optimum.", "quantifier": "for all horizons, dimensions, problem data of this class over every (Archimedean) ordered field, starting trajectories, initial penalties and tolerances", "why_tests_cant": "Tests run one double integrator; the guarantee is for every problem, start and tolerance.", "anchors": ["altro/augmented_lagrangian/al_solver.hpp:288-425", "altro/ilqr/ilqr.hpp:284-340", "altro/ilqr/ilqr.hpp:385-620", "altro/constraints/constraint_values.hpp:111-119"]}
{"id": "C81", "title": "Repeated augmented Lagrangian solves are reproducible", "statement": "After any history of solves (with other options and trajectories), inner solves, violation queries and updates of multipliers and penalties, calling Solve on the augmented Lagrangian solver with a given trajectory and options gives the same status, trajectory, statistics, multipliers and penalties as the first call, when the options reset the multipliers and set a positive initial penalty (the defaults).", "quantifier": "for all histories of operations, problems, trajectories and options with reset_duals and initial_penalty > 0", "why_tests_cant": "The solver objects keep multipliers, penalties, stored constraint values, gains, regularisation and statistics between calls; the claim is about every history.", "anchors": ["altro/augmented_lagrangian/al_solver.hpp:288-340", "altro/augmented_lagrangian/al_solver.hpp:417-424", "altro/ilqr/ilqr.hpp:284-340", "altro/augmented_lagrangian/al_cost.hpp:1-250"]}
{"id": "C82", "title": "In double arithmetic every solve with the default options returns within its limits", "statement": "With IEEE double arithmetic (rounding, overflow, underflow, signed zeros, infinities and NaN), the default options and any problem with at least one segment, whatever values its functions return, Solve returns: between 1 and 30 outer iterations, at most 100 iterations per inner solve and 300 in total, at most 112 sweeps in any backward pass. The status is never kUnsolved and is kSolved exactly if the last inner solve was solved and the last violation is below the tolerance. The regularization stays a number between bp_reg_min and bp_reg_max. The same holds for all options with finite bp_reg_initial, 0 < bp_reg_min <= bp_reg_max and a factor above one.", "quantifier": "for all problems, costs, dynamics and constraint functions (arbitrary double results), starting trajectories, solver states, and all options of this kind", "why_tests_cant": "Infinitely many problems; the dangerous cases are NaN, infinities and rounding in the regularization updates.", "anchors": ["altro/common/solver_options.hpp:23-48", "altro/ilqr/ilqr.hpp:385-445", "altro/ilqr/ilqr.hpp:770-786", "altro/ilqr/ilqr.hpp:284-316", "altro/augmented_lagrangian/al_solver.hpp:304-334"]}
{"id": "C83", "title": "The inner solver solves linear-quadratic problems with equality and inequality constraints", "statement": "On a problem with affine dynamics, convex quadratic costs with curvature at least mu > 0 in the controls, and affine equality and inequality constraints, there are positive constants (for the problem, the time grid and a bound on the penalties) such that with regularization, line-search and tolerance options tuned to them and large enough iteration limits, the iLQR solve of the augmented Lagrangian returns kSolved from every trajectory, for all multipliers and every penalty up to the bound. The augmented cost of the result exceeds that of no other trajectory by more than C (N gradient_tolerance)^2 times the size of the controls, and the number of iterations is at most two more than the initial excess cost divided by an explicit unit.", "quantifier": "for all horizons, dimensions, problem data of this class over every (Archimedean) ordered field, multipliers, penalties, starting trajectories and tolerances", "why_tests_cant": "With inequality constraints the augmented cost is only piecewise quadratic; convergence of Newton-type iterations for every active set and start needs a descent proof, tests sample a few problems.", "anchors": ["altro/ilqr/ilqr.hpp:284-340", "altro/ilqr/ilqr.hpp:385-620", "altro/ilqr/ilqr.hpp:630-700", "altro/constraints/constraint_values.hpp:111-176", "altro/constraints/constraint.hpp:98-128"]}
{"id": "C84", "title": "The solver solves linear-quadratic problems with equality and inequality constraints", "statement": "On a problem with affine dynamics, convex quadratic costs with curvature at least mu > 0 in the controls, and affine equality and inequality constraints that some trajectory satisfies, multipliers exist and there is a constant c such that for every initial penalty rho and every constraint tolerance tau, with penalties growing by a factor greater than one, line-search and inner tolerance options tuned to the problem and large enough limits, the augmented Lagrangian solver returns kSolved from any state with every constraint violated by less than tau and an objective within c (tau + 1/rho) of the constrained optimum. Explicit bounds on the numbers of outer and inner iterations are given.", "quantifier": "for all horizons, dimensions, feasible problem data of this class over every Archimedean ordered field, starting states, initial penalties and tolerances", "why_tests_cant": "The inner solves are inexact, so the error of every multiplier update must be bounded over the whole run and for every active set; tests only see particular runs.", "anchors": ["altro/augmented_lagrangian/al_solver.hpp:252-402", "altro/ilqr/ilqr.hpp:284-340", "altro/ilqr/ilqr.hpp:630-700", "altro/constraints/constraint_values.hpp:111-233"]}
{"id": "C85", "title": "Iterations that change the trajectory make a guaranteed decrease, also on nonlinear problems", "statement": "If the reported Hessian blocks of the objective are positive semidefinite with curvature at least mu > 0 in the controls and penalties are not negative, then - for any dynamics, any constraints, and whether or not the reported derivatives are right - every iteration of the inner solver keeps the trajectory, or passes the convergence test, or (once the records agree with the trajectory) lowers the augmented cost by at least min(cost tolerance, c1 * smallest step * mu / 2 * gradient tolerance squared). So the iterations of a solve that change the trajectory number at most two more than the cost decrease divided by this amount, and if the cost is bounded below a solve with large enough limits ends with kSolved unless one of its line searches failed.", "quantifier": "for all problems with such objectives, all ordered fields, horizons, dimensions, starting states and options with positive tolerances and line-search parameters", "why_tests_cant": "The bound concerns arbitrarily long runs on arbitrary nonlinear dynamics; a test shows one sequence of iterations.", "anchors": ["altro/ilqr/ilqr.hpp:284-340", "altro/ilqr/ilqr.hpp:560-700"]}
{"id": "C86", "title": "The inner solver converges on smooth nonlinear problems", "statement": "Let dynamics and constraints have the reported Jacobians and these be continuous, let the objective have the reported gradient, continuous reported Hessian blocks that are positive semidefinite with curvature at least mu > 0 in the controls, and grow at least quadratically with the controls, and let penalties be positive. Then for every level of the augmented cost and every eps > 0 there are bounds on regularization, gradient tolerance and smallest line-search step such that, with options within these bounds and large enough iteration limits, the inner solver started anywhere below that level returns with kSolved after a bounded number of iterations, with a dynamically feasible trajectory that costs no more than the level and at which the derivative of the augmented cost with respect to the controls has length at most eps. In particular this holds for the unicycle example, in both scenarios, with control bounds, goal and obstacles, for all multipliers and positive penalties.", "quantifier": "for all such problems, horizons, dimensions, time grids, multipliers, penalties, starting trajectories, levels, accuracies and options within the bounds", "why_tests_cant": "A test runs one problem from one start with one set of options; the property is about every start and every accuracy, and rests on uniform estimates over compact sets that no run shows.", "anchors": ["altro/ilqr/ilqr.hpp:284-340", "altro/ilqr/ilqr.hpp:560-700", "examples/problems/unicycle.hpp:24-110"]}
{"id": "C87", "title": "Derivative checks of dynamics objects test the stored time and step", "statement": "The Jacobian and Hessian checks inherited by dynamics objects evaluate the vector field, or the integrator's step, at the time and step size stored in the object. For continuous dynamics that are affine in state and control the Jacobian check passes with every tolerance exactly when the Jacobian reported at the stored time is right. For a discretized model the time and step set last count. With Euler, checking with tolerance eps is the same as checking the continuous model with tolerance eps/|h|; with Runge-Kutta and linear dynamics the check compares the Taylor polynomials of the true and of the reported matrices. A discretized model that says it has second derivatives reports them correctly.", "quantifier": "for all models, dimensions, states, controls, tolerances, times, step sizes and sequences of SetTime and SetStep calls", "why_tests_cant": "The tests call the checks at a few random points with one tolerance, and cannot tell a check that looks at the derivatives from one that passes whatever the model reports, as it does while the step is zero.", "anchors": ["altro/problem/dynamics.hpp:59-187", "altro/problem/discretized_model.hpp:25-65", "altro/common/functionbase.cpp:43-102"]}
{"id": "C88", "title": "The whole solver on smooth nonlinear problems ends in an approximate KKT point", "statement": "On a smooth problem (C86) with equality and inequality constraints at the knot points, one common initial penalty and penalty scaling, the outer solver returns whatever multipliers the outer iterations produce, provided the gradient tolerance and the regularization are small enough, the line search may try enough steps and the iteration limits are large enough, with bounds fixed in advance for a given accuracy, number of outer iterations and size of the initial controls. The status is kSolved, kMaxPenalty or kMaxOuterIterations, never a failure of the inner solver. The returned trajectory with the returned multipliers is a Karush-Kuhn-Tucker point up to errors: it obeys the dynamics, every constraint is violated by at most the recorded violation plus epsilon (so by at most the constraint tolerance plus epsilon when the status is kSolved), the derivative of the Lagrangian with respect to the controls is at most epsilon in length, inequality multipliers are nonpositive and vanish where a constraint is slack by more than the previous multiplier over the penalty plus epsilon.", "quantifier": "for all smooth problems, horizons, dimensions, accuracies, initial penalties, penalty scalings, numbers of outer iterations, start trajectories, and all options within bounds that depend on these", "why_tests_cant": "The tests solve a handful of problems and compare costs and violations with recorded numbers; that the inner solver succeeds for all multipliers the outer loop can produce, and that what is returned satisfies the optimality conditions to any requested accuracy, is a statement about infinitely many problems and options.", "anchors": ["altro/augmented_lagrangian/al_solver.hpp:288-401", "altro/ilqr/ilqr.hpp:284-340", "altro/augmented_lagrangian/al_cost.hpp:199-334", "examples/problems/unicycle.hpp:24-110"]}
{"id": "C89", "title": "The profiler closes the files it opened and only those", "statement": "When a Timer is destroyed, every file it opened through SetOutput(filename) has been closed, and no file that belongs to the program (a FILE* passed to SetOutput, stdout) is closed by it; repeated solves with profiler output to a file do not use up file handles.", "quantifier": "every history of SetOutput by name (successful or not) and by handle, of files opened and closed by the program, of printing, activation, and every sequence of solves with any options", "why_tests_cant": "The only test of output to a file sets it once and destroys the timer; a leaked handle or a closed stdout appears only when the output is changed again, for example by a second solve.", "anchors": ["altro/common/timer.hpp:57-68", "altro/common/timer.cpp:10-18,108-118", "altro/common/solver_stats.cpp:31-46,72-78", "altro/augmented_lagrangian/al_solver.hpp:292-311"]}
{"id": "C90", "title": "The profile summary is printed once, in aligned columns", "statement": "The summary is printed when the timer is destroyed unless it was printed before. The table consists of a header, a rule of the same length and one line per entry; the lines have the same length with each column at the same place, and every name is indented to the column where the name of its parent ends, followed by at least two blanks.", "quantifier": "every history of the timer, every set of recorded entries", "why_tests_cant": "The test compares the beginnings of a few lines of one table.", "anchors": ["altro/common/timer.cpp:10-18,72-93", "altro/common/timer.hpp:36-38", "altro/common/profile_entry.cpp:54-67"]}
{"id": "C91", "title": "Setting costs and dynamics of consecutive knot points", "statement": "SetCostFunction and SetDynamics with a vector accept it exactly when every index of the range is valid (and, for dynamics, no pointer is null); they then replace exactly the entries of the range, in order, and nothing else, and SetDynamics of a range that ends at the last segment also sets the model that gives the dimensions of the last knot point.", "quantifier": "every problem, every vector and every start index, negative ones included", "why_tests_cant": "Tests set ranges that start at 0 or 1 and fit; an index computed wrongly for another start or length is not seen.", "anchors": ["altro/problem/problem.hpp:121-192"]}
{"id": "C92", "title": "Limits of approximate KKT points are KKT points", "statement": "On a smooth problem (C86), let approximate Karush-Kuhn-Tucker points (C88) be given whose errors in stationarity, feasibility and complementarity tend to zero. If their trajectories and multipliers converge, the limit is an exact Karush-Kuhn-Tucker point. If the controls and the multipliers merely stay bounded, a subsequence converges, and to such a point. In particular: runs of the whole solver that end with kSolved, with constraint tolerances and accuracies tending to zero, last penalties tending to infinity and bounded controls and multipliers accumulate only at Karush-Kuhn-Tucker points. The bound on the multipliers cannot be dropped.", "quantifier": "for all smooth problems, horizons, dimensions, sequences of approximate points and error sequences tending to zero; for all sequences of solver runs", "why_tests_cant": "A limit over ever smaller tolerances is never computed by a test; tests run one tolerance and compare numbers.", "anchors": ["altro/augmented_lagrangian/al_solver.hpp:288-401", "altro/ilqr/ilqr.hpp:284-340", "altro/augmented_lagrangian/al_cost.hpp:199-334"]}
{"id": "C93", "title": "Approximate KKT points of convex problems are nearly optimal", "statement": "On a problem with affine dynamics and equality constraints, convex costs and convex inequality constraints, the objective at an approximate Karush-Kuhn-Tucker point (C88) with errors epsilon, nu, delta exceeds the objective of any feasible trajectory by at most epsilon times the distance of the controls plus nu times the sum of the absolute equality multipliers plus delta times that of the inequality multipliers, and it is below the optimum by at most nu times the sum of the optimal multipliers. If the costs have curvature mu in the controls, the controls are within epsilon/mu plus the square root of the multiplier terms over mu of the optimal ones; so the optimum is unique. What the whole solver returns with kSolved obeys these bounds with the constraint tolerance and the last penalty in place of nu and delta.", "quantifier": "for all convex problems, horizons, dimensions, approximate points, feasible comparison trajectories and errors; for all solver results of C88", "why_tests_cant": "A distance to the unknown optimum cannot be measured by a test; the tests compare the final cost with a recorded number.", "anchors": ["altro/augmented_lagrangian/al_solver.hpp:288-401", "altro/ilqr/ilqr.hpp:284-340", "altro/augmented_lagrangian/al_cost.hpp:199-334"]}
{"id": "C94", "title": "The whole solver solves smooth convex problems", "statement": "Take a smooth problem (C86) with affine dynamics and equality constraints, convex costs and convex (possibly nonlinear) inequality constraints, which has a solution with multipliers star; a Karush-Kuhn-Tucker point is one. For every accuracy eta, constraint tolerance tau, initial penalty rho and penalty scaling phi of at least 1, let J be a number of outer iterations for which the sum over i < J of (rho phi^i tau)^2 exceeds the squared length of star. Then, with iteration limits and tuned inner options large or small enough, the augmented Lagrangian solver returns kSolved after at most J outer iterations. If j+1 were made, the objective exceeds the optimum by at most 2 |star|^2 / (rho phi^j) + eta and is below it by at most (tau + eta) times the sum of |star|; the final multipliers are no further from star than at the start (up to eta); and if the costs have curvature theta in the controls, theta times the squared distance of the controls from the solution is at most |star|^2 / (rho phi^j) + eta. The inner solver is the model of the real one, stopping on its own tolerances, with stored constraint values from its last rollout.", "quantifier": "for all smooth convex problems with a saddle point, horizons, dimensions, starting controls, tolerances, penalties, scalings, accuracies and all options within the stated bounds", "why_tests_cant": "Success on every convex problem from every start, within a number of outer iterations known beforehand, cannot be established by running examples.", "anchors": ["altro/augmented_lagrangian/al_solver.hpp:288-401", "altro/ilqr/ilqr.hpp:284-340", "altro/augmented_lagrangian/al_cost.hpp:199-334", "altro/constraints/constraint_values.hpp:118-160"]}
{"id": "C95", "title": "Trajectory objects behave like values", "statement": "For every history of constructing, copying, moving, assigning, destroying and changing trajectories, and of taking and using pointers to their knot points: the objects in memory do what lists of knot points would do, and fail exactly when these would. Copies are independent of the original, also of writes through pointers into it. A moved-from trajectory has no knot points, NumSegments() is -1 for it, and SetUniformStep, SetTime, SetStep and writing a state or control of it is an access outside of the vector. Pointers into a moved trajectory follow it; pointers into a trajectory that was destroyed or assigned to with a new block are dangling. No block is shared, freed twice or leaked.", "quantifier": "for all histories of operations on any number of trajectories and pointers, any lengths, knot point values and choices of the standard library", "why_tests_cant": "The number of histories and of ways in which objects can share memory is unbounded; the unit test only copies one trajectory once.", "anchors": ["altro/common/trajectory.hpp:36-39", "altro/common/trajectory.hpp:66-98", "altro/common/trajectory.hpp:112-130"]}
{"id": "C96", "title": "A strictly feasible trajectory is enough for the whole solver to solve a smooth convex problem", "statement": "Take a smooth convex problem (C94) that has a trajectory which obeys the dynamics, satisfies the equality constraints and satisfies the inequality constraints strictly. Nothing is assumed about its solution or multipliers. Then it has a solution and multipliers for it, and for every accuracy eta there are tolerances, an initial penalty and iteration limits with which the augmented Lagrangian solver, from the given start and with all other options as given, returns kSolved with a trajectory that obeys the dynamics from the initial state, satisfies all constraints up to eta, whose objective is within eta of the optimum and, with curvature theta in the controls, whose controls are within eta/theta (squared) of those of the solution, which are then unique. Without equality constraints and with margin sigma, the number of outer iterations needed is known from the data of the problem: those for which the sum of (rho phi^i tau)^2 exceeds ((J(z0) - b)/sigma)^2, where z0 is the strictly feasible trajectory and b a lower bound of the objective. Strictness is needed for multipliers to exist.", "quantifier": "for all smooth convex problems with a strictly feasible trajectory, horizons, dimensions, starts, accuracies, tolerances, penalties and scalings", "why_tests_cant": "Existence of solutions and multipliers and success of the solver on a whole class of problems cannot be sampled.", "anchors": ["altro/augmented_lagrangian/al_solver.hpp:288-401", "altro/ilqr/ilqr.hpp:284-340", "altro/augmented_lagrangian/al_cost.hpp:199-334", "altro/constraints/constraint_values.hpp:118-160"]}
{"id": "C97", "title": "Constraint violations, multipliers, penalties and the augmented Lagrangian with double arithmetic", "statement": "With IEEE binary64 arithmetic (rounding, overflow, infinities, signed zeros, NaN): (a) the violation of a constraint is computed without rounding error, and for constraint values that are neither NaN nor -inf the reported violation is below a positive tolerance exactly if every equality is below it in absolute value and every inequality value is below it; (b) after any history of evaluations, dual updates, penalty updates and resets, with any double values, multipliers of inequalities are never positive and never NaN; (c) with a finite positive penalty a dual update does not move the multiplier of a violated inequality up or that of a satisfied one down; (d) where all constraints hold and squares of multipliers do not overflow, the augmented cost is at most the user's cost; (e) from penalties of at least one and with a scaling above one, the largest penalty exceeds any finite limit after finitely many updates and stays above it, without becoming NaN. A value of -inf, though it satisfies an inequality, makes the reported violation NaN; a least positive penalty with scaling 1.25 never grows.", "quantifier": "for all double constraint values, multipliers, penalties, scalings, tolerances, numbers of constraints and knot points, and all histories of operations", "why_tests_cant": "There are too many doubles to sample, and the claims are about rounding, overflow and special values in combination.", "anchors": ["altro/constraints/constraint_values.hpp:111-119", "altro/constraints/constraint_values.hpp:192-227", "altro/constraints/constraint.hpp:33-37", "altro/constraints/constraint.hpp:103-108", "altro/augmented_lagrangian/al_cost.hpp:264-274", "altro/augmented_lagrangian/al_cost.hpp:343-370", "altro/augmented_lagrangian/al_solver.hpp:417-434"]}
{"id": "C98", "title": "Constraint qualifications bound the multipliers", "statement": "For a smooth problem, consider results of the solver (or any approximate Karush-Kuhn-Tucker points) with vanishing errors and bounded controls. (a) If every trajectory they accumulate at meets the constraint qualification (no multipliers of active constraints, of the right signs and not all zero, make the weighted sum of the constraints stationary), then the multipliers are bounded, and a subsequence converges to a Karush-Kuhn-Tucker point; in particular this holds for solves that report kSolved with tolerances going to zero when the multipliers before the last update stay small against the penalties. (b) The qualification follows from linear independence of the derivatives of the active constraints, and from the Mangasarian-Fromovitz condition. (c) It is exact: at a Karush-Kuhn-Tucker point the set of all its multipliers is bounded if and only if the qualification holds. (d) With linear independence the multipliers are unique, and if the trajectories converge then the multipliers converge too. (e) On convex problems a strictly feasible trajectory and independent equalities give the Mangasarian-Fromovitz condition at every trajectory that satisfies the equalities. Without the qualification multipliers can grow without bound (constraint u^2 = 0).", "quantifier": "for all dimensions, horizons, smooth costs, dynamics and constraints, all sequences of results, tolerances, multipliers and penalties", "why_tests_cant": "The claim is about limits of sequences of solves and about all sets of multipliers.", "anchors": ["altro/augmented_lagrangian/al_solver.hpp:349-415", "altro/augmented_lagrangian/al_cost.hpp:264-274", "altro/constraints/constraint_values.hpp:111-119", "altro/constraints/constraint_values.hpp:192-227"]}
{"id": "C99", "title": "Limits on states and controls that leave room do not change a solve", "statement": "check_forwardpass_bounds rejects rollouts in which the norm of a state exceeds state_max or that of a control exceeds control_max. (a) If all candidates of the line searches of a solve without this test are within the limits, then the solve with the test returns the same in every respect (trajectory, gains, costs, multipliers, status, recorded statistics), for the inner solver and the whole solver, in any arithmetic. (b) So with infinite limits in double arithmetic the test does nothing, whatever the norms evaluate to; and for every problem, options and start there is a number from which on all limits give the same solve as no limits. (c) On smooth problems one number is enough for all starts with controls up to a given size, for all accuracies: the convergence theorems of the inner solver (C86), of the whole solver (C88) and of the whole solver on convex problems (C94, C96) hold with the test switched on, as it is by default, and limits that leave room for states and controls of a size that is fixed before the accuracy; so for the unicycle example. Limits that candidates do exceed can change the outcome.", "quantifier": "for all problems, horizons, options, starts and arithmetics in (a), all ordered fields in (b), all smooth problems over the reals in (c)", "why_tests_cant": "The claim compares all pairs of runs with and without the test, and asks for one limit that works for infinitely many starts and accuracies.", "anchors": ["altro/ilqr/ilqr.hpp:470-505", "altro/ilqr/ilqr.hpp:529-586", "altro/common/solver_options.hpp:36-38"]}
{"id": "C100", "title": "Near a minimiser the inner solver takes full steps and converges quadratically", "statement": "Affine dynamics, convex objectives with their gradients and Hessians (quadratic or not), affine equality and inequality constraints with any multipliers and a common positive penalty; the trajectory with the least augmented cost has no inequality constraint exactly at its switching point. Then there are constants A, B, Q and positive r, rb such that from every start whose controls are within squared distance r of the best ones, with regularization at most b <= rb and any line search whose bounds contain [1/4, 3/2] of the expected decrease (the default bounds do): after i iterations the squared distance E of the controls is at most i steps of E -> (A E + B b^2) E, and the solve returns kSolved with a feasible trajectory after at most T + 2 iterations when Q times T such steps is below the tolerances (and the iteration limits allow it). So (a) the squared distance at least halves in every iteration and the number of iterations is the same for all such starts; (b) without regularization A E_i <= (A E_0)^(2^i), quadratic convergence; (c) with a quadratic objective and no regularization the solve returns the best trajectory exactly, whatever the tolerances, after at most three iterations. Unlike C83 and C86 nothing is tuned to the problem but the size of the regularization.", "quantifier": "for all such problems over the reals, horizons, dimensions, multipliers, penalties, options with these bounds and starts near enough", "why_tests_cant": "A rate of convergence is a statement about infinitely many iterations and starts with constants that do not depend on them; tests see a few iterations of one problem.", "anchors": ["altro/ilqr/ilqr.hpp:284-330", "altro/ilqr/ilqr.hpp:385-445", "altro/ilqr/ilqr.hpp:512-590", "altro/ilqr/knot_point_function_type.hpp:135-240", "altro/augmented_lagrangian/al_cost.hpp:264-310"]}
{"id": "C101", "title": "On linear-quadratic problems with equality constraints the multipliers converge superlinearly", "statement": "Linear-quadratic problems with affine equality constraints that can be met, strictly convex in the controls (the constraints need not be independent); solver started with multipliers zero. There are a solution zs, multipliers lambda* for it, and constants kappa, kappa' depending only on the problem such that, with rho_i = initial_penalty * scaling^i: (a) every outer iteration multiplies the distance of the multipliers from lambda* by at most kappa/(kappa + rho_i); (b) a solve that ends in outer iteration j (from 0) has |lambda - lambda*| <= prod_{i<=j} kappa/(kappa+rho_i) |lambda*|, hence (kappa/rho_0)^(j+1) scaling^(-j(j+1)/2) |lambda*|, so the number of correct digits grows with the square of the number of iterations; (c) its recorded violation v bounds the violation of every constraint and rho_j v <= prod_{i<j} kappa/(kappa+rho_i) |lambda*|; (d) the squared distance of its states and controls from zs is at most kappa' v^2, and at most kappa'/(4 rho_j) prod_{i<j} (kappa/(kappa+rho_i))^2 |lambda*|^2; (e) it reports kSolved within J + 1 outer and 2 (J + 1) inner iterations as soon as the bound of (c) for j = J is below rho_J times the tolerance and the limits allow J + 1 iterations; (f) in particular it converges even if the penalties do not grow at all.", "quantifier": "for all such problems over any ordered field (Archimedean for the existence of J in (f)), all dimensions, horizons, starting trajectories, penalties, penalty scalings, tolerances and options with which the inner solver takes full steps", "why_tests_cant": "A rate is a statement about all iteration counts and tolerances with one constant; a test sees the violation after the few iterations of one problem, and cannot tell an O(1/rho) factor per iteration from a bound O(1/rho) that never improves.", "anchors": ["altro/augmented_lagrangian/al_solver.hpp:288-425", "altro/constraints/constraint_values.hpp:111-119", "altro/constraints/constraint_values.hpp:192-208"]}
{"id": "C102", "title": "The triple integrator example is solved", "statement": "The problem of TripleIntegratorProblem::MakeProblem with a Runge-Kutta step, for any number of joints dof, horizon, start, goal, bounds, symmetric weights with Q, Qf positive semidefinite and R positive definite, and any contents of the uninitialised reference controls. (a) The augmented Lagrangian costs built from it are linear-quadratic with affine constraints, and the step and its Jacobian are exact. (b) Without constraints, one solve of the inner solver reports kSolved after at most two iterations with a trajectory that no other trajectory of the model from x0 beats. (c) From every start, three or more steps of positive length can reach every goal. (d) With constraints, if the goal can be reached strictly inside the bounds: there is a best trajectory among those that reach the goal exactly within the bounds, and for every eta there are options, limits and a threshold with which the augmented Lagrangian solver, from every start, reports kSolved and returns a trajectory of the model whose final state is within eta of the goal, whose controls exceed the bounds by at most eta, whose objective is within eta of the best one and whose controls are within eta of its controls. (e) The problem as it comes (10 steps, bounds 100 (i + 1), goal i + 1 from -(i + 1)) meets the condition of (d) for every dof and every step of at least 0.09; the default step is 0.1.", "quantifier": "for all dof, horizons, fields of the problem as described, reference controls, initial trajectories, options outside the tuned ones, and all accuracies eta", "why_tests_cant": "The tests solve the problem for dof = 2 with one horizon and compare with numbers from one run; they cannot quantify over dof, over the uninitialised memory that is used as reference, or over accuracies, and cannot show that no better trajectory exists.", "anchors": ["examples/problems/triple_integrator.hpp:28-102", "examples/triple_integrator.cpp:9-33", "altro/augmented_lagrangian/al_problem.hpp:29-51", "altro/augmented_lagrangian/al_solver.hpp:288-425"]}
{"id": "C103", "title": "The solvers of the unicycle example start from a trajectory that fits their problem", "statement": "A UnicycleProblem is an object whose public fields a program can assign, with SetScenario, MakeProblem, InitialTrajectory, MakeSolver and MakeALSolver called in any order. (a) Every solver that MakeSolver or MakeALSolver returns has the problem of the scenario chosen last, with its duration, and a trajectory of that problem's number of segments, whose step is the one the weights of the costs were scaled with, whose controls are the problem's initial guess (zero at the end), whose times are the multiples of the step, and whose states follow the dynamics from the problem's initial state. (b) Making a solver twice gives the same one; MakeALSolver and MakeSolver differ in the costs only. (c) A trajectory that InitialTrajectory returns fits the problem that MakeProblem returned.", "quantifier": "for all fields, all sequences of calls and assignments, and all roundings of times and steps", "why_tests_cant": "The tests call the functions in one order each. The claim is about every order and every value of the public fields.", "anchors": ["examples/problems/unicycle.hpp:74-120", "examples/problems/unicycle.cpp:11-89"]}
{"id": "C104", "title": "Solving again with the multipliers of the last solve", "statement": "With reset_duals off, Solve of the augmented Lagrangian solver starts from the multipliers it finds in the constraint values and from the initial penalty. (a) On a convex problem with an exact inner solver all bounds of C79 hold with the distance of these multipliers from those of the solution in place of the norm of the latter; a solve never ends with multipliers farther from the solution's than it began with, and succeeds in iteration J at the latest if that distance is below penalty times tolerance there. (b) From the multipliers of a solution the first outer iteration ends the solve with status solved, a trajectory that is an exact solution, and the same multipliers, for every trajectory, penalty and positive tolerance. (c) On a linear-quadratic problem with equality constraints, calling Solve again and again with any penalties, tolerances and limits brings the multipliers nearer to those of the solution in each call at least by the factor kappa / (kappa + initial_penalty), with one constant kappa for all calls.", "quantifier": "for all horizons, dimensions, convex problems over every ordered field, starting multipliers, options with reset_duals off, and numbers of calls", "why_tests_cant": "No test solves the same problem twice with reset_duals off; the bounds are about all problems and all numbers of calls.", "anchors": ["altro/augmented_lagrangian/al_solver.hpp:287-334", "altro/augmented_lagrangian/al_solver.hpp:358-425", "altro/constraints/constraint_values.hpp:111-119"]}
{"id": "C105", "title": "Near a regular solution errors bound the distance, and multipliers converge with factor 1/penalty", "statement": "Let a trajectory with multipliers be a regular solution of a nonlinear problem with twice continuously differentiable dynamics, objective and constraints: a Karush-Kuhn-Tucker point with independent derivatives of the active constraints, nonzero multipliers of the active inequalities, and positive second derivative of the Lagrangian along the changes that are tangent to the active constraints. There are constants kappa and r such that: (a) every approximate Karush-Kuhn-Tucker point (in the sense of C88) with controls within r is as close in controls, states and multipliers as kappa times the errors in the conditions; so the solution is isolated, with its multipliers. (b) If an inner solve ends within r with derivative and stored values correct up to epsilon, and the penalty rho is at least kappa (1 + d), where d is the distance of the multipliers before, then UpdateDuals makes the distance at most kappa (epsilon + d / rho); controls and states are as close. The order is sharp. (c) A whole solve of a smooth problem with a large enough initial penalty and suitable options, all of whose inner solves end within r, ends after j + 1 outer iterations with distances at most 2 kappa epsilon plus the norm of the solution's multipliers times the product of kappa / (rho phi^i) for i up to j: faster than every geometric sequence. (d) If it ends as solved, the distance is at most kappa times the constraint tolerance plus the size of the multipliers over the penalty plus 3 epsilon.", "quantifier": "for all horizons, dimensions, twice continuously differentiable problems, regular solutions, multipliers, penalties, accuracies and numbers of outer iterations", "why_tests_cant": "Tests solve a few problems and look at the final violation; that the result is near a solution, and how the distance shrinks, is about all problems and all starting multipliers near a solution that no test knows.", "anchors": ["altro/augmented_lagrangian/al_solver.hpp:287-355", "altro/augmented_lagrangian/al_solver.hpp:358-425", "altro/constraints/constraint_values.hpp:186-207", "altro/augmented_lagrangian/al_cost.hpp:314-334"]}
{"id": "C106", "title": "On strongly convex problems the outer iterations converge at the rate of C105 from every start and every initial penalty", "statement": "Let a problem be smooth and convex with curvature theta > 0 in the controls, and let it have a solution whose active constraints have independent derivatives and nonzero multipliers, with twice continuously differentiable data. Then the second-order condition of C105 holds. There are constants kappa and rho0 that depend on the problem only, such that for every initial penalty rho, every scaling phi >= 1 and every i0 with rho phi^i0 >= rho0, every number of outer iterations, every start, and every small enough accuracy epsilon, a solve with suitable options returns; if it took j + 1 > i0 outer iterations, then controls, states and multipliers are those of the solution up to 2 kappa epsilon plus sqrt(|lambda|^2 + 1) times the product of kappa / (rho phi^i) for i from i0 to j. Unlike C105, nothing is assumed about where the inner solves end: the multipliers never move away from those of the solution, so that large penalties bring all inner solves near it.", "quantifier": "for all horizons, dimensions, smooth convex problems with curvature in the controls, solutions with independent derivatives and strict complementarity, initial penalties, scalings, initial trajectories, accuracies and numbers of outer iterations", "why_tests_cant": "Tests run a few problems from one start with one penalty schedule and compare the end with a tolerance; a rate with constants that depend on the problem only is a statement about all starts, penalties and numbers of iterations.", "anchors": ["altro/augmented_lagrangian/al_solver.hpp:287-355", "altro/augmented_lagrangian/al_solver.hpp:358-425", "altro/constraints/constraint_values.hpp:186-207", "altro/augmented_lagrangian/al_cost.hpp:314-334", "altro/ilqr/ilqr.hpp:199-245"]}
{"id": "C107", "title": "Cost sums in double arithmetic: error bound in any order of addition, no accumulation over iterations, acceptance of clear improvements", "statement": "The solver adds the costs of the knot points in double arithmetic, in an order chosen by Eigen, and compares sums. (1) In any order, a finite sum differs from the exact sum of the costs by at most (1 + 2^-53)^d - 1 times the sum of their absolute values, d being the number of additions that a cost goes through, and no term for underflow; the sum is finite unless the costs are too large; two orders differ by at most both errors. (2) However many iterations a solve makes, the exact cost of the returned trajectory is at most that of the first rollout plus the errors of these two sums. (3) A step whose exact decrease lies between the limits of the line search times the expected decrease, by the margin of the errors, is accepted; an accepted step decreases the exact cost up to the errors.", "quantifier": "for all numbers of knot points, cost values (doubles), orders of addition, problems, options, starts and numbers of iterations", "why_tests_cant": "Tests see a few sums in the order of one build; the bound must hold for every order that a vectorising compiler may choose, with rounding and subnormal numbers, and for every number of iterations.", "anchors": ["altro/ilqr/ilqr.hpp:326-334", "altro/ilqr/ilqr.hpp:512-558", "altro/ilqr/ilqr.hpp:670-677", "altro/ilqr/ilqr.hpp:756-763"]}
{"id": "C108", "title": "The integrators follow the continuous system with the error of their order, and no better", "statement": "For dynamics that are four times continuously differentiable in states, controls and time (nonlinear and time-dependent), steps of RungeKutta4::Integrate stay within C*H^4 of the motion of the system under held controls, and steps of ExplicitEuler::Integrate within C*H, at all knot points, H being the longest step; C depends only on the dynamics, a compact set of controls, a bound on the motion and the time span. So the trajectory that the augmented Lagrangian solver returns is within C*H^4 of the motion of the continuous system under the returned controls, whatever the costs, constraints, options and start. On x' = x the errors over unit time are at least h^4/120 and h/2, so the exponents cannot be raised.", "quantifier": "for all smooth dynamics, compact sets of controls, time spans, non-uniform grids with steps of at most H0, controls in the set, bounded motions of the system, problems with these dynamics, options and starts", "why_tests_cant": "Tests compare one step with one reference value or check linear systems; an order of accuracy is a statement about all step lengths near zero, and a wrong stage time or weight can be invisible on time-invariant or linear dynamics.", "anchors": ["altro/problem/integration.hpp:90-94", "altro/problem/integration.hpp:123-131", "altro/problem/discretized_model.hpp:36-39"]}
{"id": "C109", "title": "Rollouts in floating point stay near the exact rollout of the same controls and near the motion of the continuous system", "statement": "The integrators are modelled with the rounding of every double and float operation, in the order of the C++ expressions (stage times are rounded to float). A rollout (Runge-Kutta or Euler) with these roundings and the exact rollout of the same controls differ after k steps and a time s by at most (a + k*eps*(3X + 180Q + 77) + 2s(eta + Lt*omega)) * exp(2Ls): a the error at the start, eps the rounding unit of double, X and Q bounds on states and dynamics, eta the error of the user's Evaluate, L and Lt Lipschitz constants in state and time, omega the error of the stage times (float rounding and error of the stored times, which SetUniformStep makes small). Adding C*H^4 for the Runge-Kutta method gives the distance to the motion of the continuous system. The trajectory that the augmented Lagrangian solver returns has this distance to the exact rollout of its controls.", "quantifier": "for all dynamics and Evaluate methods, regions on which these constants hold, grids, numbers of steps, controls, roundings with units eps and eps' (IEEE double and float in particular), representations of states, problems, options and starts", "why_tests_cant": "Tests compare with references that are computed in the same arithmetic; the bound is about all dynamics, numbers of steps and rounding patterns.", "anchors": ["altro/problem/integration.hpp:90-94", "altro/problem/integration.hpp:123-131", "altro/common/trajectory.hpp:122-130", "altro/ilqr/ilqr.hpp:512-558"]}
{"id": "C110", "title": "The backward pass stays exact for the policy it stores when the gains are inexact, and errors of the gains enter squared", "statement": "Let CalcGains get its gains from any routine (a factorization that rounds, or a wrong one) with any regularization. Whenever a backward pass returns without giving up: the stored cost-to-go and the change announced for the full step are exactly those of the stored policy on the expansions; the change announced for step alpha is off by (1 - alpha) times the residuals of the feedback gains against the feedforward terms; the policy costs at most as much as any other controls plus the squared residuals over twice the curvature; and for convex costs every cost-to-go Hessian stays positive semidefinite and every action value at least as curved in the control as the cost. On linear-quadratic problems this holds for the costs of the line search candidates. Without rounding the residual is minus rho times the control. The cost of the candidate has a derivative at step zero, the first-order part of the announced change minus the residuals of the feedback gains, and for convex costs it is at most the change announced for the full step. If that derivative and the stored first-order change are negative and their ratio lies strictly between the bounds of the acceptance test, the forward pass accepts a step once enough step lengths are allowed, and the step lowers the cost.", "quantifier": "for all gain routines, problems, expansions with symmetric Hessians, regularizations, numbers of failed sweeps, options, deviations and step lengths", "why_tests_cant": "Tests see one routine and its rounding; the claim is that no error of the gains makes the recursion inconsistent.", "anchors": ["altro/ilqr/knot_point_function_type.hpp:197-230", "altro/ilqr/ilqr.hpp:387-446", "altro/ilqr/ilqr.hpp:473-478"]}
{"id": "C111", "title": "Gains from a Cholesky factorization with rounding are backward stable, and it fails only on matrices that are singular to working precision", "statement": "Let Quu_chol factor and solve in an arithmetic that rounds every result with relative error u, adding in any order, with or without fused operations, dividing or multiplying by a reciprocal. (1) When the factorization succeeds, the factor reproduces the matrix entry by entry up to rounding, and the residual of every solution in equation i is at most 7 (m + 2) u sqrt(M_ii) sum_j sqrt(M_jj) |x_j|, whatever the condition of the matrix. (2) It succeeds for every matrix that is positive definite by more than 5 (m + 2) u in the scaling by the diagonal, and never for one that is indefinite by about 2 (m + 2) u. (3) In every finished sweep the slope of the action value at the control of the policy is -rho times that control up to that relative error, so on linear-quadratic problems the full step costs at most as much as any other trajectory plus the squares of the regularization and rounding terms over twice the curvature. (4) On convex costs a sweep stops only where the curvature of the cost plus rho is below 5 (m + 2) u times the sum of the diagonal of the regularised control Hessian. Without rounding the routine is the exact one. (5) Where the regularised control Hessians are positive definite to working precision, the feedforward gains are all zero exactly at stationary trajectories, the first-order part of the announced change is negative otherwise, and for convex costs and any rho >= 0 all small steps along the rounded policy lower the cost of every non-stationary trajectory, with a slope of at least half the regularised form of the gains less rounding. (6) With four times that margin the slope is at least a third of the announced one, so after a first sweep that succeeds the line search accepts a step that lowers the cost, unless the slope is too steep for its upper bound. Without convexity the slope is the announced first-order change up to the regularization and rounding of the feedback gains, and a step is accepted whenever that difference is small against the distance of the bounds of the acceptance test from one.", "quantifier": "for all sizes, matrices, right-hand sides, orders of addition, problems, expansions with symmetric Hessians and regularizations, with (m + 2) u at most 1/100", "why_tests_cant": "Tests see one order of the sums and a few matrices; the bounds hold for all matrices, including nearly singular ones.", "anchors": ["altro/ilqr/knot_point_function_type.hpp:197-211", "altro/ilqr/ilqr.hpp:387-446"]}
{"id": "C112", "title": "A NaN in the backward pass is not detected, and stops the solver without an error", "statement": "In any arithmetic with a value that operations pass on and comparisons reject (IEEE double in particular): (1) if row i of the matrix given to Quu_chol has a NaN on or left of the diagonal, the factorization succeeds if and only if that of the first i rows and columns does, and then every entry of every solution is NaN; entries above the diagonal have no influence; a NaN in a right-hand side makes the whole solution NaN. (2) No regularization removes it. From a knot point on whose cost-to-go Hessian has a NaN the sweep succeeds whatever the rest of the problem is, and all earlier gains, costs-to-go and the announced change are NaN. (3) If a sweep succeeds although any derivative other than those with respect to the state at the first knot point is NaN, the announced change is NaN, and the line search rejects every step and leaves the trajectory as it is. (4) If the terminal Hessian has a NaN where the initial rollout ends, Solve of both solvers returns the initial rollout, reports neither success nor a failed backward pass, and with the limits test switched off the inner solver uses up its iterations. With exact arithmetic the model is that of the other properties.", "quantifier": "for all arithmetics with a NaN, sizes, matrices, positions of the NaN, regularizations, problems, options with line_search_lower_bound above -1, and trajectories", "why_tests_cant": "Tests do not put NaN in every place; and which values hide a failed factorization depends on the order in which the entries are read.", "anchors": ["altro/ilqr/knot_point_function_type.hpp:135-230", "altro/ilqr/ilqr.hpp:385-445", "altro/ilqr/ilqr.hpp:512-558"]}
{"id": "C113", "title": "The penalty limit bounds the number of outer iterations", "statement": "If a solve took j >= 2 outer iterations, every penalty it started with times the constraint's scaling factor to the power j - 2 is at most maximum_penalty. Hence with scaling factors of at least phi >= 1 and an initial penalty for which rho * phi^b exceeds maximum_penalty there are at most b + 1 outer iterations, whatever max_iterations_outer is. Without constraints there is one, and the status is that of the inner solver. With the default options and the default scaling factor of ten there are at most ten, so that the limit of thirty outer iterations is never reached and kMaxOuterIterations is never reported. With one scaling factor the largest penalty on return is the initial one scaled j - 1 times. With the defaults there are four outcomes: the constraints are satisfied and kSolved is reported; the inner solver's status is reported and is kMaxInnerIterations, kMaxIterations, kStateLimit or kControlLimit; kMaxPenalty after exactly ten outer iterations; or kMaxIterations after fewer than ten. If no trajectory of the system satisfies the constraints to the tolerance, kSolved is not among the outcomes. In double arithmetic, too, the defaults give at most ten outer iterations and never kMaxOuterIterations, whatever the problem's functions return (NaN and infinities included), and the penalties are not rounded.", "quantifier": "for all problems, sets of constraints, initial states of the solver, options with at least one outer iteration allowed, and penalties kept from earlier solves", "why_tests_cant": "Which of the limits ends a solve that does not converge depends on the problem; a test sees one problem at a time.", "anchors": ["altro/augmented_lagrangian/al_solver.hpp:305-334", "altro/augmented_lagrangian/al_solver.hpp:348-398", "altro/common/solver_options.hpp:23-48"]}
{"id": "C114", "title": "Loggers that are moved show their columns", "statement": "For every program that creates loggers, adds columns and entries, moves, move-assigns and destroys them: it is valid exactly when the same program on lists of titles is, and then the titles that a logger reads through its pointers are its list. The same holds with copies as long as no logger is destroyed or assigned to, and in all programs for the loggers whose columns do not come from a copy. A copy shows the columns of the original, but reads freed memory once the original is destroyed, if there is a column. In all programs the entries of a logger are those made in it or in the one it was copied or moved from, and every title that printing reads has an entry, so printing makes none.", "quantifier": "for all histories of any number of loggers", "why_tests_cant": "The pointers in order_ lead into the map of the logger that added the column; which histories keep them valid is a statement about all histories, and reading a freed string often goes unnoticed.", "anchors": ["altro/common/solver_logger.hpp:166-207", "altro/common/solver_logger.cpp:14-15", "altro/common/solver_logger.cpp:34-35"]}
{"id": "C115", "title": "A copy of the statistics is a snapshot", "statement": "The vectors read from a copy of a statistics object are those of the original when the copy was made, and nothing that is done afterwards through the original, the copy or any other object changes them, as long as the copy is neither moved nor destroyed. Making the copy changes no other object. A value logged through the copy is recorded in the original instead, and logging through the copy is undefined once the original is destroyed.", "quantifier": "for all histories of any number of statistics objects before and after the copy is made", "why_tests_cant": "The map inside a copy leads to the vectors of the original; whether a write reaches the copy depends on the whole history.", "anchors": ["altro/common/solver_stats.hpp:44-203", "altro/common/solver_stats.cpp:9-78", "altro/ilqr/ilqr.hpp:159-160"]}
