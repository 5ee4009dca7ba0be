import Verif.Props.ALConverge

/-!
# C08: the violation of a trajectory that is not the solver's
-/

namespace Altro.Props
open Altro.Spec ILQR
variable {K : Type} [Field K] [LinearOrder K] [IsStrictOrderedRing K] {n m : ℕ}

/-- `MaxViolation(Z)` returns the largest violation of any scalar constraint at `Z`: every one is at most the value returned, and
unless that is zero some constraint attains it.  The trajectory, the status and the statistics of the solver are left alone, as are
multipliers and penalties; the constraint values stored afterwards are those of `Z`. -/
theorem C08_of_trajectory (p : DynProblem n m K) (Z : Traj (Fin n → K) (Fin m → K) K)
    (s : ALSt (Fin n → K) (Fin m → K) K (ALCost n m K) (KP n m K)) :
    (∀ r ∈ rows p s.st.cs, r.viol Z ≤ (AL.maxViolation (alKernel p) Z s).1) ∧
    ((AL.maxViolation (alKernel p) Z s).1 = 0 ∨ ∃ r ∈ rows p s.st.cs, r.viol Z = (AL.maxViolation (alKernel p) Z s).1) ∧
    (AL.maxViolation (alKernel p) Z s).2.st.Z = s.st.Z ∧ (AL.maxViolation (alKernel p) Z s).2.status = s.status ∧
    (AL.maxViolation (alKernel p) Z s).2.st.stats = s.st.stats ∧
    rows p (AL.maxViolation (alKernel p) Z s).2.st.cs = rows p s.st.cs ∧
    (alLaw p).Fresh (AL.maxViolation (alKernel p) Z s).2.st.cs Z := by
  have hr : rows p (cost (alKernel p) Z s.st).2.cs = rows p s.st.cs := rows_core p fun k _ =>
    cost_obs (alKernel p) (alLaw p).work (alLaw p).cost_work ..
  have hf : (alLaw p).Fresh (cost (alKernel p) Z s.st).2.cs Z := cost_fresh (alLaw p).toViolLaw Z s.st
  have hst : ∀ k ≤ p.N, Stored ((cost (alKernel p) Z s.st).2.cs k) (Z.x k) (Z.u k) := fun k hk => stored_of_values _ _ _ (hf k hk)
  refine ⟨?_, ?_, cost_Z .., rfl, cost_stats .., hr, hf⟩
  · have := (viol_le_iff p _ Z hst (viol_nonneg p _)).mp (le_refl _)
    rw [hr] at this
    exact this
  · have := viol_attained p _ Z hst
    rw [hr] at this
    exact this

/-- A state at the origin, asked for the violation of a trajectory that ends at 2/3: `GetMaxViolation` then returns 1/3, not the
violation 1 of the solver's own trajectory, and a dual update uses the value at 2/3. -/
example :
    let s : ALSt (Fin 1 → ℚ) (Fin 1 → ℚ) ℚ (ALCost 1 1 ℚ) (KP 1 1 ℚ) := ⟨pushState 0, .kUnsolved⟩
    let r := AL.maxViolation (alKernel pushProblem) (pushState (2 / 3)).Z s
    r.1 = 1 / 3 ∧ (alKernel pushProblem).viol s.st.cs = 1 ∧ (alKernel pushProblem).viol r.2.st.cs = 1 / 3 ∧
    (rows pushProblem (AL.eachCost (alKernel pushProblem) alOps.updateDuals s.st).cs).map (·.lam) = [-1] ∧
    (rows pushProblem (AL.eachCost (alKernel pushProblem) alOps.updateDuals r.2.st).cs).map (·.lam) = [-1 / 3] := by
  decide +kernel

/-- Before anything is evaluated the solver reports no violation, whatever the trajectory and the constraints are, and a dual update
leaves all multipliers at zero: the values stored by the constructor are zero. -/
theorem C08_before (cs : List (ALCost n m K)) (h : ∀ c ∈ cs, ∃ cost eqs ineqs, c = ALCost.new cost eqs ineqs) :
    ALCosts.maxViolation cs = 0 ∧ ∀ c ∈ cs, (∀ v ∈ c.eq, v.updateDuals.lam = 0) ∧ ∀ v ∈ c.ineq, v.updateDuals.lam = 0 := by
  have hz : ∀ c ∈ cs, (∀ v ∈ c.eq, v.c = 0 ∧ v.lam = 0) ∧ ∀ v ∈ c.ineq, v.c = 0 ∧ v.lam = 0 := by
    intro c hc
    obtain ⟨cost, eqs, ineqs, rfl⟩ := h c hc
    constructor
    · intro v hv
      obtain ⟨e, _, rfl⟩ := List.mem_map.mp hv
      exact ⟨rfl, rfl⟩
    · intro v hv
      obtain ⟨e, _, rfl⟩ := List.mem_map.mp hv
      exact ⟨rfl, rfl⟩
  refine ⟨(C08_max_violation_zero_iff cs).mpr fun c hc => ⟨fun v hv i => ?_, fun v hv i => ?_⟩, fun c hc => ⟨fun v hv => ?_, fun v hv => ?_⟩⟩
  · rw [((hz c hc).1 v hv).1]; rfl
  · rw [((hz c hc).2 v hv).1]; exact le_refl _
  · funext i
    have e : ∀ i : Fin v.con.p, v.lam i - v.pen i * v.c i = 0 := fun i => by
      rw [((hz c hc).1 v hv).1, ((hz c hc).1 v hv).2]; simp
    exact (C05_update_value v i).trans (e i)
  · funext i
    have e : ∀ i : Fin v.con.p, min 0 (v.lam i - v.pen i * v.c i) = 0 := fun i => by
      rw [((hz c hc).2 v hv).1, ((hz c hc).2 v hv).2]; simp
    exact (C05_update_value v i).trans (e i)

/-- A goal constraint that does not hold at the origin: no violation is reported before the first evaluation, 1 afterwards. -/
example :
    let c : ALCost 1 1 ℚ := (pushState 0).cs 1
    let new := ALCost.new c.cost (c.eq.map (·.con)) (c.ineq.map (·.con))
    ALCosts.maxViolation [new] = 0 ∧ ALCosts.maxViolation [(new.evaluate 0 0).2] = 1 := by
  decide +kernel

end Altro.Props
