import Verif.Props.Constraints
import Verif.Props.ExampleProblems

/-!
# C07: penalties and multipliers set through the solver
# C39, C71: the circle's gradient and the data of the example scenarios
-/

namespace Altro.Props
open Altro.Spec Matrix

section
variable {n m : ℕ} {K : Type*} [Field K] [LinearOrder K]

/-- Two vectors of costs have the same shape, and their constraint values are related by `R`. -/
def SameUpTo (R : ∀ κ, ConVal κ n m K → ConVal κ n m K → Prop) (cs cs' : List (ALCost n m K)) : Prop :=
  List.Forall₂ (fun c c' => c'.cost = c.cost ∧ List.Forall₂ (R .equality) c.eq c'.eq ∧ List.Forall₂ (R .inequality) c.ineq c'.ineq) cs cs'

theorem forall2_map {α : Type*} (f : α → α) (R : α → α → Prop) (h : ∀ a, R a (f a)) (l : List α) : List.Forall₂ R l (l.map f) := by
  rw [List.forall₂_map_right_iff]
  exact List.forall₂_same.mpr fun a _ => h a

theorem forall2_trans {α : Type*} {R S T : α → α → Prop} (h : ∀ a b c, R a b → S b c → T a c) :
    ∀ {l l' l'' : List α}, List.Forall₂ R l l' → List.Forall₂ S l' l'' → List.Forall₂ T l l''
  | _, _, _, .nil, .nil => .nil
  | _, _, _, .cons a r, .cons b s => .cons (h _ _ _ a b) (forall2_trans h r s)

theorem SameUpTo.trans {R S T : ∀ κ, ConVal κ n m K → ConVal κ n m K → Prop} (h : ∀ κ a b c, R κ a b → S κ b c → T κ a c)
    {cs cs' cs'' : List (ALCost n m K)} (h1 : SameUpTo R cs cs') (h2 : SameUpTo S cs' cs'') : SameUpTo T cs cs'' :=
  forall2_trans (fun _ _ _ a b => ⟨b.1.trans a.1, forall2_trans (h _) a.2.1 b.2.1, forall2_trans (h _) a.2.2 b.2.2⟩) h1 h2

theorem SameUpTo.of_map {R : ∀ κ, ConVal κ n m K → ConVal κ n m K → Prop} (f : ALCost n m K → ALCost n m K)
    (g : ∀ κ, ConVal κ n m K → ConVal κ n m K) (hf : ∀ c, f c = { c with eq := c.eq.map (g _), ineq := c.ineq.map (g _) })
    (hR : ∀ κ v, R κ v (g κ v)) (cs : List (ALCost n m K)) : SameUpTo R cs (cs.map f) :=
  forall2_map f _ (fun c => by rw [hf]; exact ⟨rfl, forall2_map _ _ (hR _) _, forall2_map _ _ (hR _) _⟩) cs

/-- **C07.**  `SetPenalty` and `SetPenaltyScaling` of the solver reach every constraint of every knot point, the last one included,
and `k` penalty updates later every penalty is `ρ φᵏ`; constraints, values and multipliers are left alone. -/
theorem C07_solver_penalty (cs : List (ALCost n m K)) (r phi : K) (k : ℕ) :
    SameUpTo (fun _ v v' => v' = { v with pen := fun _ => phi ^ k * r, scaling := phi }) cs
      (ALCosts.updatePenalties^[k] (ALCosts.setPenaltyScaling (ALCosts.setPenalty cs r) phi)) := by
  induction k with
  | zero =>
    refine SameUpTo.trans (R := fun _ v v' => v' = { v with pen := fun _ => r }) (S := fun _ v v' => v' = { v with scaling := phi })
      (fun κ a b c h1 h2 => by rw [h2, h1]; simp) (cs' := ALCosts.setPenalty cs r) ?_ ?_
    · exact SameUpTo.of_map (fun c => c.setPenalty r) (fun _ v => v.setPenalty r) (fun _ => by rfl) (fun _ _ => by rfl) _
    · exact SameUpTo.of_map (fun c => c.setPenaltyScaling phi) (fun _ v => v.setPenaltyScaling phi) (fun _ => by rfl) (fun _ _ => by rfl) _
  | succ k ih =>
    rw [Function.iterate_succ_apply']
    refine SameUpTo.trans (S := fun _ v v' => v' = { v with pen := fun i => v.pen i * v.scaling }) (fun κ a b c h1 h2 => ?_) ih ?_
    · rw [h2, h1]
      simp only [pow_succ]
      congr 1
      funext i
      ring
    · exact SameUpTo.of_map (fun c => c.updatePenalties) (fun _ v => v.updatePenalties) (fun _ => by rfl) (fun _ _ => by rfl) _

/-- **C07.**  `ResetDualVariables` of the solver sets every multiplier of every knot point to zero and changes nothing else. -/
theorem C07_solver_reset (cs : List (ALCost n m K)) :
    SameUpTo (fun _ v v' => v' = { v with lam := 0 }) cs (ALCosts.resetDuals cs) :=
  SameUpTo.of_map (fun c => c.resetDuals) (fun _ v => v.resetDuals) (fun _ => by rfl) (fun _ _ => by rfl) _

/-- The multiplier the update should give: no projection for an equality, onto the nonpositive numbers for an inequality. -/
def newMultiplier : ConKind → K → K
  | .equality, a => a
  | .inequality, a => min a 0

/-- **C07.**  `UpdateDuals` of the solver replaces every multiplier by the projection of `λ - ρ c`, at every knot point, and changes
nothing else. -/
theorem C07_solver_duals (cs : List (ALCost n m K)) :
    SameUpTo (fun κ v v' => v' = { v with lam := fun i => newMultiplier κ (v.lam i - v.pen i * v.c i) }) cs (ALCosts.updateDuals cs) :=
  SameUpTo.of_map (fun c => c.updateDuals) (fun _ v => v.updateDuals) (fun _ => by rfl) (fun κ v => by
    cases κ with
    | equality => rfl
    | inequality => simp only [ConVal.updateDuals, ConKind.dualProj, newMultiplier]; congr 1; funext i; simp [negProj, min_comm]) _

end

/-- Two knot points, one equality constraint at the last: after `SetPenalty(3)`, `SetPenaltyScaling(2)` and two updates its
penalties are 12. -/
example (c : CostFun 1 1 ℚ) (q : Con 1 1 ℚ) : ∃ v : ConVal .equality 1 1 ℚ,
    ALCosts.updatePenalties^[2] (ALCosts.setPenaltyScaling (ALCosts.setPenalty [.new c [] [], .new c [q] []] 3) 2) =
      [.new c [] [], ⟨c, [v], []⟩] ∧ v.con = q ∧ ∀ i, v.pen i = 12 :=
  ⟨_, rfl, rfl, fun _ => by show (3 : ℚ) * 2 * 2 = 12; norm_num⟩

/-! ## Circle -/

/-- **C39.**  `Circle::Distance2Gradient` is the derivative of `Circle::Distance2`. -/
theorem C39_gradient (c : Circle ℝ) (px py : ℝ) :
    HasDerivAt (fun t => c.distance2 t py) (c.distance2Gradient px py).1 px ∧
    HasDerivAt (fun t => c.distance2 px t) (c.distance2Gradient px py).2 py ∧
    ∀ dx dy, c.distance2 (px + dx) (py + dy) =
      c.distance2 px py + (c.distance2Gradient px py).1 * dx + (c.distance2Gradient px py).2 * dy + (dx ^ 2 + dy ^ 2) := by
  refine ⟨?_, ?_, fun dx dy => ?_⟩
  · have h := ((((hasDerivAt_id px).sub_const c.x).pow 2).add_const ((py - c.y) ^ 2)).sub_const (c.r ^ 2)
    simpa [Circle.distance2, Circle.distance2Gradient, mul_comm] using h
  · have h := ((((hasDerivAt_id py).sub_const c.y).pow 2).const_add ((px - c.x) ^ 2)).sub_const (c.r ^ 2)
    simpa [Circle.distance2, Circle.distance2Gradient, mul_comm] using h
  · simp only [Circle.distance2, Circle.distance2Gradient]; ring

/-! ## Example scenarios -/

/-- **C71.**  The default triple integrator goes from rest at `-(1, 2, …)` to rest at `(1, 2, …)`, with bounds a hundred times as large. -/
theorem C71_triple_data (dof : ℕ) (i : Fin dof) (j : Fin (3 * dof)) :
    (tripleDefault dof).x0 j = -(tripleDefault dof).xf j ∧
    (tripleDefault dof).xf ⟨i, by have := i.2; omega⟩ = i.val + 1 ∧
    (dof ≤ j.val → (tripleDefault dof).xf j = 0) ∧
    (tripleDefault dof).ubnd i = 100 * (tripleDefault dof).xf ⟨i, by have := i.2; omega⟩ := by
  refine ⟨?_, ?_, fun h => if_neg (not_lt.mpr h), ?_⟩
  · simp only [tripleDefault]
    split <;> simp
  · exact if_pos i.2
  · show _ = 100 * (if i.val < dof then (i.val : ℝ) + 1 else 0)
    rw [if_pos i.2]; rfl

/-- **C71.**  In the obstacle scenario the three circles have their centres a quarter, a half and three quarters of the way from the
start to the goal, block the straight line, overlap nowhere, and neither the start nor the goal lies in one of them. -/
theorem C71_obstacles (div : ℝ → ℕ → ℝ) (s : UniFields) (hs : s.scenario = .threeObstacles) :
    (s.configure div).obstacles.length = 3 ∧
    (∀ i (h : i < (s.configure div).obstacles.length), let c := (s.configure div).obstacles[i]
      let t : ℝ := (i + 1) / 4
      let p := fun j => (1 - t) * (s.configure div).x0 j + t * (s.configure div).xf j
      c.x = p 0 ∧ c.y = p 1 ∧ c.r = 0.425 ∧ c.distance2 (p 0) (p 1) < 0 ∧
      0 < c.distance2 ((s.configure div).x0 0) ((s.configure div).x0 1) ∧
      0 < c.distance2 ((s.configure div).xf 0) ((s.configure div).xf 1)) ∧
    (∀ c ∈ (s.configure div).obstacles, ∀ d ∈ (s.configure div).obstacles, c ≠ d →
      (c.r + d.r) ^ 2 < (c.x - d.x) ^ 2 + (c.y - d.y) ^ 2) := by
  have e : (s.configure div).obstacles = UniFields.obstacleList := by unfold UniFields.configure; rw [hs]
  have e0 : (s.configure div).x0 = 0 := by unfold UniFields.configure; rw [hs]
  have ef : (s.configure div).xf = ![3, 3, 0] := by unfold UniFields.configure; rw [hs]
  rw [e0, ef]
  refine ⟨by rw [e]; rfl, ?_, ?_⟩
  · rw [e]
    intro i h
    have h3 : i < 3 := h
    interval_cases i <;> norm_num [UniFields.obstacleList, Circle.distance2]
  · rw [e]
    intro c hc d hd
    simp only [UniFields.obstacleList, List.mem_cons, List.not_mem_nil, or_false] at hc hd
    rcases hc with rfl | rfl | rfl <;> rcases hd with rfl | rfl | rfl <;> norm_num

/-- The hypothesis is met by the default fields with the scenario set. -/
example (div : ℝ → ℕ → ℝ) : ({ uniDefault with scenario := .threeObstacles } : UniFields).scenario = .threeObstacles := rfl

end Altro.Props
