import Verif.Model.ExampleProblems
import Verif.Proofs.ProblemAccept
import Verif.Props.Problem
import Verif.Props.Validate
import Verif.Props.ExampleCosts
import Mathlib.Algebra.BigOperators.Fin

/-!
# C71: the example problems
-/

namespace Altro.Props
open Altro.Spec Altro.Proofs Matrix Prob

/-! ## Histories made of loops -/

section loops
variable {C M E K : Type}

theorem lastOf_ind {A B : Type} {f : A → Option B} {l : List A} (P : Option B → Prop) (c : A) (hc : c ∈ l)
    (hf : (f c).isSome) (h : ∀ d ∈ l, ∀ b, f d = some b → P (some b)) : P (lastOf f l) := by
  obtain ⟨b, hb⟩ := Option.isSome_iff_exists.mp hf
  have hne : l.filterMap f ≠ [] := List.ne_nil_of_mem (List.mem_filterMap.mpr ⟨c, hc, hb⟩)
  obtain ⟨d, hd, e⟩ := List.mem_filterMap.mp (List.getLast_mem hne)
  unfold lastOf
  rw [List.getLast?_eq_some_getLast hne]
  exact h d hd _ e

theorem costAt_isSome {l : List (Call C M E K)} {k : ℤ} {c : Option C} (hc : .cost c k ∈ l)
    (h : ∀ d, .cost d k ∈ l → d.isSome) : (costAt l k).isSome := by
  unfold costAt
  refine lastOf_ind (fun o => o.join.isSome = true) _ hc (by simp) fun d hd b e => ?_
  cases d with
  | cost c' j =>
    dsimp only at e
    by_cases hj : j = k
    · subst hj
      rw [if_pos rfl] at e
      obtain rfl := Option.some.inj e
      exact h _ hd
    · rw [if_neg hj] at e; cases e
  | _ => cases e

theorem modelAt_eq {l : List (Call C M E K)} {k : ℤ} {c : M} (hc : .dynamics (some c) k ∈ l)
    (h : ∀ d, .dynamics d k ∈ l → d = some c) : modelAt l k = some c := by
  unfold modelAt
  refine lastOf_ind (fun o => o.join = some c) _ hc (by simp) fun d hd b e => ?_
  cases d with
  | dynamics c' j =>
    dsimp only at e
    by_cases hj : j = k
    · subst hj
      rw [if_pos rfl] at e
      obtain rfl := Option.some.inj e
      exact h _ hd
    · rw [if_neg hj] at e; cases e
  | _ => cases e

theorem initialState_eq {l : List (Call C M E K)} {v x : List K} (hc : .initialState v ∈ l)
    (h : ∀ w, .initialState w ∈ l → w = v) : initialState x l = v := by
  unfold initialState
  refine lastOf_ind (fun o => o.getD x = v) _ hc (by simp) fun d hd b e => ?_
  cases d with
  | initialState w =>
    obtain rfl := Option.some.inj e
    exact h _ hd
  | _ => cases e

theorem ineqsAt_append (a b : List (Call C M E K)) (k : ℤ) : ineqsAt (a ++ b) k = ineqsAt a k ++ ineqsAt b k :=
  List.filterMap_append ..

theorem eqsAt_append (a b : List (Call C M E K)) (k : ℤ) : eqsAt (a ++ b) k = eqsAt a k ++ eqsAt b k :=
  List.filterMap_append ..

theorem ineqsAt_none {l : List (Call C M E K)} (h : ∀ e j, .inequality e j ∉ l) (k : ℤ) : ineqsAt l k = [] := by
  refine List.filterMap_eq_nil_iff.mpr fun c hc => ?_
  cases c with
  | inequality e j => exact absurd hc (h e j)
  | _ => rfl

theorem eqsAt_none {l : List (Call C M E K)} (h : ∀ e j, .equality e j ∉ l) (k : ℤ) : eqsAt l k = [] := by
  refine List.filterMap_eq_nil_iff.mpr fun c hc => ?_
  cases c with
  | equality e j => exact absurd hc (h e j)
  | _ => rfl

/-- A loop that adds the same inequality at the knot points `a, ..., a + r - 1`. -/
theorem ineqsAt_loop (e : E) (a r k : ℕ) :
    ineqsAt ((List.range' a r).map fun (j : ℕ) => (.inequality (some e) (j : ℤ) : Call C M E K)) k
      = if a ≤ k ∧ k < a + r then [e] else [] := by
  induction r with
  | zero => rw [if_neg (by omega)]; rfl
  | succ r ih =>
    rw [List.range'_concat, List.map_append, ineqsAt_append, ih]
    have : ineqsAt (List.map (fun (j : ℕ) => (.inequality (some e) (j : ℤ) : Call C M E K)) [a + 1 * r]) k
        = if a + r = k then [e] else [] := by
      have := ineqsAt_ineq ([] : List (Call C M E K)) e ((a + 1 * r : ℕ) : ℤ) k
      simp only [List.nil_append] at this
      rw [List.map_cons, List.map_nil, this]
      by_cases h : a + r = k
      · rw [if_pos (by push_cast; omega), if_pos h]; rfl
      · rw [if_neg (by push_cast; omega), if_neg h]; rfl
    rw [this]
    by_cases h : a + r = k
    · rw [if_pos h, if_neg (by omega), if_pos (by omega)]; rfl
    · rw [if_neg h, List.append_nil]
      by_cases h2 : a ≤ k ∧ k < a + r
      · rw [if_pos h2, if_pos (by omega)]
      · rw [if_neg h2, if_neg (by omega)]

theorem eqsAt_one (e : E) (j k : ℕ) : eqsAt [(.equality (some e) (j : ℤ) : Call C M E K)] k = if j = k then [e] else [] := by
  have := eqsAt_eq ([] : List (Call C M E K)) e j k
  simp only [List.nil_append] at this
  rw [this]
  by_cases h : j = k
  · rw [if_pos (by omega), if_pos h]; rfl
  · rw [if_neg (by omega), if_neg h]; rfl

end loops

theorem bounds_dim {m : ℕ} (lb ub : Fin m → ℝ) :
    (ControlBound.ofBounds (fun i => .val (lb i)) (fun i => .val (ub i))).dim = 2 * m := by
  have : ∀ b : Fin m → ℝ, (ControlBound.finiteIndices fun i => .val (b i)).length = m := fun b => by
    have e : ControlBound.finiteIndices (fun i => Bnd.val (b i)) = List.finRange m := List.filter_eq_self.mpr fun _ _ => rfl
    rw [e, List.length_finRange]
  rw [ControlBound.dim, ControlBound.ofBounds, this, this]
  omega

/-- What the rows of a bound with finite limits mean. -/
theorem bounds_mean {m : ℕ} (lb ub u : Fin m → ℝ) :
    (∀ i, (ControlBound.ofBounds (fun i => .val (lb i)) (fun i => .val (ub i))).eval u i ≤ 0) ↔
      ∀ j, lb j ≤ u j ∧ u j ≤ ub j := by
  have := (C38_bounds [] (ControlBound.ofBounds (fun i => .val (lb i)) (fun i => .val (ub i))) (.inr ⟨_, _, rfl⟩) u).1
  refine this.trans ⟨fun h j => ⟨(h j).1 _ rfl, (h j).2 _ rfl⟩, fun h j => ⟨fun a ha => ?_, fun a ha => ?_⟩⟩
  · cases ha; exact (h j).1
  · cases ha; exact (h j).2

theorem range_eq (N : ℕ) : List.range N = List.range' 0 N := List.range_eq_range' ..

/-! ## Triple integrator -/

section triple
variable {dof : ℕ} (s : TripleFields dof) (uref : Fin dof → ℝ)

theorem triple_mem (add : Bool) (c : ExCall (3 * dof) dof) : c ∈ s.calls uref add ↔
    (∃ k < s.N, c = .cost (some (s.stageCost uref)) k) ∨ c = .cost (some (s.termCost uref)) s.N ∨
    (∃ k < s.N, c = .dynamics (some (.triple dof)) k) ∨ c = .initialState (List.ofFn s.x0) ∨
    (add = true ∧ ((∃ k < s.N, c = .inequality (some (.bound s.bounds)) k) ∨ c = .equality (some (.goal s.xf)) s.N)) := by
  unfold TripleFields.calls
  cases add <;>
    simp only [List.mem_append, List.mem_map, List.mem_range, List.mem_singleton, if_true, List.not_mem_nil, or_false,
      false_and, true_and, Bool.false_eq_true, if_false, or_assoc, eq_comm (a := c)]

/-- The number of constraint rows of the triple integrator problem. -/
def tripleRows (dof N : ℕ) (add : Bool) : ℕ := if add then N * (2 * dof) + 3 * dof else 0

/-- **C71.**  If its costs are accepted, `TripleIntegratorProblem::MakeProblem` succeeds for every number of joints and
every positive horizon; the result is fully defined, with `2 dof` rows of bounds per time step and `3 dof` rows for the
goal, or none when constraints are not requested. -/
theorem C71_triple (hd : 0 < dof) (hN : 0 < s.N) {ldlt : (n : ℕ) → Matrix (Fin n) (Fin n) ℝ → LDLT n} (h : Heap ℝ)
    (addr : ℕ) (hT : Accepted ldlt (.of (s.termCost uref) true)) (hS : Accepted ldlt (.of (s.stageCost uref) false))
    (add : Bool) :
    ∃ r, s.makeProblem true ldlt h addr uref add = .ok r ∧ isFullyDefined (exIface _ _) r.1 r.2 = .ok true ∧
      numConstraints (exIface _ _) r.2 = .ok (tripleRows dof s.N add) := by
  obtain ⟨r, hr⟩ := (run_accepts (exIface (3 * dof) dof) s.N addr h (s.calls uref add)).mpr (by
    intro c hc
    rcases (triple_mem s uref add c).mp hc with ⟨k, hk, rfl⟩ | rfl | ⟨k, hk, rfl⟩ | rfl | ⟨_, ⟨k, hk, rfl⟩ | rfl⟩
    · exact ⟨by omega, by omega⟩
    · exact ⟨by omega, le_rfl⟩
    · exact ⟨_, rfl, by omega, by omega, fun _ => ⟨by show 0 < 3 * dof; omega, hd⟩⟩
    · trivial
    · exact ⟨_, rfl, by show 0 < s.bounds.dim; rw [TripleFields.bounds, bounds_dim]; omega, by omega, by omega⟩
    · exact ⟨_, rfl, by show 0 < 3 * dof; omega, by omega, le_rfl⟩)
  refine ⟨r, ?_, ?_, ?_⟩
  · unfold TripleFields.makeProblem
    rw [show (QuadArgs.of (s.termCost uref) true).validate true ldlt = .ok () from hT,
      show (QuadArgs.of (s.stageCost uref) false).validate true ldlt = .ok () from hS, if_pos hN]
    exact hr
  · have hm : ∀ k : ℕ, k < s.N → modelAt (s.calls uref add) k = some (.triple dof) := fun k hk => by
      refine modelAt_eq ((triple_mem s uref add _).mpr (.inr (.inr (.inl ⟨k, hk, rfl⟩)))) fun d hd => ?_
      have := (triple_mem s uref add _).mp hd
      simp at this
      exact this.2
    have hx : initialState (h addr) (s.calls uref add) = List.ofFn s.x0 := by
      refine initialState_eq ((triple_mem s uref add _).mpr (.inr (.inr (.inr (.inl rfl))))) fun w hw => ?_
      have := (triple_mem s uref add _).mp hw
      simpa using this
    have hm0 := hm 0 hN
    obtain ⟨b, h1, h2⟩ := C41_exact_partial (exIface _ _) hr (.inr (by
      have : modelAt (s.calls uref add) (0 : ℤ) = some (.triple dof) := hm0
      rw [this]; rfl))
    rw [h1]
    refine congrArg _ (h2.mpr ⟨fun k hk => ?_, fun k hk => by rw [hm k hk]; rfl, _, hm0, ?_, ?_⟩)
    · by_cases hkN : k < s.N
      · refine costAt_isSome ((triple_mem s uref add _).mpr (.inl ⟨k, hkN, rfl⟩)) fun d hd => ?_
        have := (triple_mem s uref add _).mp hd
        simp at this
        rcases this with ⟨_, rfl⟩ | ⟨rfl, _⟩ <;> rfl
      · obtain rfl : k = s.N := by omega
        refine costAt_isSome ((triple_mem s uref add _).mpr (.inr (.inl rfl))) fun d hd => ?_
        have := (triple_mem s uref add _).mp hd
        simp at this
        rcases this with rfl
        rfl
    · rw [hx, List.length_ofFn]; rfl
    · rw [hx, List.length_ofFn]; omega
  · rw [(C42_count (exIface _ _) hr).2]
    congr 1
    have hi : ∀ k : ℕ, ineqsAt (s.calls uref add) k = if add = true ∧ k < s.N then [.bound s.bounds] else [] := fun k => by
      unfold TripleFields.calls
      rw [ineqsAt_append, ineqsAt_none (by simp), List.nil_append]
      cases add
      · rw [if_neg (by simp), if_neg (by simp)]; rfl
      · rw [if_pos rfl, ineqsAt_append, ineqsAt_none (l := [_]) (by simp), List.append_nil, range_eq, ineqsAt_loop]
        simp
    have he : ∀ k : ℕ, eqsAt (s.calls uref add) k = if add = true ∧ k = s.N then [.goal s.xf] else [] := fun k => by
      unfold TripleFields.calls
      rw [eqsAt_append, eqsAt_none (by simp), List.nil_append]
      cases add
      · rw [if_neg (by simp), if_neg (by simp)]; rfl
      · rw [if_pos rfl, eqsAt_append, eqsAt_none (l := List.map _ _) (by simp), List.nil_append, eqsAt_one]
        simp [eq_comm]
    cases add with
    | false =>
      refine Finset.sum_eq_zero fun k _ => ?_
      rw [hi, he, if_neg (by simp), if_neg (by simp)]
      rfl
    | true =>
      rw [Finset.sum_range_succ, hi, he, if_pos ⟨rfl, rfl⟩, if_neg (by simp)]
      have : ∀ k ∈ Finset.range s.N, ((eqsAt (s.calls uref true) k).map (exIface (3 * dof) dof).dim).sum
          + ((ineqsAt (s.calls uref true) k).map (exIface (3 * dof) dof).dim).sum = 2 * dof := fun k hk => by
        have hk := Finset.mem_range.mp hk
        rw [hi, he, if_neg (by omega), if_pos ⟨rfl, hk⟩]
        show 0 + (s.bounds.dim + 0) = 2 * dof
        rw [TripleFields.bounds, bounds_dim]; omega
      rw [Finset.sum_congr rfl this, Finset.sum_const, Finset.card_range, smul_eq_mul]
      rfl

/-- **C71.**  Its constraints: at every time step the controls are bounded in absolute value, at the end the goal is to be
reached. -/
theorem C71_triple_constraints (k : ℕ) : ineqsAt (s.calls uref true) k = (if k < s.N then [.bound s.bounds] else []) ∧
    eqsAt (s.calls uref true) k = (if k = s.N then [.goal s.xf] else []) ∧
    ∀ u, (∀ i, s.bounds.eval u i ≤ 0) ↔ ∀ j, |u j| ≤ s.ubnd j := by
  refine ⟨?_, ?_, fun u => ?_⟩
  · unfold TripleFields.calls
    rw [ineqsAt_append, ineqsAt_none (by simp), List.nil_append, if_pos rfl, ineqsAt_append,
      ineqsAt_none (l := [_]) (by simp), List.append_nil, range_eq, ineqsAt_loop]
    simp
  · unfold TripleFields.calls
    rw [eqsAt_append, eqsAt_none (by simp), List.nil_append, if_pos rfl, eqsAt_append,
      eqsAt_none (l := List.map _ _) (by simp), List.nil_append, eqsAt_one]
    simp [eq_comm]
  · exact (bounds_mean _ _ u).trans (forall_congr' fun j => abs_le.symm)

/-- **C71.**  The control reference is the content of uninitialised memory: at the goal state the stage cost penalises
the distance to it, so that different contents give different problems whenever the control weight is positive
definite. -/
theorem C71_uninitialised_counterexample (hQ : s.Q.IsSymm) (hR : s.R.IsSymm) (hpd : PosDef s.R) (u₁ u₂ : Fin dof → ℝ)
    (hne : u₁ ≠ u₂) :
    (s.stageCost u₁).costFun.eval s.xf u₁ = 0 ∧ 0 < (s.stageCost u₂).costFun.eval s.xf u₁ := by
  have key : ∀ v, (s.stageCost v).costFun.eval s.xf u₁ = 1 / 2 * ((u₁ - v) ⬝ᵥ s.R *ᵥ (u₁ - v)) := by
    intro v
    have e1 : v ⬝ᵥ s.R *ᵥ u₁ = u₁ ⬝ᵥ s.R *ᵥ v := by
      rw [dotProduct_mulVec, ← mulVec_transpose, hR.eq, dotProduct_comm]
    have e2 : (s.R *ᵥ v) ⬝ᵥ u₁ = u₁ ⬝ᵥ s.R *ᵥ v := dotProduct_comm _ _
    have e3 : (s.Q *ᵥ s.xf) ⬝ᵥ s.xf = s.xf ⬝ᵥ s.Q *ᵥ s.xf := dotProduct_comm _ _
    simp only [TripleFields.stageCost, QuadCost.lqr, QuadCost.costFun, zero_mulVec, dotProduct_zero, neg_dotProduct,
      mulVec_sub, sub_dotProduct, dotProduct_sub, e1, e2, e3]
    ring
  refine ⟨by rw [key, sub_self]; simp, ?_⟩
  rw [key]
  have := hpd (u₁ - u₂) (sub_ne_zero.mpr hne)
  linarith

/-- The hypotheses hold for the values of the default constructor, whatever the memory contains. -/
theorem tripleDefault_accepted (dof : ℕ) (uref : Fin dof → ℝ) :
    Accepted diagLdlt (.of ((tripleDefault dof).termCost uref) true) ∧
    Accepted diagLdlt (.of ((tripleDefault dof).stageCost uref) false) :=
  ⟨accepted_diag _ _ (fun _ => 1e5) (fun _ => 0) rfl diagonal_zero.symm (fun _ => by norm_num) (fun h => Bool.noConfusion h),
   accepted_diag _ _ (fun _ => 1) (fun _ => 0.001) rfl rfl (fun _ => by norm_num) fun _ _ => by norm_num⟩

/-- Two joints, with constraints: 46 rows. -/
example (h : Heap ℝ) (uref : Fin 2 → ℝ) :
    ∃ r, (tripleDefault 2).makeProblem true diagLdlt h 0 uref true = .ok r ∧
      isFullyDefined (exIface _ _) r.1 r.2 = .ok true ∧ numConstraints (exIface _ _) r.2 = .ok 46 :=
  C71_triple (tripleDefault 2) uref (by norm_num) (by show 0 < 10; norm_num) h 0 (tripleDefault_accepted 2 uref).1
    (tripleDefault_accepted 2 uref).2 true

/-- The weights of the default constructor satisfy the hypotheses of the counterexample. -/
example (dof : ℕ) : (tripleDefault dof).Q.IsSymm ∧ (tripleDefault dof).R.IsSymm ∧ PosDef (tripleDefault dof).R :=
  ⟨diagonal_transpose _, diagonal_transpose _, fun u hu => by
    obtain ⟨i, hi⟩ := Function.ne_iff.mp hu
    simp only [tripleDefault, dotProduct, mulVec_diagonal]
    refine Finset.sum_pos' (fun j _ => ?_) ⟨i, Finset.mem_univ i, ?_⟩
    · have := mul_self_nonneg (u j); norm_num; linarith
    · have := mul_self_pos.mpr hi; norm_num; linarith⟩

end triple

/-! ## Unicycle -/

section unicycle
variable (s : UniFields)

/-- Rows of constraints of the unicycle problem: the obstacles do not depend on the flag. -/
def uniRows (c : Scenario) (N : ℕ) (add : Bool) : ℕ :=
  (if c = .threeObstacles then (N - 1) * 3 else 0) + if add then N * 4 + 3 else 0

theorem uni_mem (add : Bool) (c : ExCall 3 2) : c ∈ s.calls add ↔
    (s.scenario = .threeObstacles ∧ ∃ k, (1 ≤ k ∧ k < 1 + (s.N - 1)) ∧ c = .inequality (some (.circles s.obstacles)) (k : ℕ)) ∨
    (∃ k < s.N, c = .cost (some s.stageCost) k) ∨ c = .cost (some s.termCost) s.N ∨
    (∃ k < s.N, c = .dynamics (some .unicycle) k) ∨
    (add = true ∧ ((∃ k < s.N, c = .inequality (some (.bound s.bounds)) k) ∨ c = .equality (some (.goal s.xf)) s.N)) ∨
    c = .initialState (List.ofFn s.x0) := by
  unfold UniFields.calls
  cases hs : s.scenario <;> cases add <;>
    simp only [List.mem_append, List.mem_map, List.mem_range, List.mem_singleton, if_true, List.not_mem_nil,
      false_and, true_and, Bool.false_eq_true, if_false, or_assoc, eq_comm (a := c), List.mem_range'_1, false_or,
      reduceCtorEq]

theorem configure_facts (div : ℝ → ℕ → ℝ) :
    (s.configure div).N = s.N ∧ (s.configure div).scenario = s.scenario ∧
    (s.scenario = .threeObstacles → (s.configure div).obstacles.length = 3) := by
  unfold UniFields.configure
  cases h : s.scenario
  · exact ⟨rfl, rfl, fun e => by cases e⟩
  · exact ⟨rfl, rfl, fun _ => rfl⟩

/-- **C71.**  If its costs are accepted, `UnicycleProblem::MakeProblem` succeeds for both scenarios and every positive
horizon; the result is fully defined; the number of constraint rows is as in `uniRows`. -/
theorem C71_unicycle (hN : 0 < s.N) {ldlt : (n : ℕ) → Matrix (Fin n) (Fin n) ℝ → LDLT n} (div : ℝ → ℕ → ℝ) (h : Heap ℝ)
    (addr : ℕ) (hT : Accepted ldlt (.of (s.configure div).termCost true))
    (hS : Accepted ldlt (.of (s.configure div).stageCost false)) (add : Bool) :
    ∃ r, s.makeProblem true ldlt div h addr add = .ok (s.configure div, r) ∧
      isFullyDefined (exIface _ _) r.1 r.2 = .ok true ∧
      numConstraints (exIface _ _) r.2 = .ok (uniRows s.scenario s.N add) := by
  obtain ⟨cN, cs, co⟩ := configure_facts s div
  rw [← cN, ← cs]
  rw [← cN] at hN
  rw [← cs] at co
  unfold UniFields.makeProblem
  generalize s.configure div = s at *
  have hbd : 0 < s.bounds.dim := by rw [UniFields.bounds, bounds_dim]; omega
  obtain ⟨r, hr⟩ := (run_accepts (exIface 3 2) s.N addr h (s.calls add)).mpr (by
    intro c hc
    rcases (uni_mem s add c).mp hc with ⟨hs, k, hk, rfl⟩ | ⟨k, hk, rfl⟩ | rfl | ⟨k, hk, rfl⟩ | ⟨_, ⟨k, hk, rfl⟩ | rfl⟩ | rfl
    · exact ⟨_, rfl, by show 0 < s.obstacles.length; rw [co hs]; omega, by omega, by omega⟩
    · exact ⟨by omega, by omega⟩
    · exact ⟨by omega, le_rfl⟩
    · exact ⟨_, rfl, by omega, by omega, fun _ => ⟨by show 0 < 3; omega, by show 0 < 2; omega⟩⟩
    · exact ⟨_, rfl, hbd, by omega, by omega⟩
    · exact ⟨_, rfl, by show 0 < 3; omega, by omega, le_rfl⟩
    · trivial)
  refine ⟨r, ?_, ?_, ?_⟩
  · dsimp only
    rw [show (QuadArgs.of s.termCost true).validate true ldlt = .ok () from hT,
      show (QuadArgs.of s.stageCost false).validate true ldlt = .ok () from hS, if_pos hN, hr]
    rfl
  · have hm : ∀ k : ℕ, k < s.N → modelAt (s.calls add) k = some .unicycle := fun k hk => by
      refine modelAt_eq ((uni_mem s add _).mpr (.inr (.inr (.inr (.inl ⟨k, hk, rfl⟩))))) fun d hd => ?_
      have := (uni_mem s add _).mp hd
      simp at this
      exact this.2
    have hx : initialState (h addr) (s.calls add) = List.ofFn s.x0 := by
      refine initialState_eq ((uni_mem s add _).mpr (.inr (.inr (.inr (.inr (.inr rfl)))))) fun w hw => ?_
      have := (uni_mem s add _).mp hw
      simpa using this
    have hm0 := hm 0 hN
    obtain ⟨b, h1, h2⟩ := C41_exact_partial (exIface _ _) hr (.inr (by
      have : modelAt (s.calls add) (0 : ℤ) = some .unicycle := hm0
      rw [this]; rfl))
    rw [h1]
    refine congrArg _ (h2.mpr ⟨fun k hk => ?_, fun k hk => by rw [hm k hk]; rfl, _, hm0, ?_, ?_⟩)
    · by_cases hkN : k < s.N
      · refine costAt_isSome ((uni_mem s add _).mpr (.inr (.inl ⟨k, hkN, rfl⟩))) fun d hd => ?_
        have := (uni_mem s add _).mp hd
        simp at this
        rcases this with ⟨_, rfl⟩ | ⟨rfl, _⟩ <;> rfl
      · obtain rfl : k = s.N := by omega
        refine costAt_isSome ((uni_mem s add _).mpr (.inr (.inr (.inl rfl)))) fun d hd => ?_
        have := (uni_mem s add _).mp hd
        simp at this
        rcases this with rfl
        rfl
    · rw [hx, List.length_ofFn]; rfl
    · rw [hx, List.length_ofFn]; omega
  · rw [(C42_count (exIface _ _) hr).2]
    congr 1
    have hi : ∀ k : ℕ, ineqsAt (s.calls add) k =
        (if s.scenario = .threeObstacles ∧ 1 ≤ k ∧ k < s.N then [.circles s.obstacles] else [])
        ++ if add = true ∧ k < s.N then [.bound s.bounds] else [] := fun k => by
      have ha : ineqsAt (if add = true then (List.range s.N).map (fun (k : ℕ) => (.inequality (some (.bound s.bounds)) (k : ℤ) :
          ExCall 3 2)) ++ [.equality (some (.goal s.xf)) s.N] else []) k
          = if add = true ∧ k < s.N then [.bound s.bounds] else [] := by
        cases add
        · rw [if_neg (by simp), if_neg (by simp)]; rfl
        · rw [if_pos rfl, ineqsAt_append, ineqsAt_none (l := [_]) (by simp), List.append_nil, range_eq, ineqsAt_loop]
          simp
      unfold UniFields.calls
      rw [ineqsAt_append, ineqsAt_append, ineqsAt_append, ineqsAt_append, ineqsAt_append, ha,
        ineqsAt_none (l := [.initialState _]) (by simp), ineqsAt_none (l := [.cost _ _]) (by simp),
        ineqsAt_none (l := List.map (fun k => Call.cost _ (Nat.cast k)) _) (by simp),
        ineqsAt_none (l := List.map (fun k => Call.dynamics _ (Nat.cast k)) _) (by simp)]
      simp only [List.append_nil]
      congr 1
      cases hs : s.scenario
      · rw [if_neg (by simp)]; rfl
      · dsimp only
        rw [ineqsAt_loop]
        by_cases hk : 1 ≤ k ∧ k < s.N
        · rw [if_pos (by omega), if_pos ⟨rfl, hk⟩]
        · rw [if_neg (by omega), if_neg (fun h => hk h.2)]
    have he : ∀ k : ℕ, eqsAt (s.calls add) k = if add = true ∧ k = s.N then [.goal s.xf] else [] := fun k => by
      have ha : eqsAt (if add = true then (List.range s.N).map (fun (k : ℕ) => (.inequality (some (.bound s.bounds)) (k : ℤ) :
          ExCall 3 2)) ++ [.equality (some (.goal s.xf)) s.N] else []) k
          = if add = true ∧ k = s.N then [.goal s.xf] else [] := by
        cases add
        · rw [if_neg (by simp), if_neg (by simp)]; rfl
        · rw [if_pos rfl, eqsAt_append, eqsAt_none (l := List.map _ _) (by simp), List.nil_append, eqsAt_one]
          simp [eq_comm]
      unfold UniFields.calls
      rw [eqsAt_append, eqsAt_append, eqsAt_append, eqsAt_append, eqsAt_append, ha,
        eqsAt_none (l := [.initialState _]) (by simp), eqsAt_none (l := [.cost _ _]) (by simp),
        eqsAt_none (l := List.map (fun k => Call.cost _ (Nat.cast k)) _) (by simp),
        eqsAt_none (l := List.map (fun k => Call.dynamics _ (Nat.cast k)) _) (by simp),
        eqsAt_none (by cases s.scenario <;> simp)]
      simp
    have hk : ∀ k ∈ Finset.range (s.N + 1), ((eqsAt (s.calls add) k).map (exIface 3 2).dim).sum
        + ((ineqsAt (s.calls add) k).map (exIface 3 2).dim).sum
        = (if s.scenario = .threeObstacles ∧ 1 ≤ k ∧ k < s.N then 3 else 0)
          + ((if add = true ∧ k < s.N then 4 else 0) + if add = true ∧ k = s.N then 3 else 0) := fun k _ => by
      rw [hi, he, List.map_append, List.sum_append]
      have e1 : ((if s.scenario = .threeObstacles ∧ 1 ≤ k ∧ k < s.N then [ExCon.circles s.obstacles] else []).map
          (exIface 3 2).dim).sum = if s.scenario = .threeObstacles ∧ 1 ≤ k ∧ k < s.N then 3 else 0 := by
        by_cases hc : s.scenario = .threeObstacles ∧ 1 ≤ k ∧ k < s.N
        · rw [if_pos hc, if_pos hc]
          show s.obstacles.length + 0 = 3
          rw [co hc.1]
        · rw [if_neg hc, if_neg hc]; rfl
      have e2 : ((if add = true ∧ k < s.N then [ExCon.bound s.bounds] else []).map (exIface 3 2).dim).sum
          = if add = true ∧ k < s.N then 4 else 0 := by
        by_cases hc : add = true ∧ k < s.N
        · rw [if_pos hc, if_pos hc]
          show s.bounds.dim + 0 = 4
          rw [UniFields.bounds, bounds_dim]
        · rw [if_neg hc, if_neg hc]; rfl
      have e3 : ((if add = true ∧ k = s.N then [ExCon.goal s.xf] else []).map (exIface 3 2).dim).sum
          = if add = true ∧ k = s.N then 3 else 0 := by
        by_cases hc : add = true ∧ k = s.N
        · rw [if_pos hc, if_pos hc]; rfl
        · rw [if_neg hc, if_neg hc]; rfl
      rw [e1, e2, e3]; omega
    rw [Finset.sum_congr rfl hk, Finset.sum_add_distrib]
    unfold uniRows
    congr 1
    · by_cases hs : s.scenario = .threeObstacles
      · rw [if_pos hs]
        obtain ⟨M, hM⟩ : ∃ M, s.N = M + 1 := ⟨s.N - 1, by omega⟩
        rw [hM, Finset.sum_range_succ, if_neg (by omega), Finset.sum_range_succ', if_neg (by omega)]
        rw [Finset.sum_congr rfl fun k hk => if_pos ⟨hs, by omega, by have := Finset.mem_range.mp hk; omega⟩]
        simp
      · rw [if_neg hs]
        exact Finset.sum_eq_zero fun k _ => if_neg fun h => hs h.1
    · cases add with
      | false => simp
      | true =>
        rw [Finset.sum_range_succ, Finset.sum_congr rfl (g := fun _ => 4) fun k hk => by
          have := Finset.mem_range.mp hk
          rw [if_pos ⟨rfl, this⟩, if_neg (by omega)]]
        simp

/-- **C71.**  What its control bounds mean in the two scenarios. -/
theorem C71_unicycle_bounds (div : ℝ → ℕ → ℝ) (u : Fin 2 → ℝ) : (∀ i, (s.configure div).bounds.eval u i ≤ 0) ↔
    match s.scenario with
    | .turn90 => |u 0| ≤ s.vBnd ∧ |u 1| ≤ s.wBnd
    | .threeObstacles => 0 ≤ u 0 ∧ u 0 ≤ 3 ∧ |u 1| ≤ 3 := by
  refine (bounds_mean _ _ u).trans ?_
  unfold UniFields.configure
  cases s.scenario
  · simp [Fin.forall_fin_two, abs_le]
  · simp [Fin.forall_fin_two, abs_le, and_assoc]

/-- **C71.**  Asking for a problem without constraints still gives one with the obstacle constraints. -/
theorem C71_flag_counterexample (hN : 2 ≤ s.N) (hsc : s.scenario = .threeObstacles)
    {ldlt : (n : ℕ) → Matrix (Fin n) (Fin n) ℝ → LDLT n} (div : ℝ → ℕ → ℝ) (h : Heap ℝ)
    (addr : ℕ) (hT : Accepted ldlt (.of (s.configure div).termCost true))
    (hS : Accepted ldlt (.of (s.configure div).stageCost false)) :
    ∃ r c, s.makeProblem true ldlt div h addr false = .ok r ∧ numConstraints (exIface _ _) r.2.2 = .ok c ∧ 3 ≤ c := by
  obtain ⟨r, h1, _, h3⟩ := C71_unicycle s (by omega) div h addr hT hS false
  refine ⟨_, _, h1, h3, ?_⟩
  rw [hsc]
  simp [uniRows]
  omega

theorem setDiag_idem {n : ℕ} (A : Matrix (Fin n) (Fin n) ℝ) (c d : ℝ) : setDiag (setDiag A c) d = setDiag A d := by
  ext i j
  simp only [setDiag, of_apply]
  split <;> rfl

/-- **C71.**  Calling `MakeProblem` again changes no field. -/
theorem C71_again (div : ℝ → ℕ → ℝ) : (s.configure div).configure div = s.configure div := by
  obtain ⟨-, cs, -⟩ := configure_facts s div
  cases h : s.scenario
  · unfold UniFields.configure
    simp only [h, setDiag_idem]
  · unfold UniFields.configure
    simp only [h, setDiag_idem]

theorem setDiag_diagonal {n : ℕ} (d : Fin n → ℝ) (c : ℝ) : setDiag (diagonal d) c = diagonal fun _ => c := by
  ext i j
  simp only [setDiag, of_apply, diagonal_apply]
  split <;> rfl

/-- **C71.**  The numbers of the two scenarios, from a new object: a quarter turn in 3 s with speeds up to 1.5, and a drive past three
obstacles in 5 s, both with 100 steps. -/
theorem C71_unicycle_values (div : ℝ → ℕ → ℝ) :
    uniDefault.configure div = { N := 100, tf := 3, scenario := .turn90, x0 := 0, xf := ![1.5, 1.5, Real.pi / 2], u0 := fun _ => 0.1, uref := 0
                                 Q := diagonal fun _ => 0.01 * div 3 100, R := diagonal fun _ => 0.01 * div 3 100, Qf := diagonal fun _ => 100
                                 vBnd := 1.5, wBnd := 1.5, lb := fun _ => -1.5, ub := fun _ => 1.5, obstacles := [] } ∧
    (uniDefault.setScenario .threeObstacles).configure div =
      { N := 100, tf := 5, scenario := .threeObstacles, x0 := 0, xf := ![3, 3, 0], u0 := fun _ => 0.01, uref := 0
        Q := diagonal fun _ => div 5 100, R := diagonal fun _ => div 5 100 / 2, Qf := diagonal fun _ => 10
        vBnd := 1.5, wBnd := 1.5, lb := ![0, -3], ub := fun _ => 3
        obstacles := [⟨0.75, 0.75, 0.425⟩, ⟨1.5, 1.5, 0.425⟩, ⟨2.25, 2.25, 0.425⟩] } := by
  have two : ∀ a : ℝ, (![a, a] : Fin 2 → ℝ) = fun _ => a := fun a => by funext i; fin_cases i <;> rfl
  have z3 : (![0, 0, 0] : Fin 3 → ℝ) = 0 := by funext i; fin_cases i <;> rfl
  have z2 : (![0, 0] : Fin 2 → ℝ) = 0 := by funext i; fin_cases i <;> rfl
  constructor
  · simp only [UniFields.configure, uniDefault, setDiag_diagonal, two, z3, z2]
    norm_num
    rfl
  · simp only [UniFields.configure, uniDefault, UniFields.setScenario, UniFields.obstacleList, setDiag_diagonal, two, z2]
    norm_num
    ring_nf
    exact ⟨trivial, rfl⟩

/-- **C71.**  The control bounds a new object holds are never used. -/
theorem C71_bounds_assigned (div : ℝ → ℕ → ℝ) (lb ub : Fin 2 → ℝ) : ({ s with lb := lb, ub := ub } : UniFields).configure div = s.configure div := by
  unfold UniFields.configure
  cases s.scenario <;> rfl

/-- **C71.**  Going to the obstacle scenario and back does not restore the first scenario: goal, initial state and
initial control keep the values of the second, so that the problem built differs from the one a new object builds. -/
theorem C71_stale_counterexample (div : ℝ → ℕ → ℝ) :
    let back := ((((uniDefault.setScenario .threeObstacles).configure div).setScenario .turn90).configure div)
    back.xf = ![3, 3, 0] ∧ back.u0 = ![0.01, 0.01] ∧ (uniDefault.configure div).xf ≠ back.xf ∧
    (uniDefault.configure div).u0 ≠ back.u0 := by
  refine ⟨rfl, rfl, fun h => ?_, fun h => ?_⟩
  · have h0 : (1.5 : ℝ) = 3 := congrFun h 0
    norm_num at h0
  · have h0 : (0.1 : ℝ) = 0.01 := congrFun h 0
    norm_num at h0

/-- The hypotheses hold for a new object in both scenarios (with exact division). -/
theorem uniDefault_accepted (c : Scenario) :
    Accepted diagLdlt (.of ((uniDefault.setScenario c).configure fun t N => t / N).termCost true) ∧
    Accepted diagLdlt (.of ((uniDefault.setScenario c).configure fun t N => t / N).stageCost false) := by
  have sd : ∀ {n : ℕ} (v : Fin n → ℝ) (a : ℝ), setDiag (diagonal v) a = diagonal fun _ => a := by
    intro n v a
    ext i j
    by_cases h : i = j
    · subst h; simp [setDiag]
    · simp [setDiag, h]
  cases c
  · exact ⟨accepted_diag _ _ (fun _ => 100) (fun _ => 0) (sd _ _) diagonal_zero.symm (fun _ => by norm_num)
        (fun h => Bool.noConfusion h),
      accepted_diag _ _ (fun _ => 1e-2 * (3 / ((100 : ℕ) : ℝ))) (fun _ => 1e-2 * (3 / ((100 : ℕ) : ℝ))) (sd _ _) (sd _ _)
        (fun _ => by norm_num) fun _ _ => by norm_num⟩
  · exact ⟨accepted_diag _ _ (fun _ => 10) (fun _ => 0) (sd _ _) diagonal_zero.symm (fun _ => by norm_num)
        (fun h => Bool.noConfusion h),
      accepted_diag _ _ (fun _ => 1 * (5 / ((100 : ℕ) : ℝ))) (fun _ => 0.5 * (5 / ((100 : ℕ) : ℝ))) (sd _ _) (sd _ _)
        (fun _ => by norm_num) fun _ _ => by norm_num⟩

/-- The obstacle scenario without constraints: 297 rows. -/
example (h : Heap ℝ) : ∃ r, (uniDefault.setScenario .threeObstacles).makeProblem true diagLdlt (fun t N => t / N) h 0 false
      = .ok ((uniDefault.setScenario .threeObstacles).configure (fun t N => t / N), r) ∧
      isFullyDefined (exIface _ _) r.1 r.2 = .ok true ∧ numConstraints (exIface _ _) r.2 = .ok 297 :=
  C71_unicycle (uniDefault.setScenario .threeObstacles) (by show 0 < 100; norm_num) _ h 0
    (uniDefault_accepted .threeObstacles).1 (uniDefault_accepted .threeObstacles).2 false

end unicycle

end Altro.Props
