import Verif.Spec.Validate
import Verif.Props.Sweep
import Verif.Props.Constraints
import Verif.Props.Descent
import Verif.Props.DerivCheck
import Mathlib.Algebra.Order.BigOperators.Ring.Finset
import Mathlib.Tactic.NormNum

/-!
# C70: what the checks in the constructor of a quadratic cost guarantee
-/

namespace Altro.Props
open Altro.Spec Matrix ILQR

theorem assertThat_ok (b : Bool) : assertThat b = .ok () ↔ b = true := by
  cases b <;> simp [assertThat]

theorem assertThat_bind {α : Type} (b : Bool) (f : Unit → Except Err α) (a : α) :
    (assertThat b >>= f) = .ok a ↔ b = true ∧ f () = .ok a := by
  cases b <;> simp [assertThat, bind, Except.bind]

theorem noNegative_iff {n : ℕ} (D : Fin n → ℝ) (k : ℕ) :
    QuadArgs.noNegative D k = true ↔ ∀ i : Fin n, i.val < k → 0 ≤ D i := by
  induction k with
  | zero => simp [QuadArgs.noNegative]
  | succ k ih =>
    unfold QuadArgs.noNegative
    by_cases h : k < n
    · rw [dif_pos h]
      by_cases hd : D ⟨k, h⟩ < 0
      · rw [if_pos hd]
        refine ⟨fun e => Bool.noConfusion e, fun e => absurd (e ⟨k, h⟩ (Nat.lt_succ_self k)) (not_le.mpr hd)⟩
      · rw [if_neg hd, ih]
        refine ⟨fun e i hi => ?_, fun e i hi => e i (by omega)⟩
        by_cases hik : i.val = k
        · have : i = ⟨k, h⟩ := Fin.ext hik
          rw [this]; exact not_lt.mp hd
        · exact e i (by omega)
    · rw [dif_neg h, ih]
      exact ⟨fun e i _ => e i (by omega), fun e i hi => e i (by omega)⟩

theorem lltOk_iff {m : ℕ} (M : Matrix (Fin m) (Fin m) ℝ) : lltOk m M = true ↔ PosDef (lowSym M) := by
  rw [← lltOk_lowSym]
  exact lltOk_iff_posDef_symm (lowSym_isSymm M)

/-- **C70.**  Exactly what an accepted cost satisfies. -/
theorem C70_accepted_iff (ldlt : (n : ℕ) → Matrix (Fin n) (Fin n) ℝ → LDLT n) (a : QuadArgs) :
    Accepted ldlt a ↔
      (a.Q.rows = a.n ∧ a.Q.cols = a.n ∧ a.R.rows = a.m ∧ a.R.cols = a.m ∧ a.H.rows = a.n ∧ a.H.cols = a.m) ∧
      isApprox a.cost.Q a.cost.Qᵀ ∧ isApprox a.cost.R a.cost.Rᵀ ∧
      (a.terminal = false → PosDef (lowSym a.cost.R)) ∧
      (ldlt a.n a.cost.Q).ok = true ∧ ∀ i, 0 ≤ (ldlt a.n a.cost.Q).D i := by
  classical
  unfold Accepted QuadArgs.validate
  have e3 : QuadArgs.noNegative (ldlt a.n a.cost.Q).D a.n = true ↔ ∀ i, 0 ≤ (ldlt a.n a.cost.Q).D i := by
    rw [noNegative_iff]; exact ⟨fun h i => h i i.isLt, fun h i _ => h i⟩
  cases ht : a.terminal <;>
    simp [assertThat_bind, assertThat_ok, lltOk_iff, e3, QuadArgs.sizesOk, and_assoc]

/-- **C70.**  With `NDEBUG` every argument is accepted. -/
theorem C70_release (ldlt : (n : ℕ) → Matrix (Fin n) (Fin n) ℝ → LDLT n) (a : QuadArgs) :
    a.validate false ldlt = .ok () := by
  cases ht : a.terminal <;> simp [QuadArgs.validate, assertThat, ht, bind, Except.bind]

theorem psd_of_factor {n : ℕ} {M L : Matrix (Fin n) (Fin n) ℝ} {D : Fin n → ℝ} (σ : Equiv.Perm (Fin n))
    (h : M.submatrix σ σ = L * diagonal D * Lᵀ) (hD : ∀ i, 0 ≤ D i) : PosSemidef M := by
  intro x
  have e1 : x ⬝ᵥ M *ᵥ x = (x ∘ σ) ⬝ᵥ (M.submatrix σ σ) *ᵥ (x ∘ σ) := by
    simp only [dotProduct, mulVec, submatrix_apply, Function.comp]
    rw [← Equiv.sum_comp σ (fun i => x i * ∑ j, M i j * x j)]
    refine Finset.sum_congr rfl fun i _ => ?_
    rw [← Equiv.sum_comp σ (fun j => M (σ i) j * x j)]
  rw [e1, h, ← mulVec_mulVec, ← mulVec_mulVec, dotProduct_mulVec, ← mulVec_transpose, dotProduct]
  refine Finset.sum_nonneg fun i _ => ?_
  rw [mulVec_diagonal]
  have := mul_nonneg (hD i) (mul_self_nonneg ((Lᵀ *ᵥ (x ∘ σ)) i))
  linarith

/-- **C70.**  The state weight of an accepted cost, read from its lower triangle, is positive semidefinite, and the
control weight of an accepted stage cost is positive definite. -/
theorem C70_weights {ldlt : (n : ℕ) → Matrix (Fin n) (Fin n) ℝ → LDLT n} (hF : Factorizes ldlt) {a : QuadArgs}
    (h : Accepted ldlt a) :
    PosSemidef (lowSym a.cost.Q) ∧ (a.terminal = false → PosDef (lowSym a.cost.R)) := by
  obtain ⟨_, _, _, h4, h5, h6⟩ := (C70_accepted_iff ldlt a).mp h
  obtain ⟨σ, L, e⟩ := hF _ _ h5
  exact ⟨psd_of_factor σ e h6, h4⟩

/-! ## Symmetry only holds approximately -/

theorem frob_sq {a b : ℕ} (A : Matrix (Fin a) (Fin b) ℝ) : frob A ^ 2 = ∑ i, ∑ j, A i j ^ 2 :=
  Real.sq_sqrt (Finset.sum_nonneg fun _ _ => Finset.sum_nonneg fun _ _ => sq_nonneg _)

theorem frob_transpose {a b : ℕ} (A : Matrix (Fin a) (Fin b) ℝ) : frob Aᵀ = frob A := by
  unfold frob
  rw [Finset.sum_comm]
  rfl

theorem isApprox_transpose {n : ℕ} (A : Matrix (Fin n) (Fin n) ℝ) :
    isApprox A Aᵀ ↔ frob (A - Aᵀ) ≤ 1e-12 * frob A := by
  unfold isApprox
  rw [frob_transpose, min_self, ← mul_pow]
  exact pow_le_pow_iff_left₀ (frob_nonneg _) (mul_nonneg (by norm_num) (frob_nonneg _)) two_ne_zero

/-- Length of a vector. -/
noncomputable def len {n : ℕ} (x : Fin n → ℝ) : ℝ := Real.sqrt (∑ i, x i ^ 2)

theorem len_sq {n : ℕ} (x : Fin n → ℝ) : len x ^ 2 = ∑ i, x i ^ 2 :=
  Real.sq_sqrt (Finset.sum_nonneg fun _ _ => sq_nonneg _)

theorem len_nonneg {n : ℕ} (x : Fin n → ℝ) : 0 ≤ len x := Real.sqrt_nonneg _

/-- `|A x| ≤ ‖A‖ |x|` -/
theorem len_mulVec {a b : ℕ} (A : Matrix (Fin a) (Fin b) ℝ) (x : Fin b → ℝ) : len (A *ᵥ x) ≤ frob A * len x := by
  refine le_of_sq_le_sq ?_ (mul_nonneg (frob_nonneg _) (len_nonneg _))
  rw [mul_pow, len_sq, frob_sq, len_sq, Finset.sum_mul]
  exact Finset.sum_le_sum fun i _ => Finset.sum_mul_sq_le_sq_mul_sq Finset.univ (A i) x
where
  le_of_sq_le_sq {a b : ℝ} (h : a ^ 2 ≤ b ^ 2) (hb : 0 ≤ b) : a ≤ b := (le_abs_self a).trans (abs_le_of_sq_le_sq h hb)

/-- **C70.**  The gradient an accepted cost reports differs from the true gradient (that of the symmetric part) by at
most `5e-13` times the size of the weight times the size of the state, and likewise for the controls. -/
theorem C70_gradient_error {ldlt : (n : ℕ) → Matrix (Fin n) (Fin n) ℝ → LDLT n} {a : QuadArgs} (h : Accepted ldlt a)
    (x : Fin a.n → ℝ) (u : Fin a.m → ℝ) :
    len ((a.cost.costFun.grad x u).1 - ((1 / 2 : ℝ) • (a.cost.Q + a.cost.Qᵀ) *ᵥ x + a.cost.q + a.cost.H *ᵥ u))
      ≤ 5e-13 * frob a.cost.Q * len x ∧
    len ((a.cost.costFun.grad x u).2 - ((1 / 2 : ℝ) • (a.cost.R + a.cost.Rᵀ) *ᵥ u + a.cost.r + a.cost.Hᵀ *ᵥ x))
      ≤ 5e-13 * frob a.cost.R * len u := by
  obtain ⟨_, h2, h3, _⟩ := (C70_accepted_iff ldlt a).mp h
  have key : ∀ {q : ℕ} (M : Matrix (Fin q) (Fin q) ℝ) (y b c : Fin q → ℝ), isApprox M Mᵀ →
      len (M *ᵥ y + b + c - ((1 / 2 : ℝ) • (M + Mᵀ) *ᵥ y + b + c)) ≤ 5e-13 * frob M * len y := by
    intro q M y b c hM
    have e : M *ᵥ y + b + c - ((1 / 2 : ℝ) • (M + Mᵀ) *ᵥ y + b + c) = (1 / 2 : ℝ) • ((M - Mᵀ) *ᵥ y) := by
      funext i
      simp only [sub_mulVec, add_mulVec, Pi.add_apply, Pi.sub_apply, Pi.smul_apply, smul_eq_mul]
      ring
    have l : ∀ v : Fin q → ℝ, len ((1 / 2 : ℝ) • v) = 1 / 2 * len v := by
      intro v
      unfold len
      have : ∑ i, ((1 / 2 : ℝ) • v) i ^ 2 = (1 / 2) ^ 2 * ∑ i, v i ^ 2 := by
        rw [Finset.mul_sum]
        refine Finset.sum_congr rfl fun i _ => ?_
        simp only [Pi.smul_apply, smul_eq_mul]; ring
      rw [this, Real.sqrt_mul (by positivity), Real.sqrt_sq (by norm_num)]
    rw [e, l]
    have h1 := len_mulVec (M - Mᵀ) y
    have h2 := mul_le_mul_of_nonneg_right ((isApprox_transpose M).mp hM) (len_nonneg y)
    nlinarith
  exact ⟨key a.cost.Q x a.cost.q (a.cost.H *ᵥ u) h2, key a.cost.R u a.cost.r (a.cost.Hᵀ *ᵥ x) h3⟩

/-! ## Convexity -/

theorem of_cost {n m : ℕ} (c : QuadCost n m ℝ) (t : Bool) : (QuadArgs.of c t).cost = c := by
  have e : ∀ {a b : ℕ} (M : Matrix (Fin a) (Fin b) ℝ),
      (DMat.mk a b fun i j => if h : i < a ∧ j < b then M ⟨i, h.1⟩ ⟨j, h.2⟩ else 0).toMat a b = M := by
    intro a b M
    ext i j
    simp [DMat.toMat]
  obtain ⟨Q, R, H, q, r, k⟩ := c
  have e1 := e Q
  have e2 := e R
  have e3 := e H
  unfold QuadArgs.cost QuadArgs.of
  dsimp only
  rw [e1, e2, e3]
  congr 1 <;> funext i <;> simp

theorem weights_of {n m : ℕ} {ldlt : (n : ℕ) → Matrix (Fin n) (Fin n) ℝ → LDLT n} (hF : Factorizes ldlt)
    {c : QuadCost n m ℝ} {t : Bool} (hA : Accepted ldlt (.of c t)) :
    PosSemidef (lowSym c.Q) ∧ (t = false → PosDef (lowSym c.R)) := by
  have h := C70_weights hF hA
  rw [of_cost] at h
  exact h

/-- **C70.**  An accepted stage cost with exactly symmetric weights and no coupling term is convex, strictly in the
controls. -/
theorem C70_convex {n m : ℕ} {ldlt : (n : ℕ) → Matrix (Fin n) (Fin n) ℝ → LDLT n} (hF : Factorizes ldlt)
    {c : QuadCost n m ℝ} (hA : Accepted ldlt (.of c false)) (hQ : c.Q.IsSymm) (hR : c.R.IsSymm) (hH : c.H = 0)
    (x : Fin n → ℝ) (u : Fin m → ℝ) :
    BlockPSD (c.costFun.hess x u) ∧ PosDef (c.costFun.hess x u).dudu := by
  obtain ⟨w1, w2⟩ := weights_of hF hA
  rw [lowSym_of_symm hQ] at w1
  have w2 := w2 rfl
  rw [lowSym_of_symm hR] at w2
  refine ⟨⟨hQ, hR, fun dx du => ?_⟩, w2⟩
  have h1 := w1 dx
  have h2 : 0 ≤ du ⬝ᵥ c.R *ᵥ du := by
    by_cases h0 : du = 0
    · rw [h0]; simp
    · exact (w2 du h0).le
  simp only [quadForm, QuadCost.costFun, hH, zero_mulVec, dotProduct_zero, mul_zero, add_zero]
  linarith

section solver
variable {n m : ℕ}

theorem addHess_pd {α : Type} (f : α → ConVal.HessBlocks n m ℝ) (l : List α) (hf : ∀ a ∈ l, BlockPSD (f a))
    (g : ConVal.HessBlocks n m ℝ) :
    (PosDef g.dudu → PosDef (l.foldl (fun g a => ALCost.addHess g (f a)) g).dudu) ∧
    (PosSemidef g.dxdx → PosSemidef (l.foldl (fun g a => ALCost.addHess g (f a)) g).dxdx) := by
  induction l generalizing g with
  | nil => exact ⟨id, id⟩
  | cons a l ih =>
    obtain ⟨i1, i2⟩ := ih (fun b hb => hf b (by simp [hb])) (ALCost.addHess g (f a))
    have ha := hf a (by simp)
    refine ⟨fun hg => i1 fun u hu => ?_, fun hg => i2 fun x => ?_⟩
    · have h1 := hg u hu
      have h2 := ha.nonneg 0 u
      simp only [quadForm, zero_dotProduct, mul_zero, zero_add] at h2
      simp only [ALCost.addHess, add_mulVec, dotProduct_add]
      linarith
    · have h1 := hg x
      have h2 := ha.nonneg x 0
      simp only [quadForm, mulVec_zero, dotProduct_zero, mul_zero, add_zero] at h2
      simp only [ALCost.addHess, add_mulVec, dotProduct_add]
      linarith

/-- Definiteness of the augmented blocks from that of the objective. -/
theorem hessian_definite (c : ALCost n m ℝ) (x : Fin n → ℝ) (u : Fin m → ℝ) (he : ∀ v ∈ c.eq, 0 ≤ v.rho)
    (hi : ∀ v ∈ c.ineq, 0 ≤ v.rho) :
    (PosDef (c.cost.hess x u).dudu → PosDef (c.hessian x u).1.dudu) ∧
    (PosSemidef (c.cost.hess x u).dxdx → PosSemidef (c.hessian x u).1.dxdx) := by
  unfold ALCost.hessian
  dsimp only
  rw [List.foldl_map, List.foldl_map]
  have h1 := addHess_pd (fun v : ConVal .equality n m ℝ => (v.augLagHessian x u).1) c.eq
    (fun v hv => C04_hessian_psd v x u (he v hv)) (c.cost.hess x u)
  have h2 := addHess_pd (fun v : ConVal .inequality n m ℝ => (v.augLagHessian x u).1) c.ineq
    (fun v hv => C04_hessian_psd v x u (hi v hv))
    (c.eq.foldl (fun g v => ALCost.addHess g (v.augLagHessian x u).1) (c.cost.hess x u))
  exact ⟨fun h => h2.1 (h1.1 h), fun h => h2.2 (h1.2 h)⟩

theorem gradient_rho (c : ALCost n m ℝ) (x : Fin n → ℝ) (u : Fin m → ℝ) (he : ∀ v ∈ c.eq, 0 ≤ v.rho)
    (hi : ∀ v ∈ c.ineq, 0 ≤ v.rho) :
    (∀ v ∈ (c.gradient x u).2.eq, 0 ≤ v.rho) ∧ ∀ v ∈ (c.gradient x u).2.ineq, 0 ≤ v.rho := by
  unfold ALCost.gradient
  dsimp only
  refine ⟨fun v hv => ?_, fun v hv => ?_⟩
  · obtain ⟨r, hr, rfl⟩ := List.mem_map.mp hv
    obtain ⟨w, hw, rfl⟩ := List.mem_map.mp hr
    exact he w hw
  · obtain ⟨r, hr, rfl⟩ := List.mem_map.mp hv
    obtain ⟨w, hw, rfl⟩ := List.mem_map.mp hr
    exact hi w hw

/-- The stage costs and the terminal cost of the problem are accepted quadratic costs without coupling term and with
exactly symmetric weights (this is what `LQRCost` builds from symmetric weights). -/
structure LQRCosts (ldlt : (n : ℕ) → Matrix (Fin n) (Fin n) ℝ → LDLT n) (N : ℕ) (cs : ℕ → ALCost n m ℝ) : Prop where
  stage : ∀ k < N, ∃ c : QuadCost n m ℝ, (cs k).cost = c.costFun ∧ Accepted ldlt (.of c false) ∧ c.Q.IsSymm ∧
    c.R.IsSymm ∧ c.H = 0
  term : ∃ c : QuadCost n m ℝ, (cs N).cost = c.costFun ∧ Accepted ldlt (.of c true) ∧ c.Q.IsSymm

/-- **C70.**  If all costs are accepted quadratic costs without coupling term, the backward pass of the solver succeeds
at the first attempt for any dynamics, any constraints with nonnegative penalties, any multipliers, any trajectory and
any regularization, including zero. -/
theorem C70_backward_pass (p : DynProblem n m ℝ) (o : Opts ℝ) (fuel : ℕ)
    (s : St (Fin n → ℝ) (Fin m → ℝ) ℝ (ALCost n m ℝ) (KP n m ℝ)) (hN : p.N ≠ 0) (hr : 0 ≤ s.rho)
    {ldlt : (n : ℕ) → Matrix (Fin n) (Fin n) ℝ → LDLT n} (hF : Factorizes ldlt) (hL : LQRCosts ldlt p.N s.cs)
    (he : ∀ k ≤ p.N, ∀ v ∈ (s.cs k).eq, 0 ≤ v.rho) (hi : ∀ k ≤ p.N, ∀ v ∈ (s.cs k).ineq, 0 ≤ v.rho) :
    ∃ s', backwardPass (alKernel p) o (fuel + 1) (updateExpansions (alKernel p) s) = some s' ∧
      s'.status = s.status ∧ s'.rho = (decreaseReg o (updateExpansions (alKernel p) s)).rho ∧
      ∀ k ≤ p.N, (s'.kd k).Sxx.IsSymm ∧ PosSemidef (s'.kd k).Sxx := by
  have hst : ∀ k < p.N, ConvexExp ((updateExpansions (alKernel p) s).kd k).cost ∧
      PosDef ((updateExpansions (alKernel p) s).kd k).cost.dudu := fun k hk => by
    obtain ⟨c, ec, hA, hQ, hR, hH⟩ := hL.stage k hk
    obtain ⟨b1, b2⟩ := C70_convex hF hA hQ hR hH (s.Z.x k) (s.Z.u k)
    rw [← ec] at b1 b2
    obtain ⟨g1, g2⟩ := gradient_rho (s.cs k) (s.Z.x k) (s.Z.u k) (he k hk.le) (hi k hk.le)
    have hB := C04_augmented_hessian_psd ((s.cs k).gradient (s.Z.x k) (s.Z.u k)).2 (s.Z.x k) (s.Z.u k) b1 g1 g2
    have hD := (hessian_definite ((s.cs k).gradient (s.Z.x k) (s.Z.u k)).2 (s.Z.x k) (s.Z.u k) g1 g2).1 b2
    rw [updateExpansions_at (alKernel p) s k hk.le]
    exact ⟨⟨hB.symx, hB.symu, fun dx du => hB.nonneg dx du⟩, hD⟩
  obtain ⟨c, ec, hA, hQ⟩ := hL.term
  have hW := (weights_of hF hA).1
  rw [lowSym_of_symm hQ] at hW
  have hW' : PosSemidef ((s.cs p.N).cost.hess (s.Z.x p.N) (s.Z.u p.N)).dxdx := by rw [ec]; exact hW
  have hQ' : ((s.cs p.N).cost.hess (s.Z.x p.N) (s.Z.u p.N)).dxdx.IsSymm := by rw [ec]; exact hQ
  have hT : ((updateExpansions (alKernel p) s).kd p.N).cost.dxdx.IsSymm ∧
      PosSemidef ((updateExpansions (alKernel p) s).kd p.N).cost.dxdx := by
    rw [updateExpansions_at (alKernel p) s p.N le_rfl]
    obtain ⟨g1, g2⟩ := gradient_rho (s.cs p.N) (s.Z.x p.N) (s.Z.u p.N) (he _ le_rfl) (hi _ le_rfl)
    refine ⟨?_, ?_⟩
    · have : ((((s.cs p.N).gradient (s.Z.x p.N) (s.Z.u p.N)).2.hessian (s.Z.x p.N) (s.Z.u p.N)).1.dxdx).IsSymm := by
        unfold ALCost.hessian
        dsimp only
        rw [List.foldl_map, List.foldl_map]
        exact foldl_symx _ (fun v => gram_symm _ _) _ _ (foldl_symx _ (fun v => gram_symm _ _) _ _ hQ')
      exact this
    · exact (hessian_definite ((s.cs p.N).gradient (s.Z.x p.N) (s.Z.u p.N)).2 (s.Z.x p.N) (s.Z.u p.N) g1 g2).2 hW'
  obtain ⟨s', h1, h2, h3, h4⟩ := C30_backward_pass_terminal p o fuel (updateExpansions (alKernel p) s) hN
    (by rw [updateExpansions_rho]; exact hr) (fun k hk => (hst k hk).1) hT.1 hT.2 (fun k hk => .inr (hst k hk).2)
  exact ⟨s', h1, by rw [h2, updateExpansions_status], h3, h4⟩
where
  foldl_symx {α : Type} (f : α → ConVal.HessBlocks n m ℝ) (hf : ∀ a, (f a).dxdx.IsSymm) (l : List α)
      (g : ConVal.HessBlocks n m ℝ) (hg : g.dxdx.IsSymm) :
      (l.foldl (fun g a => ALCost.addHess g (f a)) g).dxdx.IsSymm := by
    induction l generalizing g with
    | nil => exact hg
    | cons a l ih => exact ih _ (hg.add (hf a))

end solver

/-! ## What is not checked -/

/-- Coupling between state and control: `½ u² + x u`. -/
noncomputable def coupled : QuadCost 1 1 ℝ where
  Q := 0
  R := 1
  H := 1
  q := 0
  r := 0
  c := 0

/-- **C70.**  The coupling term is not checked: an accepted stage cost need not be convex, and can be unbounded below,
although both weights pass. -/
theorem C70_coupling_counterexample {ldlt : (n : ℕ) → Matrix (Fin n) (Fin n) ℝ → LDLT n}
    (hok : (ldlt 1 0).ok = true) (hD : ∀ i, 0 ≤ (ldlt 1 0).D i) :
    Accepted ldlt (.of coupled false) ∧ (∀ x u, ¬ BlockPSD (coupled.costFun.hess x u)) ∧
    ∀ b : ℝ, ∃ x u, coupled.costFun.eval x u < b := by
  refine ⟨?_, fun x u hB => ?_, fun b => ?_⟩
  · rw [C70_accepted_iff]
    have key : ∀ {q : ℕ} (M : Matrix (Fin q) (Fin q) ℝ), M.IsSymm → isApprox M Mᵀ := fun M hM => by
      rw [isApprox_transpose, hM.eq, sub_self, frob_zero]
      exact mul_nonneg (by norm_num) (frob_nonneg _)
    have k1 : isApprox coupled.Q coupled.Qᵀ := key _ (by simp [coupled, IsSymm])
    have k2 : isApprox coupled.R coupled.Rᵀ := key _ (by simp [coupled, IsSymm])
    have k3 : PosDef (lowSym coupled.R) := by
      intro u hu
      rw [lowSym_of_symm (by simp [coupled, IsSymm])]
      have h0 : u 0 ≠ 0 := fun h => hu (by funext i; rw [Subsingleton.elim i 0]; exact h)
      simp only [coupled, one_mulVec, dotProduct, Finset.univ_unique, Fin.default_eq_zero, Finset.sum_singleton]
      exact mul_self_pos.mpr h0
    have e : (QuadArgs.of coupled false).cost = coupled := of_cost _ _
    rw [e]
    exact ⟨⟨rfl, rfl, rfl, rfl, rfl, rfl⟩, k1, k2, fun _ => k3, hok, hD⟩
  · have := hB.nonneg (fun _ => 1) (fun _ => -1)
    simp [quadForm, coupled, QuadCost.costFun, dotProduct] at this
  · refine ⟨fun _ => |b| + 2, fun _ => -(|b| + 2), ?_⟩
    simp [coupled, QuadCost.costFun, dotProduct]
    have := neg_abs_le b
    have := abs_nonneg b
    nlinarith

/-- A factorization that succeeds on diagonal matrices. -/
noncomputable def diagLdlt (n : ℕ) (M : Matrix (Fin n) (Fin n) ℝ) : LDLT n :=
  open Classical in
  if lowSym M = diagonal fun i => M i i then ⟨true, fun i => M i i⟩ else ⟨false, 0⟩

theorem diagLdlt_factorizes : Factorizes diagLdlt := by
  intro n M h
  unfold diagLdlt at h ⊢
  by_cases hM : lowSym M = diagonal fun i => M i i
  · rw [if_pos hM]
    exact ⟨1, 1, by simpa using hM⟩
  · rw [if_neg hM] at h
    cases h

/-- `IsBlockDiagonal` holds of costs without a cross term; it only says that every entry of the cross term is below `1e-8` in absolute
value, and it does not hold of a cross term of norm `1e-8` or more. -/
theorem C70_block_diagonal {n m : ℕ} (c : QuadCost n m ℝ) (t : Bool) :
    (c.H = 0 → (QuadArgs.of c t).isBlockDiagonal) ∧
    ((QuadArgs.of c t).isBlockDiagonal → ∀ i j, |c.H i j| < 1e-8) ∧
    (1e-8 ≤ frob c.H ↔ ¬ (QuadArgs.of c t).isBlockDiagonal) := by
  have e : (QuadArgs.of c t).isBlockDiagonal ↔ frob c.H < 1e-8 := by
    have : (QuadArgs.of c t).H.toMat n m = c.H := congrArg QuadCost.H (of_cost c t)
    unfold QuadArgs.isBlockDiagonal
    rw [← this]; rfl
  rw [e]
  refine ⟨fun h => ?_, fun h i j => ?_, not_lt.symm⟩
  · rw [h, frob_zero]; norm_num
  · refine lt_of_le_of_lt ?_ h
    exact entry_le_frob c.H i j

/-- A cross term of norm exactly `1e-8` is not block diagonal, one of half that size is, though it is not zero. -/
example : ¬ (QuadArgs.of (⟨1, 1, fun _ _ => 1e-8, 0, 0, 0⟩ : QuadCost 1 1 ℝ) false).isBlockDiagonal ∧
    (QuadArgs.of (⟨1, 1, fun _ _ => 5e-9, 0, 0, 0⟩ : QuadCost 1 1 ℝ) false).isBlockDiagonal := by
  constructor
  · refine (C70_block_diagonal _ _).2.2.mp ?_
    have := entry_le_frob (fun _ _ => 1e-8 : Matrix (Fin 1) (Fin 1) ℝ) 0 0
    exact (le_abs_self _).trans this
  · refine not_not.mp fun h => ?_
    have : ¬ frob (fun _ _ => 5e-9 : Matrix (Fin 1) (Fin 1) ℝ) < 1e-8 := not_lt.mpr ((C70_block_diagonal _ _).2.2.mpr h)
    revert this
    rw [imp_false, not_not]
    unfold frob
    rw [Real.sqrt_lt' (by norm_num)]
    simp; norm_num

/-- The hypotheses of `C70_weights` and `C70_coupling_counterexample` are satisfiable. -/
example : Factorizes diagLdlt ∧ Accepted diagLdlt (.of coupled false) := by
  refine ⟨diagLdlt_factorizes, (C70_coupling_counterexample ?_ ?_).1⟩
  · have : lowSym (0 : Matrix (Fin 1) (Fin 1) ℝ) = diagonal fun i => (0 : Matrix (Fin 1) (Fin 1) ℝ) i i := by
      ext i j; simp [lowSym, diagonal]
    simp [diagLdlt, this]
  · have : lowSym (0 : Matrix (Fin 1) (Fin 1) ℝ) = diagonal fun i => (0 : Matrix (Fin 1) (Fin 1) ℝ) i i := by
      ext i j; simp [lowSym, diagonal]
    simp [diagLdlt, this]

/-- With that factorization every cost with diagonal weights of the right signs is accepted. -/
theorem accepted_diag {n m : ℕ} (c : QuadCost n m ℝ) (t : Bool) (d : Fin n → ℝ) (e : Fin m → ℝ)
    (hQ : c.Q = diagonal d) (hR : c.R = diagonal e) (hd : ∀ i, 0 ≤ d i) (he : t = false → ∀ i, 0 < e i) :
    Accepted diagLdlt (.of c t) := by
  rw [C70_accepted_iff]
  have key : ∀ {q : ℕ} (v : Fin q → ℝ), isApprox (diagonal v) (diagonal v)ᵀ := fun v => by
    rw [isApprox_transpose, diagonal_transpose, sub_self, frob_zero]
    exact mul_nonneg (by norm_num) (frob_nonneg _)
  have k1 : isApprox c.Q c.Qᵀ := by rw [hQ]; exact key d
  have k2 : isApprox c.R c.Rᵀ := by rw [hR]; exact key e
  have k3 : t = false → PosDef (lowSym c.R) := fun ht u hu => by
    rw [hR, lowSym_of_symm (diagonal_transpose e)]
    obtain ⟨i, hi⟩ := Function.ne_iff.mp hu
    simp only [dotProduct, mulVec_diagonal]
    refine Finset.sum_pos' (fun j _ => ?_) ⟨i, Finset.mem_univ i, ?_⟩
    · have := mul_nonneg (he ht j).le (mul_self_nonneg (u j)); linarith
    · have := mul_pos (he ht i) (mul_self_pos.mpr hi); linarith
  have k4 : diagLdlt n c.Q = ⟨true, d⟩ := by
    have hd' : (fun i => c.Q i i) = d := by funext i; rw [hQ, diagonal_apply_eq]
    have : lowSym c.Q = diagonal fun i => c.Q i i := by
      rw [hd', hQ, lowSym_of_symm (diagonal_transpose d)]
    unfold diagLdlt
    rw [if_pos this, hd']
  have k5 : (diagLdlt n c.Q).ok = true ∧ ∀ i, 0 ≤ (diagLdlt n c.Q).D i := by rw [k4]; exact ⟨rfl, hd⟩
  have ec : (QuadArgs.of c t).cost = c := of_cost _ _
  rw [ec]
  exact ⟨⟨rfl, rfl, rfl, rfl, rfl, rfl⟩, k1, k2, k3, k5⟩

theorem accepted_unit (xref : Fin 2 → ℝ) (uref : Fin 1 → ℝ) (t : Bool) : Accepted diagLdlt (.lqr 1 1 xref uref t) :=
  accepted_diag _ _ (fun _ => 1) (fun _ => 1) diagonal_one.symm diagonal_one.symm (fun _ => zero_le_one)
    fun _ _ => zero_lt_one

/-- The hypothesis of `C70_backward_pass` is satisfiable. -/
example (N : ℕ) : LQRCosts diagLdlt N
    (fun _ => ALCost.new (QuadCost.lqr (1 : Matrix (Fin 2) (Fin 2) ℝ) (1 : Matrix (Fin 1) (Fin 1) ℝ) 1 0).costFun [] []) where
  stage _ _ := ⟨_, rfl, accepted_unit 1 0 false, by simp [QuadCost.lqr, IsSymm], by simp [QuadCost.lqr, IsSymm], rfl⟩
  term := ⟨_, rfl, accepted_unit 1 0 true, by simp [QuadCost.lqr, IsSymm]⟩

end Altro.Props
