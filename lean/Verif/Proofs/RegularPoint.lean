import Verif.Proofs.RegularRows

/-!
# Derivatives with respect to the controls of the segments
-/

namespace Altro.Props
open Altro.Spec Matrix ILQR AL Filter
open scoped Topology
variable {n m : ℕ} {p : DynProblem n m ℝ} {cs c' : ℕ → ALCost n m ℝ} {Z Z' : Traj (Fin n → ℝ) (Fin m → ℝ) ℝ}

/-- The objective. -/
noncomputable def objOf (p : DynProblem n m ℝ) (cs : ℕ → ALCost n m ℝ) (Z : Traj (Fin n → ℝ) (Fin m → ℝ) ℝ) (U : Fin p.N → Fin m → ℝ) : ℝ :=
  controlCostOf p (fun k => (cs k).cost.eval) Z (extU p.N Z U)

/-- A component of the constraints. -/
noncomputable def rowOf (p : DynProblem n m ℝ) (cs : ℕ → ALCost n m ℝ) (Z : Traj (Fin n → ℝ) (Fin m → ℝ) ℝ) (q : Place p.N cs) (U : Fin p.N → Fin m → ℝ) : ℝ :=
  conRow q (openLoop p Z (extU p.N Z U) q.1) (extU p.N Z U q.1)

theorem objOf_contDiff (h : TwiceSmooth p cs Z) : ContDiff ℝ 2 (objOf p cs Z) := by
  unfold objOf controlCostOf
  refine ContDiff.sum fun k hk => ?_
  have hk : k ≤ p.N := by have := Finset.mem_range.mp hk; omega
  exact (h.cost k hk).comp ((states_contDiff h k hk).prodMk (extU_contDiff k))

theorem rowOf_contDiff (h : TwiceSmooth p cs Z) (q : Place p.N cs) : ContDiff ℝ 2 (rowOf p cs Z q) := by
  have hk : (q.1 : ℕ) ≤ p.N := Nat.lt_succ_iff.mp q.1.2
  have hz := (states_contDiff h q.1 hk).prodMk (extU_contDiff (N := p.N) (Z := Z) q.1)
  obtain ⟨k, ⟨j, i⟩ | ⟨j, i⟩⟩ := q
  · exact (contDiff_apply ℝ ℝ i).comp ((h.eq k hk _ (List.get_mem _ _)).comp hz)
  · exact (contDiff_apply ℝ ℝ i).comp ((h.ineq k hk _ (List.get_mem _ _)).comp hz)

/-- The components of the constraints that vanish along `Z`. -/
abbrev ActivePlace (p : DynProblem n m ℝ) (cs : ℕ → ALCost n m ℝ) (Z : Traj (Fin n → ℝ) (Fin m → ℝ) ℝ) : Type :=
  {q : Place p.N cs // conRow q (Z.x q.1) (Z.u q.1) = 0}

noncomputable instance : Fintype (ActivePlace p cs Z) := by classical exact Subtype.fintype _

theorem sum_active {f : Place p.N cs → ℝ} (hf : ∀ q : Place p.N cs, conRow q (Z.x q.1) (Z.u q.1) ≠ 0 → f q = 0) :
    ∑ q : Place p.N cs, f q = ∑ q : ActivePlace p cs Z, f q.1 := by
  classical
  have h1 : ∑ q : Place p.N cs, f q = ∑ q ∈ Finset.univ.filter (fun q : Place p.N cs => conRow q (Z.x q.1) (Z.u q.1) = 0), f q := by
    rw [Finset.sum_filter]
    refine Finset.sum_congr rfl fun q _ => ?_
    split
    · rfl
    · rename_i h; exact hf q h
  rw [h1]
  exact Finset.sum_subtype _ (fun q => by simp) f

/-- Multipliers of active constraints only. -/
def SupportedAt (p : DynProblem n m ℝ) (cs : ℕ → ALCost n m ℝ) (Z : Traj (Fin n → ℝ) (Fin m → ℝ) ℝ) (c' : ℕ → ALCost n m ℝ) : Prop :=
  ∀ q : Place p.N cs, conRow q (Z.x q.1) (Z.u q.1) ≠ 0 → mulRow c' q = 0

/-- The multipliers of the active constraints. -/
def actMul (p : DynProblem n m ℝ) (cs : ℕ → ALCost n m ℝ) (Z : Traj (Fin n → ℝ) (Fin m → ℝ) ℝ) (c' : ℕ → ALCost n m ℝ) : ActivePlace p cs Z → ℝ :=
  fun q => mulRow c' q.1

theorem lag_hasFDeriv (h : TwiceSmooth p cs Z) (hs : SameProblem p cs c') (hsup : SupportedAt p cs Z c') (U : Fin p.N → Fin m → ℝ) :
    HasFDerivAt (fun U => controlCostOf p (fun k => lagrangian (c' k)) Z (extU p.N Z U))
      (lagD (objOf p cs Z) (fun q : ActivePlace p cs Z => rowOf p cs Z q.1) U (actMul p cs Z c')) U := by
  have e : (fun U => controlCostOf p (fun k => lagrangian (c' k)) Z (extU p.N Z U))
      = fun U => objOf p cs Z U - ∑ q : ActivePlace p cs Z, actMul p cs Z c' q * rowOf p cs Z q.1 U := by
    funext U
    rw [total_lagrangian hs, sum_active (Z := Z) fun q hq => by rw [hsup q hq, zero_mul]]
    rfl
  rw [e]
  have d : ∀ {f : (Fin p.N → Fin m → ℝ) → ℝ}, ContDiff ℝ 2 f → HasFDerivAt f (fderiv ℝ f U) U := fun hf =>
    (hf.differentiable (by norm_num)).differentiableAt.hasFDerivAt
  exact (d (objOf_contDiff h)).sub (HasFDerivAt.fun_sum fun q _ => (d (rowOf_contDiff h q.1)).const_mul _)

/-- At the last knot point nothing depends on the control. -/
theorem lagrangian_term (h : TwiceSmooth p cs Z) (hs : SameProblem p cs c') (x : Fin n → ℝ) (u u' : Fin m → ℝ) :
    lagrangian (c' p.N) x u = lagrangian (c' p.N) x u' := by
  unfold lagrangian
  rw [hs.cost p.N le_rfl, h.term x u u']
  have a1 : (c' p.N).eq.map (fun v => v.lam ⬝ᵥ v.con.eval x u) = (c' p.N).eq.map fun v => v.lam ⬝ᵥ v.con.eval x u' :=
    List.map_congr_left fun v hv => by
      rw [same_con (hs.eqCons p.N le_rfl) (P := fun con => ∀ x u u', con.eval x u = con.eval x u') h.termEq v hv x u u']
  have a2 : (c' p.N).ineq.map (fun v => v.lam ⬝ᵥ v.con.eval x u) = (c' p.N).ineq.map fun v => v.lam ⬝ᵥ v.con.eval x u' :=
    List.map_congr_left fun v hv => by
      rw [same_con (hs.ineqCons p.N le_rfl) (P := fun con => ∀ x u u', con.eval x u = con.eval x u') h.termIneq v hv x u u']
  rw [a1, a2]

theorem weighted_term (h : TwiceSmooth p cs Z) (hs : SameProblem p cs c') (x : Fin n → ℝ) (u u' : Fin m → ℝ) :
    weighted (c' p.N) x u = weighted (c' p.N) x u' := by
  have h1 := lagrangian_term h hs x u u'
  rw [lagrangian_eq, lagrangian_eq, hs.cost p.N le_rfl, h.term x u u'] at h1
  linarith

/-- A total cost along another trajectory on the same time grid. -/
theorem cost_shift {ℓ : ℕ → (Fin n → ℝ) → (Fin m → ℝ) → ℝ} (hterm : ∀ x u u', ℓ p.N x u = ℓ p.N x u') (ht : SameTimes (alKernel p) Z' Z)
    {w : ℕ → Fin m → ℝ} {U : Fin p.N → Fin m → ℝ} (hw : ∀ k (hk : k < p.N), w k = U ⟨k, hk⟩) :
    controlCostOf p ℓ Z' w = controlCostOf p ℓ Z (extU p.N Z U) := by
  have hw' : ∀ k < p.N, w k = extU p.N Z U k := fun k hk => by rw [extU_lt U hk, hw k hk]
  refine Finset.sum_congr rfl fun k hk => ?_
  have hk : k ≤ p.N := by have := Finset.mem_range.mp hk; omega
  rw [openLoop_near (p := p) (Z := Z) (fun k hk => ⟨ht.t k (Nat.le_of_lt hk), ht.h k hk⟩) hw' k hk]
  rcases Nat.lt_or_eq_of_le hk with h1 | rfl
  · rw [hw' k h1]
  · exact hterm _ _ _

/-- Directions for all knot points. -/
def zeroU (N : ℕ) (V : Fin N → Fin m → ℝ) : ℕ → Fin m → ℝ := fun k => if h : k < N then V ⟨k, h⟩ else 0

theorem zeroU_last (N : ℕ) (V : Fin N → Fin m → ℝ) : zeroU N V N = 0 := dif_neg (lt_irrefl N)

theorem line_shift {ℓ : ℕ → (Fin n → ℝ) → (Fin m → ℝ) → ℝ} (hterm : ∀ x u u', ℓ p.N x u = ℓ p.N x u') (ht : SameTimes (alKernel p) Z' Z)
    (V : Fin p.N → Fin m → ℝ) (a : ℝ) : controlCostOf p ℓ Z' (fun k => Z'.u k + a • zeroU p.N V k)
      = controlCostOf p ℓ Z (extU p.N Z (restU p.N Z' + a • V)) :=
  cost_shift hterm ht fun k hk => by
    show Z'.u k + a • zeroU p.N V k = Z'.u k + a • V ⟨k, hk⟩
    unfold zeroU
    rw [dif_pos hk]

theorem line_deriv {f : (Fin p.N → Fin m → ℝ) → ℝ} {f' : (Fin p.N → Fin m → ℝ) →L[ℝ] ℝ} {U : Fin p.N → Fin m → ℝ} (hf : HasFDerivAt f f' U)
    (V : Fin p.N → Fin m → ℝ) : HasDerivAt (fun a : ℝ => f (U + a • V)) (f' V) 0 := by
  have h1 : HasDerivAt (fun a : ℝ => U + a • V) V 0 := by
    simpa using ((hasDerivAt_id (0 : ℝ)).smul_const V).const_add U
  have h2 : HasFDerivAt f f' (U + (0 : ℝ) • V) := by simpa using hf
  exact h2.comp_hasDerivAt 0 h1

theorem dirs_le (V : Fin p.N → Fin m → ℝ) : ∑ k ∈ Finset.range p.N, zeroU p.N V k ⬝ᵥ zeroU p.N V k ≤ (p.N * m : ℝ) * ‖V‖ ^ 2 := by
  rw [Finset.sum_range]
  have h1 : ∀ k : Fin p.N, zeroU p.N V k ⬝ᵥ zeroU p.N V k ≤ (m : ℝ) * ‖V‖ ^ 2 := fun k => by
    have e : zeroU p.N V k = V k := dif_pos k.2
    rw [e]
    unfold dotProduct
    refine (Finset.sum_le_sum fun i (_ : i ∈ Finset.univ) => show V k i * V k i ≤ ‖V‖ ^ 2 from ?_).trans (by simp)
    rw [← sq, ← sq_abs]
    exact pow_le_pow_left₀ (abs_nonneg _) ((norm_le_pi_norm (V k) i).trans (norm_le_pi_norm V k)) 2
  refine (Finset.sum_le_sum fun k _ => h1 k).trans ?_
  simp [mul_assoc]

/-- A bound on the derivative in every direction bounds the derivative. -/
theorem lagD_near (h : TwiceSmooth p cs Z) (hs : SameProblem p cs c') (hsup : SupportedAt p cs Z c') (ht : SameTimes (alKernel p) Z' Z) {ε : ℝ} (hε : 0 ≤ ε)
    (hn : NearlyStationaryOf p (fun k => lagrangian (c' k)) Z' ε) :
    ‖lagD (objOf p cs Z) (fun q : ActivePlace p cs Z => rowOf p cs Z q.1) (restU p.N Z') (actMul p cs Z c')‖ ≤ ε * √(p.N * m) := by
  refine ContinuousLinearMap.opNorm_le_bound _ (by positivity) fun V => ?_
  obtain ⟨d, h1, h2⟩ := hn (zeroU p.N V) (zeroU_last p.N V)
  have h3 := line_deriv (lag_hasFDeriv h hs hsup (restU p.N Z')) V
  have h4 : d = _ := h1.unique (h3.congr_of_eventuallyEq (.of_forall fun a => line_shift (lagrangian_term h hs) ht V a))
  rw [← h4, Real.norm_eq_abs]
  refine abs_le_of_sq_le_sq ?_ (by positivity)
  refine (h2.trans (mul_le_mul_of_nonneg_left (dirs_le V) (sq_nonneg ε))).trans (le_of_eq ?_)
  rw [mul_pow, mul_pow, Real.sq_sqrt (by positivity)]
  ring

theorem sameTimes_self : SameTimes (alKernel p) Z Z := ⟨fun _ _ => rfl, fun _ _ => rfl⟩

/-- The second derivative along a line. -/
theorem line_second {f : (Fin p.N → Fin m → ℝ) → ℝ} {g : (Fin p.N → Fin m → ℝ) → (Fin p.N → Fin m → ℝ) →L[ℝ] ℝ} {U : Fin p.N → Fin m → ℝ}
    (hf : ∀ U, HasFDerivAt f (g U) U) (hg : DifferentiableAt ℝ g U) (V : Fin p.N → Fin m → ℝ) :
    iteratedDeriv 2 (fun a : ℝ => f (U + a • V)) 0 = fderiv ℝ g U V V := by
  have h1 : ∀ a : ℝ, HasDerivAt (fun a : ℝ => f (U + a • V)) (g (U + a • V) V) a := fun a => by
    have h1 : HasDerivAt (fun a : ℝ => U + a • V) V a := by simpa using ((hasDerivAt_id a).smul_const V).const_add U
    exact (hf (U + a • V)).comp_hasDerivAt a h1
  rw [iteratedDeriv_succ, iteratedDeriv_one, show deriv (fun a : ℝ => f (U + a • V)) = fun a => g (U + a • V) V from funext fun a => (h1 a).deriv]
  have h2 : HasDerivAt (fun a : ℝ => U + a • V) V 0 := by simpa using ((hasDerivAt_id (0 : ℝ)).smul_const V).const_add U
  have h3 : HasFDerivAt g (fderiv ℝ g U) (U + (0 : ℝ) • V) := by simpa using hg.hasFDerivAt
  have h4 : HasDerivAt (fun a : ℝ => g (U + a • V)) (fderiv ℝ g U V) 0 := h3.comp_hasDerivAt 0 h2
  have h5 := h4.clm_apply (hasDerivAt_const (0 : ℝ) V)
  simpa using h5.deriv

end Altro.Props
