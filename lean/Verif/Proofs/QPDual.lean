import Verif.Spec.Convex
import Mathlib.LinearAlgebra.Dual.Lemmas
import Mathlib.LinearAlgebra.FiniteDimensional.Lemmas
import Mathlib.Tactic.Linarith
import Mathlib.Tactic.LinearCombination

/-!
# Multipliers of strictly convex quadratic programs with equality constraints
-/

namespace Altro.Spec
variable {K : Type} [Field K] [LinearOrder K] [IsStrictOrderedRing K] {V : Type}

/-- An affine family of functions vanishing somewhere, a strictly convex quadratic: there are a minimiser and multipliers. -/
theorem qp_multipliers {U : Type*} [AddCommGroup U] [Module K U] [FiniteDimensional K U] {M : ℕ}
    (B : U →ₗ[K] Module.Dual K U) (hsym : ∀ a b, B a b = B b a) (hpos : ∀ a, a ≠ 0 → 0 < B a a)
    (ℓ : Module.Dual K U) (C : U →ₗ[K] (Fin M → K)) (u0 : U) :
    ∃ us : U, C us = C u0 ∧ ∃ μ : Fin M → K, ∀ d, ℓ d + B us d = ∑ i, μ i * C d i := by
  let W := LinearMap.ker C
  let BW : W →ₗ[K] Module.Dual K W := (Submodule.dualRestrict W).comp (B.comp W.subtype)
  have hBW : ∀ a b : W, BW a b = B a b := fun a b => rfl
  have hinj : Function.Injective BW := by
    rw [injective_iff_map_eq_zero]
    intro a ha
    by_contra hne
    have h1 := hpos a (fun e => hne (Subtype.ext e))
    have h2 := congrArg (fun f => f a) ha
    simp only [hBW] at h2
    rw [h2] at h1
    exact lt_irrefl _ h1
  have hsurj : Function.Surjective BW :=
    (LinearMap.injective_iff_surjective_of_finrank_eq_finrank (Subspace.dual_finrank_eq (K := K) (V := W)).symm).mp hinj
  obtain ⟨w, hw⟩ := hsurj (-(Submodule.dualRestrict W (ℓ + B u0)))
  have hwC : C w = 0 := w.2
  refine ⟨u0 + w, by rw [map_add, hwC, add_zero], ?_⟩
  have hann : ℓ + B (u0 + w) ∈ W.dualAnnihilator := by
    rw [Submodule.mem_dualAnnihilator]
    intro d hd
    have := congrArg (fun f => f ⟨d, hd⟩) hw
    have e : B w d = -(ℓ d + B u0 d) := this
    rw [map_add, LinearMap.add_apply, LinearMap.add_apply, e]
    ring
  rw [← LinearMap.range_dualMap_eq_dualAnnihilator_ker] at hann
  obtain ⟨ν, hν⟩ := hann
  refine ⟨fun i => ν (Pi.single i 1), fun d => ?_⟩
  have := congrArg (fun f => f d) hν
  have e : ν (C d) = ℓ d + B (u0 + w) d := this
  rw [← e]
  conv_lhs => rw [show C d = ∑ i, C d i • (Pi.single i 1 : Fin M → K) by
    funext j
    simp [Finset.sum_apply, Pi.single_apply]]
  rw [map_sum]
  refine Finset.sum_congr rfl fun i _ => ?_
  rw [map_smul, smul_eq_mul, mul_comm]

/-- A problem whose admissible points are, up to what the objective and the constraints see, parametrised by a vector space, with
strictly convex quadratic objective and affine equality constraints: if the constraints can be met there are a solution and
multipliers. -/
theorem saddle_exists {U : Type*} [AddCommGroup U] [Module K U] [FiniteDimensional K U]
    {S : V → Prop} {obj : V → K} {rows : List (Row V K)} (pt : U → V) (hpt : ∀ u, S (pt u))
    (hall : ∀ y, S y → ∃ u, obj (pt u) = obj y ∧ ∀ r ∈ rows, r.fn (pt u) = r.fn y)
    (B : U →ₗ[K] Module.Dual K U) (hsym : ∀ a b, B a b = B b a) (hpos : ∀ a, a ≠ 0 → 0 < B a a)
    (ℓ : Module.Dual K U) (hobj : ∀ u, obj (pt u) = obj (pt 0) + ℓ u + 1 / 2 * B u u)
    (C : Fin rows.length → Module.Dual K U) (hC : ∀ i u, (rows.get i).fn (pt u) = (rows.get i).fn (pt 0) + C i u)
    (heq : ∀ r ∈ rows, r.kind = .equality) (hfeas : ∃ y, S y ∧ ∀ r ∈ rows, r.Holds y) :
    ∃ zs star, Saddle S obj rows zs star := by
  obtain ⟨y, hy, hyr⟩ := hfeas
  have hfn : ∀ r ∈ rows, r.fn y = 0 := fun r hr => by
    have h1 := hyr r hr
    have h2 := heq r hr
    unfold Row.Holds at h1
    rw [h2] at h1
    exact h1
  obtain ⟨u0, -, hu0⟩ := hall y hy
  obtain ⟨us, hus, μ, hμ⟩ := qp_multipliers B hsym hpos ℓ (LinearMap.pi C) u0
  have hrow : ∀ i, (rows.get i).fn (pt us) = 0 := fun i => by
    have h1 : C i us = C i u0 := congrFun hus i
    rw [hC, h1, ← hC, hu0 _ (List.get_mem _ _), hfn _ (List.get_mem _ _)]
  have hzip : ∀ z, ((rows.zip (List.ofFn μ)).map fun q => q.2 * q.1.fn z).sum = ∑ i, μ i * (rows.get i).fn z := by
    intro z
    have e : rows.zip (List.ofFn μ) = List.ofFn fun i => (rows.get i, μ i) := by
      refine List.ext_getElem (by simp) fun i h1 h2 => ?_
      simp
    rw [e, List.map_ofFn, List.sum_ofFn]
    rfl
  refine ⟨pt us, List.ofFn μ, by rw [List.length_ofFn], hpt us, fun r hr => ?_, fun q hq hk => ?_, fun z hz => ?_⟩
  · unfold Row.Holds
    rw [heq r hr]
    obtain ⟨i, rfl⟩ := List.get_of_mem hr
    exact hrow i
  · rw [heq q.1 (List.of_mem_zip hq).1] at hk
    cases hk
  · obtain ⟨u, h1, h2⟩ := hall z hz
    rw [hzip, hzip, ← h1]
    have h3 : ∀ i, (rows.get i).fn z = (rows.get i).fn (pt 0) + C i u := fun i => by
      rw [← h2 _ (List.get_mem _ _), hC]
    have h4 : ∀ i, (rows.get i).fn (pt us) = (rows.get i).fn (pt 0) + C i us := fun i => hC i us
    have h5 : ∑ i, μ i * (rows.get i).fn z = ∑ i, μ i * (rows.get i).fn (pt us) + (ℓ (u - us) + B us (u - us)) := by
      rw [hμ, ← Finset.sum_add_distrib]
      refine Finset.sum_congr rfl fun i _ => ?_
      rw [h3, h4]
      show _ = _ + μ i * C i (u - us)
      rw [map_sub]; ring
    rw [h5, hobj u, hobj us]
    have h6 : 0 ≤ B (u - us) (u - us) := by
      by_cases h0 : u - us = 0
      · rw [h0]; simp
      · exact (hpos _ h0).le
    simp only [map_sub, LinearMap.sub_apply] at h6 ⊢
    have := hsym u us
    linarith

end Altro.Spec
