import Verif.Spec.Convex
import Mathlib.Analysis.LocallyConvex.Separation
import Mathlib.Analysis.Normed.Affine.AddTorsorBases
import Mathlib.Topology.Algebra.Module.FiniteDimension

/-!
# Multipliers from a strictly feasible point
-/

namespace Altro.Props
open Altro.Spec
variable {V : Type} {q : ℕ}

/-- The values of the equalities at `z`, zero in place of inequalities. -/
def eqPart (kind : Fin q → ConKind) (fn : Fin q → V → ℝ) (z : V) : Fin q → ℝ :=
  fun j => match kind j with | .equality => fn j z | .inequality => 0

theorem eqPart_eq {kind : Fin q → ConKind} {fn : Fin q → V → ℝ} {z : V} {j : Fin q} (h : kind j = .equality) :
    eqPart kind fn z j = fn j z := by unfold eqPart; rw [h]

theorem eqPart_ineq {kind : Fin q → ConKind} {fn : Fin q → V → ℝ} {z : V} {j : Fin q} (h : kind j = .inequality) :
    eqPart kind fn z j = 0 := by unfold eqPart; rw [h]

/-- All values that equalities can take, and linear combinations of them. -/
def eqSpan (S : V → Prop) (kind : Fin q → ConKind) (fn : Fin q → V → ℝ) : Submodule ℝ (Fin q → ℝ) :=
  Submodule.span ℝ (eqPart kind fn '' {z | S z})

/-- Bounds on inequalities, values of equalities and strict bounds on the objective that can be achieved together. -/
def achievable (S : V → Prop) (obj : V → ℝ) (kind : Fin q → ConKind) (fn : Fin q → V → ℝ) :
    Set ((Fin q → ℝ) × eqSpan S kind fn × ℝ) :=
  {e | ∃ z, S z ∧ (∀ j, kind j = .inequality → fn j z ≤ e.1 j) ∧ (e.2.1 : Fin q → ℝ) = eqPart kind fn z ∧ obj z < e.2.2}

variable {S : V → Prop} {obj : V → ℝ} {kind : Fin q → ConKind} {fn : Fin q → V → ℝ} {seg : ℝ → V → V → V}

theorem achievable_convex (mem : ∀ x y t, S x → S y → 0 ≤ t → t ≤ 1 → S (seg t x y))
    (hobj : ∀ x y t, S x → S y → 0 ≤ t → t ≤ 1 → obj (seg t x y) ≤ (1 - t) * obj x + t * obj y)
    (heq : ∀ j, kind j = .equality → ∀ x y t, S x → S y → 0 ≤ t → t ≤ 1 → fn j (seg t x y) = (1 - t) * fn j x + t * fn j y)
    (hineq : ∀ j, kind j = .inequality → ∀ x y t, S x → S y → 0 ≤ t → t ≤ 1 → fn j (seg t x y) ≤ (1 - t) * fn j x + t * fn j y) :
    _root_.Convex ℝ (achievable S obj kind fn) := by
  rintro ⟨v, w, t⟩ ⟨x, hx, h1, h2, h3⟩ ⟨v', w', t'⟩ ⟨y, hy, h1', h2', h3'⟩ a b ha hb hab
  have ea : a = 1 - b := by linarith
  have hb1 : b ≤ 1 := by linarith
  simp only at h1 h2 h3 h1' h2' h3'
  refine ⟨seg b x y, mem x y b hx hy hb hb1, fun j hj => ?_, ?_, ?_⟩
  · have := hineq j hj x y b hx hy hb hb1
    have e : (a • v + b • v') j = a * v j + b * v' j := rfl
    show _ ≤ (a • v + b • v') j
    rw [e, ea]
    have := mul_le_mul_of_nonneg_left (h1 j hj) (show 0 ≤ 1 - b by linarith)
    have := mul_le_mul_of_nonneg_left (h1' j hj) hb
    linarith
  · show ((a • w + b • w' : eqSpan S kind fn) : Fin q → ℝ) = _
    rw [Submodule.coe_add, Submodule.coe_smul, Submodule.coe_smul, h2, h2']
    funext j
    show a * eqPart kind fn x j + b * eqPart kind fn y j = _
    cases hj : kind j
    · rw [eqPart_eq hj, eqPart_eq hj, eqPart_eq hj, heq j hj x y b hx hy hb hb1, ea]
    · rw [eqPart_ineq hj, eqPart_ineq hj, eqPart_ineq hj]; ring
  · show _ < a * t + b * t'
    refine lt_of_le_of_lt (hobj x y b hx hy hb hb1) ?_
    rw [← ea]
    rcases hb.eq_or_lt with rfl | hb0
    · have : a = 1 := by linarith
      subst this
      linarith
    · have := mul_le_mul_of_nonneg_left h3.le ha
      have := mul_lt_mul_of_pos_left h3' hb0
      linarith

theorem achievable_span {z0 : V} (h0 : S z0) (hz : eqPart kind fn z0 = 0) :
    affineSpan ℝ (achievable S obj kind fn) = ⊤ := by
  have hpt : ∀ z (hz : S z) (v : Fin q → ℝ) (t : ℝ), (∀ j, fn j z ≤ v j) → obj z < t →
      ((v, ⟨eqPart kind fn z, Submodule.subset_span ⟨z, hz, rfl⟩⟩, t) : (Fin q → ℝ) × eqSpan S kind fn × ℝ) ∈ achievable S obj kind fn :=
    fun z hz v t h1 h2 => ⟨z, hz, fun j _ => h1 j, rfl, h2⟩
  have hne : (achievable S obj kind fn).Nonempty := ⟨_, hpt z0 h0 (fun j => fn j z0) (obj z0 + 1) (fun _ => le_rfl) (by linarith)⟩
  rw [AffineSubspace.affineSpan_eq_top_iff_vectorSpan_eq_top_of_nonempty ℝ _ _ hne]
  have hD : ∀ z (hz : S z) v t, ((v, (⟨eqPart kind fn z, Submodule.subset_span ⟨z, hz, rfl⟩⟩ : eqSpan S kind fn), t) :
      (Fin q → ℝ) × eqSpan S kind fn × ℝ) ∈ vectorSpan ℝ (achievable S obj kind fn) := by
    intro z hzS v t
    have k1 := hpt z hzS (fun j => fn j z + |v j| + |fn j z0 - fn j z| + v j) (obj z + |t| + 1 + |obj z0 - obj z| + t)
      (fun j => by have := neg_abs_le (v j); have := abs_nonneg (fn j z0 - fn j z); linarith)
      (by have := neg_abs_le t; have := abs_nonneg (obj z0 - obj z); linarith)
    have k2 := hpt z0 h0 (fun j => fn j z + |v j| + |fn j z0 - fn j z|) (obj z + |t| + 1 + |obj z0 - obj z|)
      (fun j => by have := abs_nonneg (v j); have := le_abs_self (fn j z0 - fn j z); linarith)
      (by have := abs_nonneg t; have := le_abs_self (obj z0 - obj z); linarith)
    have := vsub_mem_vectorSpan ℝ k1 k2
    convert this using 1
    refine Prod.ext ?_ (Prod.ext (Subtype.ext ?_) ?_)
    · funext j
      show v j = (fn j z + |v j| + |fn j z0 - fn j z| + v j) - (fn j z + |v j| + |fn j z0 - fn j z|)
      ring
    · show eqPart kind fn z = eqPart kind fn z - eqPart kind fn z0
      rw [hz, sub_zero]
    · show t = (obj z + |t| + 1 + |obj z0 - obj z| + t) - (obj z + |t| + 1 + |obj z0 - obj z|)
      ring
  have h00 : ∀ v t, ((v, (0 : eqSpan S kind fn), t) : (Fin q → ℝ) × eqSpan S kind fn × ℝ) ∈ vectorSpan ℝ (achievable S obj kind fn) := by
    intro v t
    have := hD z0 h0 v t
    rwa [show (⟨eqPart kind fn z0, Submodule.subset_span ⟨z0, h0, rfl⟩⟩ : eqSpan S kind fn) = 0 from Subtype.ext hz] at this
  have hL : ∀ w : Fin q → ℝ, ∀ hw : w ∈ eqSpan S kind fn,
      (((0 : Fin q → ℝ), (⟨w, hw⟩ : eqSpan S kind fn), (0 : ℝ)) : (Fin q → ℝ) × eqSpan S kind fn × ℝ) ∈ vectorSpan ℝ (achievable S obj kind fn) := by
    intro w hw
    induction hw using Submodule.span_induction with
    | mem x hx => obtain ⟨z, hzS, rfl⟩ := hx; exact hD z hzS 0 0
    | zero => exact Submodule.zero_mem _
    | add x y hx hy h1 h2 =>
      have := Submodule.add_mem _ h1 h2
      rw [Prod.mk_add_mk, Prod.mk_add_mk, add_zero, add_zero] at this
      exact this
    | smul a x hx h1 =>
      have := Submodule.smul_mem _ a h1
      rw [Prod.smul_mk, Prod.smul_mk, smul_zero, smul_zero] at this
      exact this
  rw [eq_top_iff]
  rintro ⟨v, w, t⟩ -
  have := Submodule.add_mem _ (h00 v t) (hL w.1 w.2)
  simpa using this

/-- Multipliers, given a strictly feasible point `z0` around which equalities can be reflected. -/
theorem multipliers_exist {zs z0 : V} (mem : ∀ x y t, S x → S y → 0 ≤ t → t ≤ 1 → S (seg t x y))
    (hobj : ∀ x y t, S x → S y → 0 ≤ t → t ≤ 1 → obj (seg t x y) ≤ (1 - t) * obj x + t * obj y)
    (heq : ∀ j, kind j = .equality → ∀ x y t, S x → S y → 0 ≤ t → t ≤ 1 → fn j (seg t x y) = (1 - t) * fn j x + t * fn j y)
    (hineq : ∀ j, kind j = .inequality → ∀ x y t, S x → S y → 0 ≤ t → t ≤ 1 → fn j (seg t x y) ≤ (1 - t) * fn j x + t * fn j y)
    (best : ∀ y, S y → (∀ j, kind j = .equality → fn j y = 0) → (∀ j, kind j = .inequality → fn j y ≤ 0) → obj zs ≤ obj y)
    (h0 : S z0) (e0 : ∀ j, kind j = .equality → fn j z0 = 0) (i0 : ∀ j, kind j = .inequality → fn j z0 < 0)
    (refl : ∀ y, S y → ∃ z, S z ∧ ∀ j, kind j = .equality → fn j z = - fn j y) :
    ∃ star : Fin q → ℝ, (∀ j, kind j = .inequality → star j ≤ 0) ∧ ∀ y, S y → obj zs ≤ obj y - ∑ j, star j * fn j y := by
  have hz0 : eqPart kind fn z0 = 0 := by
    funext j
    cases hj : kind j
    · rw [eqPart_eq hj]; exact e0 j hj
    · rw [eqPart_ineq hj]; rfl
  have hA := achievable_convex mem hobj heq hineq
  have hint : (interior (achievable S obj kind fn)).Nonempty :=
    hA.interior_nonempty_iff_affineSpan_eq_top.mpr (achievable_span h0 hz0)
  have hx : ((0, 0, obj zs) : (Fin q → ℝ) × eqSpan S kind fn × ℝ) ∉ interior (achievable S obj kind fn) := by
    intro h
    obtain ⟨z, hz, h1, h2, h3⟩ := interior_subset h
    refine absurd (best z hz (fun j hj => ?_) fun j hj => h1 j hj) (not_le.mpr h3)
    have := congrFun h2 j
    rw [eqPart_eq hj] at this
    exact this.symm
  obtain ⟨f, hf, H⟩ := geometric_hahn_banach_of_nonempty_interior_point hA hx hint
  -- components
  let a : Fin q → ℝ := fun j => f (Pi.single j 1, 0, 0)
  let g : eqSpan S kind fn →ₗ[ℝ] ℝ := f.toLinearMap ∘ₗ LinearMap.inr ℝ _ _ ∘ₗ LinearMap.inl ℝ _ _
  let b : ℝ := f (0, 0, 1)
  have hsplit : ∀ v w t, f (v, w, t) = (∑ j, a j * v j) + g w + b * t := by
    intro v w t
    have e : ((v, w, t) : (Fin q → ℝ) × eqSpan S kind fn × ℝ)
        = (∑ j, v j • ((Pi.single j 1, 0, 0) : (Fin q → ℝ) × eqSpan S kind fn × ℝ)) + (0, w, 0) + t • (0, 0, 1) := by
      refine Prod.ext ?_ (Prod.ext ?_ ?_)
      · funext i
        simp [Prod.fst_sum, Finset.sum_apply, Pi.single_apply]
      · simp [Prod.snd_sum, Prod.fst_sum]
      · simp [Prod.snd_sum]
    rw [e, map_add, map_add, map_sum, map_smul]
    refine congrArg₂ (· + ·) (congrArg₂ (· + ·) ?_ rfl) ?_
    · exact Finset.sum_congr rfl fun j _ => by rw [map_smul, smul_eq_mul, mul_comm]
    · rw [smul_eq_mul, mul_comm]
  have hW : ∀ z (hz : S z), eqPart kind fn z ∈ eqSpan S kind fn := fun z hz => Submodule.subset_span ⟨z, hz, rfl⟩
  have key : ∀ z (hz : S z) (v : Fin q → ℝ) (t : ℝ), (∀ j, kind j = .inequality → fn j z ≤ v j) → obj z < t →
      (∑ j, a j * v j) + g ⟨_, hW z hz⟩ + b * t ≤ b * obj zs := by
    intro z hz v t h1 h2
    have := H (v, ⟨_, hW z hz⟩, t) ⟨z, hz, h1, rfl, h2⟩
    rw [hsplit, hsplit] at this
    simpa using this
  -- signs
  have ha : ∀ j, a j ≤ 0 := by
    intro j
    by_contra hj
    push Not at hj
    have k := fun s : ℝ => fun hs : 0 ≤ s => key z0 h0 (fun i => fn i z0 + if i = j then s else 0) (obj z0 + 1)
      (fun i _ => by split <;> linarith) (by linarith)
    have e : ∀ s : ℝ, (∑ i, a i * (fn i z0 + if i = j then s else 0)) = (∑ i, a i * fn i z0) + a j * s := by
      intro s
      simp [mul_add, Finset.sum_add_distrib]
    set c := (∑ i, a i * fn i z0) + g ⟨_, hW z0 h0⟩ + b * (obj z0 + 1) - b * obj zs with hc
    have := k ((|c| + 1) / a j) (by positivity)
    rw [e, mul_div_cancel₀ _ hj.ne'] at this
    have := neg_abs_le c
    linarith
  have ha' : ∀ j, kind j = .equality → a j = 0 := by
    intro j hj'
    refine le_antisymm (ha j) ?_
    by_contra hj
    push Not at hj
    have k := fun s : ℝ => key z0 h0 (fun i => fn i z0 + if i = j then s else 0) (obj z0 + 1)
      (fun i hi => by
        rw [if_neg (by rintro rfl; rw [hi] at hj'; cases hj')]; linarith) (by linarith)
    have e : ∀ s : ℝ, (∑ i, a i * (fn i z0 + if i = j then s else 0)) = (∑ i, a i * fn i z0) + a j * s := by
      intro s
      simp [mul_add, Finset.sum_add_distrib]
    set c := (∑ i, a i * fn i z0) + g ⟨_, hW z0 h0⟩ + b * (obj z0 + 1) - b * obj zs with hc
    have := k ((|c| + 1) / a j)
    rw [e, mul_div_cancel₀ _ hj.ne] at this
    have := neg_abs_le c
    linarith
  have hb : b ≤ 0 := by
    by_contra hb
    push Not at hb
    set c := (∑ i, a i * fn i z0) + g ⟨_, hW z0 h0⟩ + b * obj z0 - b * obj zs with hc
    have := key z0 h0 (fun i => fn i z0) (obj z0 + (|c| + 1) / b) (fun _ _ => le_rfl) (by linarith [show 0 < (|c| + 1) / b by positivity])
    rw [mul_add, mul_div_cancel₀ _ hb.ne'] at this
    have := neg_abs_le c
    linarith
  have main : ∀ z (hz : S z), (∑ j, a j * fn j z) + g ⟨_, hW z hz⟩ + b * obj z ≤ b * obj zs := by
    intro z hz
    refine le_of_forall_pos_le_add fun ε hε => ?_
    have := key z hz (fun j => fn j z) (obj z + ε / (|b| + 1)) (fun _ _ => le_rfl) (by linarith [show 0 < ε / (|b| + 1) by positivity])
    have h1 : -(b * (ε / (|b| + 1))) ≤ ε := by
      rw [← neg_mul, mul_div_assoc']
      rw [div_le_iff₀ (by positivity)]
      have := neg_abs_le b
      nlinarith
    linarith
  -- the objective counts
  have hb0 : b ≠ 0 := by
    intro hb0
    have hz := main z0 h0
    have g0 : g ⟨_, hW z0 h0⟩ = 0 := by
      rw [show (⟨_, hW z0 h0⟩ : eqSpan S kind fn) = 0 from Subtype.ext hz0, map_zero]
    rw [g0, hb0] at hz
    have hterm : ∀ j ∈ Finset.univ, 0 ≤ a j * fn j z0 := by
      intro j _
      cases hj : kind j
      · rw [ha' j hj, zero_mul]
      · exact mul_nonneg_of_nonpos_of_nonpos (ha j) (i0 j hj).le
    have hsum : ∑ j, a j * fn j z0 = 0 := le_antisymm (by linarith) (Finset.sum_nonneg hterm)
    have ha0 : ∀ j, a j = 0 := by
      intro j
      cases hj : kind j
      · exact ha' j hj
      · have := (Finset.sum_eq_zero_iff_of_nonneg hterm).mp hsum j (Finset.mem_univ j)
        exact (mul_eq_zero.mp this).resolve_right (i0 j hj).ne
    have hle : ∀ z (hz : S z), g ⟨_, hW z hz⟩ ≤ 0 := by
      intro z hz
      have := main z hz
      simp only [ha0, hb0, zero_mul, Finset.sum_const_zero] at this
      linarith
    have hg0 : ∀ z (hz : S z), g ⟨_, hW z hz⟩ = 0 := by
      intro z hz
      obtain ⟨y, hy, e⟩ := refl z hz
      have e' : (⟨_, hW y hy⟩ : eqSpan S kind fn) = - ⟨_, hW z hz⟩ := by
        refine Subtype.ext (funext fun j => ?_)
        show eqPart kind fn y j = - eqPart kind fn z j
        cases hj : kind j
        · rw [eqPart_eq hj, eqPart_eq hj, e j hj]
        · rw [eqPart_ineq hj, eqPart_ineq hj, neg_zero]
      have := hle y hy
      rw [e', map_neg] at this
      exact le_antisymm (hle z hz) (by linarith)
    have hgz : ∀ w (hw : w ∈ eqSpan S kind fn), g ⟨w, hw⟩ = 0 := by
      intro w hw
      induction hw using Submodule.span_induction with
      | mem x hx => obtain ⟨z, hz, rfl⟩ := hx; exact hg0 z hz
      | zero => exact map_zero g
      | add x y hx hy h1 h2 => 
        have := map_add g ⟨x, hx⟩ ⟨y, hy⟩
        rw [h1, h2, add_zero] at this
        exact this
      | smul c x hx h1 =>
        have := map_smul g c ⟨x, hx⟩
        rw [h1, smul_zero] at this
        exact this
    refine hf (ContinuousLinearMap.ext ?_)
    rintro ⟨v, w, t⟩
    rw [hsplit]
    simp [ha0, hb0, hgz w.1 w.2]
  have hbn : b < 0 := lt_of_le_of_ne hb hb0
  obtain ⟨G, hG⟩ := LinearMap.exists_extend g
  let c : Fin q → ℝ := fun j => match kind j with | .equality => G (Pi.single j 1) | .inequality => a j
  have hGs : ∀ w, G w = ∑ j, G (Pi.single j 1) * w j := by
    intro w
    conv_lhs => rw [← Finset.univ_sum_single w]
    rw [map_sum]
    refine Finset.sum_congr rfl fun j _ => ?_
    rw [show (Pi.single j (w j) : Fin q → ℝ) = w j • Pi.single j 1 by rw [← Pi.single_smul]; simp, map_smul, smul_eq_mul, mul_comm]
  refine ⟨fun j => c j / (-b), fun j hj => ?_, fun y hy => ?_⟩
  · have : c j = a j := by show (match kind j with | .equality => _ | .inequality => _) = _; rw [hj]
    show c j / (-b) ≤ 0
    rw [this]
    exact div_nonpos_of_nonpos_of_nonneg (ha j) (by linarith)
  · have hm := main y hy
    have e : (∑ j, a j * fn j y) + g ⟨_, hW y hy⟩ = ∑ j, c j * fn j y := by
      rw [show g ⟨_, hW y hy⟩ = G (eqPart kind fn y) from (congrArg (fun k => k ⟨_, hW y hy⟩) hG).symm, hGs, ← Finset.sum_add_distrib]
      refine Finset.sum_congr rfl fun j _ => ?_
      show _ = (match kind j with | .equality => _ | .inequality => _) * _
      cases hj : kind j
      · rw [ha' j hj, eqPart_eq hj]; ring
      · rw [eqPart_ineq hj]; ring
    rw [e] at hm
    have e2 : ∑ j, c j / (-b) * fn j y = (∑ j, c j * fn j y) / (-b) := by
      rw [div_eq_mul_inv, Finset.sum_mul]
      exact Finset.sum_congr rfl fun j _ => by ring
    rw [e2]
    have : (∑ j, c j * fn j y) / (-b) ≤ obj y - obj zs := by
      rw [div_le_iff₀ (by linarith)]
      nlinarith
    linarith

theorem rows_sum (rows : List (Row V ℝ)) (star : Fin rows.length → ℝ) (y : V) :
    ((rows.zip (List.ofFn star)).map fun q => q.2 * q.1.fn y).sum = ∑ j, star j * (rows.get j).fn y := by
  have e : rows.zip (List.ofFn star) = List.ofFn fun j => (rows.get j, star j) := by
    refine List.ext_getElem (by simp) fun i h1 h2 => ?_
    simp
  rw [e, List.map_ofFn, List.sum_ofFn]
  rfl

theorem mem_rows_zip {rows : List (Row V ℝ)} {star : Fin rows.length → ℝ} {q : Row V ℝ × ℝ} (h : q ∈ rows.zip (List.ofFn star)) :
    ∃ j, q = (rows.get j, star j) := by
  have e : rows.zip (List.ofFn star) = List.ofFn fun j => (rows.get j, star j) := by
    refine List.ext_getElem (by simp) fun i h1 h2 => ?_
    simp
  rw [e, List.mem_ofFn] at h
  obtain ⟨j, hj⟩ := h
  exact ⟨j, hj.symm⟩

/-- A convex problem with a strictly feasible point has multipliers at every solution. -/
theorem saddle_exists {rows : List (Row V ℝ)} (hc : Spec.Convex S seg obj rows) {zs z0 : V} (hs : S zs) (holds : ∀ r ∈ rows, r.Holds zs)
    (best : ∀ y, S y → (∀ r ∈ rows, r.Holds y) → obj zs ≤ obj y) (h0 : S z0)
    (strict : ∀ r ∈ rows, match r.kind with | .equality => r.fn z0 = 0 | .inequality => r.fn z0 < 0)
    (refl : ∀ y, S y → ∃ z, S z ∧ ∀ r ∈ rows, r.kind = .equality → r.fn z = - r.fn y) :
    ∃ star, Saddle S obj rows zs star := by
  have hstrict : ∀ r ∈ rows, (r.kind = .equality → r.fn z0 = 0) ∧ (r.kind = .inequality → r.fn z0 < 0) := by
    intro r hr
    have := strict r hr
    constructor <;> intro hk <;> rw [hk] at this <;> exact this
  have hholds : ∀ r ∈ rows, r.kind = .inequality → r.fn zs ≤ 0 := by
    intro r hr hk
    have := holds r hr
    unfold Row.Holds at this
    rw [hk] at this
    exact this
  have heqs : ∀ r ∈ rows, r.kind = .equality → r.fn zs = 0 := by
    intro r hr hk
    have := holds r hr
    unfold Row.Holds at this
    rw [hk] at this
    exact this
  obtain ⟨star, h1, h2⟩ := multipliers_exist (q := rows.length) (kind := fun j => (rows.get j).kind) (fn := fun j => (rows.get j).fn) (zs := zs)
    hc.mem hc.obj (fun j => hc.eq _ (rows.get_mem j)) (fun j => hc.ineq _ (rows.get_mem j))
    (fun y hy e i => best y hy fun r hr => by
      obtain ⟨j, rfl⟩ := List.get_of_mem hr
      unfold Row.Holds
      cases hk : (rows.get j).kind
      · exact e j hk
      · exact i j hk)
    h0 (fun j hj => (hstrict _ (rows.get_mem j)).1 hj) (fun j hj => (hstrict _ (rows.get_mem j)).2 hj)
    (fun y hy => by
      obtain ⟨z, hz, e⟩ := refl y hy
      exact ⟨z, hz, fun j hj => e _ (rows.get_mem j) hj⟩)
  have hnn : ∀ j ∈ Finset.univ, 0 ≤ star j * (rows.get j).fn zs := by
    intro j _
    cases hj : (rows.get j).kind
    · rw [heqs _ (rows.get_mem j) hj, mul_zero]
    · exact mul_nonneg_of_nonpos_of_nonpos (h1 j hj) (hholds _ (rows.get_mem j) hj)
  have hsum : ∑ j, star j * (rows.get j).fn zs = 0 := le_antisymm (by have := h2 zs hs; linarith) (Finset.sum_nonneg hnn)
  refine ⟨List.ofFn star, by simp, hs, holds, fun q hq hk => ?_, fun y hy => ?_⟩
  · obtain ⟨j, rfl⟩ := mem_rows_zip hq
    exact ⟨h1 j hk, (Finset.sum_eq_zero_iff_of_nonneg hnn).mp hsum j (Finset.mem_univ j)⟩
  · rw [rows_sum, rows_sum, hsum, sub_zero]
    exact h2 y hy

/-- The multipliers of inequalities are bounded by what the strictly feasible point costs, over its margin. -/
theorem saddle_bound {rows : List (Row V ℝ)} {zs z0 : V} {star : List ℝ} (hs : Saddle S obj rows zs star) (h0 : S z0) {σ : ℝ} (hσ : 0 < σ)
    (strict : ∀ r ∈ rows, r.kind = .inequality ∧ r.fn z0 ≤ -σ) : (star.map (|·|)).sum ≤ (obj z0 - obj zs) / σ := by
  have hl := hs.lag z0 h0
  have hz : ∀ l : List (Row V ℝ × ℝ), (∀ q ∈ l, q.2 * q.1.fn zs = 0) → (l.map fun q => q.2 * q.1.fn zs).sum = 0 := by
    intro l
    induction l with
    | nil => intro _; rfl
    | cons a l ih =>
      intro h
      rw [List.map_cons, List.sum_cons, h a List.mem_cons_self, zero_add]
      exact ih fun q hq => h q (List.mem_cons_of_mem _ hq)
  rw [hz _ fun q hq => (hs.sign q hq (strict _ (List.of_mem_zip hq).1).1).2, sub_zero] at hl
  have hb : ∀ (l : List (Row V ℝ)) (s : List ℝ), s.length = l.length → (∀ q ∈ l.zip s, q.2 ≤ 0) → (∀ r ∈ l, r.fn z0 ≤ -σ) →
      σ * (s.map (|·|)).sum ≤ ((l.zip s).map fun q => q.2 * q.1.fn z0).sum := by
    intro l
    induction l with
    | nil =>
      intro s e _ _
      rw [List.length_nil, List.length_eq_zero_iff] at e
      subst e
      simp
    | cons a l ih =>
      intro s e h1 h2
      cases s with
      | nil => simp at e
      | cons b s =>
        rw [List.zip_cons_cons] at h1 ⊢
        simp only [List.map_cons, List.sum_cons]
        have i := ih s (by simpa using e) (fun q hq => h1 q (List.mem_cons_of_mem _ hq)) fun r hr => h2 r (List.mem_cons_of_mem _ hr)
        have hb : b ≤ 0 := h1 (a, b) List.mem_cons_self
        have ha := h2 a List.mem_cons_self
        have hab := abs_of_nonpos hb
        rw [hab]
        nlinarith
  have := hb rows star hs.len (fun q hq => (hs.sign q hq (strict _ (List.of_mem_zip hq).1).1).1) fun r hr => (strict r hr).2
  rw [le_div_iff₀ hσ]
  linarith

end Altro.Props
