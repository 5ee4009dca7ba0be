import Verif.Model.Examples
import Verif.Proofs.Integration
import Verif.Spec.LQ
import Mathlib.Analysis.SpecialFunctions.Trigonometric.Deriv

namespace Altro
open Matrix Spec

section writes
variable {ι κ K : Type*} [DecidableEq ι] [DecidableEq κ]

theorem writes_none (l : List (ι × K)) (b : ι → K) (j : ι) (h : ∀ w ∈ l, w.1 ≠ j) : writes b l j = b j := by
  induction l generalizing b with
  | nil => rfl
  | cons w l ih =>
    show writes (Function.update b w.1 w.2) l j = _
    rw [ih _ fun v hv => h v (List.mem_cons_of_mem _ hv), Function.update_of_ne (h w List.mem_cons_self).symm]

theorem writes_some (l : List (ι × K)) (b : ι → K) (j : ι) (v : K) (h : ∃ w ∈ l, w.1 = j)
    (hv : ∀ w ∈ l, w.1 = j → w.2 = v) : writes b l j = v := by
  induction l generalizing b with
  | nil => obtain ⟨w, hw, _⟩ := h; cases hw
  | cons w l ih =>
    show writes (Function.update b w.1 w.2) l j = _
    by_cases hl : ∃ w ∈ l, w.1 = j
    · exact ih _ hl fun v hv' => hv v (List.mem_cons_of_mem _ hv')
    · push Not at hl
      rw [writes_none _ _ _ hl]
      obtain ⟨a, ha, rfl⟩ := h
      rcases List.mem_cons.mp ha with rfl | ha
      · rw [Function.update_self]; exact hv _ List.mem_cons_self rfl
      · exact absurd rfl (hl a ha)

theorem writesM_none (l : List ((ι × κ) × K)) (M : Matrix ι κ K) (i : ι) (j : κ) (h : ∀ w ∈ l, w.1 ≠ (i, j)) :
    writesM M l i j = M i j := writes_none l _ (i, j) h

theorem writesM_some (l : List ((ι × κ) × K)) (M : Matrix ι κ K) (i : ι) (j : κ) (v : K) (h : ∃ w ∈ l, w.1 = (i, j))
    (hv : ∀ w ∈ l, w.1 = (i, j) → w.2 = v) : writesM M l i j = v := writes_some l _ (i, j) v h hv

end writes

section affine
variable {n m p : ℕ}

/-- An affine function has its matrix as Jacobian. -/
theorem isJacAt_affine (f : (Fin n → ℝ) → (Fin m → ℝ) → Fin p → ℝ) (J : Matrix (Fin p) (Fin n ⊕ Fin m) ℝ)
    (c : Fin p → ℝ) (h : ∀ x u, f x u = c + (J.toCols₁ *ᵥ x + J.toCols₂ *ᵥ u)) (x : Fin n → ℝ) (u : Fin m → ℝ) :
    IsJacAt f J x u := by
  rw [isJacAt_iff]
  have e : (fun z : Z n m => f z.1 z.2) = fun z => c + jacCLM J z := by
    funext z; rw [h, jacCLM_apply]
  rw [e]
  exact (jacCLM J).hasFDerivAt.const_add c

end affine

section ti
variable {dof : ℕ}

theorem tiIx_inj {k k' : Fin 3} {i i' : Fin dof} : tiIx k i = tiIx k' i' ↔ k = k' ∧ i = i' := by
  constructor
  · intro h
    have h := congrArg Fin.val h
    simp only [tiIx] at h
    have h1 := i.isLt; have h2 := i'.isLt
    have hk : (k : ℕ) = k' := by
      rcases Nat.lt_trichotomy (k : ℕ) k' with hk | hk | hk
      · have : ((k : ℕ) + 1) * dof ≤ k' * dof := Nat.mul_le_mul_right _ hk
        rw [Nat.succ_mul] at this; omega
      · exact hk
      · have : ((k' : ℕ) + 1) * dof ≤ k * dof := Nat.mul_le_mul_right _ hk
        rw [Nat.succ_mul] at this; omega
    refine ⟨Fin.ext hk, Fin.ext ?_⟩
    rw [hk] at h; omega
  · rintro ⟨rfl, rfl⟩; rfl

theorem tiIx_surj (j : Fin (3 * dof)) : ∃ k i, j = tiIx k i := by
  have hj := j.isLt
  have hd : 0 < dof := by
    rcases Nat.eq_zero_or_pos dof with h | h
    · subst h; exact absurd hj (by simp)
    · exact h
  refine ⟨⟨j / dof, Nat.div_lt_of_lt_mul (by omega)⟩, ⟨j % dof, Nat.mod_lt _ hd⟩, Fin.ext ?_⟩
  show (j : ℕ) = j / dof * dof + j % dof
  have := Nat.div_add_mod (j : ℕ) dof
  rw [Nat.mul_comm dof] at this; exact this.symm

variable {K : Type*} [Field K]

theorem tiEval_ix (x : Fin (3 * dof) → K) (u : Fin dof → K) (out : Fin (3 * dof) → K) (i : Fin dof) :
    tiEval dof x u out (tiIx 0 i) = x (tiIx 1 i) ∧ tiEval dof x u out (tiIx 1 i) = x (tiIx 2 i) ∧
    tiEval dof x u out (tiIx 2 i) = u i := by
  refine ⟨writes_some _ _ _ _ ?_ ?_, writes_some _ _ _ _ ?_ ?_, writes_some _ _ _ _ ?_ ?_⟩
  · exact ⟨(tiIx 0 i, x (tiIx 1 i)), List.mem_flatMap.mpr ⟨i, List.mem_finRange i, by simp⟩, rfl⟩
  · intro w hw h
    obtain ⟨a, -, ha⟩ := List.mem_flatMap.mp hw
    simp only [List.mem_cons, List.not_mem_nil, or_false] at ha
    rcases ha with rfl | rfl | rfl <;> simp only [tiIx_inj] at h <;> simp_all
  · exact ⟨(tiIx 1 i, x (tiIx 2 i)), List.mem_flatMap.mpr ⟨i, List.mem_finRange i, by simp⟩, rfl⟩
  · intro w hw h
    obtain ⟨a, -, ha⟩ := List.mem_flatMap.mp hw
    simp only [List.mem_cons, List.not_mem_nil, or_false] at ha
    rcases ha with rfl | rfl | rfl <;> simp only [tiIx_inj] at h <;> simp_all
  · exact ⟨(tiIx 2 i, u i), List.mem_flatMap.mpr ⟨i, List.mem_finRange i, by simp⟩, rfl⟩
  · intro w hw h
    obtain ⟨a, -, ha⟩ := List.mem_flatMap.mp hw
    simp only [List.mem_cons, List.not_mem_nil, or_false] at ha
    rcases ha with rfl | rfl | rfl <;> simp only [tiIx_inj] at h <;> simp_all

theorem tiJac_ix (buf : Matrix (Fin (3 * dof)) (Fin (3 * dof) ⊕ Fin dof) K) (i : Fin dof)
    (c : Fin (3 * dof) ⊕ Fin dof) :
    tiJac dof buf (tiIx 0 i) c = (if c = .inl (tiIx 1 i) then 1 else 0) ∧
    tiJac dof buf (tiIx 1 i) c = (if c = .inl (tiIx 2 i) then 1 else 0) ∧
    tiJac dof buf (tiIx 2 i) c = (if c = .inr i then 1 else 0) := by
  refine ⟨?_, ?_, ?_⟩
  all_goals
    split
    case isTrue hc =>
      refine writesM_some _ _ _ _ _ ?_ ?_
      · refine ⟨((_, c), 1), List.mem_flatMap.mpr ⟨i, List.mem_finRange i, ?_⟩, rfl⟩
        simp [hc]
      · intro w hw h
        obtain ⟨a, -, ha⟩ := List.mem_flatMap.mp hw
        simp only [List.mem_cons, List.not_mem_nil, or_false] at ha
        rcases ha with rfl | rfl | rfl <;> rfl
    case isFalse hc =>
      refine writesM_none _ _ _ _ ?_
      intro w hw h
      obtain ⟨a, -, ha⟩ := List.mem_flatMap.mp hw
      simp only [List.mem_cons, List.not_mem_nil, or_false] at ha
      clear hw
      rcases ha with rfl | rfl | rfl <;> simp only [Prod.mk.injEq, tiIx_inj] at h <;>
        obtain ⟨⟨h1, h2⟩, h3⟩ := h <;> first | exact absurd h1 (by decide) | (subst h2; exact hc h3.symm)

end ti

end Altro
