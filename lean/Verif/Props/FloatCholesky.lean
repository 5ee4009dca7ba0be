import Verif.Proofs.FloatCholesky
import Verif.Props.InexactGains
import Mathlib.LinearAlgebra.Matrix.Trace

/-!
# C111: gains from a factorization with rounding
-/

namespace Altro.Props
open Altro.Spec Altro.ILQR Matrix Finset

section solve
variable {u : ℝ} {fl : ℝ → ℝ} {F : Floats} {m : ℕ}

/-- The factor the routine leaves in memory. -/
noncomputable def roundedFactor (F : Floats) (M : Matrix (Fin m) (Fin m) ℝ) : Matrix (Fin m) (Fin m) ℝ :=
  Chol.low m (F.factor m 0 (Chol.entries M)).2

theorem sum_low_mul (L : ℕ → ℕ → ℝ) (w : ℝ → ℝ) (h0 : w 0 = 0) {i j : Fin m} (hij : j ≤ i) :
    ∑ l, w (Chol.low m L i l * Chol.low m L j l) = ∑ l ∈ range (j + 1), w (L i l * L j l) := by
  rw [← Chol.sum_fin_le m (fun l => w (L i l * L j l)) j.isLt]
  refine sum_congr rfl fun l _ => ?_
  simp only [Chol.low, of_apply]
  have hij' : (j : ℕ) ≤ i := hij
  by_cases h : (l : ℕ) ≤ j
  · rw [if_pos h, if_pos h, if_pos (by omega)]
  · rw [if_neg h, if_neg h, mul_zero, h0]

theorem absRows_comm (L : Matrix (Fin m) (Fin m) ℝ) (i j : Fin m) : absRows L i j = absRows L j i :=
  sum_congr rfl fun _ _ => mul_comm _ _

theorem absRows_eq (L : Matrix (Fin m) (Fin m) ℝ) (i j : Fin m) : absRows L i j = ∑ l, |L i l * L j l| :=
  sum_congr rfl fun _ _ => (abs_mul _ _).symm

/-- The leading block of size `c` after `c` columns. -/
theorem block_factor (hu : 0 ≤ u) (h1 : unit u m < 1) (hF : Accurate u fl F) (A : ℕ → ℕ → ℝ) {c : ℕ} (hc : c ≤ m)
    (hok : (F.factor c 0 A).1 = true) :
    (∀ i : Fin c, 0 < Chol.low c (F.factor c 0 A).2 i i) ∧
    (∀ i : Fin c, 0 < A i i ∧ absRows (Chol.low c (F.factor c 0 A).2) i i ≤ (1 + loss u m) * A i i) ∧
    ∀ i j : Fin c, |lowSym (Matrix.of fun i j : Fin c => A i j) i j
      - (Chol.low c (F.factor c 0 A).2 * (Chol.low c (F.factor c 0 A).2)ᵀ) i j| ≤
        loss u m * absRows (Chol.low c (F.factor c 0 A).2) i j := by
  have key := ffactor_err hu (u_lt_one hu h1) hF c 0 A hok
  set L := (F.factor c 0 A).2 with hL
  set R := Chol.low c L with hR
  have hpos : ∀ i : Fin c, 0 < L i i := fun i => (key i i (Nat.zero_le _) (by omega) le_rfl).1
  have hdiag : ∀ i, 0 < R i i := fun i => by
    have := hpos i
    simpa [hR, Chol.low] using this
  have hsub : ∀ i j : Fin c, ∑ l ∈ range j, |L i l * L j l| ≤ ∑ l ∈ range (j + 1), |L i l * L j l| := fun i j => by
    rw [sum_range_succ]; linarith [abs_nonneg (L i j * L j j)]
  have low1 : ∀ i j : Fin c, j ≤ i → |A i j - (R * Rᵀ) i j| ≤ loss u m * absRows R i j := by
    intro i j hij
    have h := (key i j (Nat.zero_le _) (by omega) hij).2
    have e1 : (R * Rᵀ) i j = ∑ l ∈ range (j + 1), L i l * L j l := by
      rw [mul_apply]
      exact sum_low_mul L id rfl hij
    have e2 : absRows R i j = ∑ l ∈ range (j + 1), |L i l * L j l| := by
      rw [absRows_eq]
      exact sum_low_mul L abs abs_zero hij
    rw [e1, e2]
    exact close_err hu h1 (by omega) h (abs_sum_le_sum_abs _ _) (hsub i j) (sum_nonneg fun _ _ => abs_nonneg _)
  refine ⟨hdiag, fun i => ?_, fun i j => ?_⟩
  · have h := (key i i (Nat.zero_le _) (by omega) le_rfl).2
    have e2 : absRows R i i = ∑ l ∈ range (i + 1), L i l * L i l := by
      have : absRows R i i = ∑ l, id (R i l * R i l) := sum_congr rfl fun l _ => abs_mul_abs_self _
      rw [this]
      exact sum_low_mul L id rfl le_rfl
    rw [e2]
    refine diag_err hu h1 (by omega) h ?_ (sum_nonneg fun _ _ => abs_nonneg _) ?_
    · refine (hsub i i).trans (sum_le_sum fun l _ => ?_)
      rw [abs_mul_self]
    · rw [sum_range_succ]
      have := mul_pos (hpos i) (hpos i)
      have : 0 ≤ ∑ l ∈ range (i : ℕ), L i l * L i l := sum_nonneg fun _ _ => mul_self_nonneg _
      linarith
  · simp only [lowSym, of_apply]
    split
    · rename_i h
      exact low1 i j h
    · rename_i h
      have := low1 j i (not_le.mp h).le
      rw [absRows_comm, mul_apply] at this
      rw [mul_apply]
      simpa only [transpose_apply, mul_comm] using this

theorem of_entries (M : Matrix (Fin m) (Fin m) ℝ) : (Matrix.of fun i j : Fin m => Chol.entries M i j) = M := by
  ext i j; simp [Chol.entries]

/-- **C111, the factor.**  When the factorization succeeds the factor has a positive diagonal, and its product with its
transpose is the matrix up to the relative errors of the entries. -/
theorem C111_factor (hu : 0 ≤ u) (h1 : unit u m < 1) (hF : Accurate u fl F) (M : Matrix (Fin m) (Fin m) ℝ)
    (hok : F.ok m M = true) :
    (∀ i, 0 < roundedFactor F M i i) ∧ (∀ i, 0 < M i i ∧ absRows (roundedFactor F M) i i ≤ (1 + loss u m) * M i i) ∧
    ∀ i j, |lowSym M i j - (roundedFactor F M * (roundedFactor F M)ᵀ) i j| ≤ loss u m * absRows (roundedFactor F M) i j := by
  have h := block_factor hu h1 hF (Chol.entries M) le_rfl hok
  rw [of_entries] at h
  refine ⟨h.1, fun i => ?_, h.2.2⟩
  have := h.2.1 i
  rwa [show Chol.entries M i i = M i i by simp [Chol.entries]] at this

/-- **C111, no success for indefinite matrices.**  A matrix that is factored is positive semidefinite up to rounding. -/
theorem C111_semidefinite (hu : 0 ≤ u) (h1 : unit u m < 1) (hF : Accurate u fl F) (M : Matrix (Fin m) (Fin m) ℝ)
    (hok : F.ok m M = true) (v : Fin m → ℝ) :
    -(loss u m * (1 + loss u m) * scaledNorm M v ^ 2) ≤ v ⬝ᵥ lowSym M *ᵥ v := by
  obtain ⟨-, c2, c3⟩ := C111_factor hu h1 hF M hok
  have hd : ∀ i, lowSym M i i = M i i := fun i => by simp [lowSym]
  have h := (abs_le.mp (form_err (A := lowSym M) (loss_nonneg hu h1) c3 (fun i => by rw [hd]; exact c2 i) v)).1
  simp only [hd] at h
  have hs : 0 ≤ ((roundedFactor F M)ᵀ *ᵥ v) ⬝ᵥ ((roundedFactor F M)ᵀ *ᵥ v) := sum_nonneg fun _ _ => mul_self_nonneg _
  unfold scaledNorm
  linarith

/-- Sums with nothing after entry `k`. -/
theorem sum_upto {k : ℕ} (hk : k < m) (g : ℕ → ℝ) (h0 : ∀ i, k < i → g i = 0) :
    ∑ i : Fin m, g i = ∑ i : Fin k, g i + g k := by
  rw [Fin.sum_univ_eq_sum_range g m, Fin.sum_univ_eq_sum_range g k, ← sum_range_succ]
  symm
  refine sum_subset (fun i hi => mem_range.mpr ?_) fun i _ hi => h0 i ?_
  · have := mem_range.mp hi; omega
  · by_contra hcon
    exact hi (mem_range.mpr (by omega))

/-- **C111, success.**  The factorization succeeds for every matrix that is positive definite by more than rounding, in any order
of the additions. -/
theorem C111_success (hu : 0 ≤ u) (h1 : unit u m < 1) (hF : Accurate u fl F) (M : Matrix (Fin m) (Fin m) ℝ)
    (hdef : ∀ v, v ≠ 0 → marginLoss u m * scaledNorm M v ^ 2 < v ⬝ᵥ lowSym M *ᵥ v) : F.ok m M = true := by
  by_contra hno
  have hfalse : (F.factor m 0 (Chol.entries M)).1 = false := by
    have : F.ok m M = false := by simpa using hno
    exact this
  obtain ⟨k, hk, hok, hpiv⟩ := ffactor_fail m 0 _ hfalse
  rw [zero_add] at hpiv
  set A := Chol.entries M with hA
  have he := loss_nonneg hu h1
  obtain ⟨b1, b2, b3⟩ := block_factor hu h1 hF A hk.le hok
  have key := ffactor_err hu (u_lt_one hu h1) hF k 0 A hok
  set L := (F.factor k 0 A).2 with hL
  set R := Chol.low k L with hR
  have hLk : L k k = A k k := ffactor_right k 0 A k (by omega)
  have hMk : A k k = M ⟨k, hk⟩ ⟨k, hk⟩ := by simp [hA, Chol.entries, hk]
  -- the diagonal entry is positive
  have hdiag : 0 < A k k := by
    have := hdef (Pi.single ⟨k, hk⟩ 1) (fun h => by have := congrFun h ⟨k, hk⟩; simp at this)
    rw [mulVec_single_one, single_one_dotProduct, col_apply] at this
    have e : lowSym M ⟨k, hk⟩ ⟨k, hk⟩ = A k k := by rw [hMk]; simp [lowSym]
    rw [e] at this
    refine lt_of_le_of_lt ?_ this
    unfold marginLoss
    positivity
  -- the vector
  set c : Fin k → ℝ := fun l => L k l with hc
  set w : Fin k → ℝ := fun i => Chol.bwd k L (fun l => L k l) k i with hw
  have hd : ∀ j < k, L j j ≠ 0 := fun j hj => (key j j (Nat.zero_le _) (by omega) le_rfl).1.ne'
  have hwc : Rᵀ *ᵥ w = c := Chol.lowT_mulVec k L (fun l => L k l) hd
  have hal : A k k ≤ (1 + loss u m) * (c ⬝ᵥ c) := by
    have h := acc_err hu hF (L k k) (Floats.products k (L k) (L k))
    rw [sum_products, abs_products] at h
    have hp : F.acc (L k k) (Floats.products k (L k) (L k)) ≤ 0 := hpiv
    have ecc : c ⬝ᵥ c = ∑ l ∈ range k, L k l * L k l := by
      rw [← Fin.sum_univ_eq_sum_range (fun l => L k l * L k l) k]; rfl
    have eabs : ∑ l ∈ range k, |L k l * L k l| = c ⬝ᵥ c := by
      rw [ecc]; exact sum_congr rfl fun l _ => abs_mul_self _
    rw [eabs, ← ecc, hLk, abs_of_pos hdiag] at h
    rw [hLk] at hp
    have hlen : (Floats.products k (L k) (L k)).length + 1 ≤ m + 2 := by simp [Floats.products]; omega
    have hpow : (1 + u) ^ ((Floats.products k (L k) (L k)).length + 1) - 1 ≤ unit u m := by
      have := pow_le_pow_right₀ (show (1 : ℝ) ≤ 1 + u by linarith) hlen
      unfold unit; linarith
    have hcc : 0 ≤ c ⬝ᵥ c := sum_nonneg fun _ _ => mul_self_nonneg _
    have h2 := h.trans (mul_le_mul_of_nonneg_right hpow (by linarith))
    have h3 := (abs_le.mp h2).1
    have e : 1 + loss u m = (1 + unit u m) / (1 - unit u m) := by
      unfold loss
      rw [eq_div_iff (by linarith), add_mul, div_mul_cancel₀ _ (by linarith)]
      ring
    rw [e, div_mul_eq_mul_div, le_div_iff₀ (by linarith)]
    linarith
  have ha : ∀ i : Fin k, |A k i - (R *ᵥ c) i| ≤ loss u m * ∑ l : Fin k, |R i l| * |c l| := by
    intro i
    have h := (key k i (Nat.zero_le _) (by omega) i.isLt.le).2
    have sub : ∀ (w : ℝ → ℝ), w 0 = 0 → ∑ l : Fin k, w (R i l * c l) = ∑ l ∈ range (i + 1), w (L k l * L i l) := by
      intro w h0
      rw [← Chol.sum_fin_le k (fun l => w (L k l * L i l)) i.isLt]
      refine sum_congr rfl fun l _ => ?_
      simp only [hR, hc, Chol.low, of_apply]
      split
      · rw [mul_comm]
      · rw [zero_mul, h0]
    have e1 : (R *ᵥ c) i = ∑ l ∈ range (i + 1), L k l * L i l := sub id rfl
    have e2 : ∑ l : Fin k, |R i l| * |c l| = ∑ l ∈ range (i + 1), |L k l * L i l| := by
      rw [← sub abs abs_zero]
      exact sum_congr rfl fun _ _ => (abs_mul _ _).symm
    rw [e1, e2]
    refine close_err hu h1 (by omega) h (abs_sum_le_sum_abs _ _) ?_ (sum_nonneg fun _ _ => abs_nonneg _)
    rw [sum_range_succ]
    linarith [abs_nonneg (L k i * L i i)]
  set A' : Matrix (Fin k) (Fin k) ℝ := lowSym (Matrix.of fun i j : Fin k => A i j) with hA'
  have hA'd : ∀ i, A' i i = A i i := fun i => by simp [hA', lowSym]
  have hform := margin_form (a := fun i : Fin k => A k i) (al := A k k) he b3 (fun i => by rw [hA'd]; exact b2 i) ha hdiag hal hwc
  -- the same numbers as a form of the whole matrix
  set V : ℕ → ℝ := fun i => if h : i < k then -w ⟨i, h⟩ else if i = k then 1 else 0 with hV
  have hV1 : ∀ i : Fin k, V i = -w i := fun i => by simp [hV]
  have hV2 : V k = 1 := by simp [hV]
  have hV3 : ∀ i, k < i → V i = 0 := fun i hi => by
    have h1 : ¬ i < k := by omega
    have h2 : i ≠ k := by omega
    simp [hV, h1, h2]
  set B : ℕ → ℕ → ℝ := Chol.entries (lowSym M) with hB
  have hBM : ∀ i j : Fin m, B i j = lowSym M i j := fun i j => by simp [hB, Chol.entries]
  have hBkk : B k k = A k k := by rw [hMk]; simp [hB, Chol.entries, hk, lowSym]
  have hBl : ∀ i : Fin k, B i k = A k i := fun i => by
    have h1 : (i : ℕ) < m := by omega
    have h2 : ¬ (⟨k, hk⟩ : Fin m) ≤ ⟨i, h1⟩ := by simp
    simp [hB, hA, Chol.entries, hk, h1, lowSym]
  have hBr : ∀ i : Fin k, B k i = A k i := fun i => by
    have h1 : (i : ℕ) < m := by omega
    have h2 : (⟨i, h1⟩ : Fin m) ≤ ⟨k, hk⟩ := by simp [Fin.le_def]
    simp [hB, hA, Chol.entries, hk, h1, lowSym, h2]
  have hBi : ∀ i j : Fin k, B i j = A' i j := fun i j => by
    have h1 : (i : ℕ) < m := by omega
    have h2 : (j : ℕ) < m := by omega
    simp [hB, hA', hA, Chol.entries, h1, h2, lowSym]
  set v : Fin m → ℝ := fun i => V i with hv
  have hv0 : v ≠ 0 := fun h => by
    have := congrFun h ⟨k, hk⟩
    simp only [hv, hV2] at this
    exact one_ne_zero this
  have q1 : v ⬝ᵥ lowSym M *ᵥ v = ∑ i : Fin m, V i * ∑ j : Fin m, B i j * V j := by
    simp only [dotProduct, mulVec, hBM]
    rfl
  have inner : ∀ i : ℕ, ∑ j : Fin m, B i j * V j = ∑ j : Fin k, B i j * V j + B i k * V k := fun i =>
    sum_upto hk (fun j => B i j * V j) fun j hj => by rw [hV3 j hj, mul_zero]
  have q2 : v ⬝ᵥ lowSym M *ᵥ v = A k k - 2 * (w ⬝ᵥ fun i : Fin k => A k i) + w ⬝ᵥ A' *ᵥ w := by
    rw [q1, sum_upto hk (fun i => V i * ∑ j : Fin m, B i j * V j) fun i hi => by rw [hV3 i hi, zero_mul]]
    simp only [inner, hV1, hV2, hBi, hBl, hBr, hBkk]
    simp only [dotProduct, mulVec, mul_neg, sum_neg_distrib, mul_add, sum_add_distrib, mul_one, neg_mul, neg_neg, one_mul]
    have : ∑ i : Fin k, A k i * w i = ∑ i : Fin k, w i * A k i := sum_congr rfl fun _ _ => mul_comm _ _
    rw [this]
    ring
  have n1 : scaledNorm M v = Real.sqrt (A k k) + ∑ i : Fin k, Real.sqrt (A' i i) * |w i| := by
    have e : scaledNorm M v = ∑ i : Fin m, Real.sqrt (A i i) * |V i| := by
      unfold scaledNorm
      refine sum_congr rfl fun i _ => ?_
      rw [show A i i = M i i by simp [hA, Chol.entries]]
    rw [e, sum_upto hk (fun i => Real.sqrt (A i i) * |V i|) fun i hi => by rw [hV3 i hi, abs_zero, mul_zero]]
    simp only [hV1, hV2, abs_neg, abs_one, mul_one, hA'd]
    ring
  have := hdef v hv0
  rw [q2, n1] at this
  unfold marginLoss at this
  linarith

/-- **C111, success by the curvature.**  It is enough that the smallest curvature exceeds the sum of the diagonal times `5 (m + 2)`
roundings. -/
theorem C111_success_trace (hu : 0 ≤ u) (h1 : unit u m < 1) (hF : Accurate u fl F) (M : Matrix (Fin m) (Fin m) ℝ) {mu : ℝ}
    (hmu : ∀ v, mu * (v ⬝ᵥ v) ≤ v ⬝ᵥ lowSym M *ᵥ v) (h : marginLoss u m * M.trace < mu) (hd : ∀ i, 0 ≤ M i i) :
    F.ok m M = true := by
  refine C111_success hu h1 hF M fun v hv => lt_of_lt_of_le ?_ (hmu v)
  have hml : 0 ≤ marginLoss u m := by
    have := loss_nonneg hu h1
    unfold marginLoss
    positivity
  have cs := sum_mul_sq_le_sq_mul_sq univ (fun i => Real.sqrt (M i i)) (fun i => |v i|)
  have e1 : ∑ i, Real.sqrt (M i i) ^ 2 = M.trace := sum_congr rfl fun i _ => Real.sq_sqrt (hd i)
  have e2 : ∑ i, |v i| ^ 2 = v ⬝ᵥ v := sum_congr rfl fun i _ => by rw [sq_abs, pow_two]
  rw [e1, e2] at cs
  have hpos : 0 < v ⬝ᵥ v := by
    refine lt_of_le_of_ne (sum_nonneg fun i _ => mul_self_nonneg _) fun h0 => hv ?_
    funext i
    have := (sum_eq_zero_iff_of_nonneg fun i _ => mul_self_nonneg (v i)).mp h0.symm i (mem_univ i)
    simpa using this
  calc marginLoss u m * scaledNorm M v ^ 2 ≤ marginLoss u m * (M.trace * (v ⬝ᵥ v)) := mul_le_mul_of_nonneg_left cs hml
    _ = marginLoss u m * M.trace * (v ⬝ᵥ v) := by ring
    _ < mu * (v ⬝ᵥ v) := mul_lt_mul_of_pos_right h hpos

/-- **C111, the residual.**  When the factorization succeeds, the number the solution leaves in equation `i` is small against
the sizes of the terms of that equation, measured by the diagonal of the matrix.  This holds however ill-conditioned the matrix
is and whatever the order of the additions. -/
theorem C111_residual (hu : 0 ≤ u) (h1 : unit u m < 1) (hF : Accurate u fl F) (M : Matrix (Fin m) (Fin m) ℝ)
    (b : Fin m → ℝ) (hok : F.ok m M = true) (i : Fin m) :
    |b i - (lowSym M *ᵥ F.solve m M b) i| ≤
      factorLoss u m * (Real.sqrt (M i i) * scaledNorm M (F.solve m M b)) := by
  unfold scaledNorm
  obtain ⟨c1, c2, c3⟩ := C111_factor hu h1 hF M hok
  have he := loss_nonneg hu h1
  set R := roundedFactor F M with hR
  set L := (F.factor m 0 (Chol.entries M)).2 with hL
  have hd : ∀ k < m, L k k ≠ 0 := fun k hk => by
    have := c1 ⟨k, hk⟩
    rw [hR, roundedFactor, Chol.low, of_apply, if_pos le_rfl] at this
    exact this.ne'
  set y := F.fwd L (Chol.coords b) m with hy
  have sub : ∀ (w : ℝ → ℝ), w 0 = 0 → ∀ i : Fin m, ∑ l : Fin m, w (R i l * y l) = ∑ l ∈ range (i + 1), w (L i l * y l) := by
    intro w h0 i
    rw [← Chol.sum_fin_le m (fun l => w (L i l * y l)) i.isLt]
    refine sum_congr rfl fun l _ => ?_
    simp only [hR, roundedFactor, Chol.low, of_apply]
    split
    · rfl
    · rw [zero_mul, h0]
  have hfwd : ∀ i, |b i - (R *ᵥ fun l : Fin m => y l) i| ≤ loss u m * ∑ l : Fin m, |R i l| * |y l| := by
    intro i
    have h := (ffwd_err hu hF L (Chol.coords b) m hd).1 i i.isLt
    rw [show Chol.coords b i = b i by simp [Chol.coords], ← hy] at h
    have e1 : (R *ᵥ fun l : Fin m => y l) i = ∑ l ∈ range (i + 1), L i l * y l := sub id rfl i
    have e2 : ∑ l : Fin m, |R i l| * |y l| = ∑ l ∈ range (i + 1), |L i l * y l| := by
      rw [← sub abs abs_zero i]
      exact sum_congr rfl fun _ _ => (abs_mul _ _).symm
    rw [e1, e2]
    refine close_err hu h1 (by omega) h (abs_sum_le_sum_abs _ _) ?_ (sum_nonneg fun _ _ => abs_nonneg _)
    rw [sum_range_succ]
    linarith [abs_nonneg (L i i * y i)]
  have subT : ∀ (w : ℝ → ℝ), w 0 = 0 → ∀ i : Fin m, ∑ l : Fin m, w (R l i * F.solve m M b l)
      = ∑ l ∈ Ico (i : ℕ) m, w (L l i * F.bwd m L y m l) := by
    intro w h0 i
    have e : Ico (i : ℕ) m = (range m).filter fun l => (i : ℕ) ≤ l := by
      ext l
      simp only [mem_Ico, mem_filter, mem_range]
      omega
    rw [e, sum_filter, ← Fin.sum_univ_eq_sum_range (fun l => if (i : ℕ) ≤ l then w (L l i * F.bwd m L y m l) else 0) m]
    refine sum_congr rfl fun l _ => ?_
    simp only [hR, roundedFactor, Chol.low, of_apply, Floats.solve]
    split
    · rfl
    · rw [zero_mul, h0]
  have hbwd : ∀ i : Fin m, |y i - (Rᵀ *ᵥ F.solve m M b) i| ≤ loss u m * ∑ l : Fin m, |R l i| * |F.solve m M b l| := by
    intro i
    have h := (fbwd_err hu hF m L y m le_rfl hd).1 i (by omega) i.isLt
    have e1 : (Rᵀ *ᵥ F.solve m M b) i = ∑ l ∈ Ico (i : ℕ) m, L l i * F.bwd m L y m l := subT id rfl i
    have e2 : ∑ l : Fin m, |R l i| * |F.solve m M b l| = ∑ l ∈ Ico (i : ℕ) m, |L l i * F.bwd m L y m l| := by
      rw [← subT abs abs_zero i]
      exact sum_congr rfl fun _ _ => (abs_mul _ _).symm
    rw [e1, e2]
    refine close_err hu h1 le_rfl h (abs_sum_le_sum_abs _ _) ?_ (sum_nonneg fun _ _ => abs_nonneg _)
    rw [sum_eq_sum_Ico_succ_bot i.isLt]
    linarith [abs_nonneg (L i i * F.bwd m L y m i)]
  refine (residual_rows he c3 hfwd hbwd i).trans ?_
  unfold factorLoss
  rw [mul_assoc (loss u m * (3 + loss u m))]
  refine mul_le_mul_of_nonneg_left ?_ (mul_nonneg he (by linarith))
  rw [← mul_assoc, mul_sum]
  refine sum_le_sum fun j _ => ?_
  have hs : absRows R i j ≤ (1 + loss u m) * (Real.sqrt (M i i) * Real.sqrt (M j j)) := absRows_diag he c2 i j
  have := mul_le_mul_of_nonneg_right hs (abs_nonneg (F.solve m M b j))
  linarith

end solve

/-! ### Without rounding -/

theorem exact_accurate : Accurate 0 id Floats.exact where
  rounds x := by simp
  acc a l := by
    refine ⟨l.foldl (fun t q => .add t (.term q.1 q.2 true)) (.start a), ?_⟩
    have h : ∀ (l : List (ℝ × ℝ)) (t : Arrangement), (l.foldl (fun t q => Arrangement.add t (.term q.1 q.2 true)) t).starts = t.starts ∧
        (l.foldl (fun t q => Arrangement.add t (.term q.1 q.2 true)) t).terms = t.terms ++ l ∧
        (l.foldl (fun t q => Arrangement.add t (.term q.1 q.2 true)) t).eval id = t.eval id - (l.map fun q => q.1 * q.2).sum := by
      intro l
      induction l with
      | nil => intro t; simp
      | cons q l ih =>
        intro t
        obtain ⟨i1, i2, i3⟩ := ih (.add t (.term q.1 q.2 true))
        refine ⟨by rw [List.foldl_cons, i1]; simp [Arrangement.starts], by rw [List.foldl_cons, i2]; simp [Arrangement.terms], ?_⟩
        rw [List.foldl_cons, i3]
        simp only [Arrangement.eval, id, List.map_cons, List.sum_cons, if_true]
        ring
    obtain ⟨h1, h2, h3⟩ := h l (.start a)
    exact ⟨h1, by rw [h2]; simp [Arrangement.terms], by rw [h3]; rfl⟩
  quot s d := .inl rfl
  root p := rfl

theorem exact_factor (c : ℕ) : ∀ (k : ℕ) (A : ℕ → ℕ → ℝ), Floats.exact.factor c k A = Chol.factor c k A := by
  have hp : ∀ k A, Floats.exact.pivot k A = Chol.pivot k A := fun k A => by
    show A k k - ((Floats.products k (A k) (A k)).map fun q => q.1 * q.2).sum = _
    rw [sum_products]; rfl
  have hcol : ∀ k A, Floats.exact.column k A = Chol.column k A := fun k A => by
    funext i j
    unfold Floats.column Chol.column
    rw [hp]
    show (if j = k then if i = k then Real.sqrt _ else if k < i then
      (A i k - ((Floats.products k (A i) (A k)).map fun q => q.1 * q.2).sum) / Real.sqrt _ else _ else _) = _
    rw [sum_products]
  induction c with
  | zero => intro k A; rfl
  | succ c ih =>
    intro k A
    rw [Floats.factor, Chol.factor, hp, hcol, ih]

theorem exact_solve {m : ℕ} (M : Matrix (Fin m) (Fin m) ℝ) (b : Fin m → ℝ) : Floats.exact.solve m M b = Chol.solve m M b := by
  have hf : ∀ (L : ℕ → ℕ → ℝ) (b : ℕ → ℝ) (i : ℕ), Floats.exact.fwd L b i = Chol.fwd L b i := by
    intro L b i
    induction i with
    | zero => rfl
    | succ i ih =>
      rw [Floats.fwd, Chol.fwd, ih]
      have e : Floats.exact.quot (Floats.exact.acc (Chol.fwd L b i i) (Floats.products i (L i) (Chol.fwd L b i))) (L i i)
          = (Chol.fwd L b i i - ∑ l ∈ range i, L i l * Chol.fwd L b i l) / L i i := by
        rw [← sum_products]; rfl
      rw [e]
  have hb : ∀ (L : ℕ → ℕ → ℝ) (y : ℕ → ℝ) (i : ℕ), i ≤ m → Floats.exact.bwd m L y i = Chol.bwd m L y i := by
    intro L y i
    induction i with
    | zero => intro _; rfl
    | succ i ih =>
      intro hi
      rw [Floats.bwd, Chol.bwd, ih (by omega)]
      have e := sum_range'_products (fun l => L l (m - (i + 1))) (Chol.bwd m L y i) (m - (i + 1) + 1) (m - (m - (i + 1) + 1)) id
      rw [show m - (i + 1) + 1 + (m - (m - (i + 1) + 1)) = m by omega] at e
      simp only [id] at e
      simp only [Floats.exact]
      rw [e]
  funext i
  unfold Floats.solve Chol.solve
  rw [exact_factor]
  show Floats.exact.bwd m (Chol.factor m 0 (Chol.entries M)).2 (Floats.exact.fwd (Chol.factor m 0 (Chol.entries M)).2 (Chol.coords b) m) m i = _
  rw [hf]
  exact congrFun (hb _ _ m le_rfl) i

/-- **C111 without rounding** is the routine of the other properties. -/
theorem C111_exact {n m : ℕ} : Floats.exact.routine (n := n) (m := m) = exactRoutine := by
  funext e
  unfold Floats.routine exactRoutine
  have h1 : Floats.exact.ok m e.dudu = lltOk m e.dudu := by
    rw [← Chol.chol_ok]
    unfold Floats.ok Chol.ok
    rw [exact_factor]
  rw [h1]
  by_cases h : lltOk m e.dudu = true
  · rw [if_pos h, if_pos h]
    have hc : Chol.ok m e.dudu = true := by rw [Chol.chol_ok]; exact h
    simp only [exact_solve, Chol.chol_solve m e.dudu _ hc]
  · rw [if_neg h, if_neg h]

/-! ### The gains -/

section gains
variable {u : ℝ} {fl : ℝ → ℝ} {F : Floats} {n m : ℕ} {p : DynProblem n m ℝ} {rho : ℝ} {kd r : ℕ → KP n m ℝ}

/-- What a finished sweep with this routine holds. -/
theorem swept_rounded (h : Swept F.routine p rho kd r) {k : ℕ} (hk : k < p.N) :
    F.ok m (quuReg r rho k) = true ∧ lowSym (quuReg r rho k) = quuReg r rho k ∧
    (∀ i j, (r k).gain i j = -(F.solve m (quuReg r rho k) (fun l => (r k).q.dxdu j l) i)) ∧
    (r k).ff = -(F.solve m (quuReg r rho k) (r k).q.du) := by
  obtain ⟨t1, -, -, -, t5⟩ := treated_by (h.complete.done k hk)
  have hsym := (swept_symm h).2 k hk
  have hq : (((kd k).actionValue (r (k + 1))).regularize rho).qreg = { (r k).q with dudu := quuReg r rho k } := by
    unfold quuReg
    rw [t1]; rfl
  rw [hq] at t5
  unfold Floats.routine at t5
  have hs : (quuReg r rho k).IsSymm := by
    unfold quuReg
    refine hsym.add ?_
    unfold IsSymm
    rw [transpose_smul, transpose_one]
  by_cases hok : F.ok m (quuReg r rho k) = true
  · rw [if_pos hok] at t5
    have := Prod.ext_iff.mp (Option.some.inj t5)
    refine ⟨hok, lowSym_of_symm hs, fun i j => ?_, this.2.symm⟩
    exact (congrFun (congrFun this.1 i) j).symm
  · rw [if_neg hok] at t5
    cases t5

/-- **C111, the gains.**  In every sweep that got through, the slope of the action value at the control the policy asks for is
`-rho` times that control, as without rounding, up to a relative error of the size of `7 (m + 2)` roundings; the same holds for
the part that comes from the feedback gain. -/
theorem C111_gains (hu : 0 ≤ u) (h1 : unit u m < 1) (hF : Accurate u fl F) (h : Swept F.routine p rho kd r) {k : ℕ} (hk : k < p.N)
    (δx : Fin n → ℝ) (i : Fin m) :
    |slope r k δx i + rho * asked r k δx i| ≤ slopeError u r rho k δx i ∧
    |feedbackSlope r k δx i + rho * ((r k).gain *ᵥ δx) i| ≤ slopeError u r rho k δx i := by
  obtain ⟨hok, hlow, hG, hf⟩ := swept_rounded h hk
  set Q := quuReg r rho k with hQ
  set G := (r k).gain with hGd
  have hQe : ∀ z : Fin m → ℝ, (Q *ᵥ z) i = ((r k).q.dudu *ᵥ z) i + rho * z i := fun z => by
    rw [hQ, quuReg, add_mulVec, smul_mulVec, one_mulVec]; rfl
  have bf : |(r k).q.du i + (Q *ᵥ (r k).ff) i| ≤ factorLoss u m * (Real.sqrt (Q i i) * ∑ l, Real.sqrt (Q l l) * |(r k).ff l|) := by
    have := C111_residual hu h1 hF Q (r k).q.du hok i
    rw [hlow] at this
    rw [hf, mulVec_neg]
    simpa only [Pi.neg_apply, abs_neg, ← sub_eq_add_neg, scaledNorm] using this
  have bG : ∀ j, |(r k).q.dxdu j i + (Q *ᵥ fun l => G l j) i| ≤
      factorLoss u m * (Real.sqrt (Q i i) * ∑ l, Real.sqrt (Q l l) * |G l j|) := fun j => by
    have := C111_residual hu h1 hF Q (fun l => (r k).q.dxdu j l) hok i
    rw [hlow] at this
    have e : (fun l => G l j) = -(F.solve m Q fun l => (r k).q.dxdu j l) := funext fun l => hG l j
    have e' : ∀ l, |G l j| = |F.solve m Q (fun l => (r k).q.dxdu j l) l| := fun l => by rw [hG, abs_neg]
    simp only [e']
    rw [e, mulVec_neg]
    simpa only [Pi.neg_apply, ← sub_eq_add_neg, scaledNorm] using this
  have hloss : 0 ≤ factorLoss u m := by
    have := loss_nonneg hu h1
    unfold factorLoss
    positivity
  have efb : feedbackSlope r k δx i + rho * (G *ᵥ δx) i = ∑ j, ((r k).q.dxdu j i + (Q *ᵥ fun l => G l j) i) * δx j := by
    have a1 : ((r k).q.dxduᵀ *ᵥ δx) i = ∑ j, (r k).q.dxdu j i * δx j := rfl
    have a2 : (Q *ᵥ (G *ᵥ δx)) i = ∑ j, (Q *ᵥ fun l => G l j) i * δx j := by
      rw [mulVec_mulVec]; rfl
    have : feedbackSlope r k δx i + rho * (G *ᵥ δx) i = ((r k).q.dxduᵀ *ᵥ δx) i + (Q *ᵥ (G *ᵥ δx)) i := by
      rw [hQe]; unfold feedbackSlope; simp only [Pi.add_apply]; ring
    rw [this, a1, a2, ← sum_add_distrib]
    exact sum_congr rfl fun j _ => by ring
  have esl : slope r k δx i + rho * asked r k δx i = (feedbackSlope r k δx i + rho * (G *ᵥ δx) i)
      + ((r k).q.du i + (Q *ᵥ (r k).ff) i) := by
    rw [hQe]; unfold slope feedbackSlope asked; simp only [mulVec_add, Pi.add_apply]; ring
  have bfb : |feedbackSlope r k δx i + rho * (G *ᵥ δx) i| ≤
      factorLoss u m * (Real.sqrt (Q i i) * ∑ l, Real.sqrt (Q l l) * ∑ j, |G l j| * |δx j|) := by
    rw [efb]
    refine (abs_sum_le_sum_abs _ _).trans ?_
    have e : factorLoss u m * (Real.sqrt (Q i i) * ∑ l, Real.sqrt (Q l l) * ∑ j, |G l j| * |δx j|)
        = ∑ j, factorLoss u m * (Real.sqrt (Q i i) * ∑ l, Real.sqrt (Q l l) * |G l j|) * |δx j| := by
      simp only [mul_sum, sum_mul]
      rw [sum_comm]
      exact sum_congr rfl fun j _ => sum_congr rfl fun l _ => by ring
    rw [e]
    refine sum_le_sum fun j _ => ?_
    rw [abs_mul]
    exact mul_le_mul_of_nonneg_right (bG j) (abs_nonneg _)
  have split : slopeError u r rho k δx i = factorLoss u m * (Real.sqrt (Q i i) * ∑ l, Real.sqrt (Q l l) * ∑ j, |G l j| * |δx j|)
      + factorLoss u m * (Real.sqrt (Q i i) * ∑ l, Real.sqrt (Q l l) * |(r k).ff l|) := by
    unfold slopeError scaledNorm askedSize
    rw [← mul_add, ← mul_add, ← sum_add_distrib]
    congr 2
    refine sum_congr rfl fun l _ => ?_
    rw [abs_of_nonneg (add_nonneg (sum_nonneg fun _ _ => mul_nonneg (abs_nonneg _) (abs_nonneg _)) (abs_nonneg _))]
    ring
  have hn : 0 ≤ factorLoss u m * (Real.sqrt (Q i i) * ∑ l, Real.sqrt (Q l l) * |(r k).ff l|) :=
    mul_nonneg hloss (mul_nonneg (Real.sqrt_nonneg _) (sum_nonneg fun _ _ => mul_nonneg (Real.sqrt_nonneg _) (abs_nonneg _)))
  rw [split]
  refine ⟨?_, by linarith⟩
  rw [esl]
  exact (abs_add_le _ _).trans (add_le_add bfb bf)

/-- **C111, the policy.**  On the expansions, the policy costs at most as much as any other controls plus the squares of the
regularization and of the rounding errors over twice the curvature. -/
theorem C111_near_optimal (hu : 0 ≤ u) (h1 : unit u m < 1) (hF : Accurate u fl F) (h : Swept F.routine p rho kd r) {mu : ℝ}
    (hmu : 0 < mu) (hcurv : ∀ k < p.N, ∀ z, mu * (z ⬝ᵥ z) ≤ z ⬝ᵥ (r k).q.dudu *ᵥ z)
    (δ δ' : ℕ → Fin n → ℝ) (v v' : ℕ → Fin m → ℝ) (hl : Linearised p.N kd δ v) (ho : Obeys p.N r 1 δ v)
    (hl' : Linearised p.N kd δ' v') (h0 : δ' 0 = δ 0) :
    modelChange p.N kd δ v ≤ modelChange p.N kd δ' v'
      + ∑ k ∈ range p.N, (∑ i, (|rho * asked r k (δ' k) i| + slopeError u r rho k (δ' k) i) ^ 2) / (2 * mu) := by
  refine (C110_near_optimal h hmu hcurv δ δ' v v' hl ho hl' h0).trans ?_
  have : ∀ k ∈ range p.N, slope r k (δ' k) ⬝ᵥ slope r k (δ' k) / (2 * mu) ≤
      (∑ i, (|rho * asked r k (δ' k) i| + slopeError u r rho k (δ' k) i) ^ 2) / (2 * mu) := by
    intro k hk
    refine div_le_div_of_nonneg_right (sum_le_sum fun i _ => ?_) (by linarith)
    have hs := (C111_gains hu h1 hF h (mem_range.mp hk) (δ' k) i).1
    have : |slope r k (δ' k) i| ≤ |rho * asked r k (δ' k) i| + slopeError u r rho k (δ' k) i := by
      have := abs_sub (slope r k (δ' k) i + rho * asked r k (δ' k) i) (rho * asked r k (δ' k) i)
      rw [add_sub_cancel_right] at this
      linarith
    rw [← pow_two, ← sq_abs]
    exact pow_le_pow_left₀ (abs_nonneg _) this 2
  have := sum_le_sum this
  linarith

/-- **C111 on linear-quadratic problems.**  The candidate of the full step of the line search costs at most as much as any other
trajectory plus the squares of the regularization and of the rounding errors of the gains over twice the curvature. -/
theorem C111_problem (hu : 0 ≤ u) (h1 : unit u m < 1) (hF : Accurate u fl F) {cs : ℕ → ALCost n m ℝ}
    {Z Zbar : Traj (Fin n → ℝ) (Fin m → ℝ) ℝ} (h : Swept F.routine p rho kd r) (hE : ExactExpansion p cs Z kd)
    (hZ : Alternative p Z Z) (ht : SameTimes (kernelBy F.routine p) Zbar Z) {mu : ℝ} (hmu : 0 < mu)
    (hcurv : ∀ k < p.N, ∀ z, mu * (z ⬝ᵥ z) ≤ z ⬝ᵥ (r k).q.dudu *ᵥ z) (Z' : Traj (Fin n → ℝ) (Fin m → ℝ) ℝ)
    (hZ' : Alternative p Z Z') :
    trajCost p cs (candidateTraj (kernelBy F.routine p) r Z Zbar 1) ≤ trajCost p cs Z'
      + ∑ k ∈ range p.N, (∑ i, (|rho * asked r k (Z'.x k - Z.x k) i| + slopeError u r rho k (Z'.x k - Z.x k) i) ^ 2) / (2 * mu) := by
  refine ((C110_problem h hE hZ ht).2 mu hmu hcurv Z' hZ').trans ?_
  have : ∀ k ∈ range p.N, slope r k (Z'.x k - Z.x k) ⬝ᵥ slope r k (Z'.x k - Z.x k) / (2 * mu) ≤
      (∑ i, (|rho * asked r k (Z'.x k - Z.x k) i| + slopeError u r rho k (Z'.x k - Z.x k) i) ^ 2) / (2 * mu) := by
    intro k hk
    refine div_le_div_of_nonneg_right (sum_le_sum fun i _ => ?_) (by linarith)
    have hs := (C111_gains hu h1 hF h (mem_range.mp hk) (Z'.x k - Z.x k) i).1
    have : |slope r k (Z'.x k - Z.x k) i| ≤ |rho * asked r k (Z'.x k - Z.x k) i| + slopeError u r rho k (Z'.x k - Z.x k) i := by
      have := abs_sub (slope r k (Z'.x k - Z.x k) i + rho * asked r k (Z'.x k - Z.x k) i) (rho * asked r k (Z'.x k - Z.x k) i)
      rw [add_sub_cancel_right] at this
      linarith
    rw [← pow_two, ← sq_abs]
    exact pow_le_pow_left₀ (abs_nonneg _) this 2
  have := sum_le_sum this
  linarith

/-- **C111, failures.**  On convex costs a sweep stops at a knot point only if the regularised control Hessian there is so
ill-conditioned that the curvature of the cost is below `5 (m + 2)` roundings of the sum of its diagonal: the errors of the gains
at later knot points cannot make a factorization fail. -/
theorem C111_no_stop (hu : 0 ≤ u) (h1 : unit u m < 1) (hF : Accurate u fl F) {k : ℕ}
    (h : Stopped (kernelBy F.routine p) rho kd r k) (ht : (kd p.N).Sx = (kd p.N).cost.dx ∧ (kd p.N).Sxx = (kd p.N).cost.dxdx)
    (hx : ∀ k ≤ p.N, (kd k).cost.dxdx.IsSymm) (hus : ∀ k < p.N, (kd k).cost.dudu.IsSymm)
    (hc : ∀ k < p.N, ConvexExp (kd k).cost) (hN : PosSemidef (kd p.N).cost.dxdx) (hrho : 0 ≤ rho) {mu : ℝ} (hmu0 : 0 ≤ mu)
    (hmu : ∀ z, mu * (z ⬝ᵥ z) ≤ z ⬝ᵥ (kd k).cost.dudu *ᵥ z) :
    mu + rho ≤ marginLoss u m * (((kd k).actionValue (r (k + 1))).q.dudu + rho • 1).trace := by
  have hk : k < p.N := h.lt
  -- the segments after `k` as a sweep of their own
  have hsw : Swept F.routine { p with N := p.N - (k + 1) } rho (fun j => kd (j + (k + 1))) (fun j => r (j + (k + 1))) := by
    refine ⟨⟨fun j hj => ?_, fun j hj => ?_⟩, ?_, fun j hj => ?_, fun j hj => ?_⟩
    · have hj : p.N - (k + 1) ≤ j := hj
      exact h.keeps _ (show p.N ≤ j + (k + 1) by omega)
    · have hj : j < p.N - (k + 1) := hj
      have := h.done (j + (k + 1)) (by omega) (show j + (k + 1) < p.N by omega)
      unfold Treated at this ⊢
      rw [show j + (k + 1) + 1 = j + 1 + (k + 1) by ring] at this
      exact this
    · show (kd (p.N - (k + 1) + (k + 1))).Sx = _ ∧ _
      rw [show p.N - (k + 1) + (k + 1) = p.N by omega]
      exact ht
    · have hj : j ≤ p.N - (k + 1) := hj
      exact hx _ (by omega)
    · have hj : j < p.N - (k + 1) := hj
      exact hus _ (by omega)
  have hpsd := (C110_convex hsw (fun j hj => by
    have hj : j < p.N - (k + 1) := hj
    exact hc _ (by omega)) (by
    show PosSemidef (kd (p.N - (k + 1) + (k + 1))).cost.dxdx
    rw [show p.N - (k + 1) + (k + 1) = p.N by omega]
    exact hN)).1 0 (Nat.zero_le _)
  have hsymS := (swept_symm hsw).1 0 (Nat.zero_le _)
  simp only [zero_add] at hpsd hsymS
  set Q := ((kd k).actionValue (r (k + 1))).q.dudu with hQ
  have hfail : F.ok m (Q + rho • 1) ≠ true := by
    intro hok
    have := h.fails
    change (KP.gainsBy F.routine (((kd k).actionValue (r (k + 1))).regularize rho)).2 = false at this
    unfold KP.gainsBy Floats.routine at this
    have e : (((kd k).actionValue (r (k + 1))).regularize rho).qreg.dudu = Q + rho • 1 := rfl
    rw [e, if_pos hok] at this
    cases this
  have hsym : (Q + rho • 1).IsSymm := by
    refine IsSymm.add ?_ ?_
    · exact (hus k hk).add (symm_sandwich hsymS _)
    · unfold IsSymm
      rw [transpose_smul, transpose_one]
  have hform : ∀ z, (mu + rho) * (z ⬝ᵥ z) ≤ z ⬝ᵥ (Q + rho • 1) *ᵥ z := by
    intro z
    have h2 := hpsd ((kd k).B *ᵥ z)
    have h3 := hmu z
    have e : z ⬝ᵥ Q *ᵥ z = z ⬝ᵥ (kd k).cost.dudu *ᵥ z + ((kd k).B *ᵥ z) ⬝ᵥ (r (k + 1)).Sxx *ᵥ ((kd k).B *ᵥ z) := by
      rw [hQ]
      simp only [KP.actionValue, add_mulVec, dotProduct_add, dot_tmul]
    rw [add_mulVec, dotProduct_add, e, smul_mulVec, one_mulVec, dotProduct_smul, smul_eq_mul]
    linarith
  by_contra hlt
  refine hfail (C111_success_trace hu h1 hF _ (mu := mu + rho) (fun v => ?_) (not_le.mp hlt) fun i => ?_)
  · rw [lowSym_of_symm hsym]
    exact hform v
  · have := hform (Pi.single i 1)
    rw [mulVec_single_one, single_one_dotProduct, single_one_dotProduct, col_apply, Pi.single_eq_same] at this
    linarith

end gains

/-- The factor of the bound, for the sizes that occur: at most `7 (m + 2) u`. -/
theorem C111_size {u : ℝ} (hu : 0 ≤ u) (m : ℕ) (h : ((m : ℝ) + 2) * u ≤ 1 / 100) :
    unit u m < 1 ∧ factorLoss u m ≤ 7 * (((m : ℝ) + 2) * u) ∧ marginLoss u m ≤ 5 * (((m : ℝ) + 2) * u) := by
  set t := ((m : ℝ) + 2) * u with ht
  have ht0 : 0 ≤ t := by positivity
  have hpow : (1 + u) ^ (m + 2) * (1 - t) ≤ 1 := by
    have hb : 1 - t ≤ (1 - u) ^ (m + 2) := by
      have hm : (2 : ℝ) ≤ (m : ℝ) + 2 := by linarith [Nat.cast_nonneg (α := ℝ) m]
      have hu' : u ≤ 1 / 100 := by nlinarith
      have := one_add_mul_le_pow (show (-2 : ℝ) ≤ -u by linarith) (m + 2)
      push_cast at this
      rw [ht, sub_eq_add_neg 1 u]
      linarith
    have hm : (2 : ℝ) ≤ (m : ℝ) + 2 := by linarith [Nat.cast_nonneg (α := ℝ) m]
    have hu' : u ≤ 1 / 100 := by nlinarith
    calc (1 + u) ^ (m + 2) * (1 - t) ≤ (1 + u) ^ (m + 2) * (1 - u) ^ (m + 2) :=
          mul_le_mul_of_nonneg_left hb (by positivity)
      _ = (1 - u * u) ^ (m + 2) := by rw [← mul_pow]; ring
      _ ≤ 1 := pow_le_one₀ (by nlinarith) (by nlinarith)
  have hg0 := unit_nonneg hu m
  have hg : unit u m ≤ 100 / 99 * t := by
    have : unit u m * (1 - t) ≤ t := by unfold unit; linarith
    nlinarith
  have hg1 : unit u m < 1 := by linarith
  refine ⟨hg1, ?_⟩
  have hl0 := loss_nonneg hu hg1
  have hl : loss u m ≤ 205 / 100 * t := by
    unfold loss
    rw [div_le_iff₀ (by linarith)]
    nlinarith
  have hl' : loss u m ≤ 205 / 10000 := by linarith
  constructor
  · unfold factorLoss
    have h3 : (3 + loss u m) * (1 + loss u m) ≤ 31 / 10 := by nlinarith
    rw [mul_assoc]
    nlinarith
  · unfold marginLoss
    have h3 : (1 + 2 * loss u m) * (1 + loss u m) ≤ 11 / 10 := by nlinarith
    rw [mul_assoc]
    nlinarith

/-! ### Arithmetic with 53 bits -/

/-- The nearest number with 53 bits is within `2^-53` in relative terms. -/
theorem nearest53_rounds (x : ℝ) : |nearest53 x - x| ≤ (2 : ℝ) ^ (-53 : ℤ) * |x| := by
  by_cases h : x = 0
  · subst h; simp [nearest53]
  have hx : 0 < |x| := abs_pos.mpr h
  set e := Int.log 2 |x| with he
  have h2 : (0 : ℝ) < 2 ^ (e - 52) := zpow_pos (by norm_num) _
  have hr := abs_sub_round (x / (2 : ℝ) ^ (e - 52))
  have hlog : (2 : ℝ) ^ e ≤ |x| := by
    have := Int.zpow_log_le_self (b := 2) (by norm_num) hx
    exact_mod_cast this
  have e1 : nearest53 x - x = -((x / 2 ^ (e - 52) - round (x / 2 ^ (e - 52))) * 2 ^ (e - 52)) := by
    unfold nearest53
    rw [← he, sub_mul, div_mul_cancel₀ _ h2.ne']; ring
  rw [e1, abs_neg, abs_mul, abs_of_pos h2]
  have e2 : (2 : ℝ) ^ (e - 52) = 2 ^ (-53 : ℤ) * 2 ^ e * 2 := by
    rw [← zpow_add₀ (by norm_num), ← zpow_add_one₀ (by norm_num)]; congr 1; ring
  have h3 : (0 : ℝ) < 2 ^ (-53 : ℤ) := by positivity
  have h4 := mul_le_mul_of_nonneg_right hr h2.le
  have h5 := mul_le_mul_of_nonneg_left hlog h3.le
  rw [e2] at h4 ⊢
  linarith

/-- Sums from left to right in this arithmetic are accurate. -/
theorem leftToRight_accurate : Accurate ((2 : ℝ) ^ (-53 : ℤ)) nearest53 leftToRight where
  rounds := nearest53_rounds
  acc a l := by
    refine ⟨l.foldl (fun t q => .add t (.term q.1 q.2 false)) (.start a), ?_⟩
    have h : ∀ (l : List (ℝ × ℝ)) (t : Arrangement), (l.foldl (fun t q => Arrangement.add t (.term q.1 q.2 false)) t).starts = t.starts ∧
        (l.foldl (fun t q => Arrangement.add t (.term q.1 q.2 false)) t).terms = t.terms ++ l ∧
        (l.foldl (fun t q => Arrangement.add t (.term q.1 q.2 false)) t).eval nearest53
          = l.foldl (fun s q => nearest53 (s - nearest53 (q.1 * q.2))) (t.eval nearest53) := by
      intro l
      induction l with
      | nil => intro t; simp
      | cons q l ih =>
        intro t
        obtain ⟨i1, i2, i3⟩ := ih (.add t (.term q.1 q.2 false))
        refine ⟨by rw [List.foldl_cons, i1]; simp [Arrangement.starts], by rw [List.foldl_cons, i2]; simp [Arrangement.terms], ?_⟩
        rw [List.foldl_cons, i3]
        rfl
    obtain ⟨h1, h2, h3⟩ := h l (.start a)
    exact ⟨h1, by rw [h2]; simp [Arrangement.terms], by rw [h3]; rfl⟩
  quot s d := .inl rfl
  root p := rfl

/-- The hypotheses are met: the matrix `(3, 1; 1, 3)` is factored in this arithmetic, and every solution leaves residuals of a few
roundings. -/
example (b : Fin 2 → ℝ) (i : Fin 2) : leftToRight.ok 2 !![3, 1; 1, 3] = true ∧
    |b i - (!![3, 1; 1, 3] *ᵥ leftToRight.solve 2 !![3, 1; 1, 3] b) i| ≤
      1 / 10 ^ 14 * (|leftToRight.solve 2 !![3, 1; 1, 3] b 0| + |leftToRight.solve 2 !![3, 1; 1, 3] b 1|) := by
  have hu : (0 : ℝ) ≤ 2 ^ (-53 : ℤ) := by positivity
  obtain ⟨s1, s2, s3⟩ := C111_size hu 2 (by norm_num)
  have hlow : lowSym !![3, 1; 1, 3] = (!![3, 1; 1, 3] : Matrix (Fin 2) (Fin 2) ℝ) := by
    ext i j; fin_cases i <;> fin_cases j <;> simp [lowSym]
  have hm : marginLoss (2 ^ (-53 : ℤ)) 2 ≤ 1 / 10 := s3.trans (by norm_num)
  have h3 : Real.sqrt 3 * Real.sqrt 3 = 3 := Real.mul_self_sqrt (by norm_num)
  have hok : leftToRight.ok 2 !![3, 1; 1, 3] = true := by
    refine C111_success hu s1 leftToRight_accurate _ fun v hv => ?_
    rw [hlow]
    have e1 : scaledNorm !![3, 1; 1, 3] v ^ 2 = 3 * (|v 0| + |v 1|) ^ 2 := by
      simp [scaledNorm, Fin.sum_univ_two]
      linear_combination ((|v 0| + |v 1|) ^ 2) * h3
    have e2 : v ⬝ᵥ !![3, 1; 1, 3] *ᵥ v = 3 * (v 0 * v 0) + 2 * (v 0 * v 1) + 3 * (v 1 * v 1) := by
      simp [dotProduct, mulVec, Fin.sum_univ_two]; ring
    have hne : 0 < v 0 * v 0 + v 1 * v 1 := by
      by_contra hn
      have h0 : v 0 = 0 := by nlinarith [mul_self_nonneg (v 0), mul_self_nonneg (v 1)]
      have h1 : v 1 = 0 := by nlinarith [mul_self_nonneg (v 0), mul_self_nonneg (v 1)]
      exact hv (by ext i; fin_cases i <;> simpa)
    have e3 : (|v 0| + |v 1|) ^ 2 ≤ 2 * (v 0 * v 0 + v 1 * v 1) := by
      have := sq_nonneg (|v 0| - |v 1|)
      have := abs_mul_abs_self (v 0)
      have := abs_mul_abs_self (v 1)
      nlinarith
    rw [e1, e2]
    have := mul_le_mul_of_nonneg_right hm (show 0 ≤ 3 * (|v 0| + |v 1|) ^ 2 by positivity)
    have hsq : 0 ≤ v 0 * v 0 + 2 * (v 0 * v 1) + v 1 * v 1 := by linarith [mul_self_nonneg (v 0 + v 1)]
    refine this.trans_lt (lt_of_le_of_lt (mul_le_mul_of_nonneg_left (mul_le_mul_of_nonneg_left e3 (by norm_num))
      (by norm_num)) ?_)
    linarith
  refine ⟨hok, ?_⟩
  have := C111_residual hu s1 leftToRight_accurate _ b hok i
  rw [hlow] at this
  refine this.trans ?_
  have e : ∀ x : Fin 2 → ℝ, Real.sqrt ((!![3, 1; 1, 3] : Matrix (Fin 2) (Fin 2) ℝ) i i) * scaledNorm !![3, 1; 1, 3] x = 3 * (|x 0| + |x 1|) := by
    intro x
    fin_cases i <;> (simp [scaledNorm, Fin.sum_univ_two]; linear_combination (|x 0| + |x 1|) * h3)
  rw [e]
  have h4 : factorLoss (2 ^ (-53 : ℤ)) 2 ≤ 1 / (3 * 10 ^ 14) := s2.trans (by norm_num)
  have := mul_le_mul_of_nonneg_right h4 (show 0 ≤ 3 * (|leftToRight.solve 2 !![3, 1; 1, 3] b 0| + |leftToRight.solve 2 !![3, 1; 1, 3] b 1|) by positivity)
  linarith

/-! ### A sweep in this arithmetic

One segment, one state and one control: costs `x²/2 + x + u²/2 + u` and `x²/2 + x`, dynamics `x + u`. -/

noncomputable def oneProblem : DynProblem 1 1 ℝ where
  N := 1
  x0 := 0
  f _ x u _ _ := x + u
  jac _ _ _ _ _ := (1, 1)
  normX x := |x 0|
  normU u := |u 0|

/-- The expansions. -/
noncomputable def oneData : ℕ → KP 1 1 ℝ := fun _ =>
  { cost := ⟨1, 0, 1, 1, 1⟩, A := 1, B := 1, q := ⟨0, 0, 0, 0, 0⟩, qreg := ⟨0, 0, 0, 0, 0⟩, gain := 0, ff := 0, Sxx := 1, Sx := 1,
    delta := (0, 0) }

/-- The data after the sweep. -/
noncomputable def oneSwept : ℕ → KP 1 1 ℝ := fun k =>
  if k = 0 then (KP.gainsBy leftToRight.routine (((oneData 0).actionValue (oneData 1)).regularize 0)).1.costToGo else oneData k

/-- The hypotheses about sweeps are met. -/
theorem oneSwept_swept : Swept leftToRight.routine oneProblem 0 oneData oneSwept ∧ quuReg oneSwept 0 0 = 2 := by
  have hu : (0 : ℝ) ≤ 2 ^ (-53 : ℤ) := by positivity
  obtain ⟨s1, s2, s3⟩ := C111_size hu 1 (by norm_num)
  have hm : marginLoss (2 ^ (-53 : ℤ)) 1 ≤ 1 / 10 := s3.trans (by norm_num)
  have hqq : (((oneData 0).actionValue (oneData 1)).regularize 0).qreg.dudu = (2 : Matrix (Fin 1) (Fin 1) ℝ) := by
    ext i j
    fin_cases i; fin_cases j
    simp [KP.actionValue, KP.regularize, oneData]
    norm_num
    show (2 : ℝ) = (2 : Matrix (Fin 1) (Fin 1) ℝ) 0 0
    simp [Matrix.ofNat_apply]
  have hok : leftToRight.ok 1 (2 : Matrix (Fin 1) (Fin 1) ℝ) = true := by
    refine C111_success_trace hu s1 leftToRight_accurate _ (mu := 2) (fun v => ?_) ?_ (fun i => ?_)
    · have : lowSym (2 : Matrix (Fin 1) (Fin 1) ℝ) = 2 := by
        ext i j; fin_cases i; fin_cases j; simp [lowSym]; rfl
      rw [this]
      have e : (2 : Matrix (Fin 1) (Fin 1) ℝ) *ᵥ v = 2 * v := by
        ext i; fin_cases i; simp [mulVec, dotProduct, Matrix.ofNat_apply]
      rw [e]
      simp [dotProduct]
      linarith
    · have e : (2 : Matrix (Fin 1) (Fin 1) ℝ).trace = 2 := by simp [trace, Matrix.ofNat_apply]
      rw [e]
      have := mul_le_mul_of_nonneg_right hm (show (0 : ℝ) ≤ 2 by norm_num)
      refine lt_of_le_of_lt this (by norm_num)
    · fin_cases i; simp [Matrix.ofNat_apply]
  have htrue : (KP.gainsBy leftToRight.routine (((oneData 0).actionValue (oneData 1)).regularize 0)).2 = true := by
    unfold KP.gainsBy Floats.routine
    rw [hqq, if_pos hok]
  have hsw : Swept leftToRight.routine oneProblem 0 oneData oneSwept := by
    refine ⟨⟨fun j hj => ?_, fun j hj => ?_⟩, ⟨rfl, rfl⟩, fun k _ => isSymm_one, fun k _ => isSymm_one⟩
    · have : j ≠ 0 := by
        have : 1 ≤ j := hj
        omega
      simp [oneSwept, this]
    · have : j = 0 := by
        have : j < 1 := hj
        omega
      subst this
      exact ⟨htrue, rfl⟩
  refine ⟨hsw, ?_⟩
  have t1 := (treated_by (hsw.complete.done 0 Nat.one_pos)).1
  unfold quuReg
  rw [t1]
  exact hqq

/-- The slope that remains is a few roundings of the control. -/
example : |slope oneSwept 0 0 0| ≤ 1 / 10 ^ 14 * |(oneSwept 0).ff 0| := by
  have hu : (0 : ℝ) ≤ 2 ^ (-53 : ℤ) := by positivity
  obtain ⟨s1, s2, s3⟩ := C111_size hu 1 (by norm_num)
  obtain ⟨hsw, hQ⟩ := oneSwept_swept
  have := (C111_gains hu s1 leftToRight_accurate hsw (k := 0) Nat.one_pos 0 0).1
  rw [zero_mul, add_zero] at this
  refine this.trans ?_
  have h2 : Real.sqrt 2 * Real.sqrt 2 = 2 := Real.mul_self_sqrt (by norm_num)
  have e : slopeError (2 ^ (-53 : ℤ)) oneSwept 0 0 0 0 = factorLoss (2 ^ (-53 : ℤ)) 1 * (2 * |(oneSwept 0).ff 0|) := by
    unfold slopeError scaledNorm askedSize
    rw [hQ]
    simp [Matrix.ofNat_apply]
    left
    rw [← mul_assoc, h2]
  rw [e]
  have h4 : factorLoss (2 ^ (-53 : ℤ)) 1 ≤ 1 / (2 * 10 ^ 14) := s2.trans (by norm_num)
  refine (mul_le_mul_of_nonneg_right h4 (by positivity)).trans_eq (by ring)

end Altro.Props
