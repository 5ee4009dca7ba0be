import Verif.Model.Cholesky
import Verif.Proofs.Cholesky
import Mathlib.LinearAlgebra.Matrix.Notation
import Mathlib.Tactic.FinCases
import Mathlib.Tactic.NormNum

/-!
# The square-root Cholesky factorization agrees with the one used in the model of `CalcGains`
-/

namespace Altro.Chol
open Matrix Spec Finset

/-- The `k`-th Schur complement in terms of the columns already computed. -/
noncomputable def sch (k : ℕ) (A : ℕ → ℕ → ℝ) (i j : ℕ) : ℝ := A i j - ∑ l ∈ range k, A i l * A j l

theorem pivot_eq (k : ℕ) (A : ℕ → ℕ → ℝ) : pivot k A = sch k A k k := rfl

theorem column_left {k : ℕ} (A : ℕ → ℕ → ℝ) (i : ℕ) {j : ℕ} (h : j ≠ k) : column k A i j = A i j := by
  simp [column, h]

theorem column_below {k : ℕ} (A : ℕ → ℕ → ℝ) {i : ℕ} (h : k < i) :
    column k A i k = sch k A i k / Real.sqrt (pivot k A) := by
  simp [column, h.ne', h, sch]

theorem column_diag (k : ℕ) (A : ℕ → ℕ → ℝ) : column k A k k = Real.sqrt (pivot k A) := by
  simp [column]

theorem sch_column {k : ℕ} {A : ℕ → ℕ → ℝ} (hp : 0 < pivot k A) {i j : ℕ} (hi : k < i) (hj : k < j) :
    sch (k + 1) (column k A) i j = sch k A i j - sch k A i k * sch k A j k / sch k A k k := by
  have e : ∑ l ∈ range k, column k A i l * column k A j l = ∑ l ∈ range k, A i l * A j l := by
    refine sum_congr rfl fun l hl => ?_
    have : l ≠ k := (mem_range.mp hl).ne
    rw [column_left A i this, column_left A j this]
  have hs : Real.sqrt (pivot k A) * Real.sqrt (pivot k A) = sch k A k k := Real.mul_self_sqrt hp.le
  have hne : Real.sqrt (pivot k A) ≠ 0 := (Real.sqrt_pos.mpr hp).ne'
  rw [sch, sum_range_succ, e, column_left A i hj.ne', column_below A hi, column_below A hj, ← hs, div_mul_div_comm,
    sch.eq_1 k A i j]
  ring

theorem factor_ok (c : ℕ) : ∀ (k : ℕ) (A : ℕ → ℕ → ℝ),
    (factor c k A).1 = lltOk c (Matrix.of fun i j : Fin c => sch k A (k + i) (k + j)) := by
  induction c with
  | zero => intro k A; rfl
  | succ c ih =>
    intro k A
    rw [factor]
    by_cases hp : pivot k A ≤ 0
    · rw [if_pos hp]
      have : ¬ 0 < sch k A k k := not_lt.mpr hp
      simp [lltOk, this]
    · rw [if_neg hp, ih]
      have hp' : 0 < pivot k A := not_le.mp hp
      have h0 : 0 < sch k A k k := hp'
      simp only [lltOk, of_apply, Fin.val_zero, add_zero, h0, decide_true, Bool.true_and]
      congr 1
      ext i j
      simp only [of_apply, lltSchur, lltCol, Fin.val_succ, Fin.val_zero, add_zero]
      have := sch_column hp' (i := k + 1 + i) (j := k + 1 + j) (by omega) (by omega)
      rw [this]
      congr 1
      · congr 1 <;> omega
      · congr 2
        · congr 1; omega
        · congr 1; omega

theorem factor_left (c : ℕ) : ∀ (k : ℕ) (A : ℕ → ℕ → ℝ) (i : ℕ) {j : ℕ}, j < k → (factor c k A).2 i j = A i j := by
  induction c with
  | zero => intro k A i j _; rfl
  | succ c ih =>
    intro k A i j h
    rw [factor]
    split
    · rfl
    · rw [ih (k + 1) _ i (by omega), column_left A i h.ne]

/-- After a successful factorization the columns from `k` on satisfy the defining equations of the factor. -/
theorem factor_eq (c : ℕ) : ∀ (k : ℕ) (A : ℕ → ℕ → ℝ), (factor c k A).1 = true → ∀ i j, k ≤ j → j < k + c → j ≤ i →
    0 < (factor c k A).2 j j ∧
    ∑ l ∈ range (j + 1), (factor c k A).2 i l * (factor c k A).2 j l = A i j := by
  induction c with
  | zero => intro k A _ i j h1 h2; omega
  | succ c ih =>
    intro k A hok i j h1 h2 h3
    rw [factor] at hok ⊢
    by_cases hp : pivot k A ≤ 0
    · rw [if_pos hp] at hok
      exact absurd hok (by simp)
    rw [if_neg hp] at hok ⊢
    have hp' : 0 < pivot k A := not_le.mp hp
    have hs : Real.sqrt (pivot k A) * Real.sqrt (pivot k A) = sch k A k k := Real.mul_self_sqrt hp'.le
    have hpos : 0 < Real.sqrt (pivot k A) := Real.sqrt_pos.mpr hp'
    rcases Nat.lt_or_eq_of_le h1 with hlt | rfl
    · have := ih (k + 1) _ hok i j (by omega) (by omega) h3
      rw [column_left A i (show j ≠ k by omega)] at this
      exact this
    · have e : ∀ a l, l < k + 1 → (factor c (k + 1) (column k A)).2 a l = column k A a l :=
        fun a l hl => factor_left c _ _ _ hl
      refine ⟨by rw [e k k (by omega), column_diag]; exact hpos, ?_⟩
      rw [sum_range_succ, e i k (by omega), e k k (by omega), column_diag]
      have es : ∑ l ∈ range k, (factor c (k + 1) (column k A)).2 i l * (factor c (k + 1) (column k A)).2 k l
          = ∑ l ∈ range k, A i l * A k l := by
        refine sum_congr rfl fun l hl => ?_
        have hl' := mem_range.mp hl
        rw [e i l (by omega), e k l (by omega), column_left A i hl'.ne, column_left A k hl'.ne]
      rw [es]
      rcases Nat.lt_or_eq_of_le h3 with h | rfl
      · rw [column_below A h, div_mul_cancel₀ _ hpos.ne', sch]
        ring
      · rw [column_diag, hs, sch]
        ring

/-- The factor as a matrix. -/
noncomputable def low (m : ℕ) (L : ℕ → ℕ → ℝ) : Matrix (Fin m) (Fin m) ℝ :=
  Matrix.of fun i j => if (j : ℕ) ≤ i then L i j else 0

theorem sum_fin_le (m : ℕ) (f : ℕ → ℝ) {j : ℕ} (hj : j < m) :
    ∑ l : Fin m, (if (l : ℕ) ≤ j then f l else 0) = ∑ l ∈ range (j + 1), f l := by
  rw [Fin.sum_univ_eq_sum_range (fun l => if l ≤ j then f l else 0) m, ← sum_filter]
  refine sum_congr ?_ fun _ _ => rfl
  ext l
  simp only [mem_filter, mem_range]
  omega

theorem low_mul (m : ℕ) (M : Matrix (Fin m) (Fin m) ℝ) (hok : ok m M = true) :
    low m (factor m 0 (entries M)).2 * (low m (factor m 0 (entries M)).2)ᵀ = lowSym M := by
  have key : ∀ i j : Fin m, j ≤ i →
      (low m (factor m 0 (entries M)).2 * (low m (factor m 0 (entries M)).2)ᵀ) i j = M i j := by
    intro i j hij
    have hij' : (j : ℕ) ≤ i := hij
    have := (factor_eq m 0 _ hok i j (Nat.zero_le _) (by omega) hij').2
    rw [show entries M i j = M i j by simp [entries]] at this
    rw [← this, mul_apply, ← sum_fin_le m _ j.isLt]
    refine sum_congr rfl fun l _ => ?_
    simp only [low, of_apply, transpose_apply]
    by_cases h : (l : ℕ) ≤ j
    · rw [if_pos h, if_pos h, if_pos (by omega)]
    · rw [if_neg h, if_neg h, mul_zero]
  ext i j
  simp only [lowSym, of_apply]
  split
  · rename_i h
    exact key i j h
  · rename_i h
    rw [← key j i (not_le.mp h).le, mul_apply, mul_apply]
    exact sum_congr rfl fun l _ => mul_comm _ _

theorem fwd_spec (L : ℕ → ℕ → ℝ) (b : ℕ → ℝ) (i : ℕ) (hd : ∀ k < i, L k k ≠ 0) :
    (∀ k < i, ∑ l ∈ range (k + 1), L k l * fwd L b i l = b k) ∧ ∀ k, i ≤ k → fwd L b i k = b k := by
  induction i with
  | zero => exact ⟨fun k h => by omega, fun k _ => rfl⟩
  | succ i ih =>
    obtain ⟨h1, h2⟩ := ih fun k hk => hd k (by omega)
    have hne : ∀ l, l ≠ i → fwd L b (i + 1) l = fwd L b i l := fun l hl => by
      rw [fwd, Function.update_of_ne hl]
    have hii : fwd L b (i + 1) i = (b i - ∑ l ∈ range i, L i l * fwd L b i l) / L i i := by
      rw [fwd, Function.update_self, h2 i le_rfl]
    refine ⟨fun k hk => ?_, fun k hk => by rw [hne k (by omega), h2 k (by omega)]⟩
    rcases Nat.lt_succ_iff_lt_or_eq.mp hk with h | rfl
    · rw [← h1 k h]
      refine sum_congr rfl fun l hl => ?_
      have := mem_range.mp hl
      rw [hne l (by omega)]
    · have es : ∑ l ∈ range k, L k l * fwd L b (k + 1) l = ∑ l ∈ range k, L k l * fwd L b k l :=
        sum_congr rfl fun l hl => by rw [hne l (mem_range.mp hl).ne]
      rw [sum_range_succ, hii, mul_div_cancel₀ _ (hd k hk), es]
      ring

theorem bwd_spec (m : ℕ) (L : ℕ → ℕ → ℝ) (y : ℕ → ℝ) (i : ℕ) (hi : i ≤ m) (hd : ∀ k < m, L k k ≠ 0) :
    (∀ k, m - i ≤ k → k < m → ∑ l ∈ Ico k m, L l k * bwd m L y i l = y k) ∧
      ∀ k, k < m - i → bwd m L y i k = y k := by
  induction i with
  | zero => exact ⟨fun k h h' => by omega, fun k _ => rfl⟩
  | succ i ih =>
    obtain ⟨h1, h2⟩ := ih (by omega)
    have hr : m - (i + 1) < m := by omega
    have hne : ∀ l, l ≠ m - (i + 1) → bwd m L y (i + 1) l = bwd m L y i l := fun l hl => by
      rw [bwd, Function.update_of_ne hl]
    have hii : bwd m L y (i + 1) (m - (i + 1)) = (y (m - (i + 1))
        - ∑ l ∈ Ico (m - (i + 1) + 1) m, L l (m - (i + 1)) * bwd m L y i l) / L (m - (i + 1)) (m - (i + 1)) := by
      rw [bwd, Function.update_self, h2 _ (by omega)]
    refine ⟨fun k hk hkm => ?_, fun k hk => by rw [hne k (by omega), h2 k (by omega)]⟩
    rcases Nat.lt_or_eq_of_le hk with h | rfl
    · rw [← h1 k (by omega) hkm]
      refine sum_congr rfl fun l hl => ?_
      have := mem_Ico.mp hl
      rw [hne l (by omega)]
    · have es : ∑ l ∈ Ico (m - (i + 1) + 1) m, L l (m - (i + 1)) * bwd m L y (i + 1) l
          = ∑ l ∈ Ico (m - (i + 1) + 1) m, L l (m - (i + 1)) * bwd m L y i l := by
        refine sum_congr rfl fun l hl => ?_
        have := mem_Ico.mp hl
        rw [hne l (by omega)]
      rw [sum_eq_sum_Ico_succ_bot hr, hii, mul_div_cancel₀ _ (hd _ hr), es]
      ring

theorem low_mulVec (m : ℕ) (L : ℕ → ℕ → ℝ) (b : Fin m → ℝ) (hd : ∀ k < m, L k k ≠ 0) :
    low m L *ᵥ (fun i : Fin m => fwd L (coords b) m i) = b := by
  funext i
  have := (fwd_spec L (coords b) m hd).1 i i.isLt
  rw [show coords b i = b i by simp [coords]] at this
  rw [← this, mulVec, dotProduct, ← sum_fin_le m _ i.isLt]
  refine sum_congr rfl fun l _ => ?_
  simp only [low, of_apply]
  split <;> simp

theorem lowT_mulVec (m : ℕ) (L : ℕ → ℕ → ℝ) (y : ℕ → ℝ) (hd : ∀ k < m, L k k ≠ 0) :
    (low m L)ᵀ *ᵥ (fun i : Fin m => bwd m L y m i) = fun i : Fin m => y i := by
  funext i
  have := (bwd_spec m L y m le_rfl hd).1 i (by omega) i.isLt
  rw [← this, mulVec, dotProduct]
  have e : Ico (i : ℕ) m = (range m).filter fun l => (i : ℕ) ≤ l := by
    ext l
    simp only [mem_Ico, mem_filter, mem_range]
    omega
  rw [e, sum_filter, ← Fin.sum_univ_eq_sum_range (fun l => if (i : ℕ) ≤ l then L l i * bwd m L y m l else 0) m]
  refine sum_congr rfl fun l _ => ?_
  simp only [low, of_apply, transpose_apply]
  split <;> simp

/-- **The square-root factorization succeeds exactly when the model of `CalcGains` says so**, for every matrix. -/
theorem chol_ok (m : ℕ) (M : Matrix (Fin m) (Fin m) ℝ) : ok m M = lltOk m M := by
  rw [ok, factor_ok]
  congr 1
  ext i j
  simp [sch, entries]

/-- The factor reproduces the matrix (its lower triangle, reflected) and has a positive diagonal. -/
theorem chol_factor (m : ℕ) (M : Matrix (Fin m) (Fin m) ℝ) (hok : ok m M = true) :
    ∃ L : Matrix (Fin m) (Fin m) ℝ, (∀ i j, i < j → L i j = 0) ∧ (∀ i, 0 < L i i) ∧ L * Lᵀ = lowSym M ∧
      ∀ i j, j ≤ i → L i j = (factor m 0 (entries M)).2 i j := by
  refine ⟨low m (factor m 0 (entries M)).2, fun i j h => ?_, fun i => ?_, low_mul m M hok, fun i j h => ?_⟩
  · have : ¬ (j : ℕ) ≤ i := not_le.mpr h
    rw [low, of_apply, if_neg this]
  · have := (factor_eq m 0 _ hok i i (Nat.zero_le _) (by omega) le_rfl).1
    simpa [low] using this
  · have : (j : ℕ) ≤ i := h
    rw [low, of_apply, if_pos this]

/-- **Substitution with the square-root factor gives the solution the model of `CalcGains` uses.** -/
theorem chol_solve (m : ℕ) (M : Matrix (Fin m) (Fin m) ℝ) (b : Fin m → ℝ) (hok : ok m M = true) :
    solve m M b = lltSolve m M b := by
  have hd : ∀ k < m, (factor m 0 (entries M)).2 k k ≠ 0 := fun k hk =>
    (factor_eq m 0 _ hok k k (Nat.zero_le _) (by omega) le_rfl).1.ne'
  have h1 : lowSym M *ᵥ solve m M b = b := by
    rw [← low_mul m M hok, ← mulVec_mulVec]
    have := lowT_mulVec m (factor m 0 (entries M)).2 (fwd (factor m 0 (entries M)).2 (coords b) m) hd
    unfold solve
    rw [this]
    exact low_mulVec m _ b hd
  have hl : lltOk m (lowSym M) = true := by rw [lltOk_lowSym, ← chol_ok]; exact hok
  have h2 : lowSym M *ᵥ lltSolve m M b = b := by
    rw [← lltSolve_lowSym]
    exact lltSolve_symm (lowSym_isSymm M) hl b
  have hpd := (lltOk_iff_posDef_symm (lowSym_isSymm M)).mp hl
  by_contra hne
  have hz : solve m M b - lltSolve m M b ≠ 0 := sub_ne_zero.mpr hne
  have := hpd _ hz
  rw [mulVec_sub, h1, h2, sub_self, dotProduct_zero] at this
  exact lt_irrefl _ this

/-- A matrix that is factored, and the solution of a system with it. -/
example : ok 2 !![4, 0; 2, 5] = true ∧ solve 2 !![4, 0; 2, 5] ![8, 12] = ![1, 2] := by
  have h : ok 2 !![4, 0; 2, 5] = true := by
    rw [chol_ok]
    norm_num [lltOk, lltSchur, lltCol]
  refine ⟨h, ?_⟩
  rw [chol_solve _ _ _ h]
  ext i
  fin_cases i <;> norm_num [lltSolve, lltSchur, lltCol, dotProduct, Fin.cons]

/-- An indefinite matrix is rejected. -/
example : ok 2 !![1, 2; 2, 1] = false := by
  rw [chol_ok]
  norm_num [lltOk, lltSchur, lltCol]

end Altro.Chol
