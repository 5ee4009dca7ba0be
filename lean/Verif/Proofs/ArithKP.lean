import Verif.Spec.ArithKP

namespace Altro.ArithKP
open Altro.Spec Matrix
variable {F : Type} [Arith F] {nan : F} {fn : Fns F}

section sums
variable (h : IsNaN nan)
include h

theorem foldl_add_nan (l : List F) (s : F) (hs : s = nan ∨ nan ∈ l) : l.foldl (· + ·) s = nan := by
  induction l generalizing s with
  | nil => simpa using hs
  | cons x l ih =>
    refine ih _ ?_
    rcases hs with rfl | hs
    · exact .inl (h.add_left _)
    · rcases List.mem_cons.mp hs with rfl | hs
      · exact .inl (h.add_right _)
      · exact .inr hs

theorem sum_nan {n : ℕ} (f : Fin n → F) (i : Fin n) (hi : f i = nan) : sum f = nan :=
  foldl_add_nan h _ _ (.inr (List.mem_ofFn.mpr ⟨i, hi⟩))

theorem mul_nan_left {a b c : ℕ} (A : Matrix (Fin a) (Fin b) F) (B : Matrix (Fin b) (Fin c) F) (i : Fin a) (l : Fin b)
    (hl : A i l = nan) (j : Fin c) : mul A B i j = nan := sum_nan h _ l (by rw [hl, h.mul_left])

theorem mul_nan_right {a b c : ℕ} (A : Matrix (Fin a) (Fin b) F) (B : Matrix (Fin b) (Fin c) F) (j : Fin c) (l : Fin b)
    (hl : B l j = nan) (i : Fin a) : mul A B i j = nan := sum_nan h _ l (by rw [hl, h.mul_right])

theorem mulV_nan_left {a b : ℕ} (A : Matrix (Fin a) (Fin b) F) (v : Fin b → F) (i : Fin a) (l : Fin b)
    (hl : A i l = nan) : mulV A v i = nan := sum_nan h _ l (by rw [hl, h.mul_left])

theorem mulV_nan_right {a b : ℕ} (A : Matrix (Fin a) (Fin b) F) (v : Fin b → F) (l : Fin b)
    (hl : v l = nan) (i : Fin a) : mulV A v i = nan := sum_nan h _ l (by rw [hl, h.mul_right])

theorem dot_nan_left {a : ℕ} (v w : Fin a → F) (l : Fin a) (hl : v l = nan) : dot v w = nan := sum_nan h _ l (by rw [hl, h.mul_left])

theorem dot_nan_right {a : ℕ} (v w : Fin a → F) (l : Fin a) (hl : w l = nan) : dot v w = nan := sum_nan h _ l (by rw [hl, h.mul_right])

theorem sandwich_nan {a b : ℕ} (B : Matrix (Fin a) (Fin b) F) {S : Matrix (Fin a) (Fin a) F}
    {r c : Fin a} (hS : S r c = nan) {d : ℕ} (B' : Matrix (Fin a) (Fin d) F) (i : Fin b) (j : Fin d) :
    mul (mul Bᵀ S) B' i j = nan := mul_nan_left h _ _ i c (mul_nan_right h _ _ c r hS i) j

theorem acc_nan (l : List (F × F)) (s : F) (hs : s = nan ∨ ∃ q ∈ l, q.1 = nan ∨ q.2 = nan) : acc s l = nan := by
  induction l generalizing s with
  | nil => simpa [acc] using hs
  | cons x l ih =>
    refine ih _ ?_
    rcases hs with rfl | ⟨q, hq, hs⟩
    · exact .inl (h.sub_left _)
    · rcases List.mem_cons.mp hq with rfl | hq
      · left
        rcases hs with e | e
        · simp only [e, h.mul_left, h.sub_right]
        · simp only [e, h.mul_right, h.sub_right]
      · exact .inr ⟨q, hq, hs⟩

theorem acc_products_nan {k : ℕ} (s : F) (f g : ℕ → F) (hs : s = nan ∨ ∃ l < k, f l = nan ∨ g l = nan) :
    acc s (products k f g) = nan := by
  refine acc_nan h _ _ ?_
  rcases hs with e | ⟨l, hl, e⟩
  · exact .inl e
  · exact .inr ⟨_, List.mem_map.mpr ⟨l, List.mem_range.mpr hl, rfl⟩, e⟩

end sums

/-! ## The factorization -/

section chol
variable (h : IsNaN nan) (hf : KeepNaN fn nan)

section
include h

theorem pivot_nan {A : ℕ → ℕ → F} {i j : ℕ} (hj : j ≤ i) (hA : A i j = nan) : pivot i A = nan := by
  refine acc_products_nan h _ _ _ ?_
  rcases hj.lt_or_eq with hj | rfl
  · exact .inr ⟨j, hj, .inl hA⟩
  · exact .inl hA

include hf

/-- A NaN in the lower triangle stays there. -/
theorem column_keeps {A : ℕ → ℕ → F} (k : ℕ) {i j : ℕ} (hj : j ≤ i) (hA : A i j = nan) : column fn k A i j = nan := by
  unfold column
  split
  · rename_i e; subst e
    split
    · rename_i e; subst e
      rw [pivot_nan h le_rfl hA, hf.sqrt]
    · rename_i e
      rw [if_pos (by omega), acc_products_nan h _ _ _ (.inl hA), h.div_left]
  · exact hA

theorem column_spreads {A : ℕ → ℕ → F} {i j : ℕ} (hj : j ≤ i) (hA : A i j = nan) {r : ℕ} (hr : i ≤ r) : column fn i A r i = nan := by
  unfold column
  rw [if_pos rfl, pivot_nan h hj hA, hf.sqrt]
  split
  · rfl
  · rw [if_pos (by omega), h.div_right]

theorem factor_keeps (c : ℕ) : ∀ (k : ℕ) (A : ℕ → ℕ → F) {i j : ℕ}, j ≤ i → A i j = nan → (factor fn c k A).2 i j = nan := by
  induction c with
  | zero => exact fun _ _ _ _ _ e => e
  | succ c ih =>
    intro k A i j hj hA
    unfold factor
    split
    · exact hA
    · exact ih _ _ hj (column_keeps h hf k hj hA)

/-- From a row with a NaN on, nothing can fail and the diagonal is NaN. -/
theorem factor_from (c : ℕ) : ∀ (k : ℕ) (A : ℕ → ℕ → F), (∀ r, k ≤ r → r < k + c → ∃ j ≤ r, A r j = nan) →
    (factor fn c k A).1 = true ∧ ∀ r, k ≤ r → r < k + c → (factor fn c k A).2 r r = nan := by
  induction c with
  | zero => exact fun k A _ => ⟨rfl, fun r h1 h2 => by omega⟩
  | succ c ih =>
    intro k A hA
    obtain ⟨j, hj, e⟩ := hA k le_rfl (by omega)
    unfold factor
    rw [pivot_nan h hj e, if_neg (by rw [h.le_left]; decide)]
    obtain ⟨h1, h2⟩ := ih (k + 1) (column fn k A) fun r hr1 hr2 => by
      obtain ⟨j', hj', e'⟩ := hA r (by omega) (by omega)
      exact ⟨j', hj', column_keeps h hf k hj' e'⟩
    refine ⟨h1, fun r hr1 hr2 => ?_⟩
    rcases hr1.lt_or_eq with hr1 | rfl
    · exact h2 r hr1 (by omega)
    · exact factor_keeps h hf _ _ _ le_rfl (column_spreads h hf hj e le_rfl)

theorem factor_row {A : ℕ → ℕ → F} {i j : ℕ} (hj : j ≤ i) (hA : A i j = nan) (c : ℕ) :
    (factor fn (c + 1) i A).1 = true ∧ ∀ r, i ≤ r → r < i + (c + 1) → (factor fn (c + 1) i A).2 r r = nan := by
  unfold factor
  rw [pivot_nan h hj hA, if_neg (by rw [h.le_left]; decide)]
  obtain ⟨h1, h2⟩ := factor_from h hf c (i + 1) (column fn i A) fun r hr1 _ =>
    ⟨i, by omega, column_spreads h hf hj hA (by omega)⟩
  refine ⟨h1, fun r hr1 hr2 => ?_⟩
  rcases hr1.lt_or_eq with hr1 | rfl
  · exact h2 r hr1 (by omega)
  · exact factor_keeps h hf _ _ _ le_rfl (column_spreads h hf hj hA le_rfl)

end

theorem factor_add (a : ℕ) : ∀ (c k : ℕ) (A : ℕ → ℕ → F), factor fn (a + c) k A =
    if (factor fn a k A).1 then factor fn c (k + a) (factor fn a k A).2 else (false, (factor fn a k A).2) := by
  induction a with
  | zero => intro c k A; simp [factor]
  | succ a ih =>
    intro c k A
    rw [show a + 1 + c = (a + c) + 1 by omega]
    have step : ∀ c, factor fn (c + 1) k A = if Arith.le (pivot k A) 0 then (false, A) else factor fn c (k + 1) (column fn k A) :=
      fun _ => rfl
    rw [step, step]
    by_cases hp : Arith.le (pivot k A) 0 = true
    · simp [hp]
    · rw [if_neg hp, if_neg hp, ih, show k + 1 + a = k + (a + 1) by omega]

/-- Only the lower triangle is read. -/
theorem factor_congr (c : ℕ) : ∀ (k : ℕ) (A A' : ℕ → ℕ → F), (∀ i j, j ≤ i → i < k + c → A i j = A' i j) →
    (factor fn c k A).1 = (factor fn c k A').1 ∧
    ∀ i j, j ≤ i → i < k + c → (factor fn c k A).2 i j = (factor fn c k A').2 i j := by
  induction c with
  | zero => exact fun k A A' e => ⟨rfl, e⟩
  | succ c ih =>
    intro k A A' e
    have row : ∀ i, i < k + (c + 1) → k ≤ i → products k (A i) (A k) = products k (A' i) (A' k) := by
      intro i hi hk
      refine List.map_congr_left fun l hl => ?_
      rw [List.mem_range] at hl
      rw [e i l (by omega) hi, e k l (by omega) (by omega)]
    have hp : pivot k A = pivot k A' := by
      unfold pivot
      rw [row k (by omega) le_rfl, e k k le_rfl (by omega)]
    unfold factor
    rw [hp]
    split
    · exact ⟨rfl, e⟩
    · have := ih (k + 1) (column fn k A) (column fn k A') fun i j hj hi => by
        unfold column
        split
        · rename_i ej; subst ej
          split
          · rw [hp]
          · rename_i hik
            rw [if_pos (by omega), if_pos (by omega), hp, row i (by omega) hj, e i j hj (by omega)]
        · exact e i j hj (by omega)
      exact ⟨this.1, fun i j hj hi => this.2 i j hj (by omega)⟩

theorem fwd_later (L : ℕ → ℕ → F) (b : ℕ → F) (i : ℕ) : ∀ r, i ≤ r → fwd L b i r = b r := by
  induction i with
  | zero => exact fun _ _ => rfl
  | succ i ih =>
    intro r hr
    unfold fwd
    rw [Function.update_of_ne (by omega)]
    exact ih r (by omega)

theorem fwd_congr {L L' : ℕ → ℕ → F} (b : ℕ → F) (i : ℕ) (e : ∀ r j, j ≤ r → r < i → L r j = L' r j) : fwd L b i = fwd L' b i := by
  induction i with
  | zero => rfl
  | succ i ih =>
    unfold fwd
    rw [ih fun r j hj hr => e r j hj (by omega), e i i le_rfl (by omega)]
    congr 3
    exact List.map_congr_left fun l hl => by rw [List.mem_range] at hl; rw [e i l (by omega) (by omega)]

theorem bwd_congr {m : ℕ} {L L' : ℕ → ℕ → F} (y : ℕ → F) (i : ℕ) (hi : i ≤ m) (e : ∀ r j, j ≤ r → r < m → L r j = L' r j) :
    bwd m L y i = bwd m L' y i := by
  induction i with
  | zero => rfl
  | succ i ih =>
    unfold bwd
    extract_lets r
    have hr : r < m := by omega
    rw [ih (by omega), e r r le_rfl hr]
    congr 3
    refine List.map_congr_left fun l hl => ?_
    rw [List.mem_range'_1] at hl
    rw [e l r (by omega) (by omega)]

include h

theorem fwd_nan (L : ℕ → ℕ → F) (b : ℕ → F) {j : ℕ} (hj : b j = nan) (i : ℕ) : ∀ r, j ≤ r → r < i → fwd L b i r = nan := by
  induction i with
  | zero => intro r _ hr; omega
  | succ i ih =>
    intro r hr1 hr2
    unfold fwd
    by_cases hr : r = i
    · subst hr
      rw [Function.update_self, acc_products_nan h _ _ _ ?_, h.div_left]
      rcases hr1.lt_or_eq with hlt | rfl
      · exact .inr ⟨j, hlt, .inr (ih j le_rfl hlt)⟩
      · exact .inl (by rw [fwd_later L b j j le_rfl, hj])
    · rw [Function.update_of_ne hr]
      exact ih r hr1 (by omega)

theorem bwd_nan {m : ℕ} (L : ℕ → ℕ → F) (y : ℕ → F) (hy : y (m - 1) = nan ∨ L (m - 1) (m - 1) = nan) (i : ℕ) (hi : i ≤ m) :
    ∀ r, m - i ≤ r → r < m → bwd m L y i r = nan := by
  induction i with
  | zero => intro r h1 h2; omega
  | succ i ih =>
    intro r h1 h2
    unfold bwd
    extract_lets q
    by_cases hr : r = q
    · subst hr
      rw [Function.update_self]
      by_cases h0 : i = 0
      · subst h0
        have hq : q = m - 1 := rfl
        rcases hy with hy | hy
        · rw [acc_nan h _ _ (.inl (by rw [hq]; exact hy)), h.div_left]
        · rw [hq, hy, h.div_right]
      · rw [acc_nan h _ _ (.inr ?_), h.div_left]
        refine ⟨_, List.mem_map.mpr ⟨m - 1, List.mem_range'_1.mpr ⟨by omega, by omega⟩, rfl⟩, .inr ?_⟩
        exact ih (by omega) _ (by omega) (by omega)
    · rw [Function.update_of_ne hr]
      exact ih (by omega) r (by omega) h2

end chol

end Altro.ArithKP
