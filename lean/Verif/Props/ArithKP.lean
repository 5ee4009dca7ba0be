import Verif.Proofs.ArithKP
import Verif.Props.Repeat
import Verif.Props.Double
import Verif.Props.NaN
import Verif.Props.FloatCholesky

/-!
# C112: NaN in the backward pass
-/

namespace Altro.Props
open Altro.Spec Altro.ILQR Altro.ArithKP Matrix
variable {F : Type} [Arith F] {nan : F} {fn : Fns F} {n m : ℕ}

/-- IEEE double arithmetic. -/
theorem C112_double : IsNaN (.nan : Dbl) := by
  refine ⟨fun a => ?_, fun a => ?_, fun a => ?_, fun a => ?_, fun a => ?_, fun a => ?_, fun a => ?_, fun a => ?_, fun a => ?_, fun a => ?_,
    fun a => ?_, fun a => ?_⟩ <;> cases a <;> rfl

/-- Exact arithmetic with NaN. -/
theorem C112_nx {K : Type} [Field K] [LinearOrder K] : IsNaN (.nan : Nx K) := by
  refine ⟨fun a => ?_, fun a => ?_, fun a => ?_, fun a => ?_, fun a => ?_, fun a => ?_, fun a => ?_, fun a => ?_, fun a => ?_, fun a => ?_,
    fun a => ?_, fun a => ?_⟩ <;> cases a <;> rfl

/-! ## The factorization -/

/-- The first `i` rows and columns. -/
def leading (i : ℕ) (hi : i ≤ m) (M : Matrix (Fin m) (Fin m) F) : Matrix (Fin i) (Fin i) F :=
  fun r c => M ⟨r, by omega⟩ ⟨c, by omega⟩

/-- **C112, the factorization does not notice a NaN.**  If row `i` has a NaN on or left of the diagonal, the factorization succeeds
if and only if that of the first `i` rows and columns does: from row `i` on, nothing is tested any more. -/
theorem C112_factor (h : IsNaN nan) (hf : KeepNaN fn nan) (M : Matrix (Fin m) (Fin m) F) {i j : Fin m} (hj : j ≤ i) (hM : M i j = nan) :
    ArithKP.ok fn m M = ArithKP.ok fn i (leading i i.2.le M) := by
  have hloc := factor_congr (fn := fn) i 0 (ArithKP.entries M) (ArithKP.entries (leading i i.2.le M)) fun r c hc hr => by
    have hi := i.2
    unfold ArithKP.entries
    rw [dif_pos ⟨by omega, by omega⟩, dif_pos ⟨by omega, by omega⟩]
    rfl
  unfold ArithKP.ok
  have hm : m = i + ((m - i - 1) + 1) := by have := i.2; omega
  have hnan : (factor fn i 0 (ArithKP.entries M)).2 i j = nan := by
    refine factor_keeps h hf _ _ _ hj ?_
    unfold ArithKP.entries
    rw [dif_pos ⟨i.2, j.2⟩]; exact hM
  have hadd := factor_add (fn := fn) i ((m - i - 1) + 1) 0 (ArithKP.entries M)
  rw [← hm] at hadd
  rw [hadd, ← hloc.1]
  split
  · rename_i e
    rw [e]
    exact (factor_row h hf (i := 0 + i) (j := j) (by omega) (by rw [Nat.zero_add]; exact hnan) _).1
  · rename_i e
    simpa using e

/-- **C112.**  A NaN in the first column, or only NaN: the factorization succeeds, whatever else is in the matrix. -/
theorem C112_first (h : IsNaN nan) (hf : KeepNaN fn nan) (M : Matrix (Fin (m + 1)) (Fin (m + 1)) F) (hM : M 0 0 = nan) :
    ArithKP.ok fn (m + 1) M = true := by
  rw [C112_factor h hf M (le_refl 0) hM]
  rfl

/-- **C112, the solution.**  Every entry of every solution is NaN then. -/
theorem C112_solution (h : IsNaN nan) (hf : KeepNaN fn nan) (M : Matrix (Fin m) (Fin m) F) {i j : Fin m} (hj : j ≤ i) (hM : M i j = nan)
    (hok : ArithKP.ok fn m M = true) (b : Fin m → F) (r : Fin m) : ArithKP.solve fn m M b r = nan := by
  have hm : m = i + ((m - i - 1) + 1) := by have := i.2; omega
  have hnan : (factor fn i 0 (ArithKP.entries M)).2 i j = nan := by
    refine factor_keeps h hf _ _ _ hj ?_
    unfold ArithKP.entries
    rw [dif_pos ⟨i.2, j.2⟩]; exact hM
  have hadd := factor_add (fn := fn) i ((m - i - 1) + 1) 0 (ArithKP.entries M)
  rw [← hm] at hadd
  unfold ArithKP.ok at hok
  unfold ArithKP.solve
  refine bwd_nan h _ _ (.inr ?_) m le_rfl r (by omega) r.2
  rw [hadd] at hok ⊢
  split at hok
  · rename_i e
    rw [if_pos e]
    refine (factor_row h hf (i := 0 + i) (j := j) (by omega) (by rw [Nat.zero_add]; exact hnan) _).2 (m - 1) (by omega) (by omega)
  · cases hok

/-- **C112.**  A NaN in the right-hand side makes every entry of the solution NaN. -/
theorem C112_rhs (h : IsNaN nan) (M : Matrix (Fin m) (Fin m) F) (b : Fin m → F) {j : Fin m} (hb : b j = nan) (r : Fin m) :
    ArithKP.solve fn m M b r = nan := by
  unfold ArithKP.solve
  refine bwd_nan h _ _ (.inl ?_) m le_rfl r (by omega) r.2
  have := j.2
  exact fwd_nan h _ _ (j := j) (by unfold ArithKP.coords; rw [dif_pos j.2]; exact hb) m _ (by omega) (by omega)

/-- **C112.**  What is above the diagonal, NaN or not, has no influence. -/
theorem C112_upper (M M' : Matrix (Fin m) (Fin m) F) (e : ∀ i j, j ≤ i → M i j = M' i j) :
    ArithKP.ok fn m M = ArithKP.ok fn m M' ∧ ∀ b, ArithKP.solve fn m M b = ArithKP.solve fn m M' b := by
  have hc := factor_congr (fn := fn) m 0 (ArithKP.entries M) (ArithKP.entries M') fun r c hc hr => by
    unfold ArithKP.entries
    rw [dif_pos ⟨by omega, by omega⟩, dif_pos ⟨by omega, by omega⟩]
    exact e _ _ hc
  refine ⟨hc.1, fun b => ?_⟩
  funext i
  unfold ArithKP.solve
  have hL : ∀ r j, j ≤ r → r < m → (factor fn m 0 (ArithKP.entries M)).2 r j = (factor fn m 0 (ArithKP.entries M')).2 r j :=
    fun r j hj hr => hc.2 r j hj (by omega)
  simp only
  rw [fwd_congr _ m hL, bwd_congr _ m le_rfl hL]

/-! ## One knot point -/

theorem add_of_right (h : IsNaN nan) {a b : F} (e : b = nan) : a + b = nan := by rw [e, h.add_right]
theorem mul_of_right (h : IsNaN nan) {a b : F} (e : b = nan) : a * b = nan := by rw [e, h.mul_right]

/-- **C112, regularization does not help:** whatever `rho` is, a NaN stays. -/
theorem C112_regularize (h : IsNaN nan) (rho : F) (d : KP n m F) {i j : Fin m} (hd : d.q.dudu i j = nan) :
    (ArithKP.regularize rho d).qreg.dudu i j = nan := by
  show d.q.dudu i j + _ = nan
  rw [hd, h.add_left]

/-- **C112.**  If the control Hessian of the action value has a NaN on or below the diagonal and the factorization succeeds, all that
the knot point gets is NaN. -/
theorem C112_hessian (h : IsNaN nan) (hf : KeepNaN fn nan) (rho : F) (d : KP n m F) {i j : Fin m} (hj : j ≤ i) (hd : d.q.dudu i j = nan)
    (hok : (ArithKP.gains fn (ArithKP.regularize rho d)).2 = true) :
    AllNaN nan (ArithKP.costToGo (ArithKP.gains fn (ArithKP.regularize rho d)).1) := by
  have hq := C112_regularize h rho d hd
  unfold ArithKP.gains at hok ⊢
  split at hok
  · rename_i hk
    rw [if_pos hk]
    have hs := C112_solution h hf _ hj hq hk
    have hff : ∀ r, ArithKP.solve fn m (ArithKP.regularize rho d).qreg.dudu (ArithKP.regularize rho d).qreg.du r * (-1) = nan :=
      fun r => by rw [hs, h.mul_left]
    have hg : ∀ r c, ArithKP.solve fn m (ArithKP.regularize rho d).qreg.dudu (fun l => (ArithKP.regularize rho d).qreg.dxdu c l) r * (-1) = nan :=
      fun r c => by rw [hs, h.mul_left]
    refine ⟨hg, hff, fun r => ?_, fun r c => ?_, Prod.ext ?_ ?_⟩
    · exact add_of_right h (mulV_nan_right h _ _ i (hff i) r)
    · exact add_of_right h (mul_nan_right h _ _ c i (hg i c) r)
    · exact dot_nan_left h _ _ i (hff i)
    · exact mul_of_right h (dot_nan_left h _ _ i (hff i))
  · cases hok

/-- **C112.**  A NaN in the Hessian of the cost-to-go of the next knot point (and at least one state and one control): the
factorization succeeds for every regularization, and all that the knot point gets is NaN. -/
theorem C112_previous (h : IsNaN nan) (hf : KeepNaN fn nan) (rho : F) (d nxt : KP n (m + 1) F) {i j : Fin n} (hn : nxt.Sxx i j = nan) :
    (ArithKP.gains fn (ArithKP.regularize rho (ArithKP.actionValue d nxt))).2 = true ∧
    AllNaN nan (ArithKP.costToGo (ArithKP.gains fn (ArithKP.regularize rho (ArithKP.actionValue d nxt))).1) := by
  have hq : (ArithKP.actionValue d nxt).q.dudu 0 0 = nan := by
    show _ + mul (mul d.Bᵀ nxt.Sxx) d.B 0 0 = nan
    rw [sandwich_nan h d.B hn, h.add_right]
  have hok : (ArithKP.gains fn (ArithKP.regularize rho (ArithKP.actionValue d nxt))).2 = true := by
    unfold ArithKP.gains
    rw [if_pos (C112_first h hf _ (C112_regularize h rho _ hq))]
  exact ⟨hok, C112_hessian h hf rho _ le_rfl hq hok⟩

/-- **C112.**  A NaN in the gradient of the cost-to-go of the next knot point, or in the control gradient: if the factorization
succeeds, the feedforward gain, the gradient of the cost-to-go and the announced change are NaN. -/
theorem C112_gradient (h : IsNaN nan) (rho : F) (d : KP n (m + 1) F) {i : Fin (m + 1)} (hd : d.q.du i = nan)
    (hok : (ArithKP.gains fn (ArithKP.regularize rho d)).2 = true) :
    (∀ r, (ArithKP.costToGo (ArithKP.gains fn (ArithKP.regularize rho d)).1).ff r = nan) ∧
    (∀ r, (ArithKP.costToGo (ArithKP.gains fn (ArithKP.regularize rho d)).1).Sx r = nan) ∧
    (ArithKP.costToGo (ArithKP.gains fn (ArithKP.regularize rho d)).1).delta = (nan, nan) := by
  unfold ArithKP.gains at hok ⊢
  split at hok
  · rename_i hk
    rw [if_pos hk]
    have hff : ∀ r, ArithKP.solve fn (m + 1) (ArithKP.regularize rho d).qreg.dudu (ArithKP.regularize rho d).qreg.du r * (-1) = nan :=
      fun r => by rw [C112_rhs h _ (ArithKP.regularize rho d).qreg.du (j := i) hd, h.mul_left]
    refine ⟨hff, fun r => ?_, Prod.ext ?_ ?_⟩
    · exact add_of_right h (mulV_nan_right h _ _ i (hff i) r)
    · exact dot_nan_left h _ _ i (hff i)
    · exact mul_of_right h (dot_nan_left h _ _ i (hff i))
  · cases hok

theorem add_of_left (h : IsNaN nan) {a b : F} (e : a = nan) : a + b = nan := by rw [e, h.add_left]

/-- **C112.**  A NaN in the control gradient or anywhere in the control Hessian of the action value, above the diagonal too, makes the
announced change NaN, if the factorization succeeds. -/
theorem C112_delta (h : IsNaN nan) (rho : F) (d : KP n m F) (hd : (∃ i, d.q.du i = nan) ∨ ∃ i j, d.q.dudu i j = nan)
    (hok : (ArithKP.gains fn (ArithKP.regularize rho d)).2 = true) :
    (ArithKP.costToGo (ArithKP.gains fn (ArithKP.regularize rho d)).1).delta.2 = nan := by
  rcases hd with ⟨i, hd⟩ | ⟨i, j, hd⟩
  · obtain ⟨m, rfl⟩ : ∃ k, m = k + 1 := ⟨m - 1, by have := i.2; omega⟩
    exact congrArg Prod.snd (C112_gradient h rho d hd hok).2.2
  · unfold ArithKP.gains at hok ⊢
    split at hok
    · rename_i hk
      rw [if_pos hk]
      exact mul_of_right h (dot_nan_right h _ _ i (mulV_nan_left h _ _ i j hd))
    · cases hok

/-- The derivatives that make the announced change NaN. -/
theorem actionValue_nan (h : IsNaN nan) (d nxt : KP n (m + 1) F) (hd : ControlNaN nan d ∨ CtgNaN nan nxt) :
    (∃ i, (ArithKP.actionValue d nxt).q.du i = nan) ∨ ∃ i j, (ArithKP.actionValue d nxt).q.dudu i j = nan := by
  rcases hd with (⟨i, e⟩ | ⟨i, j, e⟩ | ⟨i, j, e⟩) | (⟨i, e⟩ | ⟨i, j, e⟩)
  · exact .inl ⟨i, add_of_left h e⟩
  · exact .inr ⟨i, j, add_of_left h e⟩
  · exact .inl ⟨j, add_of_right h (mulV_nan_left h _ _ j i e)⟩
  · exact .inl ⟨0, add_of_right h (mulV_nan_right h _ _ i e 0)⟩
  · exact .inr ⟨0, 0, add_of_right h (sandwich_nan h _ e _ 0 0)⟩

/-- **C112.**  A NaN among the derivatives with respect to the states makes the cost-to-go NaN somewhere. -/
theorem C112_state (h : IsNaN nan) (rho : F) (d nxt : KP n m F) (hd : StateNaN nan d)
    (hok : (ArithKP.gains fn (ArithKP.regularize rho (ArithKP.actionValue d nxt))).2 = true) :
    CtgNaN nan (ArithKP.costToGo (ArithKP.gains fn (ArithKP.regularize rho (ArithKP.actionValue d nxt))).1) := by
  unfold ArithKP.gains at hok ⊢
  split at hok
  · rename_i hk
    rw [if_pos hk]
    rcases hd with ⟨i, e⟩ | ⟨i, j, e⟩ | ⟨i, j, e⟩ | ⟨i, j, e⟩
    · exact .inl ⟨i, add_of_left h (add_of_left h (add_of_left h (add_of_left h e)))⟩
    · exact .inr ⟨i, j, add_of_left h (add_of_left h (add_of_left h (add_of_left h e)))⟩
    · exact .inl ⟨i, add_of_right h (mulV_nan_left h _ _ i j (add_of_left h e))⟩
    · exact .inl ⟨j, add_of_left h (add_of_left h (add_of_left h (add_of_right h (mulV_nan_left h _ _ j i e))))⟩
  · cases hok

/-! ## The backward sweep -/

section sweep
variable {C : Type} (p : ArithProblem n (m + 1) F C)

/-- **C112, the sweep.**  From a knot point on whose cost-to-go has a NaN in the Hessian the sweep succeeds, whatever the
regularization and the rest of the problem; every gain and every cost-to-go before it is NaN, and so is the announced change. -/
theorem C112_sweep (h : IsNaN nan) (hf : KeepNaN fn nan) (rho : F) (k : ℕ) : ∀ (kd : ℕ → KP n (m + 1) F) (dV : F × F),
    (∃ i j, (kd k).Sxx i j = nan) →
    (bpSweep (kernel fn p) rho k kd dV).2 = true ∧
    (∀ j < k, AllNaN nan ((bpSweep (kernel fn p) rho k kd dV).1.1 j)) ∧
    (∀ j, k ≤ j → (bpSweep (kernel fn p) rho k kd dV).1.1 j = kd j) ∧
    ((0 < k ∨ dV = (nan, nan)) → (bpSweep (kernel fn p) rho k kd dV).1.2 = (nan, nan)) := by
  induction k with
  | zero => exact fun kd dV _ => ⟨rfl, fun j hj => by omega, fun _ _ => rfl, fun e => e.elim (fun e => by omega) fun e => e⟩
  | succ k ih =>
    intro kd dV ⟨i, j, hS⟩
    obtain ⟨hok, hall⟩ := C112_previous (fn := fn) h hf rho (kd k) (kd (k + 1)) hS
    have e : bpSweep (kernel fn p) rho (k + 1) kd dV =
        bpSweep (kernel fn p) rho k (upd kd k (ArithKP.costToGo (ArithKP.gains fn (ArithKP.regularize rho (ArithKP.actionValue (kd k) (kd (k + 1))))).1))
          (dV.1 + nan, dV.2 + nan) := by
      show (if (ArithKP.gains fn (ArithKP.regularize rho (ArithKP.actionValue (kd k) (kd (k + 1))))).2 = true then _ else _) = _
      rw [if_pos hok]
      show bpSweep _ _ _ _ (_ + (ArithKP.costToGo _).delta.1, _ + (ArithKP.costToGo _).delta.2) = _
      rw [show ((kernel fn p).gains ((kernel fn p).regularize rho ((kernel fn p).actionValue (kd k) (kd (k + 1))))).1 =
        (ArithKP.gains fn (ArithKP.regularize rho (ArithKP.actionValue (kd k) (kd (k + 1))))).1 from rfl, hall.delta]
      rfl
    rw [e]
    obtain ⟨h1, h2, h3, h4⟩ := ih (upd kd k (ArithKP.costToGo (ArithKP.gains fn (ArithKP.regularize rho (ArithKP.actionValue (kd k) (kd (k + 1))))).1))
      (dV.1 + nan, dV.2 + nan) ⟨i, j, by rw [upd_self]; exact hall.Sxx i j⟩
    refine ⟨h1, fun r hr => ?_, fun r hr => ?_, fun _ => h4 (.inr (by rw [h.add_right, h.add_right]))⟩
    · by_cases hrk : r = k
      · subst hrk
        rw [h3 r le_rfl, upd_self]; exact hall
      · exact h2 r (by omega)
    · rw [h3 r (by omega), upd_of_ne (by omega)]

/-- The sweep does not touch the derivatives, nor the knot points from `k` on. -/
theorem sweep_cost (rho : F) (k : ℕ) : ∀ (kd : ℕ → KP n (m + 1) F) (dV : F × F) (j : ℕ),
    (((bpSweep (kernel fn p) rho k kd dV).1.1 j).cost = (kd j).cost ∧ ((bpSweep (kernel fn p) rho k kd dV).1.1 j).A = (kd j).A ∧
      ((bpSweep (kernel fn p) rho k kd dV).1.1 j).B = (kd j).B) ∧
    (k ≤ j → (bpSweep (kernel fn p) rho k kd dV).1.1 j = kd j) := by
  have hg : ∀ d : KP n (m + 1) F, (ArithKP.gains fn d).1.cost = d.cost ∧ (ArithKP.gains fn d).1.A = d.A ∧ (ArithKP.gains fn d).1.B = d.B := by
    intro d
    unfold ArithKP.gains
    split
    · exact ⟨rfl, rfl, rfl⟩
    · exact ⟨rfl, rfl, rfl⟩
  induction k with
  | zero => exact fun kd dV j => ⟨⟨rfl, rfl, rfl⟩, fun _ => rfl⟩
  | succ k ih =>
    intro kd dV j
    have hk := hg (ArithKP.regularize rho (ArithKP.actionValue (kd k) (kd (k + 1))))
    simp only [bpSweep]
    split
    · obtain ⟨⟨h1, h2, h3⟩, h4⟩ := ih (upd kd k ((kernel fn p).costToGo ((kernel fn p).gains ((kernel fn p).regularize rho
          ((kernel fn p).actionValue (kd k) (kd (k + 1))))).1)) _ j
      refine ⟨?_, fun hj => ?_⟩
      · rw [h1, h2, h3]
        by_cases e : j = k
        · subst e
          rw [upd_self]; exact hk
        · rw [upd_of_ne e]; exact ⟨rfl, rfl, rfl⟩
      · rw [h4 (by omega), upd_of_ne (by omega)]
    · dsimp only
      refine ⟨?_, fun hj => by rw [upd_of_ne (by omega)]⟩
      by_cases e : j = k
      · subst e
        rw [upd_self]; exact hk
      · rw [upd_of_ne e]; exact ⟨rfl, rfl, rfl⟩

/-- What has become NaN stays NaN. -/
theorem sweep_keeps (h : IsNaN nan) (rho : F) (k : ℕ) : ∀ (kd : ℕ → KP n (m + 1) F) (dV : F × F), dV.2 = nan →
    (bpSweep (kernel fn p) rho k kd dV).1.2.2 = nan := by
  induction k with
  | zero => exact fun kd dV e => e
  | succ k ih =>
    intro kd dV e
    simp only [bpSweep]
    split
    · exact ih _ _ (add_of_left h e)
    · exact e

/-- **C112, any NaN makes the announced change NaN.**  If a sweep succeeds and somewhere among the derivatives there is a NaN (other
than those with respect to the state at the first knot point, which is given), the announced change of the cost is NaN. -/
theorem C112_announced (h : IsNaN nan) (rho : F) (K : ℕ) : ∀ (kd : ℕ → KP n (m + 1) F) (dV : F × F),
    (bpSweep (kernel fn p) rho K kd dV).2 = true →
    ((0 < K ∧ CtgNaN nan (kd K)) ∨ (∃ k < K, ControlNaN nan (kd k)) ∨ ∃ k < K, 0 < k ∧ StateNaN nan (kd k)) →
    (bpSweep (kernel fn p) rho K kd dV).1.2.2 = nan := by
  induction K with
  | zero =>
    rintro kd dV - (⟨e, -⟩ | ⟨k, hk, -⟩ | ⟨k, hk, -⟩)
    · omega
    · omega
    · omega
  | succ K ih =>
    intro kd dV hok hd
    simp only [bpSweep] at hok ⊢
    split at hok
    · rename_i hk
      rw [if_pos hk]
      have here : ControlNaN nan (kd K) ∨ CtgNaN nan (kd (K + 1)) →
          (ArithKP.costToGo (ArithKP.gains fn (ArithKP.regularize rho (ArithKP.actionValue (kd K) (kd (K + 1))))).1).delta.2 = nan :=
        fun e => C112_delta h rho _ (actionValue_nan h _ _ e) hk
      rcases hd with ⟨-, e⟩ | ⟨k, hkK, e⟩ | ⟨k, hkK, h0, e⟩
      · exact sweep_keeps p h rho _ _ _ (add_of_right h (here (.inr e)))
      · by_cases hkk : k = K
        · subst hkk
          exact sweep_keeps p h rho _ _ _ (add_of_right h (here (.inl e)))
        · exact ih _ _ hok (.inr (.inl ⟨k, by omega, by rw [upd_of_ne hkk]; exact e⟩))
      · by_cases hkk : k = K
        · subst hkk
          exact ih _ _ hok (.inl ⟨h0, by rw [upd_self]; exact C112_state h rho _ _ e hk⟩)
        · exact ih _ _ hok (.inr (.inr ⟨k, by omega, h0, by rw [upd_of_ne hkk]; exact e⟩))
    · cases hok

end sweep

/-! ## The line search and the solve -/

section solve
variable {X U C D : Type} (P : Kernel X U F C D) {o : Opts F}

theorem search_rejects (h : IsNaN nan) (hls : Arith.le o.lsLower (-1) = false) (J0 : F) (r : ℕ) : ∀ (a J : F) (s : St X U F C D),
    s.dV1 = nan → (lineSearch P o J0 r a J s).2 = false ∧ (lineSearch P o J0 r a J s).1.1.stats = s.stats := by
  induction r with
  | zero => exact fun _ _ _ _ => ⟨rfl, rfl⟩
  | succ r ih =>
    intro a J s hs
    have hz : ∀ (J : F) (s : St X U F C D), s.dV1 = nan → ratio J0 J a s = -1 := by
      intro J s hs
      unfold ratio expected Arith.gt
      rw [hs, h.mul_right, h.add_right, h.mul_right, h.lt_right]
      rfl
    simp only [lineSearch]
    split
    · have hd : (ILQR.cost P (rolloutClosedLoop P o a s).1.Zbar (rolloutClosedLoop P o a s).1).2.dV1 = nan := by
        rw [cost_dV1, rcl_dV1]; exact hs
      split
      · rename_i hacc
        rw [hz _ _ hd] at hacc
        unfold accept at hacc
        rw [hls] at hacc
        cases hacc
      · obtain ⟨h1, h2⟩ := ih (a / o.lsFactor) (ILQR.cost P (rolloutClosedLoop P o a s).1.Zbar (rolloutClosedLoop P o a s).1).1 _ hd
        exact ⟨h1, by rw [h2, cost_stats, rcl_stats]⟩
    · obtain ⟨h1, h2⟩ := ih (a / o.lsFactor) J (rolloutClosedLoop P o a s).1 (by rw [rcl_dV1]; exact hs)
      exact ⟨h1, by rw [h2, rcl_stats]⟩

/-- With the limits switched off the line search leaves the status alone. -/
theorem search_status_off (hlim : o.checkBounds = false) (J0 : F) (r : ℕ) : ∀ (a J : F) (s : St X U F C D), s.status = .kUnsolved →
    (lineSearch P o J0 r a J s).1.1.status = .kUnsolved := by
  have hcl : ∀ (k : ℕ) (a : F) (s : St X U F C D), (closedLoopTo P o a s k).2 = none := by
    intro k a s
    induction k with
    | zero => rfl
    | succ k ih =>
      unfold closedLoopTo
      split
      · rename_i st e; rw [e] at ih; cases ih
      · unfold limitStatus; rw [hlim]; rfl
  have hrc : ∀ (a : F) (s : St X U F C D), (rolloutClosedLoop P o a s).1.status = .kUnsolved := by
    intro a s
    have h1 := hcl P.N a s
    unfold rolloutClosedLoop
    split
    · rename_i st e; rw [e] at h1; cases h1
    · rfl
  induction r with
  | zero => exact fun _ _ _ hs => hs
  | succ r ih =>
    intro a J s hs
    simp only [lineSearch]
    split
    · split
      · show (ILQR.cost _ _ _).2.status = _
        rw [cost_status]; exact hrc a s
      · exact ih _ _ _ (by rw [cost_status]; exact hrc a s)
    · exact ih _ _ _ (hrc a s)

/-- **C112, no step.**  If the announced change is NaN, every step is rejected, for the ratio is -1: the trajectory stays as it
is, and the regularization is increased. -/
theorem C112_rejected (h : IsNaN nan) (hls : Arith.le o.lsLower (-1) = false) (s : St X U F C D) (hs : s.dV1 = nan) :
    (forwardPass P o s).Z = s.Z ∧ (forwardPass P o s).rho = (increaseReg o s).rho ∧
    (forwardPass P o s).drho = (increaseReg o s).drho := by
  have hr := (search_rejects P h hls (costSum P s) o.lsMax.toNat 1 (costSum P s) s hs).1
  have fr := lineSearch_LSFrame P o (costSum P s) o.lsMax.toNat 1 (costSum P s) s
  have key : (increaseReg o (lineSearch P o (costSum P s) o.lsMax.toNat 1 (costSum P s) s).1.1).Z = s.Z ∧
      (increaseReg o (lineSearch P o (costSum P s) o.lsMax.toNat 1 (costSum P s) s).1.1).rho = (increaseReg o s).rho ∧
      (increaseReg o (lineSearch P o (costSum P s) o.lsMax.toNat 1 (costSum P s) s).1.1).drho = (increaseReg o s).drho := by
    refine ⟨fr.Z, ?_, ?_⟩
    · simp only [increaseReg, fr.rho, fr.drho]
    · simp only [increaseReg, fr.drho]
  unfold forwardPass
  simp only [hr, Bool.false_eq_true, if_false]
  split
  · exact key
  · exact key

end solve

section problem
variable {C : Type} (p : ArithProblem n (m + 1) F C) {o : Opts F}

/-- The derivatives after `UpdateExpansions`. -/
theorem expanded (s : St (Fin n → F) (Fin (m + 1) → F) F C (KP n (m + 1) F)) (k : ℕ) (hk : k ≤ p.N) :
    ∃ c, ((updateExpansions (kernel fn p) s).kd k).cost = (p.costExp k c (s.Z.x k) (s.Z.u k)).1 ∧
      (((updateExpansions (kernel fn p) s).kd k).A, ((updateExpansions (kernel fn p) s).kd k).B) =
        p.jac k (s.Z.x k) (s.Z.u k) (s.Z.t k) (s.Z.h k) := by
  have key : ∀ j, k < j → ∃ c, ((expandBlock (kernel fn p) 0 s j).kd k).cost = (p.costExp k c (s.Z.x k) (s.Z.u k)).1 ∧
      (((expandBlock (kernel fn p) 0 s j).kd k).A, ((expandBlock (kernel fn p) 0 s j).kd k).B) =
        p.jac k (s.Z.x k) (s.Z.u k) (s.Z.t k) (s.Z.h k) := by
    intro j
    induction j with
    | zero => intro hk; omega
    | succ j ih =>
      intro hk
      by_cases e : k = j
      · subst e
        refine ⟨(expandBlock (kernel fn p) 0 s k).cs k, ?_⟩
        simp only [expandBlock, Nat.zero_add, upd_self, expandBlock_Z]
        exact ⟨rfl, rfl⟩
      · obtain ⟨c, h1, h2⟩ := ih (by omega)
        refine ⟨c, ?_⟩
        simp only [expandBlock, Nat.zero_add, upd_of_ne e]
        exact ⟨h1, h2⟩
  exact key _ (Nat.lt_succ_of_le hk)

/-- A NaN among the derivatives at the trajectory `Z`, whatever the multipliers and penalties. -/
def NaNAt (nan : F) (Z : Traj (Fin n → F) (Fin (m + 1) → F) F) : Prop :=
  (∀ c, (∃ i, (p.costExp p.N c (Z.x p.N) (Z.u p.N)).1.dx i = nan) ∨ ∃ i j, (p.costExp p.N c (Z.x p.N) (Z.u p.N)).1.dxdx i j = nan) ∨
  (∃ k < p.N, ∀ (c : C) (d : KP n (m + 1) F), ControlNaN nan { d with
    cost := (p.costExp k c (Z.x k) (Z.u k)).1
    A := (p.jac k (Z.x k) (Z.u k) (Z.t k) (Z.h k)).1
    B := (p.jac k (Z.x k) (Z.u k) (Z.t k) (Z.h k)).2 }) ∨
  ∃ k < p.N, 0 < k ∧ ∀ (c : C) (d : KP n (m + 1) F), StateNaN nan { d with
    cost := (p.costExp k c (Z.x k) (Z.u k)).1
    A := (p.jac k (Z.x k) (Z.u k) (Z.t k) (Z.h k)).1
    B := (p.jac k (Z.x k) (Z.u k) (Z.t k) (Z.h k)).2 }

theorem loop_announced (h : IsNaN nan) (hN : 0 < p.N) (fuel : ℕ) : ∀ (count : ℕ) (s s' : St (Fin n → F) (Fin (m + 1) → F) F C (KP n (m + 1) F)),
    (CtgNaN nan (s.kd p.N) ∨ (∃ k < p.N, ControlNaN nan (s.kd k)) ∨ ∃ k < p.N, 0 < k ∧ StateNaN nan (s.kd k)) →
    bpLoop (kernel fn p) o fuel count s = some s' → s'.dV1 = nan ∨ s'.status = .kBackwardPassRegularizationFailed := by
  induction fuel with
  | zero => intro _ _ _ _ e; cases e
  | succ fuel ih =>
    intro count s s' hd hs'
    have keep := sweep_cost p (fn := fn) s.rho p.N s.kd (s.dV0, s.dV1)
    unfold bpLoop at hs'
    extract_lets r s1 s2 count' at hs'
    split at hs'
    · rename_i hok
      rw [if_neg (show ¬ (kernel fn p).N = 0 from hN.ne')] at hs'
      injection hs' with hs'; subst hs'
      left
      exact C112_announced p h s.rho p.N s.kd (s.dV0, s.dV1) hok (hd.imp (fun e => ⟨hN, e⟩) id)
    · split at hs'
      · injection hs' with hs'; subst hs'
        exact .inr rfl
      · refine ih _ _ _ ?_ hs'
        have top : s2.kd p.N = s.kd p.N := (keep p.N).2 le_rfl
        have same : ∀ k, (s2.kd k).cost = (s.kd k).cost ∧ (s2.kd k).A = (s.kd k).A ∧ (s2.kd k).B = (s.kd k).B := fun k => (keep k).1
        rcases hd with e | ⟨k, hk, e⟩ | ⟨k, hk, h0, e⟩
        · left; rw [top]; exact e
        · refine .inr (.inl ⟨k, hk, ?_⟩)
          unfold ControlNaN
          rw [(same k).1, (same k).2.2]; exact e
        · refine .inr (.inr ⟨k, hk, h0, ?_⟩)
          unfold StateNaN
          rw [(same k).1, (same k).2.1]; exact e

/-- **C112, an iteration.**  If the derivatives at the current trajectory contain a NaN and the backward pass does not fail, the
iteration takes no step. -/
theorem C112_iteration (h : IsNaN nan) (hls : Arith.le o.lsLower (-1) = false) (hN : 0 < p.N) {fuel : ℕ}
    {s b : St (Fin n → F) (Fin (m + 1) → F) F C (KP n (m + 1) F)} (hd : NaNAt p nan s.Z)
    (hb : backwardPass (kernel fn p) o fuel (updateExpansions (kernel fn p) s) = some b)
    (hok : b.status ≠ .kBackwardPassRegularizationFailed) :
    b.dV1 = nan ∧ iterate (kernel fn p) o fuel s = some (updateConvergence (kernel fn p) (forwardPass (kernel fn p) o b)) ∧
    (forwardPass (kernel fn p) o b).Z = s.Z := by
  have hdV : b.dV1 = nan := by
    unfold backwardPass at hb
    split at hb
    · cases hb
    · rename_i s1 hs1
      injection hb with hb; subst hb
      refine (loop_announced p h hN fuel 0 _ _ ?_ hs1).resolve_right hok
      have ne : ∀ k < p.N, upd (updateExpansions (kernel fn p) s).kd p.N (ArithKP.term ((updateExpansions (kernel fn p) s).kd p.N)) k =
          (updateExpansions (kernel fn p) s).kd k := fun k hk => upd_of_ne (by omega)
      have split3 : ∀ (k : ℕ), k ≤ p.N → ∃ c, (updateExpansions (kernel fn p) s).kd k = { (updateExpansions (kernel fn p) s).kd k with
          cost := (p.costExp k c (s.Z.x k) (s.Z.u k)).1
          A := (p.jac k (s.Z.x k) (s.Z.u k) (s.Z.t k) (s.Z.h k)).1
          B := (p.jac k (s.Z.x k) (s.Z.u k) (s.Z.t k) (s.Z.h k)).2 } := by
        intro k hk
        obtain ⟨c, h1, h2⟩ := expanded (fn := fn) p s k hk
        exact ⟨c, by rw [← h1, ← h2]⟩
      rcases hd with hd | ⟨k, hk, hd⟩ | ⟨k, hk, h0, hd⟩
      · left
        obtain ⟨c, e⟩ := split3 p.N le_rfl
        show CtgNaN nan (upd _ p.N (ArithKP.term ((updateExpansions (kernel fn p) s).kd p.N)) p.N)
        rw [upd_self, e]
        exact hd c
      · refine .inr (.inl ⟨k, hk, ?_⟩)
        obtain ⟨c, e⟩ := split3 k hk.le
        show ControlNaN nan (upd _ p.N (ArithKP.term ((updateExpansions (kernel fn p) s).kd p.N)) k)
        rw [ne k hk, e]
        exact hd c _
      · refine .inr (.inr ⟨k, hk, h0, ?_⟩)
        obtain ⟨c, e⟩ := split3 k hk.le
        show StateNaN nan (upd _ p.N (ArithKP.term ((updateExpansions (kernel fn p) s).kd p.N)) k)
        rw [ne k hk, e]
        exact hd c _
  refine ⟨hdV, ?_, ?_⟩
  · unfold iterate
    rw [hb]
  · rw [(C112_rejected (kernel fn p) h hls b hdV).1, (backwardPass_frame (kernel fn p) o _ _ _ hb).Z, updateExpansions_Z]

/-- What is left after an iteration with a NaN in the terminal Hessian. -/
theorem stuck_iteration (h : IsNaN nan) (hf : KeepNaN fn nan) (hls : Arith.le o.lsLower (-1) = false) (hN : 0 < p.N) (fuel : ℕ)
    {s : St (Fin n → F) (Fin (m + 1) → F) F C (KP n (m + 1) F)} (ha : Aligned s.stats) (hst : s.status = .kUnsolved)
    (hd : ∀ c, ∃ i j, (p.costExp p.N c (s.Z.x p.N) (s.Z.u p.N)).1.dxdx i j = nan) :
    ∃ s', iterate (kernel fn p) o (fuel + 1) s = some s' ∧ s'.Z = s.Z ∧ Aligned s'.stats ∧ Stats.back (s'.stats.col .grad) = nan ∧
      (∀ k < p.N, AllNaN nan (s'.kd k)) ∧ s'.stats.inner = s.stats.inner + 1 ∧ s'.stats.total = s.stats.total + 1 ∧
      (s'.status = .kUnsolved ∨ s'.status = .kStateLimit ∨ s'.status = .kControlLimit ∨ s'.status = .kCostIncrease) ∧
      (o.checkBounds = false → OrderLaws F → s'.status = .kUnsolved) := by
  obtain ⟨c, hc, -⟩ := expanded (fn := fn) p s p.N le_rfl
  obtain ⟨i, j, hij⟩ := hd c
  -- the backward pass
  generalize hu : updateExpansions (kernel fn p) s = u at hc
  have huZ : u.Z = s.Z := by rw [← hu, updateExpansions_Z]
  have hust : u.status = .kUnsolved := by rw [← hu, updateExpansions_status]; exact hst
  have hus : u.stats = s.stats := by rw [← hu, updateExpansions_stats]
  obtain ⟨w1, w2, -, w4⟩ := C112_sweep p h hf (fn := fn) u.rho p.N (upd u.kd p.N (ArithKP.term (u.kd p.N))) (0, 0)
    ⟨i, j, by rw [upd_self]; show (u.kd p.N).cost.dxdx i j = nan; rw [hc]; exact hij⟩
  obtain ⟨b, hb, hbdV, hbkd, hbst, hbs, hbZ⟩ : ∃ b, backwardPass (kernel fn p) o (fuel + 1) u = some b ∧ b.dV1 = nan ∧
      (∀ k < p.N, AllNaN nan (b.kd k)) ∧ b.status = .kUnsolved ∧ (∃ r, b.stats = s.stats.log (some .reg) r) ∧ b.Z = s.Z := by
    obtain ⟨S, hl, e1, e2, e3, e4, e5⟩ : ∃ S, bpLoop (kernel fn p) o (fuel + 1) 0
        { u with kd := upd u.kd (kernel fn p).N ((kernel fn p).term (u.kd (kernel fn p).N)), dV0 := 0, dV1 := 0 } = some S ∧ S.dV1 = nan ∧
        (∀ k < p.N, AllNaN nan (S.kd k)) ∧ S.status = u.status ∧ S.stats = u.stats ∧ S.Z = u.Z := by
      unfold bpLoop
      extract_lets r s1 s2 count'
      rw [if_pos (show r.2 = true from w1), if_neg (show ¬ (kernel fn p).N = 0 from hN.ne')]
      exact ⟨s1, rfl, congrArg Prod.snd (w4 (.inl hN)), w2, rfl, rfl, rfl⟩
    refine ⟨decreaseReg o { S with stats := S.stats.log (some .reg) S.rho }, by unfold backwardPass; rw [hl], e1, e2, e3.trans hust,
      ⟨S.rho, ?_⟩, e5.trans huZ⟩
    rw [decreaseReg_stats, ← hus, ← e4]
  have hit : iterate (kernel fn p) o (fuel + 1) s = some (updateConvergence (kernel fn p) (forwardPass (kernel fn p) o b)) := by
    unfold iterate; rw [hu, hb]
  -- the forward pass
  have fr := forwardPass_frame (kernel fn p) o b
  obtain ⟨hrej, hsts⟩ := search_rejects (kernel fn p) h hls (costSum (kernel fn p) b) o.lsMax.toNat 1 (costSum (kernel fn p) b) b hbdV
  have hfs : (forwardPass (kernel fn p) o b).stats = b.stats := by
    unfold forwardPass
    simp only [hrej, Bool.false_eq_true, if_false]
    split
    · exact hsts
    · exact hsts
  have hfst : (forwardPass (kernel fn p) o b).status = .kUnsolved ∨ (forwardPass (kernel fn p) o b).status = .kStateLimit ∨
      (forwardPass (kernel fn p) o b).status = .kControlLimit ∨ (forwardPass (kernel fn p) o b).status = .kCostIncrease := by
    have := lineSearch_status (kernel fn p) o (costSum (kernel fn p) b) o.lsMax.toNat 1 (costSum (kernel fn p) b) b fun _ => .inl hbst
    unfold forwardPass
    simp only [hrej, Bool.false_eq_true, if_false]
    split
    · exact .inr (.inr (.inr rfl))
    · rcases this with e | e | e
      · exact .inl e
      · exact .inr (.inl e)
      · exact .inr (.inr (.inl e))
  obtain ⟨r, hr⟩ := hbs
  have haf : Aligned (forwardPass (kernel fn p) o b).stats := by rw [hfs, hr]; exact aligned_log _ _ _ ha
  have hlen : (forwardPass (kernel fn p) o b).stats.len ≠ 0 := by rw [hfs, hr]; exact log_len_ne _ _ _
  obtain ⟨-, -, -, hgrad, -, hal, -⟩ := updateConvergence_cols (P := kernel fn p) _ haf hlen
  obtain ⟨ct1, ct2, -, -⟩ := updateConvergence_counters (kernel fn p) (forwardPass (kernel fn p) o b)
  obtain ⟨lg1, lg2, -, -⟩ := log_counters s.stats (some .reg) r
  have hnan : normalizedGain (kernel fn p) (forwardPass (kernel fn p) o b) = nan := by
    unfold normalizedGain Arith.sumTo
    rw [fr.kd, show (kernel fn p).N = p.N from rfl]
    have key : ∀ (l : List ℕ) (a : F), (∀ k ∈ l, k < p.N) → (a = nan ∨ l ≠ []) →
        l.foldl (fun acc k => acc + (kernel fn p).gradTerm (b.kd k) ((forwardPass (kernel fn p) o b).Z.u k)) a = nan := by
      intro l
      induction l with
      | nil => intro a _ e; exact e.elim id fun e => absurd rfl e
      | cons k l ih =>
        intro a hl _
        refine ih _ (fun k hk => hl k (List.mem_cons_of_mem _ hk)) (.inl ?_)
        refine add_of_right h ?_
        show fn.maxCoeff _ = nan
        have : (List.ofFn fun i => fn.abs ((b.kd k).ff i) / (fn.abs ((forwardPass (kernel fn p) o b).Z.u k i) + 1)) =
            List.replicate (m + 1) nan := by
          rw [← List.ofFn_const]
          congr 1
          funext i
          rw [(hbkd k (hl k List.mem_cons_self)).ff, hf.abs, h.div_left]
        rw [this, hf.maxCoeff]
    rw [key _ _ (fun k hk => List.mem_range.mp hk) (.inr fun e => by rw [List.range_eq_nil] at e; omega), h.div_left]
  refine ⟨_, hit, ?_, hal, by rw [hgrad, hnan], ?_, ?_, ?_, ?_, ?_⟩
  · rw [updateConvergence_Z, (C112_rejected (kernel fn p) h hls b hbdV).1, hbZ]
  · intro k hk
    rw [updateConvergence_kd, fr.kd]; exact hbkd k hk
  · rw [ct1, hfs, hr, lg1]
  · rw [ct2, hfs, hr, lg2]
  · rw [updateConvergence_status]; exact hfst
  · intro hb0 ol
    rw [updateConvergence_status, forwardPass_eq (kernel fn p) o ol]
    simp only [hrej, Bool.false_eq_true, if_false]
    show (lineSearch _ _ _ _ _ _ _).1.1.status = _
    exact search_status_off (kernel fn p) hb0 _ _ _ _ _ hbst

/-- **C112, the solver is stuck.**  If the Hessian of the terminal cost has a NaN where the initial rollout ends, a solve returns the
initial rollout, with no gain that is not NaN; it reports neither success nor a failure of the backward pass. -/
theorem C112_stuck (h : IsNaN nan) (hf : KeepNaN fn nan) (hls : Arith.le o.lsLower (-1) = false) (hN : 0 < p.N) (fuel : ℕ)
    (s : St (Fin n → F) (Fin (m + 1) → F) F C (KP n (m + 1) F)) (ha : Aligned s.stats)
    (hd : ∀ c, ∃ i j, (p.costExp p.N c ((start (kernel fn p) o s).Z.x p.N) ((start (kernel fn p) o s).Z.u p.N)).1.dxdx i j = nan) :
    ∃ s', ILQR.solve (kernel fn p) o (fuel + 1) s = some s' ∧ s'.Z = (start (kernel fn p) o s).Z ∧ s'.status ≠ .kSolved ∧
      s'.status ≠ .kBackwardPassRegularizationFailed ∧ (0 < o.maxInner → ∀ k < p.N, AllNaN nan (s'.kd k)) ∧
      (0 < o.maxInner → o.checkBounds = false → OrderLaws F → s'.status = .kMaxInnerIterations ∨ s'.status = .kMaxIterations) := by
  have loop : ∀ (r : ℕ) (s : St (Fin n → F) (Fin (m + 1) → F) F C (KP n (m + 1) F)), Aligned s.stats → s.status = .kUnsolved →
      (∀ c, ∃ i j, (p.costExp p.N c (s.Z.x p.N) (s.Z.u p.N)).1.dxdx i j = nan) →
      ∃ s', solveLoop (kernel fn p) o (fuel + 1) r s = some s' ∧ s'.Z = s.Z ∧ s'.status ≠ .kSolved ∧
        s'.status ≠ .kBackwardPassRegularizationFailed ∧ (0 < r → ∀ k < p.N, AllNaN nan (s'.kd k)) ∧
        (o.checkBounds = false → OrderLaws F → 0 < r → (s.stats.inner : ℤ) + r = o.maxInner →
          s'.status = .kMaxInnerIterations ∨ s'.status = .kMaxIterations) := by
    intro r
    induction r with
    | zero => exact fun s _ hst _ => ⟨s, rfl, rfl, by rw [hst]; decide, by rw [hst]; decide, fun e => by omega, fun _ _ e => by omega⟩
    | succ r ih =>
      intro s ha hst hd
      obtain ⟨t, hit, hZ, hat, hg, hkd, hin, htot, hts, hoff⟩ := stuck_iteration p h hf hls hN fuel ha hst hd
      have hnot : (Arith.lt (Stats.back (t.stats.col .dJ)) o.costTol && Arith.lt (Stats.back (t.stats.col .grad)) o.gradTol) = false := by
        rw [hg, h.lt_left, Bool.and_false]
      have hsol : solveLoop (kernel fn p) o (fuel + 1) (r + 1) s =
          if (isDone o t).2 then some (isDone o t).1 else solveLoop (kernel fn p) o (fuel + 1) r (isDone o t).1 := by
        simp only [solveLoop]; rw [hit]
      rw [hsol]
      by_cases c1 : (t.stats.inner : ℤ) ≥ o.maxInner
      · have e : isDone o t = ({ t with status := .kMaxInnerIterations }, true) := by
          unfold isDone; rw [hnot, if_neg (by decide), if_pos c1]
        rw [e]
        exact ⟨_, rfl, hZ, by simp, by simp, fun _ => hkd, fun _ _ _ _ => .inl rfl⟩
      · by_cases c2 : (t.stats.total : ℤ) ≥ o.maxTotal
        · have e : isDone o t = ({ t with status := .kMaxIterations }, true) := by
            unfold isDone; rw [hnot, if_neg (by decide), if_neg c1, if_pos c2]
          rw [e]
          exact ⟨_, rfl, hZ, by simp, by simp, fun _ => hkd, fun _ _ _ _ => .inr rfl⟩
        · have e : isDone o t = (t, decide (t.status ≠ .kUnsolved)) := by
            unfold isDone; rw [hnot, if_neg (by decide), if_neg c1, if_neg c2]
          rw [e]
          by_cases hu : t.status = .kUnsolved
          · simp only [hu, ne_eq, not_true_eq_false, decide_false, Bool.false_eq_true, if_false]
            obtain ⟨s', q1, q2, q3, q4, q5, q6⟩ := ih t hat hu (by rw [hZ]; exact hd)
            refine ⟨s', q1, q2.trans hZ, q3, q4, fun _ => ?_, fun f1 f2 _ f4 => ?_⟩
            · by_cases h0 : 0 < r
              · exact q5 h0
              · obtain rfl : r = 0 := by omega
                simp only [solveLoop] at q1
                injection q1 with q1; subst q1
                exact hkd
            · refine q6 f1 f2 ?_ (by rw [hin]; push_cast at f4 ⊢; omega)
              rw [hin] at c1; push_cast at c1 f4
              omega
          · rw [if_pos (by simpa using hu)]
            refine ⟨t, rfl, hZ, ?_, ?_, fun _ => hkd, fun f1 f2 => absurd (hoff f1 f2) hu⟩
            · rcases hts with e | e | e | e <;> rw [e] <;> decide
            · rcases hts with e | e | e | e <;> rw [e] <;> decide
  have hst : (start (kernel fn p) o s).status = .kUnsolved := by
    show (ILQR.cost _ _ _).2.status = _
    rw [cost_status]; rfl
  have hal : Aligned (start (kernel fn p) o s).stats := by
    show Aligned { (ILQR.cost _ _ _).2.stats with initialCost := _ }
    rw [cost_stats]; exact ha
  have hin : (start (kernel fn p) o s).stats.inner = 0 := by
    show (ILQR.cost _ _ _).2.stats.inner = 0
    rw [cost_stats]; rfl
  obtain ⟨s', q1, q2, q3, q4, q5, q6⟩ := loop o.maxInner.toNat _ hal hst hd
  exact ⟨s', q1, q2, q3, q4, fun e => q5 (by omega), fun e f1 f2 => q6 f1 f2 (by omega) (by rw [hin]; omega)⟩

theorem start_Z (s : St (Fin n → F) (Fin (m + 1) → F) F C (KP n (m + 1) F)) :
    (start (kernel fn p) o s).Z = rolloutTo (kernel fn p) s.Z p.N := by
  show (ILQR.cost _ _ _).2.Z = _
  rw [cost_Z]; rfl

/-- **C112, the augmented Lagrangian solver** then returns after its first outer iteration, with the initial rollout and without
reporting success. -/
theorem C112_outer (h : IsNaN nan) (hf : KeepNaN fn nan) (hls : Arith.le o.lsLower (-1) = false) (hN : 0 < p.N) (fuel : ℕ)
    (A : CostOps C F) (s : ALSt (Fin n → F) (Fin (m + 1) → F) F C (KP n (m + 1) F)) (hm : 0 < o.maxOuter)
    (hd : ∀ c, ∃ i j, (p.costExp p.N c ((rolloutTo (kernel fn p) s.st.Z p.N).x p.N) ((rolloutTo (kernel fn p) s.st.Z p.N).u p.N)).1.dxdx i j = nan) :
    ∃ s', AL.solve (kernel fn p) A o (ILQR.solve (kernel fn p) o (fuel + 1)) s = some s' ∧ s'.st.Z = rolloutTo (kernel fn p) s.st.Z p.N ∧
      s'.status ≠ .kSolved ∧ s'.status ≠ .kBackwardPassRegularizationFailed ∧ s'.st.stats.outer = 1 := by
  have hZ : (AL.init (kernel fn p) A o s).st.Z = s.st.Z := by
    unfold AL.init AL.eachCost
    simp only [cost_Z]
    split <;> split <;> rfl
  have hal : Aligned (AL.init (kernel fn p) A o s).st.stats := by
    unfold AL.init
    extract_lets a1 a2 a3 a4 a5
    have h3 : Aligned a3.stats := by
      show Aligned (a2.stats.reset.log none 0)
      exact aligned_log _ _ _ aligned_new
    have h4 : a4.stats = a3.stats := cost_stats _ _ _
    have h5 : Aligned a5.stats := by
      show Aligned (a4.stats.log (some .viol) ((kernel fn p).viol a4.cs))
      exact aligned_log _ _ _ (h4 ▸ h3)
    show Aligned (a5.stats.log (some .pen) (AL.maxPenalty (kernel fn p) A a5.cs))
    exact aligned_log _ _ _ h5
  have hout : (AL.init (kernel fn p) A o s).st.stats.outer = 0 := by
    unfold AL.init
    extract_lets a1 a2 a3 a4 a5
    have h4 : a4.stats = a3.stats := cost_stats _ _ _
    have h5 : a5.stats = a4.stats.log (some .viol) ((kernel fn p).viol a4.cs) := rfl
    have h3 : a3.stats = a2.stats.reset.log none 0 := rfl
    show (a5.stats.log (some .pen) (AL.maxPenalty (kernel fn p) A a5.cs)).outer = 0
    rw [(log_counters _ _ _).2.2.1, h5, (log_counters _ _ _).2.2.1, h4, h3, (log_counters _ _ _).2.2.1]
    rfl
  obtain ⟨t, h1, h2, h3, h4, -, -⟩ := C112_stuck p h hf hls hN fuel (AL.init (kernel fn p) A o s).st hal
    (by rw [start_Z, hZ]; exact hd)
  have hto : t.stats.outer = 0 := by rw [solve_keepsOuter (kernel fn p) o _ _ _ h1, hout]
  obtain ⟨r, hr⟩ : ∃ r, o.maxOuter.toNat = r + 1 := ⟨o.maxOuter.toNat - 1, by omega⟩
  have hdone : AL.isDone o (AL.updateConvergence (kernel fn p) A { AL.init (kernel fn p) A o s with
      st := AL.eachCost (kernel fn p) A.updateDuals t }) = ({ AL.updateConvergence (kernel fn p) A { AL.init (kernel fn p) A o s with
      st := AL.eachCost (kernel fn p) A.updateDuals t } with status := t.status }, true) := by
    unfold AL.isDone
    rw [if_pos (show (AL.updateConvergence (kernel fn p) A { AL.init (kernel fn p) A o s with
      st := AL.eachCost (kernel fn p) A.updateDuals t }).st.status ≠ .kSolved from h3)]
    rfl
  refine ⟨{ AL.updateConvergence (kernel fn p) A { AL.init (kernel fn p) A o s with
      st := AL.eachCost (kernel fn p) A.updateDuals t } with status := t.status }, ?_, ?_, h3, h4, ?_⟩
  · unfold AL.solve
    rw [hr]
    simp only [AL.outerLoop]
    rw [h1]
    simp only [hdone, if_true]
  · show t.Z = _
    rw [h2, start_Z, hZ]
  · unfold AL.updateConvergence
    simp only [(log_counters _ _ _).2.2.1]
    show t.stats.outer + 1 = 1
    rw [hto]

end problem

/-! ## Exact arithmetic -/

section exact

theorem sum_exact {n : ℕ} (f : Fin n → ℝ) : ArithKP.sum f = ∑ i, f i := by
  rw [← List.sum_ofFn, List.sum_eq_foldl]
  rfl

theorem mul_exact {a b c : ℕ} (A : Matrix (Fin a) (Fin b) ℝ) (B : Matrix (Fin b) (Fin c) ℝ) : ArithKP.mul A B = A * B := by
  funext i j
  exact (sum_exact _).trans (Matrix.mul_apply).symm

theorem mulV_exact {a b : ℕ} (A : Matrix (Fin a) (Fin b) ℝ) (v : Fin b → ℝ) : ArithKP.mulV A v = A *ᵥ v := by
  funext i
  exact sum_exact _

theorem dot_exact {a : ℕ} (v w : Fin a → ℝ) : ArithKP.dot v w = v ⬝ᵥ w := sum_exact _

theorem acc_exact (l : List (ℝ × ℝ)) : ∀ s : ℝ, ArithKP.acc s l = s - (l.map fun q => q.1 * q.2).sum := by
  induction l with
  | nil => intro s; exact (sub_zero s).symm
  | cons q l ih =>
    intro s
    refine (ih (s - q.1 * q.2)).trans ?_
    rw [List.map_cons, List.sum_cons]; ring

theorem factor_exact (c : ℕ) : ∀ (k : ℕ) (A : ℕ → ℕ → ℝ), ArithKP.factor exactFns c k A = Floats.exact.factor c k A := by
  have hp : ∀ (k : ℕ) (A : ℕ → ℕ → ℝ), ArithKP.pivot k A = Floats.exact.pivot k A := fun k A => acc_exact _ _
  have hc : ∀ (k : ℕ) (A : ℕ → ℕ → ℝ), ArithKP.column exactFns k A = Floats.exact.column k A := by
    intro k A
    funext i j
    unfold ArithKP.column Floats.column
    rw [hp, acc_exact]
    rfl
  induction c with
  | zero => exact fun _ _ => rfl
  | succ c ih =>
    intro k A
    unfold ArithKP.factor Floats.factor
    rw [hp, hc, ih]
    have e : (Arith.le (Floats.exact.pivot k A) 0 = true) ↔ Floats.exact.pivot k A ≤ 0 := Arith.le_iff _ _
    by_cases h : Floats.exact.pivot k A ≤ 0
    · rw [if_pos (e.mpr h), if_pos h]
    · rw [if_neg (fun q => h (e.mp q)), if_neg h]

theorem solve_exact (m : ℕ) (M : Matrix (Fin m) (Fin m) ℝ) (b : Fin m → ℝ) : ArithKP.solve exactFns m M b = Floats.exact.solve m M b := by
  have hf : ∀ (L : ℕ → ℕ → ℝ) (b : ℕ → ℝ) (i : ℕ), ArithKP.fwd L b i = Floats.exact.fwd L b i := by
    intro L b i
    induction i with
    | zero => rfl
    | succ i ih =>
      unfold ArithKP.fwd Floats.fwd
      rw [ih, acc_exact]
      rfl
  have hb : ∀ (L : ℕ → ℕ → ℝ) (y : ℕ → ℝ) (i : ℕ), ArithKP.bwd m L y i = Floats.exact.bwd m L y i := by
    intro L y i
    induction i with
    | zero => rfl
    | succ i ih =>
      unfold ArithKP.bwd Floats.bwd
      rw [ih]
      simp only [acc_exact]
      rfl
  funext i
  unfold ArithKP.solve Floats.solve
  simp only
  rw [show ArithKP.entries M = Chol.entries M from rfl, show ArithKP.coords b = Chol.coords b from rfl, factor_exact, hf, hb]

/-- **C112, the model.**  With exact arithmetic the kernel is the one of the other properties. -/
theorem C112_exact {n m : ℕ} (p : DynProblem n m ℝ) : kernel exactFns (exactProblem p) = alKernel p := by
  have hav : (ArithKP.actionValue : KP n m ℝ → KP n m ℝ → KP n m ℝ) = KP.actionValue := by
    funext d nxt
    unfold ArithKP.actionValue KP.actionValue
    simp only [mul_exact, mulV_exact]
    rfl
  have hrg : (ArithKP.regularize : ℝ → KP n m ℝ → KP n m ℝ) = KP.regularize := by
    funext rho d
    unfold ArithKP.regularize KP.regularize
    have e : (fun i j => d.q.dudu i j + (if i = j then 1 else 0) * rho) = d.q.dudu + rho • (1 : Matrix (Fin m) (Fin m) ℝ) := ?_
    · rw [e]
    funext i j
    show d.q.dudu i j + _ * rho = (d.q.dudu + rho • (1 : Matrix (Fin m) (Fin m) ℝ)) i j
    rw [Matrix.add_apply, Matrix.smul_apply, Matrix.one_apply, smul_eq_mul, mul_comm]
  have hg : (ArithKP.gains exactFns : KP n m ℝ → KP n m ℝ × Bool) = KP.gains := by
    funext d
    have h := congrFun (C111_exact (n := n) (m := m)) d.qreg
    unfold Floats.routine exactRoutine at h
    unfold ArithKP.gains KP.gains
    have hok : ArithKP.ok exactFns m d.qreg.dudu = Floats.exact.ok m d.qreg.dudu := by
      unfold ArithKP.ok Floats.ok
      rw [factor_exact]; rfl
    rw [hok]
    have neg1 : ∀ x : ℝ, x * (-1) = -x := fun x => by ring
    by_cases h1 : Floats.exact.ok m d.qreg.dudu = true
    · rw [if_pos h1] at h ⊢
      by_cases h2 : lltOk m d.qreg.dudu = true
      · rw [if_pos h2] at h ⊢
        injection h with h
        injection h with ha hb
        have e1 : (fun i j => ArithKP.solve exactFns m d.qreg.dudu (fun l => d.qreg.dxdu j l) i * (-1 : ℝ)) =
            Matrix.of fun i j => -(lltSolve m d.qreg.dudu (fun l => d.qreg.dxdu j l) i) := by
          rw [← ha]
          funext i j
          rw [solve_exact, neg1]; rfl
        have e2 : (fun i => ArithKP.solve exactFns m d.qreg.dudu d.qreg.du i * (-1 : ℝ)) = -(lltSolve m d.qreg.dudu d.qreg.du) := by
          rw [← hb]
          funext i
          rw [solve_exact, neg1]; rfl
        rw [← e1, ← e2]
      · rw [if_neg h2] at h; cases h
    · rw [if_neg h1] at h ⊢
      by_cases h2 : lltOk m d.qreg.dudu = true
      · rw [if_pos h2] at h; cases h
      · rw [if_neg h2]
  have hct : (ArithKP.costToGo : KP n m ℝ → KP n m ℝ) = KP.costToGo := by
    funext d
    unfold ArithKP.costToGo KP.costToGo
    simp only [mul_exact, mulV_exact, dot_exact]
    congr 2
    show (1 : ℝ) / (1 + 1) * _ = _
    norm_num
  have hpo : (ArithKP.policy : KP n m ℝ → (Fin n → ℝ) → (Fin n → ℝ) → (Fin m → ℝ) → ℝ → (Fin m → ℝ)) = KP.policy := by
    funext d xb x u a i
    unfold ArithKP.policy KP.policy
    rw [mulV_exact]
    show u i + _ + d.ff i * a = u i + _ + a * d.ff i
    rw [mul_comm a]
    rfl
  unfold kernel alKernel
  rw [hav, hrg, hg, hct, hpo]
  rfl

end exact

/-! ## Concrete cases -/

/-- A matrix with -5 on the diagonal and no positive definite extension: the NaN below the diagonal hides it. -/
example (fn : Fns Dbl) (hf : KeepNaN fn .nan) : ArithKP.ok fn 2 !![.num 1, .num 0; .nan, .num (-5)] = true := by
  rw [C112_factor C112_double hf _ (i := 1) (j := 0) (by decide) rfl]
  rfl

/-- Without the NaN, or with the NaN in the other triangle, the factorization fails. -/
example (fn : Fns Dbl) (hs : fn.sqrt (.num 1) = .num 1) :
    ArithKP.ok fn 2 !![.num 1, .num 0; .num 0, .num (-5)] = false ∧ ArithKP.ok fn 2 !![.num 1, .nan; .num 0, .num (-5)] = false := by
  have h : ArithKP.ok fn 2 !![.num 1, .num 0; .num 0, .num (-5)] = false := by
    have p0 : ArithKP.pivot 0 (ArithKP.entries (m := 2) !![.num 1, .num 0; .num 0, .num (-5)]) = (.num 1 : Dbl) := rfl
    have p1 : ArithKP.pivot 1 (ArithKP.column fn 0 (ArithKP.entries (m := 2) !![.num 1, .num 0; .num 0, .num (-5)])) = (.num (-5) : Dbl) := by
      show (Dbl.num (-5)) - (Dbl.num 0 / fn.sqrt (.num 1)) * (Dbl.num 0 / fn.sqrt (.num 1)) = .num (-5)
      rw [hs]; decide +kernel
    have l0 : Arith.le (.num 1 : Dbl) 0 = false := by decide +kernel
    have l1 : Arith.le (.num (-5) : Dbl) 0 = true := by decide +kernel
    simp only [ArithKP.ok, ArithKP.factor, Nat.zero_add, p0, p1, l0, l1]
    rfl
  refine ⟨h, ?_⟩
  rw [← h]
  refine (C112_upper _ _ fun i j hj => ?_).1
  fin_cases i <;> fin_cases j <;> first | rfl | exact absurd hj (by decide)

/-- `x' = x + u`, two segments, the terminal cost `|x - 1|` with the second derivative calculated as `(x - 1) / (x - 1)`, starting at
`x = 1`. -/
def nanProblem : ArithProblem 1 1 Dbl Unit where
  N := 2
  x0 := fun _ => .num 1
  f := fun _ x u _ _ i => x i + u i
  cost := fun _ c _ u => (u 0 * u 0, c)
  costExp := fun k c x u => ({
    dxdx := fun _ _ => if k = 2 then (x 0 - .num 1) / (x 0 - .num 1) else 0
    dxdu := fun _ _ => 0
    dudu := fun _ _ => .num 2
    dx := fun _ => 0
    du := fun _ => .num 2 * u 0 }, c)
  jac := fun _ _ _ _ _ => (fun _ _ => 1, fun _ _ => 1)
  normX := fun x => x 0
  normU := fun u => u 0
  viol := fun _ => 0

def nanStart : St (Fin 1 → Dbl) (Fin 1 → Dbl) Dbl Unit (KP 1 1 Dbl) where
  Z := { x := fun _ _ => 0, u := fun _ _ => 0, t := fun _ => 0, h := fun _ => 1 }
  Zbar := { x := fun _ _ => 0, u := fun _ _ => 0, t := fun _ => 0, h := fun _ => 1 }
  kd := fun _ => {
    cost := ⟨fun _ _ => 0, fun _ _ => 0, fun _ _ => 0, fun _ => 0, fun _ => 0⟩
    A := fun _ _ => 0
    B := fun _ _ => 0
    q := ⟨fun _ _ => 0, fun _ _ => 0, fun _ _ => 0, fun _ => 0, fun _ => 0⟩
    qreg := ⟨fun _ _ => 0, fun _ _ => 0, fun _ _ => 0, fun _ => 0, fun _ => 0⟩
    gain := fun _ _ => 0
    ff := fun _ => 0
    Sxx := fun _ _ => 0
    Sx := fun _ => 0
    delta := (0, 0) }
  cs := fun _ => ()
  costs := fun _ => 0
  status := .kUnsolved
  rho := 0
  drho := 0
  dV0 := 0
  dV1 := 0
  stats := Stats.new

/-- With the default options: one sweep per backward pass, nothing moves, no success. -/
example (fn : Fns Dbl) (hf : KeepNaN fn .nan) : ∃ s', ILQR.solve (kernel fn nanProblem) dblDefaults 1 nanStart = some s' ∧
    s'.Z.u 0 0 = 0 ∧ s'.Z.x 2 0 = .num 1 ∧ s'.status ≠ .kSolved ∧ ∀ k < 2, AllNaN .nan (s'.kd k) := by
  have hx : (rolloutTo (kernel fn nanProblem) nanStart.Z 2).x 2 0 = .num 1 := by
    show (Dbl.num 1 + 0 : Dbl) + 0 = .num 1
    decide +kernel
  obtain ⟨s', h1, h2, h3, -, h5, -⟩ := C112_stuck nanProblem (o := dblDefaults) C112_double hf (by decide +kernel) (by decide) 0 nanStart
    aligned_new fun c => ⟨0, 0, by
      rw [start_Z]
      show (if (2 : ℕ) = 2 then ((rolloutTo (kernel fn nanProblem) nanStart.Z 2).x 2 0 - .num 1) / ((rolloutTo (kernel fn nanProblem) nanStart.Z 2).x 2 0 - .num 1)
        else 0) = Dbl.nan
      rw [hx]
      decide +kernel⟩
  rw [start_Z] at h2
  exact ⟨s', h1, by rw [h2]; rfl, by rw [h2]; exact hx, h3, h5 (by decide)⟩

end Altro.Props
