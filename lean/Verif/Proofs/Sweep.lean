import Verif.Proofs.Concrete
import Verif.Proofs.ILQR
import Verif.Props.KnotPoint
import Mathlib.Algebra.BigOperators.Ring.Finset
import Mathlib.Algebra.Order.BigOperators.Group.Finset

/-!
# One sweep of the backward pass, knot point by knot point
-/

namespace Altro
open Spec Matrix ILQR Props

section generic
variable {X U K C D : Type} [Field K] [LinearOrder K] (P : Kernel X U K C D)

/-- A successful sweep: every knot point's data comes from the next one's, and the predicted changes add up. -/
theorem bpSweep_spec (rho : K) (k : ℕ) (kd : ℕ → D) (dV : K × K) (h : (bpSweep P rho k kd dV).2 = true) :
    (∀ j, k ≤ j → (bpSweep P rho k kd dV).1.1 j = kd j) ∧
    (∀ j < k, (P.gains (P.regularize rho (P.actionValue (kd j) ((bpSweep P rho k kd dV).1.1 (j + 1))))).2 = true ∧
      (bpSweep P rho k kd dV).1.1 j
        = P.costToGo (P.gains (P.regularize rho (P.actionValue (kd j) ((bpSweep P rho k kd dV).1.1 (j + 1))))).1) ∧
    (bpSweep P rho k kd dV).1.2.1 = dV.1 + ∑ j ∈ Finset.range k, (P.delta ((bpSweep P rho k kd dV).1.1 j)).1 ∧
    (bpSweep P rho k kd dV).1.2.2 = dV.2 + ∑ j ∈ Finset.range k, (P.delta ((bpSweep P rho k kd dV).1.1 j)).2 := by
  induction k generalizing kd dV with
  | zero => exact ⟨fun _ _ => rfl, fun j hj => absurd hj (by omega), by simp [bpSweep], by simp [bpSweep]⟩
  | succ k ih =>
    unfold bpSweep at h ⊢
    extract_lets g d at h ⊢
    split at h
    · rename_i hg
      rw [if_pos hg]
      obtain ⟨i1, i2, i3, i4⟩ := ih _ _ h
      have hk : (bpSweep P rho k (upd kd k d) (dV.1 + (P.delta d).1, dV.2 + (P.delta d).2)).1.1 k = d := by
        rw [i1 k le_rfl, upd_self]
      have hk1 : (bpSweep P rho k (upd kd k d) (dV.1 + (P.delta d).1, dV.2 + (P.delta d).2)).1.1 (k + 1)
          = kd (k + 1) := by rw [i1 (k + 1) (by omega), upd_of_ne (by omega)]
      refine ⟨fun j hj => ?_, fun j hj => ?_, ?_, ?_⟩
      · rw [i1 j (by omega), upd_of_ne (by omega)]
      · rcases Nat.lt_succ_iff_lt_or_eq.mp hj with hj | rfl
        · have := i2 j hj
          rw [upd_of_ne (by omega)] at this
          exact this
        · rw [hk, hk1]; exact ⟨hg, rfl⟩
      · rw [Finset.sum_range_succ, hk, i3]; simp only; ring
      · rw [Finset.sum_range_succ, hk, i4]; simp only; ring
    · cases h

end generic

variable {K : Type} [Field K] [LinearOrder K] [IsStrictOrderedRing K] {n m : ℕ}

theorem symm_sandwich {a b : ℕ} {S : Matrix (Fin a) (Fin a) K} (hs : S.IsSymm) (A : Matrix (Fin a) (Fin b) K) :
    (Aᵀ * S * A).IsSymm := by
  unfold IsSymm
  rw [transpose_mul, transpose_mul, transpose_transpose, hs.eq, Matrix.mul_assoc]

/-- The data of one knot point after a successful step of the sweep. -/
structure StepOk (d nxt r : KP n m K) (rho : K) : Prop where
  ok : (((d.actionValue nxt).regularize rho).gains).2 = true
  eq : r = (((d.actionValue nxt).regularize rho).gains).1.costToGo

theorem gains_frame (d : KP n m K) : d.gains.1.q = d.q ∧ d.gains.1.qreg = d.qreg ∧ d.gains.1.cost = d.cost ∧
    d.gains.1.A = d.A ∧ d.gains.1.B = d.B := by
  unfold KP.gains
  split <;> exact ⟨rfl, rfl, rfl, rfl, rfl⟩

theorem StepOk.q {d nxt r : KP n m K} {rho : K} (h : StepOk d nxt r rho) : r.q = (d.actionValue nxt).q := by
  rw [h.eq]; exact (gains_frame _).1

theorem StepOk.qreg {d nxt r : KP n m K} {rho : K} (h : StepOk d nxt r rho) :
    r.qreg = ((d.actionValue nxt).regularize rho).qreg := by
  rw [h.eq]; exact (gains_frame _).2.1

theorem StepOk.gain {d nxt r : KP n m K} {rho : K} (h : StepOk d nxt r rho) :
    r.gain = (((d.actionValue nxt).regularize rho).gains).1.gain ∧
    r.ff = (((d.actionValue nxt).regularize rho).gains).1.ff := by
  rw [h.eq]; exact ⟨rfl, rfl⟩

theorem StepOk.ctg {d nxt r : KP n m K} {rho : K} (h : StepOk d nxt r rho) :
    r.Sxx = r.q.dxdx + r.gainᵀ * r.q.dudu * r.gain + r.gainᵀ * r.q.dxduᵀ + r.q.dxdu * r.gain ∧
    r.delta = (r.ff ⬝ᵥ r.q.du, (1 / 2) * (r.ff ⬝ᵥ r.q.dudu *ᵥ r.ff)) ∧ r.costToGo = r := by
  rw [h.eq]; exact ⟨rfl, rfl, rfl⟩

theorem StepOk.q_symm {d nxt r : KP n m K} {rho : K} (h : StepOk d nxt r rho) (hx : d.cost.dxdx.IsSymm)
    (hu : d.cost.dudu.IsSymm) (hn : nxt.Sxx.IsSymm) : r.q.dxdx.IsSymm ∧ r.q.dudu.IsSymm := by
  rw [h.q]
  exact ⟨hx.add (symm_sandwich hn _), hu.add (symm_sandwich hn _)⟩

theorem StepOk.Sxx_symm {d nxt r : KP n m K} {rho : K} (h : StepOk d nxt r rho) (hx : d.cost.dxdx.IsSymm)
    (hu : d.cost.dudu.IsSymm) (hn : nxt.Sxx.IsSymm) : r.Sxx.IsSymm := by
  obtain ⟨h1, h2⟩ := h.q_symm hx hu hn
  rw [h.ctg.1]
  have h3 : (r.gainᵀ * r.q.dxduᵀ + r.q.dxdu * r.gain).IsSymm := by
    unfold IsSymm
    rw [transpose_add, transpose_mul, transpose_mul, transpose_transpose, transpose_transpose, add_comm]
  rw [add_assoc]
  exact (h1.add (symm_sandwich h2 _)).add h3

/-- The linear equations satisfied by the policy. -/
theorem StepOk.eqs {d nxt r : KP n m K} {rho : K} (h : StepOk d nxt r rho) (hx : d.cost.dxdx.IsSymm)
    (hu : d.cost.dudu.IsSymm) (hn : nxt.Sxx.IsSymm) :
    PosDef (r.q.dudu + rho • (1 : Matrix (Fin m) (Fin m) K)) ∧
    (∀ δx, (r.q.dudu + rho • (1 : Matrix (Fin m) (Fin m) K)) *ᵥ (r.gain *ᵥ δx) = -(r.q.dxduᵀ *ᵥ δx)) ∧
    (r.q.dudu + rho • (1 : Matrix (Fin m) (Fin m) K)) *ᵥ r.ff = -r.q.du := by
  obtain ⟨_, h2⟩ := h.q_symm hx hu hn
  rw [h.q] at h2
  have hs : (((d.actionValue nxt).regularize rho).qreg.dudu).IsSymm :=
    h2.add (by unfold IsSymm; rw [transpose_smul, transpose_one])
  have := gains_eqs _ hs h.ok
  rw [h.gain.1, h.gain.2, h.q]
  exact this

end Altro
