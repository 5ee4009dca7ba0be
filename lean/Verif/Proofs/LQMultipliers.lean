import Verif.Spec.LQEquality
import Verif.Proofs.QPDual
import Verif.Proofs.Multipliers
import Mathlib.LinearAlgebra.Matrix.ToLin
import Mathlib.LinearAlgebra.BilinearMap

/-!
# Multipliers of linear-quadratic problems with equality constraints
-/

namespace Altro.Spec
open Matrix
variable {K : Type} [Field K] [LinearOrder K] [IsStrictOrderedRing K] {n m : ℕ}
variable (p : DynProblem n m K) (Z : Traj (Fin n → K) (Fin m → K) K)

namespace LQDual

/-- The states when all controls are zero. -/
def base : ℕ → Fin n → K
  | 0 => p.x0
  | k + 1 => p.f k (base k) 0 (Z.t k) (Z.h k)

/-- Control `k`. -/
def ctrl (k : ℕ) : (Fin p.N → Fin m → K) →ₗ[K] (Fin m → K) :=
  if h : k < p.N then LinearMap.proj ⟨k, h⟩ else 0

/-- Deviation of state `k` from the base. -/
def dev : ℕ → (Fin p.N → Fin m → K) →ₗ[K] (Fin n → K)
  | 0 => 0
  | k + 1 => (p.jac k (base p Z k) 0 (Z.t k) (Z.h k)).1.mulVecLin ∘ₗ dev k
      + (p.jac k (base p Z k) 0 (Z.t k) (Z.h k)).2.mulVecLin ∘ₗ ctrl p k

/-- The trajectory with given controls. -/
def pt (d : Fin p.N → Fin m → K) : Traj (Fin n → K) (Fin m → K) K :=
  { Z with x := fun k => base p Z k + dev p Z k d, u := fun k => ctrl p k d }

variable {p Z} {cs : ℕ → ALCost n m K}

theorem ctrl_lt {k : ℕ} (h : k < p.N) (d : Fin p.N → Fin m → K) : ctrl p k d = d ⟨k, h⟩ := by
  unfold ctrl; rw [dif_pos h]; rfl

theorem ctrl_last (d : Fin p.N → Fin m → K) : ctrl p p.N d = 0 := by
  unfold ctrl; rw [dif_neg (lt_irrefl _)]; rfl

theorem dev_succ (k : ℕ) (d : Fin p.N → Fin m → K) : dev p Z (k + 1) d
    = (p.jac k (base p Z k) 0 (Z.t k) (Z.h k)).1 *ᵥ dev p Z k d
      + (p.jac k (base p Z k) 0 (Z.t k) (Z.h k)).2 *ᵥ ctrl p k d := rfl

theorem step (h : LQEquality p cs) {k : ℕ} (hk : k < p.N) (d : Fin p.N → Fin m → K) :
    base p Z (k + 1) + dev p Z (k + 1) d = p.f k (base p Z k + dev p Z k d) (ctrl p k d) (Z.t k) (Z.h k) := by
  have := h.dyn k hk (base p Z k) 0 (Z.t k) (Z.h k) (dev p Z k d) (ctrl p k d)
  rw [zero_add] at this
  rw [this, dev_succ, ← add_assoc]
  rfl

theorem pt_alternative (h : LQEquality p cs) (d : Fin p.N → Fin m → K) : Alternative p Z (pt p Z d) where
  init := by
    show p.x0 + 0 = p.x0
    rw [add_zero]
  step k hk := step h hk d

theorem pt_all (h : LQEquality p cs) {y : Traj (Fin n → K) (Fin m → K) K} (hy : Alternative p Z y) :
    ∀ k ≤ p.N, (pt p Z fun k => y.u k).x k = y.x k ∧ (k < p.N → (pt p Z fun k => y.u k).u k = y.u k) := by
  have hu : ∀ k < p.N, (pt p Z fun k => y.u k).u k = y.u k := fun k hk => ctrl_lt hk _
  intro k hk
  refine ⟨?_, hu k⟩
  induction k with
  | zero => rw [hy.init, (pt_alternative h _).init]
  | succ k ih => rw [hy.step k hk, (pt_alternative h _).step k hk, ih (by omega), hu k hk]

/-- The second-order part of the cost of a deviation. -/
def bil (H : ConVal.HessBlocks n m K) (a b : Fin n → K) (c d : Fin m → K) : K :=
  a ⬝ᵥ H.dxdx *ᵥ b + a ⬝ᵥ H.dxdu *ᵥ d + b ⬝ᵥ H.dxdu *ᵥ c + c ⬝ᵥ H.dudu *ᵥ d

theorem bil_comm {H : ConVal.HessBlocks n m K} (hH : BlockPSD H) (a b : Fin n → K) (c d : Fin m → K) :
    bil H a b c d = bil H b a d c := by
  have hs : ∀ {q : ℕ} (M : Matrix (Fin q) (Fin q) K), Mᵀ = M → ∀ y z : Fin q → K, y ⬝ᵥ M *ᵥ z = z ⬝ᵥ M *ᵥ y := by
    intro q M hM y z
    rw [dotProduct_mulVec, ← mulVec_transpose, hM, dotProduct_comm]
  unfold bil
  rw [hs _ hH.symx a b, hs _ hH.symu c d]
  ring

/-- The Hessian of the total cost in the controls. -/
def hess (p : DynProblem n m K) (Z : Traj (Fin n → K) (Fin m → K) K) (cs : ℕ → ALCost n m K) :
    (Fin p.N → Fin m → K) →ₗ[K] Module.Dual K (Fin p.N → Fin m → K) :=
  LinearMap.mk₂ K (fun a b => ∑ k ∈ Finset.range (p.N + 1), bil ((cs k).cost.hess (base p Z k) 0)
      (dev p Z k a) (dev p Z k b) (ctrl p k a) (ctrl p k b))
    (fun a a' b => by
      rw [← Finset.sum_add_distrib]
      refine Finset.sum_congr rfl fun k _ => ?_
      simp only [bil, map_add, add_dotProduct, mulVec_add, dotProduct_add]
      ring)
    (fun c a b => by
      rw [Finset.smul_sum]
      refine Finset.sum_congr rfl fun k _ => ?_
      simp only [bil, map_smul, smul_dotProduct, mulVec_smul, dotProduct_smul, smul_eq_mul]
      ring)
    (fun a b b' => by
      rw [← Finset.sum_add_distrib]
      refine Finset.sum_congr rfl fun k _ => ?_
      simp only [bil, map_add, add_dotProduct, mulVec_add, dotProduct_add]
      ring)
    (fun c a b => by
      rw [Finset.smul_sum]
      refine Finset.sum_congr rfl fun k _ => ?_
      simp only [bil, map_smul, smul_dotProduct, mulVec_smul, dotProduct_smul, smul_eq_mul]
      ring)

theorem hess_apply (a b : Fin p.N → Fin m → K) : hess p Z cs a b = ∑ k ∈ Finset.range (p.N + 1),
    bil ((cs k).cost.hess (base p Z k) 0) (dev p Z k a) (dev p Z k b) (ctrl p k a) (ctrl p k b) := rfl

/-- The gradient of the total cost in the controls. -/
def lin (p : DynProblem n m K) (Z : Traj (Fin n → K) (Fin m → K) K) (cs : ℕ → ALCost n m K) :
    Module.Dual K (Fin p.N → Fin m → K) where
  toFun d := ∑ k ∈ Finset.range (p.N + 1), (((cs k).cost.grad (base p Z k) 0).1 ⬝ᵥ dev p Z k d
    + ((cs k).cost.grad (base p Z k) 0).2 ⬝ᵥ ctrl p k d)
  map_add' a b := by
    rw [← Finset.sum_add_distrib]
    refine Finset.sum_congr rfl fun k _ => ?_
    simp only [map_add, dotProduct_add]
    ring
  map_smul' c a := by
    rw [RingHom.id_apply, Finset.smul_sum]
    refine Finset.sum_congr rfl fun k _ => ?_
    simp only [map_smul, dotProduct_smul, smul_eq_mul]
    ring

theorem hess_pos (h : LQEquality p cs) (a : Fin p.N → Fin m → K) (ha : a ≠ 0) : 0 < hess p Z cs a a := by
  have hex : ∃ k, ∃ hk : k < p.N, a ⟨k, hk⟩ ≠ 0 := by
    by_contra hno
    push Not at hno
    exact ha (funext fun ⟨k, hk⟩ => hno k hk)
  classical
  obtain ⟨hk, hne⟩ := Nat.find_spec hex
  set k := Nat.find hex with hkdef
  have hmin : ∀ j < k, ∀ hj : j < p.N, a ⟨j, hj⟩ = 0 := fun j hj hjN => by
    by_contra hc
    exact Nat.find_min hex hj ⟨hjN, hc⟩
  have hdev : ∀ j ≤ k, dev p Z j a = 0 := by
    intro j hj
    induction j with
    | zero => rfl
    | succ j ih => rw [dev_succ, ih (by omega), ctrl_lt (by omega), hmin j hj, mulVec_zero, mulVec_zero, add_zero]
  have hb : ∀ j, bil ((cs j).cost.hess (base p Z j) 0) (dev p Z j a) (dev p Z j a) (ctrl p j a) (ctrl p j a)
      = quadForm ((cs j).cost.hess (base p Z j) 0) (dev p Z j a) (ctrl p j a) := fun j => by
    unfold bil quadForm; ring
  rw [hess_apply]
  refine Finset.sum_pos' (fun j hj => ?_) ⟨k, Finset.mem_range.mpr (by omega), ?_⟩
  · rw [hb]
    exact ((h.knot j (Nat.lt_succ_iff.mp (Finset.mem_range.mp hj))).conv _ _).nonneg _ _
  · rw [hb, hdev k le_rfl, ctrl_lt hk]
    have := h.pos k hk (base p Z k) 0 _ hne
    simpa [quadForm] using this

theorem cost_pt (h : LQEquality p cs) (d : Fin p.N → Fin m → K) :
    plainCost p cs (pt p Z d) = plainCost p cs (pt p Z 0) + lin p Z cs d + 1 / 2 * hess p Z cs d d := by
  have h0 : ∀ k, (pt p Z 0).x k = base p Z k ∧ (pt p Z 0).u k = 0 := fun k => by
    constructor
    · show base p Z k + dev p Z k 0 = _
      rw [map_zero, add_zero]
    · exact map_zero _
  unfold plainCost
  rw [hess_apply, show lin p Z cs d = ∑ k ∈ Finset.range (p.N + 1), (((cs k).cost.grad (base p Z k) 0).1 ⬝ᵥ dev p Z k d
    + ((cs k).cost.grad (base p Z k) 0).2 ⬝ᵥ ctrl p k d) from rfl, Finset.mul_sum, ← Finset.sum_add_distrib,
    ← Finset.sum_add_distrib]
  refine Finset.sum_congr rfl fun k hk => ?_
  have hk := Nat.lt_succ_iff.mp (Finset.mem_range.mp hk)
  rw [(h0 k).1, (h0 k).2]
  have := (h.knot k hk).quad.exact (base p Z k) 0 (dev p Z k d) (ctrl p k d)
  rw [zero_add] at this
  show (cs k).cost.eval (base p Z k + dev p Z k d) (ctrl p k d) = _
  rw [this]
  unfold quadModel bil
  ring

theorem row_pt (h : LQEquality p cs) (r : Row (Traj (Fin n → K) (Fin m → K) K) K) (hr : r ∈ rows p cs) :
    ∃ L : Module.Dual K (Fin p.N → Fin m → K), ∀ d, r.fn (pt p Z d) = r.fn (pt p Z 0) + L d := by
  obtain ⟨k, hk, ⟨v, hv, i, rfl⟩ | ⟨v, hv, i, rfl⟩⟩ := (mem_rows p _ r).mp hr
  · refine ⟨LinearMap.proj i ∘ₗ ((v.con.jac (base p Z k) 0).toCols₁.mulVecLin ∘ₗ dev p Z k
      + (v.con.jac (base p Z k) 0).toCols₂.mulVecLin ∘ₗ ctrl p k), fun d => ?_⟩
    have := congrFun ((h.knot k hk).con v hv (base p Z k) 0 (dev p Z k d) (ctrl p k d)) i
    rw [zero_add] at this
    show v.con.eval (base p Z k + dev p Z k d) (ctrl p k d) i
      = v.con.eval (base p Z k + dev p Z k 0) (ctrl p k 0) i + _
    rw [this, map_zero, map_zero, add_zero, Pi.add_apply, Pi.add_apply, add_assoc]
    rfl
  · rw [(h.knot k hk).free] at hv; cases hv

end LQDual

open LQDual in
/-- A linear-quadratic problem with equality constraints that can be met has a solution and multipliers. -/
theorem LQEquality.saddle {p : DynProblem n m K} {cs : ℕ → ALCost n m K} (h : LQEquality p cs)
    (Z : Traj (Fin n → K) (Fin m → K) K) (hf : ∃ Y, Alternative p Z Y ∧ ∀ r ∈ rows p cs, r.Holds Y) :
    ∃ zs star, Saddle (Alternative p Z) (plainCost p cs) (rows p cs) zs star := by
  choose L hL using fun r : {r // r ∈ rows p cs} => row_pt (Z := Z) h r.1 r.2
  refine saddle_exists (pt p Z) (pt_alternative h) (fun y hy => ⟨fun k => y.u k, ?_, fun r hr => ?_⟩) (hess p Z cs)
    (fun a b => ?_) (hess_pos h) (lin p Z cs) (cost_pt h) (fun i => L ⟨_, List.get_mem _ i⟩)
    (fun i d => hL ⟨_, List.get_mem _ i⟩ d) (fun r hr => ?_) hf
  · have := pt_all h hy
    unfold plainCost
    refine Finset.sum_congr rfl fun k hk => ?_
    have hk := Nat.lt_succ_iff.mp (Finset.mem_range.mp hk)
    rw [(this k hk).1]
    rcases Nat.lt_or_eq_of_le hk with hk | rfl
    · rw [(this k hk.le).2 hk]
    · exact h.term _ _ _
  · have := pt_all h hy
    obtain ⟨k, hk, ⟨v, hv, i, rfl⟩ | ⟨v, hv, i, rfl⟩⟩ := (mem_rows p _ r).mp hr
    · show v.con.eval ((pt p Z fun k => y.u k).x k) ((pt p Z fun k => y.u k).u k) i = v.con.eval (y.x k) (y.u k) i
      rw [(this k hk).1]
      rcases Nat.lt_or_eq_of_le hk with hk | rfl
      · rw [(this k hk.le).2 hk]
      · rw [h.termCon v hv _ _ (y.u p.N)]
    · rw [(h.knot k hk).free] at hv; cases hv
  · rw [hess_apply, hess_apply]
    refine Finset.sum_congr rfl fun k hk => ?_
    exact bil_comm ((h.knot k (Nat.lt_succ_iff.mp (Finset.mem_range.mp hk))).conv _ _) _ _ _ _
  · obtain ⟨k, hk, ⟨v, hv, i, rfl⟩ | ⟨v, hv, i, rfl⟩⟩ := (mem_rows p _ r).mp hr
    · rfl
    · rw [(h.knot k hk).free] at hv; cases hv

end Altro.Spec
