import Verif.Proofs.KKTLimit
import Verif.Spec.Qualification

/-!
# Weighted sums of constraints: scaled Lagrangians and their gradients
-/

namespace Altro.Props
open Altro.Spec Matrix ILQR Filter
open scoped Topology
variable {n m : ℕ} {κ : ConKind}

/-- The objective of a knot point times `s`. -/
def scaled (s : ℝ) (c : ALCost n m ℝ) : ALCost n m ℝ :=
  { c with cost := ⟨fun x u => s * c.cost.eval x u, fun x u => s • c.cost.grad x u, c.cost.hess⟩ }

theorem mulGrad_mul (a : ℝ) (θ : ℕ → ℝ) (con : Con n m ℝ) (z : Z n m) : mulGrad (fun i => a * θ i) con z = a • mulGrad θ con z := by
  have e : (fun i : Fin con.p => a * θ i) = a • fun i : Fin con.p => θ i := rfl
  unfold mulGrad
  rw [e, mulVec_smul, mulVec_smul]
  ext <;> simp

theorem lagFold_mul (a : ℝ) (z : Z n m) : ∀ (θ : ℕ → ℕ → ℝ) (l : List (ConVal κ n m ℝ)), lagFold (fun j i => a * θ j i) l z = a • lagFold θ l z
  | _, [] => (smul_zero a).symm
  | θ, v :: l => by
    show mulGrad (fun i => a * θ 0 i) v.con z + lagFold (fun j i => a * θ (j + 1) i) l z = a • (mulGrad (θ 0) v.con z + lagFold (fun j => θ (j + 1)) l z)
    rw [mulGrad_mul, lagFold_mul a z (fun j => θ (j + 1)) l, smul_add]

theorem mulLagGrad_mul (a s : ℝ) (θ : Bool → ℕ → ℕ → ℝ) (c : ALCost n m ℝ) (z : Z n m) :
    mulLagGrad (fun b j i => a * θ b j i) (scaled (a * s) c) z = a • mulLagGrad θ (scaled s c) z := by
  show (a * s) • c.cost.grad z.1 z.2 + lagFold (fun j i => a * θ true j i) c.eq z + lagFold (fun j i => a * θ false j i) c.ineq z
    = a • (s • c.cost.grad z.1 z.2 + lagFold (θ true) c.eq z + lagFold (θ false) c.ineq z)
  rw [lagFold_mul, lagFold_mul, smul_add, smul_add, mul_smul]

variable {p : DynProblem n m ℝ} {cs : ℕ → ALCost n m ℝ} {Y : Traj (Fin n → ℝ) (Fin m → ℝ) ℝ} {μ : ℝ}

theorem gradSq_mul (a : ℝ) (g : ℕ → Z n m → Z n m) (U : ℕ → Fin m → ℝ) : gradSq p Y (fun k z => a • g k z) U = a ^ 2 * gradSq p Y g U := by
  have ha : ∀ k ≤ p.N, adj (kdAt p Y (fun k z => a • g k z) U) p.N k = a • adj (kdAt p Y g U) p.N k := by
    refine down_induct ?_ fun k hk ih => ?_
    · rw [adj_N, adj_N]; rfl
    · rw [adj_step _ hk, adj_step _ hk, ih, smul_add, ← mulVec_smul]; rfl
  unfold gradSq
  rw [Finset.mul_sum]
  refine Finset.sum_congr rfl fun k hk => ?_
  have e : grad (kdAt p Y (fun k z => a • g k z) U) p.N k = a • grad (kdAt p Y g U) p.N k := by
    unfold grad
    rw [ha (k + 1) (by have := Finset.mem_range.mp hk; omega), smul_add, ← mulVec_smul]; rfl
  rw [e]
  unfold nsq
  rw [smul_dotProduct, dotProduct_smul, smul_eq_mul, smul_eq_mul]
  ring

/-- The squared length of the gradient of `s` times the objective minus multipliers times constraints. -/
noncomputable def scaledSq (p : DynProblem n m ℝ) (cs : ℕ → ALCost n m ℝ) (Y : Traj (Fin n → ℝ) (Fin m → ℝ) ℝ) (q : ℝ × Mults) (U : ℕ → Fin m → ℝ) : ℝ :=
  gradSq p Y (fun k z => mulLagGrad (q.2 k) (scaled q.1 (cs k)) z) U

theorem scaledSq_one (θ : Mults) (U : ℕ → Fin m → ℝ) : scaledSq p cs Y (1, θ) U = lagSq p cs Y θ U :=
  gradSq_congr fun k _ => by
    show (1 : ℝ) • _ + _ + _ = _
    rw [one_smul]; rfl

theorem scaledSq_mul (a s : ℝ) (θ : Mults) (U : ℕ → Fin m → ℝ) : scaledSq p cs Y (a * s, fun k b j i => a * θ k b j i) U = a ^ 2 * scaledSq p cs Y (s, θ) U := by
  unfold scaledSq
  rw [← gradSq_mul]
  exact gradSq_congr fun k _ => mulLagGrad_mul a s (θ k) (cs k) _

theorem scaledSq_continuous (h : SmoothProblem p cs Y μ) : Continuous fun q : (ℝ × Mults) × (ℕ → Fin m → ℝ) => scaledSq p cs Y q.1 q.2 := by
  have hg : ∀ k ≤ p.N, Continuous fun q : (ℝ × Mults) × Z n m => mulLagGrad (q.1.2 k) (scaled q.1.1 (cs k)) q.2 := fun k hk => by
    have hk := h.knot k hk
    have h0 : ∀ b, Continuous fun q : (ℝ × Mults) × Z n m => q.1.2 k b := fun b =>
      (continuous_apply b).comp ((continuous_apply k).comp (continuous_snd.comp continuous_fst))
    exact (((continuous_fst.comp continuous_fst).smul (hk.gradCont.comp continuous_snd)).add
      (lagFold_continuous continuous_snd (cs k).eq (fun v hv => (hk.eq v hv).1) _ (h0 true))).add
      (lagFold_continuous continuous_snd (cs k).ineq (fun v hv => (hk.ineq v hv).1) _ (h0 false))
  exact SmoothDyn.gradSq_continuous_of (g := fun (q : ℝ × Mults) k z => mulLagGrad (q.2 k) (scaled q.1 (cs k)) z) h.base hg

theorem scaled_smooth {c : ALCost n m ℝ} (s : ℝ) (h : SmoothKnot c) : ∀ x u, IsGradAt (scaled s c).cost.eval ((scaled s c).cost.grad x u).1 ((scaled s c).cost.grad x u).2 x u := by
  intro x u
  exact IsGradAt.const_mul s (h.grad x u)

theorem stationaryOf_iff {ℓ : ℕ → (Fin n → ℝ) → (Fin m → ℝ) → ℝ} {Z : Traj (Fin n → ℝ) (Fin m → ℝ) ℝ} :
    StationaryOf p ℓ Z ↔ NearlyStationaryOf p ℓ Z 0 := by
  constructor
  · exact fun h v hv => ⟨0, h v hv, by simp⟩
  · intro h v hv
    obtain ⟨d, h1, h2⟩ := h v hv
    have : d = 0 := by
      have h3 : d ^ 2 ≤ 0 := by simpa using h2
      exact pow_eq_zero_iff two_ne_zero |>.mp (le_antisymm h3 (sq_nonneg d))
    rwa [this] at h1

theorem stationaryOf_neg {ℓ ℓ' : ℕ → (Fin n → ℝ) → (Fin m → ℝ) → ℝ} {Z : Traj (Fin n → ℝ) (Fin m → ℝ) ℝ}
    (e : ∀ k ≤ p.N, ∀ x u, ℓ' k x u = -ℓ k x u) (h : StationaryOf p ℓ Z) : StationaryOf p ℓ' Z := by
  intro v hv
  have h1 := (h v hv).neg
  rw [neg_zero] at h1
  refine h1.congr_of_eventuallyEq (.of_forall fun a => ?_)
  show ∑ k ∈ Finset.range (p.N + 1), _ = -∑ k ∈ Finset.range (p.N + 1), _
  rw [← Finset.sum_neg_distrib]
  exact Finset.sum_congr rfl fun k hk => e k (by have := Finset.mem_range.mp hk; omega) _ _

/-- Stationarity of the weighted sum of the constraints is a vanishing gradient. -/
theorem degenerate_iff (h : SmoothProblem p cs Y μ) {cs' : ℕ → ALCost n m ℝ} (hs : SameProblem p cs cs') {Z : Traj (Fin n → ℝ) (Fin m → ℝ) ℝ}
    (hZ : DynFeasible (alKernel p) Z) (ht : SameTimes (alKernel p) Z Y) :
    Degenerate p cs' Z ↔ scaledSq p cs Y (0, multsOf p cs') (ctl p.N Z) ≤ 0 := by
  let ds : ℕ → ALCost n m ℝ := fun k => withMul 1 (mulOf (cs' k)) (scaled 0 (cs k))
  have e0 : ∀ k ≤ p.N, ∀ x u, lagrangian (ds k) x u = -weighted (cs' k) x u := fun k hk x u => by
    show 0 * _ - _ - _ = _
    unfold weighted
    rw [setMul_lag 1 x u (hs.eqCons k hk), setMul_lag 1 x u (hs.ineqCons k hk)]
    show 0 * _ - ((setMul 1 (getMul (cs' k).eq) (cs k).eq).map _).sum - ((setMul 1 (getMul (cs' k).ineq) (cs k).ineq).map _).sum = _
    ring
  have hsm : SmoothDyn p Y (fun k => lagrangian (ds k)) (fun k z => mulLagGrad (mulOf (ds k)) (scaled 0 (cs k)) z) := by
    refine ⟨h.jac, h.cont, fun k hk x u => ?_, fun k hk => ?_⟩
    · show IsGradAt (lagrangian (ds k)) (mulLagGrad (mulOf (ds k)) (scaled 0 (cs k)) (x, u)).1 (mulLagGrad (mulOf (ds k)) (scaled 0 (cs k)) (x, u)).2 x u
      rw [← lagGrad_eq (c := ds k) (withMul_static 1 _ (scaled 0 (cs k))) (x, u)]
      refine lagrangian_isGradAt _ x u (scaled_smooth 0 (h.knot k hk) x u) (fun v hv => ?_) fun v hv => ?_
      · obtain ⟨w, hw, j, rfl⟩ := mem_setMul hv
        exact ((h.knot k hk).eq w hw).1.jac x u
      · obtain ⟨w, hw, j, rfl⟩ := mem_setMul hv
        exact ((h.knot k hk).ineq w hw).1.jac x u
    · have hk := h.knot k hk
      exact (((continuous_const (y := (0 : ℝ))).smul hk.gradCont).add
        (lagFold_continuous continuous_id (cs k).eq (fun v hv => (hk.eq v hv).1) _ continuous_const)).add
        (lagFold_continuous continuous_id (cs k).ineq (fun v hv => (hk.ineq v hv).1) _ continuous_const)
  have hterm : ∀ x u u', lagrangian (ds p.N) x u = lagrangian (ds p.N) x u' := fun x u u' => by
    have hq : ∀ {κ : ConKind} (θ : ℕ → ℕ → ℝ) (l : List (ConVal κ n m ℝ)), (∀ v ∈ l, ∀ x u u', v.con.eval x u = v.con.eval x u') →
        ((setMul 1 θ l).map fun v => v.lam ⬝ᵥ v.con.eval x u) = (setMul 1 θ l).map fun v => v.lam ⬝ᵥ v.con.eval x u' := fun θ l hl =>
      List.map_congr_left fun v hv => by
        obtain ⟨w, hw, j, rfl⟩ := mem_setMul hv
        exact congrArg _ (hl w hw x u u')
    show 0 * (cs p.N).cost.eval x u - ((setMul 1 (getMul (cs' p.N).eq) (cs p.N).eq).map _).sum - ((setMul 1 (getMul (cs' p.N).ineq) (cs p.N).ineq).map _).sum
      = 0 * (cs p.N).cost.eval x u' - ((setMul 1 (getMul (cs' p.N).eq) (cs p.N).eq).map _).sum - ((setMul 1 (getMul (cs' p.N).ineq) (cs p.N).ineq).map _).sum
    rw [hq _ _ h.termEq, hq _ _ h.termIneq, zero_mul, zero_mul]
  have e2 : gradSq p Y (fun k z => mulLagGrad (mulOf (ds k)) (scaled 0 (cs k)) z) (ctl p.N Z) = scaledSq p cs Y (0, multsOf p cs') (ctl p.N Z) :=
    gradSq_congr fun k hk => by
      show mulLagGrad (mulOf (withMul 1 (mulOf (cs' k)) (scaled 0 (cs k)))) _ _ = mulLagGrad (if k ≤ p.N then mulOf (cs' k) else 0) _ _
      rw [if_pos hk, mulOf_withMul (c := scaled 0 (cs k)) (hs.eqCons k hk) (hs.ineqCons k hk)]
  have e3 : Degenerate p cs' Z ↔ StationaryOf p (fun k => lagrangian (ds k)) Z :=
    ⟨stationaryOf_neg e0, stationaryOf_neg fun k hk x u => by rw [e0 k hk, neg_neg]⟩
  rw [e3, stationaryOf_iff, ← e2]
  exact ⟨fun hn => by simpa using gradSq_le_of_near hsm hterm hZ ht hn, fun hg => nearlyStationaryOf hsm hterm hZ ht (by simpa using hg)⟩

/-! ## The size of multipliers -/

theorem getMul_len (i : ℕ) : ∀ (l : List (ConVal κ n m ℝ)) (j : ℕ), l.length ≤ j → getMul l j i = 0
  | [], _, _ => rfl
  | _ :: _, 0, h => absurd h (by simp)
  | _ :: l, j + 1, h => getMul_len i l j (by simpa using h)

theorem getMul_dim (i : ℕ) : ∀ (l : List (ConVal κ n m ℝ)) (j : ℕ), (∀ v ∈ l, v.con.p ≤ i) → getMul l j i = 0
  | [], _, _ => rfl
  | v :: _, 0, h => dif_neg (by have := h v (by simp); omega)
  | _ :: l, j + 1, h => getMul_dim i l j fun v hv => h v (by simp [hv])

theorem getMul_none : ∀ {l : List (ConVal κ n m ℝ)}, (∀ v ∈ l, ∀ i, v.lam i = 0) → ∀ j i, getMul l j i = 0
  | [], _, _, _ => rfl
  | v :: _, h, 0, i => by
    show (if h : i < v.con.p then v.lam ⟨i, h⟩ else 0) = 0
    split
    · exact h v (by simp) _
    · rfl
  | _ :: l, h, j + 1, i => getMul_none (l := l) (fun v hv => h v (by simp [hv])) j i

theorem setMul_getMul_mul (ρ a : ℝ) : ∀ (θ : ℕ → ℕ → ℝ) (l : List (ConVal κ n m ℝ)) (j i : ℕ),
    getMul (setMul ρ (fun j i => a * θ j i) l) j i = a * getMul (setMul ρ θ l) j i
  | _, [], _, _ => (mul_zero a).symm
  | θ, v :: l, 0, i => by
    show (if h : i < v.con.p then a * θ 0 i else 0) = a * if h : i < v.con.p then θ 0 i else 0
    split <;> simp
  | θ, v :: l, j + 1, i => setMul_getMul_mul ρ a (fun j => θ (j + 1)) l j i

/-- The number of constraints of a kind. -/
def lens (c : ALCost n m ℝ) : Bool → ℕ
  | true => c.eq.length
  | false => c.ineq.length

/-- A bound on the dimensions of the constraints of a kind. -/
def dims (c : ALCost n m ℝ) : Bool → ℕ
  | true => (c.eq.map (·.con.p)).sum
  | false => (c.ineq.map (·.con.p)).sum

/-- The sum of the absolute values of all multipliers. -/
noncomputable def size (p : DynProblem n m ℝ) (cs : ℕ → ALCost n m ℝ) (θ : Mults) : ℝ :=
  ∑ k ∈ Finset.range (p.N + 1), ∑ b : Bool, ∑ j ∈ Finset.range (lens (cs k) b), ∑ i ∈ Finset.range (dims (cs k) b), |θ k b j i|

theorem size_nonneg (θ : Mults) : 0 ≤ size p cs θ :=
  Finset.sum_nonneg fun _ _ => Finset.sum_nonneg fun _ _ => Finset.sum_nonneg fun _ _ => Finset.sum_nonneg fun _ _ => abs_nonneg _

theorem size_continuous : Continuous (size p cs) := by
  refine continuous_finset_sum _ fun k _ => continuous_finset_sum _ fun b _ => continuous_finset_sum _ fun j _ => continuous_finset_sum _ fun i _ => ?_
  exact ((continuous_apply i).comp ((continuous_apply j).comp ((continuous_apply b).comp (continuous_apply k)))).abs

theorem size_zero : size p cs 0 = 0 := by
  refine Finset.sum_eq_zero fun _ _ => Finset.sum_eq_zero fun _ _ => Finset.sum_eq_zero fun _ _ => Finset.sum_eq_zero fun _ _ => ?_
  exact abs_zero

theorem size_mul (a : ℝ) (θ : Mults) : size p cs (fun k b j i => a * θ k b j i) = |a| * size p cs θ := by
  unfold size
  simp only [Finset.mul_sum, abs_mul]

theorem getMul_le_sum {l l' : List (ConVal κ n m ℝ)} (e : l'.map (·.con) = l.map (·.con)) (j i : ℕ) :
    |getMul l' j i| ≤ ∑ j ∈ Finset.range l.length, ∑ i ∈ Finset.range (l.map (·.con.p)).sum, |getMul l' j i| := by
  have hl : l'.length = l.length := by simpa using congrArg List.length e
  have hd : l'.map (·.con.p) = l.map (·.con.p) := by
    have := congrArg (List.map Con.p) e
    simpa only [List.map_map, Function.comp_def] using this
  have h0 : 0 ≤ ∑ j ∈ Finset.range l.length, ∑ i ∈ Finset.range (l.map (·.con.p)).sum, |getMul l' j i| :=
    Finset.sum_nonneg fun _ _ => Finset.sum_nonneg fun _ _ => abs_nonneg _
  by_cases hj : j < l.length
  · by_cases hi : i < (l.map (·.con.p)).sum
    · refine le_trans ?_ (Finset.single_le_sum (f := fun j => ∑ i ∈ Finset.range (l.map (·.con.p)).sum, |getMul l' j i|)
        (fun _ _ => Finset.sum_nonneg fun _ _ => abs_nonneg _) (Finset.mem_range.mpr hj))
      exact Finset.single_le_sum (f := fun i => |getMul l' j i|) (fun _ _ => abs_nonneg _) (Finset.mem_range.mpr hi)
    · rw [getMul_dim i l' j fun v hv => ?_, abs_zero]
      · exact h0
      · have : v.con.p ≤ (l'.map (·.con.p)).sum := List.single_le_sum (fun _ _ => Nat.zero_le _) _ (List.mem_map.mpr ⟨v, hv, rfl⟩)
        rw [hd] at this
        omega
  · rw [getMul_len i l' j (by omega), abs_zero]
    exact h0

theorem mult_le_size {cs' : ℕ → ALCost n m ℝ} (hs : SameProblem p cs cs') (k : ℕ) (b : Bool) (j i : ℕ) :
    |multsOf p cs' k b j i| ≤ size p cs (multsOf p cs') := by
  by_cases hk : k ≤ p.N
  · have e : ∀ b, multsOf p cs' k b = mulOf (cs' k) b := fun b => by unfold multsOf; rw [if_pos hk]
    refine le_trans ?_ (Finset.single_le_sum (f := fun k => ∑ b : Bool, ∑ j ∈ Finset.range (lens (cs k) b), ∑ i ∈ Finset.range (dims (cs k) b), |multsOf p cs' k b j i|)
      (fun _ _ => Finset.sum_nonneg fun _ _ => Finset.sum_nonneg fun _ _ => Finset.sum_nonneg fun _ _ => abs_nonneg _) (Finset.mem_range.mpr (Nat.lt_succ_of_le hk)))
    refine le_trans ?_ (Finset.single_le_sum (f := fun b => ∑ j ∈ Finset.range (lens (cs k) b), ∑ i ∈ Finset.range (dims (cs k) b), |multsOf p cs' k b j i|)
      (fun _ _ => Finset.sum_nonneg fun _ _ => Finset.sum_nonneg fun _ _ => abs_nonneg _) (Finset.mem_univ b))
    simp only [e]
    cases b
    · exact getMul_le_sum (hs.ineqCons k hk) j i
    · exact getMul_le_sum (hs.eqCons k hk) j i
  · have : multsOf p cs' k = 0 := by unfold multsOf; rw [if_neg hk]
    rw [this]
    show |(0 : ℝ)| ≤ _
    rw [abs_zero]
    exact size_nonneg _

theorem multsOf_none {cs' : ℕ → ALCost n m ℝ} (h : NoMultipliers p cs') : multsOf p cs' = 0 := by
  funext k b j i
  unfold multsOf
  split
  · rename_i hk
    cases b
    · exact getMul_none (h.ineq k hk) j i
    · exact getMul_none (h.eq k hk) j i
  · rfl

end Altro.Props
