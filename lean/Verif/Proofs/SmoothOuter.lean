import Verif.Proofs.SmoothLagrangian
import Verif.Props.LQWhole

/-!
# One outer iteration on a smooth problem
-/

namespace Altro.Props
open Altro.Spec Matrix ILQR AL
variable {n m : ℕ} {κ : ConKind} {p : DynProblem n m ℝ} {cs : ℕ → ALCost n m ℝ} {Y : Traj (Fin n → ℝ) (Fin m → ℝ) ℝ} {μ ρ M R : ℝ}

/-! ## Distances between constraint values -/

/-- Sum of absolute constraint values. -/
noncomputable def conAbs (l : List (ConVal κ n m ℝ)) (z : Z n m) : ℝ := (l.map fun v => ∑ i, |v.con.eval z.1 z.2 i|).sum

/-- Sum of absolute differences of constraint values. -/
noncomputable def conDist (l : List (ConVal κ n m ℝ)) (z z' : Z n m) : ℝ :=
  (l.map fun v => ∑ i, |v.con.eval z.1 z.2 i - v.con.eval z'.1 z'.2 i|).sum

/-- The same along the trajectories of two control sequences. -/
noncomputable def ctlDist (p : DynProblem n m ℝ) (Y : Traj (Fin n → ℝ) (Fin m → ℝ) ℝ) (cs : ℕ → ALCost n m ℝ) (U V : ℕ → Fin m → ℝ) : ℝ :=
  ∑ k ∈ Finset.range (p.N + 1), (conDist (cs k).eq (openLoop p Y U k, U k) (openLoop p Y V k, V k)
    + conDist (cs k).ineq (openLoop p Y U k, U k) (openLoop p Y V k, V k))

theorem conDist_nonneg (l : List (ConVal κ n m ℝ)) (z z' : Z n m) : 0 ≤ conDist l z z' :=
  sum_map_nonneg _ _ fun _ _ => Finset.sum_nonneg fun _ _ => abs_nonneg _

theorem conAbs_nonneg (l : List (ConVal κ n m ℝ)) (z : Z n m) : 0 ≤ conAbs l z :=
  sum_map_nonneg _ _ fun _ _ => Finset.sum_nonneg fun _ _ => abs_nonneg _

theorem ctlDist_self (U : ℕ → Fin m → ℝ) : ctlDist p Y cs U U = 0 := by
  refine Finset.sum_eq_zero fun k _ => ?_
  simp [conDist]

theorem sum_continuous {X : Type} [TopologicalSpace X] : ∀ (l : List (ConVal κ n m ℝ)) (f : ConVal κ n m ℝ → X → ℝ),
    (∀ v ∈ l, Continuous (f v)) → Continuous fun a => (l.map fun v => f v a).sum
  | [], _, _ => continuous_const
  | v :: l, f, h => by
    simp only [List.map_cons, List.sum_cons]
    exact (h v (by simp)).add (sum_continuous l f fun w hw => h w (by simp [hw]))

theorem conDist_continuous {X : Type} [TopologicalSpace X] {l : List (ConVal κ n m ℝ)} (hl : ∀ v ∈ l, SmoothCon v.con) {z z' : X → Z n m}
    (hz : Continuous z) (hz' : Continuous z') : Continuous fun a => conDist l (z a) (z' a) := by
  refine sum_continuous l (fun v a => ∑ i, |v.con.eval (z a).1 (z a).2 i - v.con.eval (z' a).1 (z' a).2 i|) fun v hv => ?_
  have hc := IsJacAt.continuous (hl v hv).jac
  refine continuous_finset_sum _ fun i _ => Continuous.abs ?_
  exact ((continuous_apply i).comp (hc.comp hz)).sub ((continuous_apply i).comp (hc.comp hz'))

theorem conAbs_continuous {X : Type} [TopologicalSpace X] {l : List (ConVal κ n m ℝ)} (hl : ∀ v ∈ l, SmoothCon v.con) {z : X → Z n m}
    (hz : Continuous z) : Continuous fun a => conAbs l (z a) := by
  refine sum_continuous l (fun v a => ∑ i, |v.con.eval (z a).1 (z a).2 i|) fun v hv => ?_
  have hc := IsJacAt.continuous (hl v hv).jac
  refine continuous_finset_sum _ fun i _ => Continuous.abs ?_
  exact (continuous_apply i).comp (hc.comp hz)

theorem _root_.Altro.Spec.SmoothProblem.base (h : SmoothProblem p cs Y μ) : SmoothDyn p Y (fun _ _ _ => 0) fun _ _ => 0 :=
  (h.family (ρ := 1) (M := 0) one_pos le_rfl).base

theorem ctlDist_continuous (h : SmoothProblem p cs Y μ) :
    Continuous fun q : (ℕ → Fin m → ℝ) × (ℕ → Fin m → ℝ) => ctlDist p Y cs q.1 q.2 := by
  refine continuous_finset_sum _ fun k hk => ?_
  have hk : k ≤ p.N := by have := Finset.mem_range.mp hk; omega
  have h1 := (SmoothDyn.cont_pair h.base k hk).comp (continuous_fst (X := ℕ → Fin m → ℝ) (Y := ℕ → Fin m → ℝ))
  have h2 := (SmoothDyn.cont_pair h.base k hk).comp (continuous_snd (X := ℕ → Fin m → ℝ) (Y := ℕ → Fin m → ℝ))
  exact (conDist_continuous (fun v hv => ((h.knot k hk).eq v hv).1) h1 h2).add
    (conDist_continuous (fun v hv => ((h.knot k hk).ineq v hv).1) h1 h2)

theorem le_conDist {l l' : List (ConVal κ n m ℝ)} (e : l'.map ConVal.static = l.map ConVal.static) {v : ConVal κ n m ℝ} (hv : v ∈ l')
    (z z' : Z n m) : ∀ i, |v.con.eval z.1 z.2 i - v.con.eval z'.1 z'.2 i| ≤ conDist l z z' := by
  obtain ⟨w, hw, ew⟩ := mem_static e hv
  have hc : ∀ i, |w.static.con.eval z.1 z.2 i - w.static.con.eval z'.1 z'.2 i| ≤ conDist l z z' := fun i => by
    refine le_trans ?_ (le_sum_map l (fun v => ∑ i, |v.con.eval z.1 z.2 i - v.con.eval z'.1 z'.2 i|)
      (fun _ _ => Finset.sum_nonneg fun _ _ => abs_nonneg _) hw)
    exact Finset.single_le_sum (f := fun i => |w.con.eval z.1 z.2 i - w.con.eval z'.1 z'.2 i|) (fun _ _ => abs_nonneg _) (Finset.mem_univ i)
  rw [ew] at hc
  exact hc

theorem le_conAbs {l l' : List (ConVal κ n m ℝ)} (e : l'.map ConVal.static = l.map ConVal.static) {v : ConVal κ n m ℝ} (hv : v ∈ l')
    (z : Z n m) : ∀ i, |v.con.eval z.1 z.2 i| ≤ conAbs l z := by
  obtain ⟨w, hw, ew⟩ := mem_static e hv
  have hc : ∀ i, |w.static.con.eval z.1 z.2 i| ≤ conAbs l z := fun i => by
    refine le_trans ?_ (le_sum_map l (fun v => ∑ i, |v.con.eval z.1 z.2 i|) (fun _ _ => Finset.sum_nonneg fun _ _ => abs_nonneg _) hw)
    exact Finset.single_le_sum (f := fun i => |w.con.eval z.1 z.2 i|) (fun _ _ => abs_nonneg _) (Finset.mem_univ i)
  rw [ew] at hc
  exact hc

/-! ## What is known of the constraint values -/

/-- The constraint values of a cost object at `(x, u)` are at most `b`. -/
def ConLe (c : ALCost n m ℝ) (x : Fin n → ℝ) (u : Fin m → ℝ) (b : ℝ) : Prop :=
  (∀ v ∈ c.eq, ∀ i, |v.con.eval x u i| ≤ b) ∧ ∀ v ∈ c.ineq, ∀ i, |v.con.eval x u i| ≤ b

/-- The stored values of a cost object are within `a` of those at `(x, u)`. -/
def StoredUpTo (c : ALCost n m ℝ) (x : Fin n → ℝ) (u : Fin m → ℝ) (a : ℝ) : Prop :=
  (∀ v ∈ c.eq, ∀ i, |v.c i - v.con.eval x u i| ≤ a) ∧ ∀ v ∈ c.ineq, ∀ i, |v.c i - v.con.eval x u i| ≤ a

/-- At the last knot point the control does not matter. -/
theorem eval_ctl (h : SmoothProblem p cs Y μ) {cs' : ℕ → ALCost n m ℝ} (e : ∀ k ≤ p.N, (cs' k).static = (cs k).static)
    (Z : Traj (Fin n → ℝ) (Fin m → ℝ) ℝ) {k : ℕ} (hk : k ≤ p.N) (x : Fin n → ℝ) :
    (∀ v ∈ (cs' k).eq, v.con.eval x (Z.u k) = v.con.eval x (ctl p.N Z k)) ∧
    ∀ v ∈ (cs' k).ineq, v.con.eval x (Z.u k) = v.con.eval x (ctl p.N Z k) := by
  rcases Nat.lt_or_eq_of_le hk with h1 | rfl
  · rw [ctl_of_lt _ h1]; exact ⟨fun _ _ => rfl, fun _ _ => rfl⟩
  · refine ⟨fun v hv => ?_, fun v hv => ?_⟩
    · obtain ⟨w, hw, ew⟩ := mem_static (ALCost.mk.inj (e _ le_rfl)).2.1 hv
      have hc : ∀ x u u', w.static.con.eval x u = w.static.con.eval x u' := h.termEq w hw
      rw [ew] at hc
      exact hc _ _ _
    · obtain ⟨w, hw, ew⟩ := mem_static (ALCost.mk.inj (e _ le_rfl)).2.2 hv
      have hc : ∀ x u u', w.static.con.eval x u = w.static.con.eval x u' := h.termIneq w hw
      rw [ew] at hc
      exact hc _ _ _

theorem stored_upTo (h : SmoothProblem p cs Y μ) {cs' : ℕ → ALCost n m ℝ} (e : ∀ k ≤ p.N, (cs' k).static = (cs k).static)
    {Z Zc : Traj (Fin n → ℝ) (Fin m → ℝ) ℝ} (hZ : DynFeasible (alKernel p) Z) (ht : SameTimes (alKernel p) Z Y)
    (hf : (alLaw p).Fresh cs' Zc) (hx : ∀ k ≤ p.N, Zc.x k = openLoop p Y (ctl p.N Zc) k) {a : ℝ}
    (hd : ctlDist p Y cs (ctl p.N Zc) (ctl p.N Z) ≤ a) : ∀ k ≤ p.N, StoredUpTo (cs' k) (Z.x k) (Z.u k) a := by
  intro k hk
  have hs : Stored (cs' k) (Zc.x k) (Zc.u k) := stored_of_values _ _ _ (hf k hk)
  have hz := openLoop_ctl hZ ht k hk
  have h1 : conDist (cs k).eq (openLoop p Y (ctl p.N Zc) k, ctl p.N Zc k) (openLoop p Y (ctl p.N Z) k, ctl p.N Z k)
      + conDist (cs k).ineq (openLoop p Y (ctl p.N Zc) k, ctl p.N Zc k) (openLoop p Y (ctl p.N Z) k, ctl p.N Z k) ≤ a :=
    le_trans (Finset.single_le_sum (f := fun k => conDist (cs k).eq (openLoop p Y (ctl p.N Zc) k, ctl p.N Zc k) (openLoop p Y (ctl p.N Z) k, ctl p.N Z k)
      + conDist (cs k).ineq (openLoop p Y (ctl p.N Zc) k, ctl p.N Zc k) (openLoop p Y (ctl p.N Z) k, ctl p.N Z k))
      (fun _ _ => add_nonneg (conDist_nonneg _ _ _) (conDist_nonneg _ _ _)) (Finset.mem_range.mpr (Nat.lt_succ_of_le hk))) hd
  rw [← hx k hk, hz] at h1
  have p1 := conDist_nonneg (cs k).eq (Zc.x k, ctl p.N Zc k) (Z.x k, ctl p.N Z k)
  have p2 := conDist_nonneg (cs k).ineq (Zc.x k, ctl p.N Zc k) (Z.x k, ctl p.N Z k)
  refine ⟨fun v hv i => ?_, fun v hv i => ?_⟩
  · rw [hs.1 v hv, (eval_ctl h e Zc hk _).1 v hv, (eval_ctl h e Z hk _).1 v hv]
    have := le_conDist (ALCost.mk.inj (e k hk)).2.1 hv (Zc.x k, ctl p.N Zc k) (Z.x k, ctl p.N Z k) i
    linarith
  · rw [hs.2 v hv, (eval_ctl h e Zc hk _).2 v hv, (eval_ctl h e Z hk _).2 v hv]
    have := le_conDist (ALCost.mk.inj (e k hk)).2.2 hv (Zc.x k, ctl p.N Zc k) (Z.x k, ctl p.N Z k) i
    linarith

/-- Bound on the constraint values of trajectories with bounded controls. -/
theorem con_bound (h : SmoothProblem p cs Y μ) (R : ℝ) : ∃ b, 0 ≤ b ∧ ∀ (cs' : ℕ → ALCost n m ℝ) (Z : Traj (Fin n → ℝ) (Fin m → ℝ) ℝ),
    (∀ k ≤ p.N, (cs' k).static = (cs k).static) → (∀ k ≤ p.N, Z.x k = openLoop p Y (ctl p.N Z) k) → (∀ k i, |ctl p.N Z k i| ≤ R) →
    ∀ k ≤ p.N, ConLe (cs' k) (Z.x k) (Z.u k) b ∧ ConLe (cs' k) (Z.x k) (ctl p.N Z k) b ∧ (cs' k).cost.eval (Z.x k) (Z.u k) ≤ b := by
  obtain ⟨b1, hb1, H1⟩ := sup_bound (controls_compact (m := m) R) (fun k U => conAbs (cs k).eq (openLoop p Y U k, U k)
    + conAbs (cs k).ineq (openLoop p Y U k, U k)) p.N fun k hk =>
      (conAbs_continuous (fun v hv => ((h.knot k hk).eq v hv).1) (SmoothDyn.cont_pair h.base k hk)).add
        (conAbs_continuous (fun v hv => ((h.knot k hk).ineq v hv).1) (SmoothDyn.cont_pair h.base k hk))
  obtain ⟨b2, hb2, H2⟩ := sup_bound (controls_compact (m := m) R) (fun k U => (cs k).cost.eval (openLoop p Y U k) (U k)) p.N fun k hk => by
    have hc : Continuous fun z : Z n m => (cs k).cost.eval z.1 z.2 :=
      continuous_iff_continuousAt.mpr fun z => HasFDerivAt.continuousAt ((h.knot k hk).grad z.1 z.2)
    exact hc.comp (SmoothDyn.cont_pair h.base k hk)
  refine ⟨max b1 b2, le_max_of_le_left hb1, fun cs' Z e hx hU k hk => ?_⟩
  have h1 := H1 k hk (ctl p.N Z) hU
  have h2 := H2 k hk (ctl p.N Z) hU
  rw [← hx k hk] at h2
  simp only [← hx k hk] at h1
  have p1 := conAbs_nonneg (cs k).eq (Z.x k, ctl p.N Z k)
  have p2 := conAbs_nonneg (cs k).ineq (Z.x k, ctl p.N Z k)
  have hm1 := le_max_left b1 b2
  have hm2 := le_max_right b1 b2
  have c1 : ConLe (cs' k) (Z.x k) (ctl p.N Z k) (max b1 b2) := by
    refine ⟨fun v hv i => ?_, fun v hv i => ?_⟩
    · have := le_conAbs (ALCost.mk.inj (e k hk)).2.1 hv (Z.x k, ctl p.N Z k) i
      simp only at this
      linarith
    · have := le_conAbs (ALCost.mk.inj (e k hk)).2.2 hv (Z.x k, ctl p.N Z k) i
      simp only at this
      linarith
  refine ⟨⟨fun v hv i => ?_, fun v hv i => ?_⟩, c1, ?_⟩
  · rw [(eval_ctl h e Z hk _).1 v hv]; exact c1.1 v hv i
  · rw [(eval_ctl h e Z hk _).2 v hv]; exact c1.2 v hv i
  · rw [(ALCost.mk.inj (e k hk)).1]
    rcases Nat.lt_or_eq_of_le hk with h3 | rfl
    · rw [ctl_of_lt _ h3] at h2; linarith
    · rw [h.term _ _ (ctl p.N Z p.N)]; linarith

/-- Bound on the augmented cost of trajectories with bounded controls. -/
theorem augLag_le (v : ConVal κ n m ℝ) (hρ : 0 < ρ) (hp : ∀ i, v.pen i = ρ) {b : ℝ} (x : Fin n → ℝ) (u : Fin m → ℝ) (hl : ∀ i, |v.lam i| ≤ M)
    (hc : ∀ i, |v.con.eval x u i| ≤ b) : (v.augLag x u).1 ≤ v.con.p * ((M + ρ * b) ^ 2 / (2 * ρ)) := by
  have hr : v.rho = ρ := hp _
  show (κ.dualProj (v.lam - v.rho • v.con.eval x u) ⬝ᵥ κ.dualProj (v.lam - v.rho • v.con.eval x u) - v.lam ⬝ᵥ v.lam) / (2 * v.rho) ≤ _
  rw [hr]
  have h1 : κ.dualProj (v.lam - ρ • v.con.eval x u) ⬝ᵥ κ.dualProj (v.lam - ρ • v.con.eval x u) ≤ ∑ _i : Fin v.con.p, (M + ρ * b) ^ 2 := by
    unfold dotProduct
    refine Finset.sum_le_sum fun i _ => ?_
    have a1 := dualProj_le κ (v.lam - ρ • v.con.eval x u) i
    have a2 : |(v.lam - ρ • v.con.eval x u) i| ≤ M + ρ * b := by
      refine (abs_sub _ _).trans (add_le_add (hl i) ?_)
      show |ρ * v.con.eval x u i| ≤ _
      rw [abs_mul, abs_of_pos hρ]
      exact mul_le_mul_of_nonneg_left (hc i) hρ.le
    rw [← sq, ← sq_abs (κ.dualProj _ i)]
    exact pow_le_pow_left₀ (abs_nonneg _) (a1.trans a2) 2
  rw [Finset.sum_const, Finset.card_univ, Fintype.card_fin, nsmul_eq_mul] at h1
  have h2 : 0 ≤ v.lam ⬝ᵥ v.lam := nsq_nonneg v.lam
  rw [← mul_div_assoc]
  exact div_le_div_of_nonneg_right (by linarith) (by linarith)

theorem start_bound (h : SmoothProblem p cs Y μ) (hρ : 0 < ρ) (M R : ℝ) : ∃ Jb : ℝ, ∀ cs' Z, Near p cs ρ M cs' →
    (∀ k ≤ p.N, Z.x k = openLoop p Y (ctl p.N Z) k) → (∀ k i, |ctl p.N Z k i| ≤ R) → trajCost p cs' Z ≤ Jb := by
  obtain ⟨b, hb, H⟩ := con_bound h R
  set e : ℝ := (M + ρ * b) ^ 2 / (2 * ρ) with he
  refine ⟨∑ k ∈ Finset.range (p.N + 1), (b + ((cs k).eq.map fun v => v.con.p * e).sum + ((cs k).ineq.map fun v => v.con.p * e).sum),
    fun cs' Z hcs hx hU => Finset.sum_le_sum fun k hk => ?_⟩
  have hk : k ≤ p.N := by have := Finset.mem_range.mp hk; omega
  obtain ⟨h1, -, h2⟩ := H cs' Z hcs.static hx hU k hk
  rw [C02_evaluate_eq]
  have f : ∀ {κ : ConKind} (l : List (ConVal κ n m ℝ)), (l.map fun v => (v.con.p : ℝ) * e) = (l.map ConVal.static).map fun v => (v.con.p : ℝ) * e :=
    fun l => by rw [List.map_map]; rfl
  have e1 := sum_map_le (cs' k).eq (fun v => (v.augLag (Z.x k) (Z.u k)).1) (fun v => (v.con.p : ℝ) * e) fun v hv =>
    augLag_le v hρ ((hcs.pen k hk).1 v hv) _ _ (hcs.eq k hk v hv) (h1.1 v hv)
  have e2 := sum_map_le (cs' k).ineq (fun v => (v.augLag (Z.x k) (Z.u k)).1) (fun v => (v.con.p : ℝ) * e) fun v hv =>
    augLag_le v hρ ((hcs.pen k hk).2 v hv) _ _ (hcs.ineq k hk v hv) (h1.2 v hv)
  rw [f, (ALCost.mk.inj (hcs.static k hk)).2.1, ← f] at e1
  rw [f, (ALCost.mk.inj (hcs.static k hk)).2.2, ← f] at e2
  linarith

/-! ## Multipliers after the update -/

theorem getMul_close (hρ : 0 < ρ) {a : ℝ} (ha : 0 ≤ a) (z : Z n m) : ∀ (l : List (ConVal κ n m ℝ)), (∀ v ∈ l, (∀ i, v.pen i = ρ) ∧
    ∀ i, |v.c i - v.con.eval z.1 z.2 i| ≤ a) → ∀ j i, |getMul (l.map ConVal.updateDuals) j i
      - getMul (l.map fun v => (v.evalC z.1 z.2).updateDuals) j i| ≤ ρ * a
  | [], _, j, i => by
    show |(0 : ℝ) - 0| ≤ _
    rw [sub_zero, abs_zero]; positivity
  | v :: l, h, 0, i => by
    show |(if h : i < v.con.p then κ.dualProj (v.lam - fun i => v.pen i * v.c i) ⟨i, h⟩ else 0)
      - (if h : i < v.con.p then κ.dualProj (v.lam - fun i => v.pen i * v.con.eval z.1 z.2 i) ⟨i, h⟩ else 0)| ≤ _
    by_cases hi : i < v.con.p
    · rw [dif_pos hi, dif_pos hi]
      refine (dualProj_sub_le κ _ _ _).trans ?_
      show |v.lam ⟨i, hi⟩ - v.pen ⟨i, hi⟩ * v.c ⟨i, hi⟩ - (v.lam ⟨i, hi⟩ - v.pen ⟨i, hi⟩ * v.con.eval z.1 z.2 ⟨i, hi⟩)| ≤ _
      have e : v.lam ⟨i, hi⟩ - v.pen ⟨i, hi⟩ * v.c ⟨i, hi⟩ - (v.lam ⟨i, hi⟩ - v.pen ⟨i, hi⟩ * v.con.eval z.1 z.2 ⟨i, hi⟩)
          = -(v.pen ⟨i, hi⟩ * (v.c ⟨i, hi⟩ - v.con.eval z.1 z.2 ⟨i, hi⟩)) := by ring
      rw [e, abs_neg, abs_mul, (h v (by simp)).1, abs_of_pos hρ]
      exact mul_le_mul_of_nonneg_left ((h v (by simp)).2 _) hρ.le
    · rw [dif_neg hi, dif_neg hi, sub_zero, abs_zero]; positivity
  | v :: l, h, j + 1, i => getMul_close hρ ha z l (fun w hw => h w (by simp [hw])) j i

theorem updated_le (v : ConVal κ n m ℝ) (hρ : 0 < ρ) (hp : ∀ i, v.pen i = ρ) {b : ℝ} (hl : ∀ i, |v.lam i| ≤ M) (hc : ∀ i, |v.c i| ≤ b) :
    ∀ i, |v.updateDuals.lam i| ≤ M + ρ * b := by
  show ∀ i : Fin v.con.p, |κ.dualProj (v.lam - fun i => v.pen i * v.c i) i| ≤ M + ρ * b
  intro i
  refine (dualProj_le κ _ i).trans ((abs_sub _ _).trans (add_le_add (hl i) ?_))
  show |v.pen i * v.c i| ≤ _
  rw [hp, abs_mul, abs_of_pos hρ]
  exact mul_le_mul_of_nonneg_left (hc i) hρ.le

theorem Near.of_core {cs1 cs2 : ℕ → ALCost n m ℝ} (h : Near p cs ρ M cs1) (e : ∀ k ≤ p.N, (cs2 k).core = (cs1 k).core) : Near p cs ρ M cs2 := by
  have key : ∀ {κ : ConKind} {l l' : List (ConVal κ n m ℝ)}, l'.map ConVal.core = l.map ConVal.core →
      (∀ v ∈ l, ∀ i, v.pen i = ρ ∧ |v.lam i| ≤ M) → ∀ v ∈ l', ∀ i, v.pen i = ρ ∧ |v.lam i| ≤ M := by
    intro κ l l' e hl v hv
    have : v.core ∈ l.map ConVal.core := by rw [← e]; exact List.mem_map_of_mem hv
    obtain ⟨w, hw, ew⟩ := List.mem_map.mp this
    have h1 : ∀ i, w.core.pen i = ρ ∧ |w.core.lam i| ≤ M := hl w hw
    rw [ew] at h1
    exact h1
  have k1 := fun k hk => key (ALCost.mk.inj (e k hk)).2.1 fun v hv i => ⟨(h.pen k hk).1 v hv i, h.eq k hk v hv i⟩
  have k2 := fun k hk => key (ALCost.mk.inj (e k hk)).2.2 fun v hv i => ⟨(h.pen k hk).2 v hv i, h.ineq k hk v hv i⟩
  exact ⟨fun k hk => by rw [← h.static k hk, ← ALCost.static_of_core, e k hk, ALCost.static_of_core],
    fun k hk => ⟨fun v hv i => (k1 k hk v hv i).1, fun v hv i => (k2 k hk v hv i).1⟩,
    fun k hk v hv i => (k1 k hk v hv i).2, fun k hk v hv i => (k2 k hk v hv i).2⟩

theorem Near.update {cs1 cs2 : ℕ → ALCost n m ℝ} (hρ : 0 < ρ) (h : Near p cs ρ M cs1) {b : ℝ}
    (hc : ∀ k ≤ p.N, (∀ v ∈ (cs1 k).eq, ∀ i, |v.c i| ≤ b) ∧ ∀ v ∈ (cs1 k).ineq, ∀ i, |v.c i| ≤ b)
    (e : ∀ k ≤ p.N, cs2 k = (cs1 k).updateDuals) : Near p cs ρ (M + ρ * b) cs2 := by
  refine ⟨fun k hk => by rw [e k hk, ALCost.updateDuals_static, h.static k hk], fun k hk => ?_, fun k hk => ?_, fun k hk => ?_⟩
  · rw [e k hk]
    simp only [PenU, ALCost.updateDuals, List.forall_mem_map]
    exact h.pen k hk
  · rw [e k hk]
    simp only [ALCost.updateDuals, List.forall_mem_map]
    exact fun v hv => updated_le v hρ ((h.pen k hk).1 v hv) (h.eq k hk v hv) ((hc k hk).1 v hv)
  · rw [e k hk]
    simp only [ALCost.updateDuals, List.forall_mem_map]
    exact fun v hv => updated_le v hρ ((h.pen k hk).2 v hv) (h.ineq k hk v hv) ((hc k hk).2 v hv)

theorem Near.scale {cs1 cs2 : ℕ → ALCost n m ℝ} {φ : ℝ} (h : Near p cs ρ M cs1) (hs : ∀ k ≤ p.N, ScaleU (cs k) φ)
    (e : ∀ k ≤ p.N, cs2 k = (cs1 k).updatePenalties) : Near p cs (ρ * φ) M cs2 := by
  refine ⟨fun k hk => ?_, fun k hk => ?_, fun k hk => ?_, fun k hk => ?_⟩
  · rw [e k hk, ← h.static k hk]
    simp only [ALCost.static, ALCost.updatePenalties, List.map_map]; rfl
  · rw [e k hk]
    have hsc := scaleU_static (h.static k hk) (hs k hk)
    simp only [PenU, ALCost.updatePenalties, List.forall_mem_map, ConVal.updatePenalties]
    exact ⟨fun v hv i => by rw [(h.pen k hk).1 v hv i, hsc.1 v hv], fun v hv i => by rw [(h.pen k hk).2 v hv i, hsc.2 v hv]⟩
  · rw [e k hk]
    simp only [ALCost.updatePenalties, List.forall_mem_map]
    exact h.eq k hk
  · rw [e k hk]
    simp only [ALCost.updatePenalties, List.forall_mem_map]
    exact h.ineq k hk

/-! ## The gradient of the Lagrangian -/

theorem mult_uniform (h : SmoothProblem p cs Y μ) (M R : ℝ) {η : ℝ} (hη : 0 < η) : ∃ τ, 0 < τ ∧ ∀ θ θ' : Mults, (∀ k b j i, |θ k b j i| ≤ M) →
    (∀ k b j i, |θ' k b j i - θ k b j i| ≤ τ) → ∀ U : ℕ → Fin m → ℝ, (∀ k i, |U k i| ≤ R) →
    gradSq p Y (fun k z => mulLagGrad (θ' k) (cs k) z) U ≤ gradSq p Y (fun k z => mulLagGrad (θ k) (cs k) z) U + η := by
  have hg : ∀ k ≤ p.N, Continuous fun q : Mults × Z n m => mulLagGrad (q.1 k) (cs k) q.2 := fun k hk => by
    have hp : Continuous fun q : Mults × Z n m => (q.1 k, q.2) := ((continuous_apply k).comp continuous_fst).prodMk continuous_snd
    exact (mulLagGrad_continuous (h.knot k hk)).comp hp
  have hc := SmoothDyn.gradSq_continuous_of (g := fun (θ : Mults) k z => mulLagGrad (θ k) (cs k) z) h.base hg
  have hpath : Continuous fun q : ((Mults × Mults) × (ℕ → Fin m → ℝ)) × ℝ => (q.1.1.1 + q.2 • q.1.1.2, q.1.2) :=
    ((continuous_fst.comp (continuous_fst.comp continuous_fst)).add
      (continuous_snd.smul (continuous_snd.comp (continuous_fst.comp continuous_fst)))).prodMk (continuous_snd.comp continuous_fst)
  obtain ⟨τ, hτ, H⟩ := uniform_zero (hc.comp hpath) (((mults_compact M).prod (mults_compact 1)).prod (controls_compact (m := m) R)) hη
  refine ⟨τ, hτ, fun θ θ' h1 h2 U hU => ?_⟩
  have h3 := H ((θ, fun k b j i => (θ' k b j i - θ k b j i) / τ), U) ⟨⟨h1, fun k b j i => by
    show |(θ' k b j i - θ k b j i) / τ| ≤ 1
    rw [abs_div, abs_of_pos hτ, div_le_one hτ]
    exact h2 k b j i⟩, hU⟩ τ hτ.le le_rfl
  have e1 : (θ + τ • (fun k b j i => (θ' k b j i - θ k b j i) / τ) : Mults) = θ' := by
    funext k b j i
    show θ k b j i + τ * ((θ' k b j i - θ k b j i) / τ) = _
    field_simp
    ring
  have e0 : (θ + (0 : ℝ) • (fun k b j i => (θ' k b j i - θ k b j i) / τ) : Mults) = θ := by rw [zero_smul, add_zero]
  simp only [Function.comp, e1, e0] at h3
  have := (abs_le.mp h3).2
  linarith

theorem nearlyStationaryOf {ℓ : ℕ → (Fin n → ℝ) → (Fin m → ℝ) → ℝ} {g : ℕ → Z n m → Z n m} (h : SmoothDyn p Y ℓ g)
    (hterm : ∀ x u u', ℓ p.N x u = ℓ p.N x u') {Z : Traj (Fin n → ℝ) (Fin m → ℝ) ℝ} (hZ : DynFeasible (alKernel p) Z)
    (ht : SameTimes (alKernel p) Z Y) {ε : ℝ} (hg : gradSq p Y g (ctl p.N Z) ≤ ε ^ 2) : NearlyStationaryOf p ℓ Z ε := by
  let kd : ℕ → KP n m ℝ := fun k => { kdAt p Y g (ctl p.N Z) k with cost := ⟨0, 0, 0, (g k (Z.x k, Z.u k)).1, (g k (Z.x k, Z.u k)).2⟩ }
  have hx := openLoop_ctl hZ ht
  have hF : FirstOrderOf p ℓ Z kd := by
    refine ⟨fun k hk => ?_, fun k hk => h.grad k hk _ _⟩
    show IsJacAt (fun x u => p.f k x u (Z.t k) (Z.h k)) (fromCols (p.jac k (openLoop p Y (ctl p.N Z) k) (ctl p.N Z k) (Y.t k) (Y.h k)).1
      (p.jac k (openLoop p Y (ctl p.N Z) k) (ctl p.N Z k) (Y.t k) (Y.h k)).2) _ _
    rw [hx k hk.le, ctl_of_lt _ hk, ht.t k hk.le, ht.h k hk]
    exact h.jac k hk _ _
  intro v hv
  refine ⟨_, controlCost_deriv hF hZ v hv, (sum_dot_sq_le p.N _ v).trans (mul_le_mul_of_nonneg_right ?_ ?_)⟩
  · refine le_trans (le_of_eq ?_) hg
    refine Finset.sum_congr rfl fun k hk => congrArg nsq (grad_congr (fun k hk => ?_) (fun k hk => ?_) (Finset.mem_range.mp hk))
    · show (g k (Z.x k, Z.u k)).1 = (g k (openLoop p Y (ctl p.N Z) k, ctl p.N Z k)).1
      rw [hx k hk]
      rcases Nat.lt_or_eq_of_le hk with h1 | rfl
      · rw [ctl_of_lt _ h1]
      · exact (grad_indep hterm (h.grad p.N le_rfl _ _) (h.grad p.N le_rfl _ _)).1
    · refine ⟨?_, rfl, rfl⟩
      show (g k (Z.x k, Z.u k)).2 = (g k (openLoop p Y (ctl p.N Z) k, ctl p.N Z k)).2
      rw [hx k hk.le, ctl_of_lt _ hk]
  · exact Finset.sum_nonneg fun k _ => nsq_nonneg (v k)

/-- The Lagrangian and its gradient. -/
theorem lagrangian_smooth (h : SmoothProblem p cs Y μ) {cs' : ℕ → ALCost n m ℝ} (e : ∀ k ≤ p.N, (cs' k).static = (cs k).static) (hρ : 0 < ρ)
    (hp : ∀ k ≤ p.N, PenU (cs' k) ρ) : SmoothDyn p Y (fun k => lagrangian (cs' k)) (fun k z => mulLagGrad (mulOf (cs' k)) (cs k) z) ∧
    ∀ x u u', lagrangian (cs' p.N) x u = lagrangian (cs' p.N) x u' := by
  have hS := h.congr e hρ hp
  refine ⟨⟨h.jac, h.cont, fun k hk x u => ?_, fun k hk => ?_⟩, fun x u u' => ?_⟩
  · show IsGradAt (lagrangian (cs' k)) (mulLagGrad (mulOf (cs' k)) (cs k) (x, u)).1 (mulLagGrad (mulOf (cs' k)) (cs k) (x, u)).2 x u
    rw [← lagGrad_eq (e k hk)]
    exact lagrangian_isGradAt _ x u ((hS.knot k hk).grad x u) (fun v hv => ((hS.knot k hk).eq v hv).1.jac x u)
      fun v hv => ((hS.knot k hk).ineq v hv).1.jac x u
  · have hp : Continuous fun z : Z n m => (mulOf (cs' k), z) := continuous_const.prodMk continuous_id
    exact (mulLagGrad_continuous (h.knot k hk)).comp hp
  · unfold lagrangian
    rw [hS.term x u u']
    have a1 : (cs' p.N).eq.map (fun v => v.lam ⬝ᵥ v.con.eval x u) = (cs' p.N).eq.map fun v => v.lam ⬝ᵥ v.con.eval x u' :=
      List.map_congr_left fun v hv => by rw [hS.termEq v hv x u u']
    have a2 : (cs' p.N).ineq.map (fun v => v.lam ⬝ᵥ v.con.eval x u) = (cs' p.N).ineq.map fun v => v.lam ⬝ᵥ v.con.eval x u' :=
      List.map_congr_left fun v hv => by rw [hS.termIneq v hv x u u']
    rw [a1, a2]

end Altro.Props
