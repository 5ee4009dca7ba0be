import Verif.Spec.ALRate
import Verif.Proofs.ALRate
import Verif.Proofs.LQMultipliers

/-!
# The method of multipliers on linear-quadratic problems with equality constraints
-/

namespace Altro.Spec
open Matrix
variable {K : Type} [Field K] [LinearOrder K] [IsStrictOrderedRing K] {n m : ℕ} {V : Type}

theorem rows_ofFn {rs rs0 : List (Row V K)} {ρ : K} (h : rs.map Row.sig = rs0.map Row.sig) (heq : ∀ r ∈ rs0, r.kind = .equality)
    (hp : ∀ r ∈ rs, r.pen = ρ) : ∃ lam : Fin rs0.length → K, rs = List.ofFn fun i => ⟨.equality, (rs0.get i).fn, lam i, ρ⟩ := by
  have hl : rs.length = rs0.length := by rw [← List.length_map (f := Row.sig), h, List.length_map]
  refine ⟨fun i => (rs.get (i.cast hl.symm)).lam, List.ext_getElem ((hl.trans (List.length_ofFn).symm)) fun i h1 h2 => ?_⟩
  have e1 : (rs[i]).sig = (rs0[i]'(hl ▸ h1)).sig := by
    have := List.getElem_of_eq h (i := i) (by rwa [List.length_map])
    rwa [List.getElem_map, List.getElem_map] at this
  have e2 := heq _ (List.getElem_mem (hl ▸ h1 : i < rs0.length))
  have e3 := hp _ (List.getElem_mem h1)
  have e4 : (rs[i]).kind = (rs0[i]'(hl ▸ h1)).kind := congrArg Prod.fst e1
  have e5 : (rs[i]).fn = (rs0[i]'(hl ▸ h1)).fn := congrArg Prod.snd e1
  rw [List.getElem_ofFn]
  have hx : ∀ r : Row V K, r = ⟨r.kind, r.fn, r.lam, r.pen⟩ := fun _ => rfl
  rw [hx rs[i], e3, e4, e2, e5]
  rfl

theorem star_ofFn {star : List K} {M : ℕ} (h : star.length = M) : ∃ μ : Fin M → K, star = List.ofFn μ := by
  subst h
  exact ⟨star.get, (List.ofFn_get star).symm⟩

theorem zip_ofFn {α β : Type} {M : ℕ} (f : Fin M → α) (g : Fin M → β) :
    (List.ofFn f).zip (List.ofFn g) = List.ofFn fun i => (f i, g i) := by
  refine List.ext_getElem (by simp) fun i h1 h2 => ?_
  simp

theorem gap_ofFn {M : ℕ} (fn : Fin M → V → K) (lam μ : Fin M → K) (ρ : K) :
    gap (List.ofFn fun i => (⟨.equality, fn i, lam i, ρ⟩ : Row V K)) (List.ofFn μ) = ∑ i, (lam i - μ i) ^ 2 := by
  rw [gap, zip_ofFn, List.map_ofFn, List.sum_ofFn]
  rfl

namespace LQDual
variable {p : DynProblem n m K} {cs : ℕ → ALCost n m K} {Z : Traj (Fin n → K) (Fin m → K) K}

/-- The controls of a trajectory that have an effect. -/
def controls (p : DynProblem n m K) (y : Traj (Fin n → K) (Fin m → K) K) : Fin p.N → Fin m → K := fun k => y.u k

theorem pt_controls (h : LQEquality p cs) {y : Traj (Fin n → K) (Fin m → K) K} (hy : Alternative p Z y) :
    ∀ k ≤ p.N, (pt p Z (controls p y)).x k = y.x k ∧ (k < p.N → (pt p Z (controls p y)).u k = y.u k) := pt_all h hy

theorem pt_cost (h : LQEquality p cs) {y : Traj (Fin n → K) (Fin m → K) K} (hy : Alternative p Z y) :
    plainCost p cs (pt p Z (controls p y)) = plainCost p cs y := by
  have := pt_controls h hy
  unfold plainCost
  refine Finset.sum_congr rfl fun k hk => ?_
  have hk := Nat.lt_succ_iff.mp (Finset.mem_range.mp hk)
  rw [(this k hk).1]
  rcases Nat.lt_or_eq_of_le hk with hk | rfl
  · rw [(this k hk.le).2 hk]
  · exact h.term _ _ _

theorem pt_row (h : LQEquality p cs) {y : Traj (Fin n → K) (Fin m → K) K} (hy : Alternative p Z y)
    {r : Row (Traj (Fin n → K) (Fin m → K) K) K} (hr : r ∈ rows p cs) : r.fn (pt p Z (controls p y)) = r.fn y := by
  have := pt_controls h hy
  obtain ⟨k, hk, ⟨v, hv, i, rfl⟩ | ⟨v, hv, i, rfl⟩⟩ := (mem_rows p _ r).mp hr
  · show v.con.eval ((pt p Z (controls p y)).x k) ((pt p Z (controls p y)).u k) i = v.con.eval (y.x k) (y.u k) i
    rw [(this k hk).1]
    rcases Nat.lt_or_eq_of_le hk with hk | rfl
    · rw [(this k hk.le).2 hk]
    · rw [h.termCon v hv _ _ (y.u p.N)]
  · rw [(h.knot k hk).free] at hv; cases hv

theorem hess_comm (h : LQEquality p cs) (a b : Fin p.N → Fin m → K) : hess p Z cs a b = hess p Z cs b a := by
  rw [hess_apply, hess_apply]
  refine Finset.sum_congr rfl fun k hk => ?_
  exact bil_comm ((h.knot k (Nat.lt_succ_iff.mp (Finset.mem_range.mp hk))).conv _ _) _ _ _ _

theorem hess_nonneg (h : LQEquality p cs) (a : Fin p.N → Fin m → K) : 0 ≤ hess p Z cs a a := by
  by_cases h0 : a = 0
  · rw [h0]; simp
  · exact (hess_pos h a h0).le

theorem rows_equality (h : LQEquality p cs) : ∀ r ∈ rows p cs, r.kind = .equality := fun r hr => by
  obtain ⟨k, hk, ⟨v, hv, i, rfl⟩ | ⟨v, hv, i, rfl⟩⟩ := (mem_rows p _ r).mp hr
  · rfl
  · rw [(h.knot k hk).free] at hv; cases hv

/-- A minimiser of the objective plus quadratic terms of the constraints is stationary. -/
theorem stationary (h : LQEquality p cs) {C : Fin (rows p cs).length → Module.Dual K (Fin p.N → Fin m → K)}
    (hC : ∀ i d, ((rows p cs).get i).fn (pt p Z d) = ((rows p cs).get i).fn (pt p Z 0) + C i d)
    {lam : Fin (rows p cs).length → K} {ρ : K} {y : Traj (Fin n → K) (Fin m → K) K} (hy : Alternative p Z y)
    (hmin : ∀ y', Alternative p Z y' → plainCost p cs y + ∑ i, eqTerm ρ (lam i) (((rows p cs).get i).fn y)
      ≤ plainCost p cs y' + ∑ i, eqTerm ρ (lam i) (((rows p cs).get i).fn y')) (d : Fin p.N → Fin m → K) :
    lin p Z cs d + hess p Z cs (controls p y) d
      = ∑ i, (lam i - ρ * (((rows p cs).get i).fn (pt p Z 0) + C i (controls p y))) * C i d := by
  rw [← sub_eq_zero]
  refine slope_zero (q := 1 / 2 * hess p Z cs d d + ρ / 2 * ∑ i, C i d ^ 2) fun t => ?_
  have h1 := hmin (pt p Z ((controls p y) + t • d)) (pt_alternative h _)
  rw [← pt_cost h hy, cost_pt h (controls p y), cost_pt h (controls p y + t • d)] at h1
  have e1 : ∀ i, ((rows p cs).get i).fn y = ((rows p cs).get i).fn (pt p Z 0) + C i (controls p y) := fun i => by
    rw [← pt_row h hy (List.get_mem _ i), hC i (controls p y)]
  have e2 : ∑ i, eqTerm ρ (lam i) (((rows p cs).get i).fn (pt p Z ((controls p y) + t • d)))
      = ∑ i, eqTerm ρ (lam i) (((rows p cs).get i).fn y)
        - t * ∑ i, (lam i - ρ * (((rows p cs).get i).fn (pt p Z 0) + C i (controls p y))) * C i d
        + t ^ 2 * (ρ / 2 * ∑ i, C i d ^ 2) := by
    rw [Finset.mul_sum, Finset.mul_sum, Finset.mul_sum, ← Finset.sum_sub_distrib, ← Finset.sum_add_distrib]
    refine Finset.sum_congr rfl fun i _ => ?_
    rw [hC i (controls p y + t • d), e1, map_add, map_smul, smul_eq_mul]
    simp only [eqTerm]
    ring
  rw [e2] at h1
  simp only [map_add, map_smul, LinearMap.add_apply, LinearMap.smul_apply, smul_eq_mul,
    hess_comm h d (controls p y)] at h1
  linarith

/-- The trajectories of two control sequences are as close as the Hessian says. -/
theorem traj_bound (h : LQEquality p cs) : ∃ κ : K, 0 ≤ κ ∧ ∀ y y', Alternative p Z y → Alternative p Z y' →
    trajGap p.N y y' ≤ κ * hess p Z cs ((controls p y) - (controls p y')) ((controls p y) - (controls p y')) := by
  obtain ⟨κ, h0, hb⟩ := coordinates_bound (ι := (Fin (p.N + 1) × Fin n) ⊕ (Fin p.N × Fin m)) (hess p Z cs) (hess_comm h) (hess_pos h)
    (Sum.elim (fun a => LinearMap.proj a.2 ∘ₗ dev p Z a.1) fun a => LinearMap.proj a.2 ∘ₗ ctrl p a.1)
  refine ⟨κ, h0, fun y y' hy hy' => ?_⟩
  refine le_trans (le_of_eq ?_) (hb _)
  have e := pt_controls h hy
  have e' := pt_controls h hy'
  rw [Fintype.sum_sum_type, Fintype.sum_prod_type, Fintype.sum_prod_type, trajGap, Finset.sum_range, Finset.sum_range]
  congr 1
  · refine Finset.sum_congr rfl fun k _ => Finset.sum_congr rfl fun i _ => ?_
    have hk : (k : ℕ) ≤ p.N := Nat.lt_succ_iff.mp k.2
    rw [← (e k hk).1, ← (e' k hk).1]
    show ((base p Z k + dev p Z k (controls p y)) i - (base p Z k + dev p Z k (controls p y')) i) ^ 2
      = (dev p Z k ((controls p y) - (controls p y'))) i ^ 2
    rw [map_sub, Pi.add_apply, Pi.add_apply, Pi.sub_apply]
    ring
  · refine Finset.sum_congr rfl fun k _ => Finset.sum_congr rfl fun i _ => ?_
    show _ = (ctrl p k ((controls p y) - (controls p y'))) i ^ 2
    rw [ctrl_lt k.2]
    rfl

end LQDual

open LQDual in
/-- One step of the method of multipliers. -/
theorem LQEquality.rate {p : DynProblem n m K} {cs : ℕ → ALCost n m K} (h : LQEquality p cs) (Z : Traj (Fin n → K) (Fin m → K) K) :
    ∃ κ κ' : K, 0 ≤ κ ∧ 0 ≤ κ' ∧ ∀ zs star, Saddle (Alternative p Z) (plainCost p cs) (rows p cs) zs star →
      ∀ (rs : List (Row (Traj (Fin n → K) (Fin m → K) K) K)) (ρ : K) (y : Traj (Fin n → K) (Fin m → K) K),
        rs.map Row.sig = (rows p cs).map Row.sig → 0 < ρ → (∀ r ∈ rs, r.pen = ρ) → Alternative p Z y →
        (∀ y', Alternative p Z y' → plainCost p cs y + (rs.map fun r => r.term y).sum ≤ plainCost p cs y' + (rs.map fun r => r.term y').sum) →
        Spanned (Alternative p Z) rs star →
        (κ + ρ) ^ 2 * gap (rs.map fun r => { r with lam := r.next y }) star ≤ κ ^ 2 * gap rs star ∧
        4 * ρ * trajGap p.N y zs ≤ κ' * gap rs star ∧ trajGap p.N y zs ≤ κ' * (κ * (rs.map fun r => r.fn y ^ 2).sum) ∧
        Spanned (Alternative p Z) (rs.map fun r => { r with lam := r.next y }) star := by
  choose L hL using fun r : {r // r ∈ rows p cs} => row_pt (Z := Z) h r.1 r.2
  obtain ⟨κ, hκ, hb⟩ := range_bound (hess p Z cs) (hess_comm h) (hess_nonneg h)
    (LinearMap.pi fun i : Fin (rows p cs).length => L ⟨_, List.get_mem _ i⟩)
  obtain ⟨κ', hκ', hb'⟩ := traj_bound (Z := Z) h
  have hC : ∀ (i : Fin (rows p cs).length) d, ((rows p cs).get i).fn (pt p Z d)
      = ((rows p cs).get i).fn (pt p Z 0) + L ⟨_, List.get_mem _ i⟩ d := fun i d => hL ⟨_, List.get_mem _ i⟩ d
  refine ⟨κ, κ', hκ, hκ', fun zs star hs rs ρ y hsig hρ hpen hy hmin hspan => ?_⟩
  obtain ⟨μ, rfl⟩ := star_ofFn hs.len
  obtain ⟨lam, rfl⟩ := rows_ofFn hsig (rows_equality h) hpen
  have hterm : ∀ z, ((List.ofFn fun i => (⟨.equality, ((rows p cs).get i).fn, lam i, ρ⟩ : Row _ K)).map fun r => r.term z).sum
      = ∑ i, eqTerm ρ (lam i) (((rows p cs).get i).fn z) := fun z => by
    rw [List.map_ofFn, List.sum_ofFn]
    rfl
  have hst := stationary h hC (lam := lam) (ρ := ρ) hy (fun y' hy' => by
    have := hmin y' hy'
    rwa [hterm, hterm] at this)
  have hst' := stationary h hC (lam := μ) (ρ := 0) hs.mem (fun y' hy' => by
    have := hs.lag y' hy'
    have e : ∀ z, (((rows p cs).zip (List.ofFn μ)).map fun q => q.2 * q.1.fn z).sum = ∑ i, μ i * ((rows p cs).get i).fn z := fun z => by
      have : (rows p cs).zip (List.ofFn μ) = List.ofFn fun i => ((rows p cs).get i, μ i) := by
        rw [← zip_ofFn, List.ofFn_get]
      rw [this, List.map_ofFn, List.sum_ofFn]
      rfl
    rw [e, e] at this
    have e2 : ∀ z, ∑ i, eqTerm 0 (μ i) (((rows p cs).get i).fn z) = -∑ i, μ i * ((rows p cs).get i).fn z := fun z => by
      rw [← Finset.sum_neg_distrib]
      exact Finset.sum_congr rfl fun i _ => by simp [eqTerm]
    rw [e2, e2]
    linarith)
  have hfeas : ∀ i, ((rows p cs).get i).fn (pt p Z 0) + L ⟨_, List.get_mem _ i⟩ (controls p zs) = 0 := fun i => by
    rw [← hC i (controls p zs), pt_row h hs.mem (List.get_mem _ i)]
    have h1 := hs.holds _ (List.get_mem _ i)
    unfold Row.Holds at h1
    rw [rows_equality h _ (List.get_mem _ i)] at h1
    exact h1
  have hnext : ((List.ofFn fun i => (⟨.equality, ((rows p cs).get i).fn, lam i, ρ⟩ : Row _ K)).map fun r => { r with lam := r.next y })
      = List.ofFn fun i => (⟨.equality, ((rows p cs).get i).fn, lam i - ρ * (((rows p cs).get i).fn (pt p Z 0)
        + L ⟨_, List.get_mem _ i⟩ (controls p y)), ρ⟩ : Row _ K) := by
    rw [List.map_ofFn]
    congr 1
    funext i
    rw [← hC i (controls p y), pt_row h hy (List.get_mem _ i)]
    rfl
  obtain ⟨Y, Y', hY, hY', hYs⟩ := hspan
  obtain ⟨r1, r2, r4, e, r3⟩ := multiplier_step (B := hess p Z cs) (ℓ := lin p Z cs)
    (C := LinearMap.pi fun i : Fin (rows p cs).length => L ⟨_, List.get_mem _ i⟩)
    (c0 := fun i => ((rows p cs).get i).fn (pt p Z 0)) (l := lam) (ls := μ) hκ hb hρ (u := (controls p y)) (us := (controls p zs))
    hst (fun d => by
      rw [hst' d]
      exact Finset.sum_congr rfl fun i _ => by rw [zero_mul, sub_zero]; rfl) hfeas
    ⟨(controls p Y) - (controls p Y'), fun i => by
      have := hYs (⟨.equality, ((rows p cs).get i).fn, lam i, ρ⟩, μ i) (by
        rw [zip_ofFn]
        exact List.mem_ofFn.mpr ⟨i, rfl⟩)
      simp only at this
      rw [this, ← pt_row h hY (List.get_mem _ i), ← pt_row h hY' (List.get_mem _ i), hC i (controls p Y), hC i (controls p Y')]
      show _ = L _ _
      rw [map_sub]
      ring⟩
  rw [hnext, gap_ofFn, gap_ofFn]
  refine ⟨r1, ?_, ?_, ?_⟩
  · have := mul_le_mul_of_nonneg_left (hb' y zs hy hs.mem) (show 0 ≤ 4 * ρ by linarith)
    have h3 := mul_le_mul_of_nonneg_left r2 hκ'
    linarith
  · refine (hb' y zs hy hs.mem).trans (mul_le_mul_of_nonneg_left (r4.trans (le_of_eq ?_)) hκ')
    rw [List.map_ofFn, List.sum_ofFn]
    congr 1
    refine Finset.sum_congr rfl fun i _ => ?_
    show (((rows p cs).get i).fn (pt p Z 0) + L ⟨_, List.get_mem _ i⟩ (controls p y)) ^ 2 = ((rows p cs).get i).fn y ^ 2
    rw [← hC i (controls p y), pt_row h hy (List.get_mem _ i)]
  · refine ⟨pt p Z e, pt p Z 0, pt_alternative h _, pt_alternative h _, fun q hq => ?_⟩
    rw [zip_ofFn] at hq
    obtain ⟨i, rfl⟩ := List.mem_ofFn.mp hq
    show _ = ((rows p cs).get i).fn (pt p Z e) - ((rows p cs).get i).fn (pt p Z 0)
    rw [hC i e]
    refine (r3 i).trans ?_
    show L _ _ = _
    ring

open LQDual in
/-- A linear-quadratic problem with equality constraints that can be met has multipliers that are differences of constraint values. -/
theorem LQEquality.spanned {p : DynProblem n m K} {cs : ℕ → ALCost n m K} (h : LQEquality p cs)
    (Z : Traj (Fin n → K) (Fin m → K) K) (hf : ∃ Y, Alternative p Z Y ∧ ∀ r ∈ rows p cs, r.Holds Y) :
    ∃ zs star, Saddle (Alternative p Z) (plainCost p cs) (rows p cs) zs star ∧
      ∀ rs : List (Row (Traj (Fin n → K) (Fin m → K) K) K), rs.map Row.sig = (rows p cs).map Row.sig → (∀ r ∈ rs, r.lam = 0) →
        Spanned (Alternative p Z) rs star := by
  choose L hL using fun r : {r // r ∈ rows p cs} => row_pt (Z := Z) h r.1 r.2
  have hC : ∀ (i : Fin (rows p cs).length) d, ((rows p cs).get i).fn (pt p Z d)
      = ((rows p cs).get i).fn (pt p Z 0) + L ⟨_, List.get_mem _ i⟩ d := fun i d => hL ⟨_, List.get_mem _ i⟩ d
  obtain ⟨zs, star, hs⟩ := h.saddle Z hf
  obtain ⟨μ, rfl⟩ := star_ofFn hs.len
  obtain ⟨e, he⟩ := range_multipliers (LinearMap.pi fun i : Fin (rows p cs).length => L ⟨_, List.get_mem _ i⟩) μ
  have ez : ∀ (ν : Fin (rows p cs).length → K) z,
      (((rows p cs).zip (List.ofFn ν)).map fun q => q.2 * q.1.fn z).sum = ∑ i, ν i * ((rows p cs).get i).fn z := fun ν z => by
    have : (rows p cs).zip (List.ofFn ν) = List.ofFn fun i => ((rows p cs).get i, ν i) := by
      rw [← zip_ofFn, List.ofFn_get]
    rw [this, List.map_ofFn, List.sum_ofFn]
    rfl
  refine ⟨zs, List.ofFn fun i : Fin (rows p cs).length => L ⟨_, List.get_mem _ i⟩ e, ⟨by rw [List.length_ofFn], hs.mem, hs.holds,
    fun q hq hk => ?_, fun y hy => ?_⟩, fun rs hsig hz => ?_⟩
  · rw [rows_equality h q.1 (List.of_mem_zip hq).1] at hk
    cases hk
  · have h1 := hs.lag y hy
    rw [ez, ez] at h1 ⊢
    have h2 : ∀ ν : Fin (rows p cs).length → K, ∑ i, ν i * ((rows p cs).get i).fn zs - ∑ i, ν i * ((rows p cs).get i).fn y
        = ∑ i, ν i * L ⟨_, List.get_mem _ i⟩ ((controls p zs) - (controls p y)) := fun ν => by
      rw [← Finset.sum_sub_distrib]
      refine Finset.sum_congr rfl fun i _ => ?_
      rw [← pt_row h hs.mem (List.get_mem _ i), ← pt_row h hy (List.get_mem _ i), hC i (controls p zs), hC i (controls p y), map_sub]
      ring
    have h3 := he ((controls p zs) - (controls p y))
    have h4 := h2 μ
    have h5 := h2 fun i => L ⟨_, List.get_mem _ i⟩ e
    have h6 : ∑ i, L ⟨_, List.get_mem _ i⟩ e * L ⟨_, List.get_mem _ i⟩ ((controls p zs) - (controls p y))
      = ∑ i, μ i * L ⟨_, List.get_mem (rows p cs) i⟩ ((controls p zs) - (controls p y)) := h3
    linarith
  · refine ⟨pt p Z 0, pt p Z e, pt_alternative h _, pt_alternative h _, fun q hq => ?_⟩
    have hl : rs.length = (rows p cs).length := by rw [← List.length_map (f := Row.sig), hsig, List.length_map]
    have hlam : q.1.lam = 0 := hz _ (List.of_mem_zip hq).1
    obtain ⟨i, hi, rfl⟩ := List.getElem_of_mem hq
    have hi1 : i < rs.length := by rw [List.length_zip] at hi; omega
    have hi2 : i < (rows p cs).length := hl ▸ hi1
    rw [hlam]
    simp only [List.getElem_zip, List.getElem_ofFn]
    have e1 : (rs[i]).sig = ((rows p cs)[i]).sig := by
      have := List.getElem_of_eq hsig (i := i) (by rwa [List.length_map])
      rwa [List.getElem_map, List.getElem_map] at this
    have e2 : (rs[i]).fn = ((rows p cs).get ⟨i, hi2⟩).fn := congrArg Prod.snd e1
    rw [e2, hC ⟨i, hi2⟩ e]
    ring

open LQDual in
/-- Whatever the multipliers are now, a solution has multipliers that differ from them by differences of constraint values. -/
theorem LQEquality.spanned_from {p : DynProblem n m K} {cs : ℕ → ALCost n m K} (h : LQEquality p cs)
    (Z : Traj (Fin n → K) (Fin m → K) K) (hf : ∃ Y, Alternative p Z Y ∧ ∀ r ∈ rows p cs, r.Holds Y) :
    ∃ zs star, Saddle (Alternative p Z) (plainCost p cs) (rows p cs) zs star ∧ Spanned (Alternative p Z) (rows p cs) star := by
  choose L hL using fun r : {r // r ∈ rows p cs} => row_pt (Z := Z) h r.1 r.2
  have hC : ∀ (i : Fin (rows p cs).length) d, ((rows p cs).get i).fn (pt p Z d)
      = ((rows p cs).get i).fn (pt p Z 0) + L ⟨_, List.get_mem _ i⟩ d := fun i d => hL ⟨_, List.get_mem _ i⟩ d
  obtain ⟨zs, star, hs⟩ := h.saddle Z hf
  obtain ⟨μ, rfl⟩ := star_ofFn hs.len
  obtain ⟨e, he⟩ := range_multipliers (LinearMap.pi fun i : Fin (rows p cs).length => L ⟨_, List.get_mem _ i⟩)
    fun i => ((rows p cs).get i).lam - μ i
  have ez : ∀ (ν : Fin (rows p cs).length → K) z,
      (((rows p cs).zip (List.ofFn ν)).map fun q => q.2 * q.1.fn z).sum = ∑ i, ν i * ((rows p cs).get i).fn z := fun ν z => by
    have : (rows p cs).zip (List.ofFn ν) = List.ofFn fun i => ((rows p cs).get i, ν i) := by
      rw [← zip_ofFn, List.ofFn_get]
    rw [this, List.map_ofFn, List.sum_ofFn]
    rfl
  refine ⟨zs, List.ofFn fun i : Fin (rows p cs).length => ((rows p cs).get i).lam - L ⟨_, List.get_mem _ i⟩ e,
    ⟨by rw [List.length_ofFn], hs.mem, hs.holds, fun q hq hk => ?_, fun y hy => ?_⟩,
    pt p Z e, pt p Z 0, pt_alternative h _, pt_alternative h _, fun q hq => ?_⟩
  · rw [rows_equality h q.1 (List.of_mem_zip hq).1] at hk
    cases hk
  · have h1 := hs.lag y hy
    rw [ez, ez] at h1 ⊢
    have h2 : ∀ ν : Fin (rows p cs).length → K, ∑ i, ν i * ((rows p cs).get i).fn zs - ∑ i, ν i * ((rows p cs).get i).fn y
        = ∑ i, ν i * L ⟨_, List.get_mem _ i⟩ ((controls p zs) - (controls p y)) := fun ν => by
      rw [← Finset.sum_sub_distrib]
      refine Finset.sum_congr rfl fun i _ => ?_
      rw [← pt_row h hs.mem (List.get_mem _ i), ← pt_row h hy (List.get_mem _ i), hC i (controls p zs), hC i (controls p y), map_sub]
      ring
    have h3 := he ((controls p zs) - (controls p y))
    have h4 := h2 μ
    have h5 := h2 fun i => ((rows p cs).get i).lam - L ⟨_, List.get_mem _ i⟩ e
    have h6 : ∑ i, L ⟨_, List.get_mem _ i⟩ e * L ⟨_, List.get_mem _ i⟩ ((controls p zs) - (controls p y))
      = ∑ i, (((rows p cs).get i).lam - μ i) * L ⟨_, List.get_mem (rows p cs) i⟩ ((controls p zs) - (controls p y)) := h3
    have h7 : ∑ i, (((rows p cs).get i).lam - L ⟨_, List.get_mem _ i⟩ e) * L ⟨_, List.get_mem _ i⟩ ((controls p zs) - (controls p y))
      = ∑ i, μ i * L ⟨_, List.get_mem (rows p cs) i⟩ ((controls p zs) - (controls p y)) := by
      simp only [sub_mul, Finset.sum_sub_distrib] at h6 ⊢
      linarith
    linarith
  · obtain ⟨i, hi, rfl⟩ := List.getElem_of_mem hq
    have hi2 : i < (rows p cs).length := by rw [List.length_zip] at hi; omega
    simp only [List.getElem_zip, List.getElem_ofFn]
    have := hC ⟨i, hi2⟩ e
    show ((rows p cs).get ⟨i, hi2⟩).lam - (((rows p cs).get ⟨i, hi2⟩).lam - _)
      = ((rows p cs).get ⟨i, hi2⟩).fn (pt p Z e) - ((rows p cs).get ⟨i, hi2⟩).fn (pt p Z 0)
    rw [this]
    ring

end Altro.Spec
