import Verif.Proofs.DoubleSum
import Verif.Props.Double

/-!
# C107: the cost of a trajectory in `double` arithmetic

`costs_.sum()` (ilqr.hpp:333, 516) adds in an order chosen by Eigen.  The theorems about the sum hold for every order; the model of
the solver adds one cost after the other.  The exact sums are those of the costs that the cost functions return.
-/

namespace Altro.Props
open Spec ILQR

variable {X U C D : Type}

/-- **C107.**  Whatever the order of the additions, a finite result is the sum of the costs up to `(1 + 2⁻⁵³)^d - 1` times the sum of
their absolute values, where `d` is the number of additions that a cost goes through. -/
theorem C107_sum (t : SumTree) (hf : Finite t.eval) (hok : ∀ x ∈ t.leaves, x.Ok) :
    (∀ x ∈ t.leaves, Finite x) ∧ |t.eval.val - exactSum t.leaves| ≤ gam t.depth * absSum t.leaves :=
  ⟨(tree_error t hf hok).1, (tree_error t hf hok).2.2⟩

/-- **C107.**  The result is finite unless the costs are too large. -/
theorem C107_finite (t : SumTree) (h : ∀ x ∈ t.leaves, Number x) (hs : (1 + gam t.depth) * absSum t.leaves < (2 : ℚ) ^ (1024 : ℕ)) :
    Finite t.eval := tree_finite t h hs

/-- **C107.**  Two orders differ by the errors of both. -/
theorem C107_orders (t t' : SumTree) (hf : Finite t.eval) (hf' : Finite t'.eval) (hok : ∀ x ∈ t.leaves, x.Ok)
    (hp : t.leaves.Perm t'.leaves) : |t.eval.val - t'.eval.val| ≤ (gam t.depth + gam t'.depth) * absSum t.leaves := by
  have h1 := (C107_sum t hf hok).2
  have h2 := (C107_sum t' hf' fun x hx => hok x (hp.symm.subset hx)).2
  have e1 : exactSum t'.leaves = exactSum t.leaves := ((hp.map _).sum_eq).symm
  have e2 : absSum t'.leaves = absSum t.leaves := ((hp.map _).sum_eq).symm
  rw [e1, e2] at h2
  have e : t.eval.val - t'.eval.val = (t.eval.val - exactSum t.leaves) + -(t'.eval.val - exactSum t.leaves) := by ring
  rw [e, add_mul]
  refine (abs_add_le _ _).trans (add_le_add h1 ?_)
  rw [abs_neg]
  exact h2

/-- The costs of the knot points of a trajectory. -/
def knotCosts {P : Kernel X U Dbl C D} (L : CostLaw P) (cs : ℕ → C) (Z : Traj X U Dbl) : List Dbl :=
  (List.range (P.N + 1)).map fun k => L.val k (L.inv (cs k)) (Z.x k) (Z.u k)

/-- **C107**, the cost of the model: all knot costs are finite if the total is, and it is their sum up to rounding. -/
theorem C107_total {P : Kernel X U Dbl C D} (L : CostLaw P) (cs : ℕ → C) (Z : Traj X U Dbl) (hok : ∀ x ∈ knotCosts L cs Z, x.Ok)
    (hf : Finite (L.total cs Z)) : (∀ x ∈ knotCosts L cs Z, Finite x) ∧
      |(L.total cs Z).val - exactSum (knotCosts L cs Z)| ≤ gam P.N * absSum (knotCosts L cs Z) := by
  have hfin := sumTo_finite _ _ hf
  have hk : ∀ k ≤ P.N, Number (L.val k (L.inv (cs k)) (Z.x k) (Z.u k)) := fun k hk =>
    ⟨hfin k (by omega), hok _ (List.mem_map.mpr ⟨k, List.mem_range.mpr (by omega), rfl⟩)⟩
  refine ⟨fun x hx => ?_, ?_⟩
  · obtain ⟨k, hk', rfl⟩ := List.mem_map.mp hx
    exact hfin k (List.mem_range.mp hk')
  obtain ⟨e1, e2, e3⟩ := seqTree_leaves (fun k => L.val k (L.inv (cs k)) (Z.x k) (Z.u k)) P.N (hk 0 (Nat.zero_le _))
  have := (tree_error (seqTree (fun k => L.val k (L.inv (cs k)) (Z.x k) (Z.u k)) P.N) (by rw [seqTree_eval]; exact hf)
    fun x hx => (e3 hk x hx).2).2.2
  rw [seqTree_eval, e1, e2, seqTree_depth] at this
  exact this

/-- **C107.**  After a whole solve, however many steps were accepted, the exact cost of the returned trajectory is at most the exact
cost of the first rollout plus the rounding errors of the two sums: the errors of the iterations in between do not add up. -/
theorem C107_solve {P : Kernel X U Dbl C D} (o : Opts Dbl) (L : CostLaw P) (fuel : ℕ) (s s' : St X U Dbl C D)
    (h : solve P o fuel s = some s') (Z0 : Traj X U Dbl) (hZ0 : DynFeasible P Z0) (hu : ∀ k ≤ P.N, Z0.u k = s.Z.u k)
    (ht : SameTimes P Z0 s.Z) (ok0 : ∀ x ∈ knotCosts L s.cs Z0, x.Ok) (ok1 : ∀ x ∈ knotCosts L s.cs s'.Z, x.Ok)
    (f0 : Finite (L.total s.cs Z0)) (f1 : Finite (L.total s.cs s'.Z)) :
    exactSum (knotCosts L s.cs s'.Z) ≤
      exactSum (knotCosts L s.cs Z0) + gam P.N * (absSum (knotCosts L s.cs Z0) + absSum (knotCosts L s.cs s'.Z)) := by
  have h0 := abs_le.mp (C107_total L s.cs Z0 ok0 f0).2
  have h1 := abs_le.mp (C107_total L s.cs s'.Z ok1 f1).2
  have hle : (L.total s.cs s'.Z).val ≤ (L.total s.cs Z0).val := by
    rcases (C18_cost_never_increases o L Dbl.orderLaws fuel s s' h Z0 hZ0 hu ht).2 with e | e
    · rw [e]
    · exact ((Dbl.lt_finite f1 f0).mp e).le
  rw [mul_add]
  linarith [h0.2, h1.1]

/-- **C107**, costs that are not negative: a factor. -/
theorem C107_solve_nonneg {P : Kernel X U Dbl C D} (o : Opts Dbl) (L : CostLaw P) (fuel : ℕ) (s s' : St X U Dbl C D)
    (h : solve P o fuel s = some s') (Z0 : Traj X U Dbl) (hZ0 : DynFeasible P Z0) (hu : ∀ k ≤ P.N, Z0.u k = s.Z.u k)
    (ht : SameTimes P Z0 s.Z) (ok0 : ∀ x ∈ knotCosts L s.cs Z0, x.Ok) (ok1 : ∀ x ∈ knotCosts L s.cs s'.Z, x.Ok)
    (f0 : Finite (L.total s.cs Z0)) (f1 : Finite (L.total s.cs s'.Z))
    (n0 : ∀ x ∈ knotCosts L s.cs Z0, 0 ≤ x.val) (n1 : ∀ x ∈ knotCosts L s.cs s'.Z, 0 ≤ x.val) :
    (1 - gam P.N) * exactSum (knotCosts L s.cs s'.Z) ≤ (1 + gam P.N) * exactSum (knotCosts L s.cs Z0) := by
  have e : ∀ l : List Dbl, (∀ x ∈ l, 0 ≤ x.val) → absSum l = exactSum l := fun l hl => by
    unfold absSum exactSum
    rw [List.map_congr_left fun x hx => abs_of_nonneg (hl x hx)]
  have := C107_solve o L fuel s s' h Z0 hZ0 hu ht ok0 ok1 f0 f1
  rw [e _ n0, e _ n1] at this
  linarith

theorem sub_val {x y : Dbl} (hx : Number x) (hy : Number y) (h : |x.val - y.val| * (1 + u64) < (2 : ℚ) ^ (1024 : ℕ)) :
    Finite (x - y) ∧ |(x - y).val - (x.val - y.val)| ≤ u64 * |x.val - y.val| := by
  obtain ⟨n1, n2⟩ := Dbl.neg_finite hy.1
  have hok : (Dbl.neg y).Ok := by
    cases y with
    | num q =>
      show (if q = 0 then Dbl.nzero else Dbl.num (-q)).Ok
      split
      · trivial
      · exact ⟨by rw [f64_neg, hy.2.1], by rw [abs_neg]; exact hy.2.2⟩
    | nzero => exact ⟨f64_zero, by rw [abs_zero]; positivity⟩
    | nan => trivial
    | inf s => trivial
  have e : x.val - y.val = x.val + (Dbl.neg y).val := by rw [n2]; ring
  rw [e] at h ⊢
  have hf : Finite (x - y) := add_in_range hx ⟨n1, hok⟩ h
  refine ⟨hf, ?_⟩
  have : (x - y).val = f64 (x.val + (Dbl.neg y).val) := add_val hf
  rw [this]
  exact f64_add_rel hx.2.val hok.val

theorem div_pos_num {d e : ℚ} (hd : 0 ≤ d) (he : 0 < e) : Dbl.num d / Dbl.num e = Dbl.round false (d / e) := by
  show (if e = 0 then _ else Dbl.round (decide (d < 0) != decide (e < 0)) (d / e)) = _
  rw [if_neg he.ne', decide_eq_false (not_lt.mpr hd), decide_eq_false (not_lt.mpr he.le)]
  rfl

/-- **C107**, the test of the line search (ilqr.hpp:525-535).  `S0` and `S` are the exact costs before and after the step, and the
sums are off by at most `a` and `b`.  A step whose exact decrease lies between the limits, by the margin of these errors, is
accepted. -/
theorem C107_accepts (o : Opts Dbl) {lo hi E : ℚ} (hlo : o.lsLower = .num lo) (hhi : o.lsUpper = .num hi) (olo : f64 lo = lo)
    (ohi : (Dbl.num hi).Ok) (l0 : 0 ≤ lo) (E0 : 0 < E) {J0 J : Dbl} (h0 : Number J0) (h1 : Number J) {S0 S a b : ℚ}
    (ha : |J0.val - S0| ≤ a) (hb : |J.val - S| ≤ b) {alpha : Dbl} (s : St X U Dbl C D) (he : expected alpha s = .num E)
    (hpos : a + b < S0 - S) (hl : lo * E ≤ (1 - u64) * (S0 - S - (a + b))) (hu : (1 + u64) * (S0 - S + (a + b)) ≤ hi * E)
    (hmax : (1 + u64) * (S0 - S + (a + b)) < (2 : ℚ) ^ (1024 : ℕ)) : accept o J0 J (ratio J0 J alpha s) = true := by
  rw [abs_le] at ha hb
  have hd : 0 < J0.val - J.val := by linarith
  have up := u64_pos
  have u1 : u64 < 1 := by norm_num [u64]
  have hle : (1 + u64) * (J0.val - J.val) ≤ (1 + u64) * (S0 - S + (a + b)) := by gcongr; linarith
  have hge : (1 - u64) * (S0 - S - (a + b)) ≤ (1 - u64) * (J0.val - J.val) :=
    mul_le_mul_of_nonneg_left (by linarith) (by linarith)
  obtain ⟨f, err⟩ := sub_val h0 h1 (by rw [abs_of_pos hd]; linarith)
  rw [abs_of_pos hd, abs_le] at err
  have d1 : lo * E ≤ (J0 - J).val := by linarith [err.1]
  have d2 : (J0 - J).val ≤ hi * E := by linarith [err.2]
  have d0 : 0 < (J0 - J).val := by
    have : 0 < (1 - u64) * (J0.val - J.val) := mul_pos (by linarith) hd
    linarith [err.1]
  obtain ⟨d, hdn⟩ : ∃ d, J0 - J = .num d := by
    rcases f with e | e
    · rw [e] at d0; exact absurd d0 (lt_irrefl _)
    · exact e
  rw [hdn] at d0 d1 d2
  change 0 < d at d0
  change lo * E ≤ d at d1
  change d ≤ hi * E at d2
  have hr : ratio J0 J alpha s = Dbl.round false (d / E) := by
    unfold ratio
    rw [he, if_pos (show Arith.gt (Dbl.num E) (0 : Dbl) = true from (Dbl.lt_finite (Dbl.finite_num 0) (Dbl.finite_num E)).mpr E0), hdn,
      div_pos_num d0.le E0]
  have q1 : lo ≤ d / E := (le_div_iff₀ E0).mpr d1
  have q2 : d / E ≤ hi := (div_le_iff₀ E0).mpr d2
  have m1 : lo ≤ f64 (d / E) := by rw [← olo]; exact f64_le q1
  have m2 : f64 (d / E) ≤ hi := by rw [← ohi.1]; exact f64_le q2
  have so : Dbl.SignOk false (d / E) := (div_pos d0 E0).le
  have hb' := abs_lt.mp ohi.2
  rcases Dbl.round_cases so with ⟨-, x⟩ | ⟨-, x⟩ | ⟨fx, vx, -⟩
  · unfold Dbl.lim at x; linarith
  · have := Dbl.lim_pos; linarith
  · unfold accept
    rw [hr, hlo, hhi, Bool.and_eq_true, Bool.and_eq_true]
    refine ⟨⟨(Dbl.le_finite (Dbl.finite_num lo) fx).mpr ?_, (Dbl.le_finite fx (Dbl.finite_num hi)).mpr ?_⟩,
      (Dbl.lt_finite h1.1 h0.1).mpr (by linarith)⟩
    · rw [vx]; exact m1
    · rw [vx]; exact m2

/-- **C107.**  An accepted step decreases the exact cost, up to the errors of the two sums. -/
theorem C107_accepted (o : Opts Dbl) {J0 J z : Dbl} (h0 : Finite J0) (h1 : Finite J) {S0 S a b : ℚ} (ha : |J0.val - S0| ≤ a)
    (hb : |J.val - S| ≤ b) (h : accept o J0 J z = true) : S < S0 + (a + b) := by
  unfold accept at h
  rw [Bool.and_eq_true] at h
  have := (Dbl.lt_finite h1 h0).mp h.2
  rw [abs_le] at ha hb
  linarith [ha.2, hb.1]

/-! ## Concrete cases -/

/-- The order matters: `1e16 + 1 + 1` is `1e16` or `1e16 + 2`. -/
theorem C107_orders_differ :
    (SumTree.add (.add (.leaf (Dbl.lit (10 ^ 16))) (.leaf 1)) (.leaf 1)).eval = .num (10 ^ 16) ∧
    (SumTree.add (.leaf (Dbl.lit (10 ^ 16))) (.add (.leaf 1) (.leaf 1))).eval = .num (10 ^ 16 + 2) := by decide +kernel

/-- The first of these sums meets the hypotheses of `C107_sum`. -/
example : |(10 ^ 16 : ℚ) - (10 ^ 16 + 2)| ≤ gam 2 * (10 ^ 16 + 2) := by
  have h := (C107_sum (.add (.add (.leaf (Dbl.lit (10 ^ 16))) (.leaf 1)) (.leaf 1)) (.inr ⟨_, C107_orders_differ.1⟩) (by
    intro x hx
    simp only [SumTree.leaves, List.cons_append, List.nil_append, List.mem_cons, List.not_mem_nil, or_false] at hx
    rcases hx with rfl | rfl | rfl
    · exact Dbl.round_ok _ _
    · exact ⟨f64_one, by rw [abs_one]; exact one_lt_pow₀ one_lt_two (by decide)⟩
    · exact ⟨f64_one, by rw [abs_one]; exact one_lt_pow₀ one_lt_two (by decide)⟩)).2
  rw [C107_orders_differ.1] at h
  have e1 : exactSum [Dbl.lit (10 ^ 16), 1, 1] = 10 ^ 16 + 2 := by decide +kernel
  have e2 : absSum [Dbl.lit (10 ^ 16), 1, 1] = 10 ^ 16 + 2 := by decide +kernel
  change |(10 ^ 16 : ℚ) - exactSum [Dbl.lit (10 ^ 16), 1, 1]| ≤ gam 2 * absSum [Dbl.lit (10 ^ 16), 1, 1] at h
  rwa [e1, e2] at h

/-- The step of the first iteration of `tenthK` from `u = 0`: the cost drops from `0.045` to zero, the expected decrease is that number. -/
example (s : St Dbl Dbl Dbl Unit DD) {q : ℚ} (hq : Dbl.lit (45 / 1000) = .num q) (he : expected 1 s = .num q) :
    accept dblDefaults (Dbl.lit (45 / 1000)) 0 (ratio (Dbl.lit (45 / 1000)) 0 1 s) = true := by
  have h45 : Dbl.lit (45 / 1000) = .num (3242591731706757 / 2 ^ 56) := by decide +kernel
  have e : q = 3242591731706757 / 2 ^ 56 := by rw [h45] at hq; exact (Dbl.num.inj hq).symm
  subst e
  have ok : (Dbl.num (3242591731706757 / 2 ^ 56)).Ok := by rw [← h45]; exact Dbl.round_ok _ _
  rw [h45]
  refine C107_accepts dblDefaults (lo := dblDefaults.lsLower.val) (hi := 10) (E := 3242591731706757 / 2 ^ 56) (by decide +kernel) (by decide +kernel) (by decide +kernel)
    ⟨by decide +kernel, by decide +kernel⟩ (by decide +kernel) (by norm_num) ⟨.inr ⟨_, rfl⟩, ok⟩ ⟨.inr ⟨0, rfl⟩, f64_zero, by decide +kernel⟩
    (S0 := 3242591731706757 / 2 ^ 56) (S := 0) (a := 0) (b := 0) (by simp [Dbl.val]) (by decide +kernel) s he (by norm_num)
    (by decide +kernel) (by decide +kernel) (by decide +kernel)

/-- The hypotheses of `C107_solve` hold for `tenthK`, from `u = 0`. -/
example : ∃ s', solve tenthK dblDefaults 112 (ieeeState ⟨0, 0, 0⟩ 0) = some s' ∧
    exactSum (knotCosts tenthLaw (ieeeState (⟨0, 0, 0⟩ : DD) 0).cs s'.Z) ≤
      exactSum (knotCosts tenthLaw (ieeeState (⟨0, 0, 0⟩ : DD) 0).cs (dblTraj 0)) +
        gam 1 * (absSum (knotCosts tenthLaw (ieeeState (⟨0, 0, 0⟩ : DD) 0).cs (dblTraj 0)) +
          absSum (knotCosts tenthLaw (ieeeState (⟨0, 0, 0⟩ : DD) 0).cs s'.Z)) := by
  obtain ⟨s', h, -⟩ := C82_default_inner (P := tenthK) (by decide) tenthLaw (ieeeState ⟨0, 0, 0⟩ 0) (dblTraj 0)
    ⟨rfl, fun k hk => by
      have : k = 0 := by change k < 1 at hk; omega
      subst this; decide +kernel⟩ (fun _ _ => rfl) ⟨fun _ _ => rfl, fun _ _ => rfl⟩
  have hc : (solve tenthK dblDefaults 112 (ieeeState ⟨0, 0, 0⟩ 0)).map (fun s => (knotCosts tenthLaw (ieeeState (⟨0, 0, 0⟩ : DD) 0).cs s.Z)) =
      some [0, 0] := by decide +kernel
  rw [h] at hc
  have hc1 : knotCosts tenthLaw (ieeeState (⟨0, 0, 0⟩ : DD) 0).cs s'.Z = [0, 0] := Option.some.inj hc
  have hc0 : knotCosts tenthLaw (ieeeState (⟨0, 0, 0⟩ : DD) 0).cs (dblTraj 0) = [.num (3242591731706757 / 2 ^ 56), 0] := by decide +kernel
  have n0 : Number (0 : Dbl) := ⟨.inr ⟨0, rfl⟩, f64_zero, by rw [abs_zero]; positivity⟩
  refine ⟨s', h, C107_solve dblDefaults tenthLaw 112 _ s' h (dblTraj 0)
    ⟨rfl, fun k hk => by
      have : k = 0 := by change k < 1 at hk; omega
      subst this; decide +kernel⟩ (fun _ _ => rfl) ⟨fun _ _ => rfl, fun _ _ => rfl⟩ ?_ ?_ ?_ ?_⟩
  · rw [hc0]
    intro x hx
    rcases List.mem_cons.mp hx with rfl | hx
    · exact ⟨by decide +kernel, by decide +kernel⟩
    · rw [List.mem_singleton.mp hx]; exact n0.2
  · rw [hc1]
    intro x hx
    have : x = 0 := by simpa using hx
    rw [this]; exact n0.2
  · exact .inr ⟨3242591731706757 / 2 ^ 56, by decide +kernel⟩
  · have : (solve tenthK dblDefaults 112 (ieeeState ⟨0, 0, 0⟩ 0)).map (fun s => tenthLaw.total (ieeeState (⟨0, 0, 0⟩ : DD) 0).cs s.Z) = some (.num 0) := by
      decide +kernel
    rw [h] at this
    exact .inr ⟨0, Option.some.inj this⟩

end Altro.Props
