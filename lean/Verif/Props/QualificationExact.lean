import Verif.Props.Qualification
import Verif.Spec.Slater
import Verif.Spec.Convex

/-!
# C98: unbounded sets of multipliers, unique multipliers, convex problems
-/

namespace Altro.Props
open Altro.Spec Matrix ILQR AL Filter
open scoped Topology
variable {n m : ℕ} {p : DynProblem n m ℝ} {cs : ℕ → ALCost n m ℝ} {Y Z : Traj (Fin n → ℝ) (Fin m → ℝ) ℝ} {μ : ℝ} {κ : ConKind}

/-! ## Sums of multipliers -/

theorem getMul_setMul_add (t : ℝ) : ∀ {l l1 l2 : List (ConVal κ n m ℝ)}, l1.map (·.con) = l.map (·.con) → l2.map (·.con) = l.map (·.con) →
    ∀ j i, getMul (setMul 1 (fun j i => getMul l1 j i + t * getMul l2 j i) l) j i = getMul l1 j i + t * getMul l2 j i
  | [], [], [], _, _, _, _ => by show (0 : ℝ) = 0 + t * 0; simp
  | [], _ :: _, _, e, _, _, _ => nomatch e
  | [], _, _ :: _, _, e, _, _ => nomatch e
  | _ :: _, [], _, e, _, _, _ => nomatch e
  | _ :: _, _, [], _, e, _, _ => nomatch e
  | v :: l, w1 :: l1, w2 :: l2, e1, e2, 0, i => by
    have a1 : w1.con = v.con := (List.cons.inj e1).1
    have a2 : w2.con = v.con := (List.cons.inj e2).1
    show (if h : i < v.con.p then (if h : i < w1.con.p then w1.lam ⟨i, h⟩ else 0) + t * (if h : i < w2.con.p then w2.lam ⟨i, h⟩ else 0) else 0)
      = (if h : i < w1.con.p then w1.lam ⟨i, h⟩ else 0) + t * (if h : i < w2.con.p then w2.lam ⟨i, h⟩ else 0)
    by_cases h : i < v.con.p
    · rw [dif_pos h]
    · rw [dif_neg h, dif_neg (by rw [a1]; exact h), dif_neg (by rw [a2]; exact h)]
      simp
  | v :: l, w1 :: l1, w2 :: l2, e1, e2, j + 1, i => getMul_setMul_add t (List.cons.inj e1).2 (List.cons.inj e2).2 j i

theorem setMul_add_sum (t : ℝ) (x : Fin n → ℝ) (u : Fin m → ℝ) : ∀ {l l1 l2 : List (ConVal κ n m ℝ)}, l1.map (·.con) = l.map (·.con) → l2.map (·.con) = l.map (·.con) →
    ((setMul 1 (fun j i => getMul l1 j i + t * getMul l2 j i) l).map fun v => v.lam ⬝ᵥ v.con.eval x u).sum
      = (l1.map fun v => v.lam ⬝ᵥ v.con.eval x u).sum + t * (l2.map fun v => v.lam ⬝ᵥ v.con.eval x u).sum
  | [], [], [], _, _ => by simp [setMul]
  | [], _ :: _, _, e, _ => nomatch e
  | [], _, _ :: _, _, e => nomatch e
  | _ :: _, [], _, e, _ => nomatch e
  | _ :: _, _, [], _, e => nomatch e
  | v :: l, w1 :: l1, w2 :: l2, e1, e2 => by
    have a1 : w1.con = v.con := (List.cons.inj e1).1
    have a2 : w2.con = v.con := (List.cons.inj e2).1
    show (((fun i : Fin v.con.p => getMul (w1 :: l1) 0 i + t * getMul (w2 :: l2) 0 i) ⬝ᵥ v.con.eval x u)
      :: List.map _ (setMul 1 (fun j i => getMul l1 j i + t * getMul l2 j i) l)).sum = _
    rw [List.sum_cons, setMul_add_sum t x u (List.cons.inj e1).2 (List.cons.inj e2).2, List.map_cons, List.map_cons, List.sum_cons, List.sum_cons]
    have b : ∀ {w : ConVal κ n m ℝ} {l' : List (ConVal κ n m ℝ)}, w.con = v.con →
        (fun i : Fin v.con.p => getMul (w :: l') 0 i) ⬝ᵥ v.con.eval x u = w.lam ⬝ᵥ w.con.eval x u := fun {w l'} e => by
      have e := e.symm
      rw [e]
      refine congrArg (· ⬝ᵥ w.con.eval x u) (funext fun i => ?_)
      show (if h : (i : ℕ) < w.con.p then w.lam ⟨i, h⟩ else 0) = _
      rw [dif_pos i.2]
    have c : (fun i : Fin v.con.p => getMul (w1 :: l1) 0 i + t * getMul (w2 :: l2) 0 i)
        = (fun i : Fin v.con.p => getMul (w1 :: l1) 0 i) + t • fun i : Fin v.con.p => getMul (w2 :: l2) 0 i := rfl
    rw [c, add_dotProduct, smul_dotProduct, b a1, b a2, smul_eq_mul]
    ring

/-- The cost objects of the problem `cs` with the multipliers of `c1` plus `t` times those of `c2`. -/
noncomputable def combine (cs : ℕ → ALCost n m ℝ) (t : ℝ) (c1 c2 : ℕ → ALCost n m ℝ) : ℕ → ALCost n m ℝ :=
  fun k => withMul 1 (fun b j i => mulOf (c1 k) b j i + t * mulOf (c2 k) b j i) (cs k)

theorem combine_same (t : ℝ) (c1 c2 : ℕ → ALCost n m ℝ) : SameProblem p cs (combine cs t c1 c2) :=
  ⟨fun _ _ => rfl, fun k _ => setMul_con 1 _ (cs k).eq, fun k _ => setMul_con 1 _ (cs k).ineq⟩

variable {c1 c2 : ℕ → ALCost n m ℝ}

theorem combine_mul (t : ℝ) (h1 : SameProblem p cs c1) (h2 : SameProblem p cs c2) {k : ℕ} (hk : k ≤ p.N) (j i : ℕ) :
    getMul (combine cs t c1 c2 k).eq j i = getMul (c1 k).eq j i + t * getMul (c2 k).eq j i ∧
      getMul (combine cs t c1 c2 k).ineq j i = getMul (c1 k).ineq j i + t * getMul (c2 k).ineq j i :=
  ⟨getMul_setMul_add t (h1.eqCons k hk) (h2.eqCons k hk) j i, getMul_setMul_add t (h1.ineqCons k hk) (h2.ineqCons k hk) j i⟩

theorem combine_weighted (t : ℝ) (h1 : SameProblem p cs c1) (h2 : SameProblem p cs c2) {k : ℕ} (hk : k ≤ p.N) (x : Fin n → ℝ) (u : Fin m → ℝ) :
    weighted (combine cs t c1 c2 k) x u = weighted (c1 k) x u + t * weighted (c2 k) x u := by
  unfold weighted
  rw [show ((combine cs t c1 c2 k).eq.map fun v => v.lam ⬝ᵥ v.con.eval x u).sum = _ from setMul_add_sum t x u (h1.eqCons k hk) (h2.eqCons k hk),
    show ((combine cs t c1 c2 k).ineq.map fun v => v.lam ⬝ᵥ v.con.eval x u).sum = _ from setMul_add_sum t x u (h1.ineqCons k hk) (h2.ineqCons k hk)]
  ring

theorem lagrangian_eq (c : ALCost n m ℝ) (x : Fin n → ℝ) (u : Fin m → ℝ) : lagrangian c x u = c.cost.eval x u - weighted c x u := by
  unfold lagrangian weighted
  ring

theorem lam_eq {l : List (ConVal κ n m ℝ)} {v : ConVal κ n m ℝ} {j : ℕ} (hj : l[j]? = some v) (i : Fin v.con.p) : v.lam i = getMul l j i := by
  rw [← mulAt_eq, place hj i i.2]

theorem getMul_nonpos : ∀ {l : List (ConVal κ n m ℝ)}, (∀ v ∈ l, ∀ i, v.lam i ≤ 0) → ∀ j i, getMul l j i ≤ 0
  | [], _, _, _ => le_rfl
  | v :: _, h, 0, i => by
    show (if h : i < v.con.p then v.lam ⟨i, h⟩ else 0) ≤ 0
    split
    · exact h v (by simp) _
    · exact le_rfl
  | _ :: l, h, j + 1, i => getMul_nonpos (l := l) (fun v hv => h v (by simp [hv])) j i

/-- A statement about the constraints of knot points carries over to other cost objects of the same problem. -/
theorem same_con {l l' : List (ConVal κ n m ℝ)} (e : l'.map (·.con) = l.map (·.con)) {P : Con n m ℝ → Prop} (h : ∀ v ∈ l, P v.con) : ∀ v ∈ l', P v.con := by
  intro v hv
  obtain ⟨j, hj⟩ := List.mem_iff_getElem?.mp hv
  obtain ⟨w, hw, ew⟩ := place_con e.symm hj
  rw [← ew]
  exact h w (List.mem_iff_getElem?.mpr ⟨j, hw⟩)

/-- Multipliers at active constraints only, in terms of places in the list. -/
theorem onActive_place {l : List (ConVal κ n m ℝ)} {x : Fin n → ℝ} {u : Fin m → ℝ} (h : ∀ v ∈ l, ∀ i, v.lam i = 0 ∨ v.con.eval x u i = 0)
    {l' : List (ConVal κ n m ℝ)} (e : l.map (·.con) = l'.map (·.con)) {v : ConVal κ n m ℝ} {j : ℕ} (hj : l'[j]? = some v) (i : Fin v.con.p) :
    getMul l j i = 0 ∨ v.con.eval x u i = 0 := by
  obtain ⟨w, hw, ew⟩ := place_con e hj
  have h1 : ∀ i : Fin w.con.p, getMul l j i = 0 ∨ w.con.eval x u i = 0 := fun i => by
    rw [← lam_eq hw]
    exact h w (List.mem_iff_getElem?.mpr ⟨j, hw⟩) i
  rw [ew] at h1
  exact h1 i

theorem KKT.onActive (h : KKT p c1 Z) : OnActive p c1 Z := fun k hk v hv i => mul_eq_zero.mp (h.slack k hk v hv i)

theorem combine_onActive (t : ℝ) (h1 : SameProblem p cs c1) (h2 : SameProblem p cs c2) (a1 : OnActive p c1 Z) (a2 : OnActive p c2 Z) :
    OnActive p (combine cs t c1 c2) Z := by
  intro k hk v hv i
  obtain ⟨j, hj⟩ := List.mem_iff_getElem?.mp hv
  have hsame := (combine_same (p := p) (cs := cs) t c1 c2).ineqCons k hk
  rcases onActive_place (a1 k hk) ((h1.ineqCons k hk).trans hsame.symm) hj i with b1 | b1
  · rcases onActive_place (a2 k hk) ((h2.ineqCons k hk).trans hsame.symm) hj i with b2 | b2
    · left
      rw [lam_eq hj, (combine_mul t h1 h2 hk j i).2, b1, b2]
      simp
    · exact .inr b2
  · exact .inr b1

/-- Adding multipliers of degenerate constraints to a Karush-Kuhn-Tucker point gives another one. -/
theorem KKT.add {t : ℝ} (ht : 0 ≤ t) (h1 : SameProblem p cs c1) (h2 : SameProblem p cs c2) (hK : KKT p c1 Z) (ha : OnActive p c2 Z)
    (hd : Signed p c2) (hg : Degenerate p c2 Z) : KKT p (combine cs t c1 c2) Z := by
  have hsame := combine_same (p := p) (cs := cs) t c1 c2
  refine ⟨hK.init, hK.step, ⟨fun k hk => ?_, fun k hk => ?_⟩, fun v hv => ?_, fun k hk v hv i => ?_, fun k hk v hv i => ?_⟩
  · exact same_con ((hsame.eqCons k hk).trans (h1.eqCons k hk).symm) (P := fun con => ∀ i, con.eval (Z.x k) (Z.u k) i = 0) (hK.primal.eq k hk)
  · exact same_con ((hsame.ineqCons k hk).trans (h1.ineqCons k hk).symm) (P := fun con => ∀ i, con.eval (Z.x k) (Z.u k) i ≤ 0) (hK.primal.ineq k hk)
  · have h3 := (hK.stationary v hv).sub ((hg v hv).const_mul t)
    refine (h3.congr_of_eventuallyEq (.of_forall fun a => ?_)).congr_deriv (by simp)
    show ∑ k ∈ Finset.range (p.N + 1), _ = (∑ k ∈ Finset.range (p.N + 1), _) - t * ∑ k ∈ Finset.range (p.N + 1), _
    rw [Finset.mul_sum, ← Finset.sum_sub_distrib]
    refine Finset.sum_congr rfl fun k hk => ?_
    have hk : k ≤ p.N := by have := Finset.mem_range.mp hk; omega
    beta_reduce
    rw [lagrangian_eq, lagrangian_eq, combine_weighted t h1 h2 hk, h1.cost k hk]
    show (cs k).cost.eval _ _ - _ = _
    ring
  · obtain ⟨j, hj⟩ := List.mem_iff_getElem?.mp hv
    rw [lam_eq hj, (combine_mul t h1 h2 hk j i).2]
    have b1 := getMul_nonpos (hK.dual k hk) j i
    have b2 := mul_nonpos_of_nonneg_of_nonpos ht (getMul_nonpos (hd k hk) j i)
    linarith
  · exact mul_eq_zero.mpr (combine_onActive t h1 h2 (KKT.onActive hK) ha k hk v hv i)

/-- The qualification depends on the states and on the controls of the segments only. -/
theorem qualified_congr (h : SmoothProblem p cs Y μ) {Z' : Traj (Fin n → ℝ) (Fin m → ℝ) ℝ} (hZ : DynFeasible (alKernel p) Z) (ht : SameTimes (alKernel p) Z Y)
    (ht' : SameTimes (alKernel p) Z' Y) (hx : ∀ k ≤ p.N, Z.x k = Z'.x k) (hu : ∀ k < p.N, Z.u k = Z'.u k) (hQ : Qualified p cs Z) : Qualified p cs Z' := by
  have hZ' : DynFeasible (alKernel p) Z' := by
    refine ⟨(hx 0 (Nat.zero_le _)).symm.trans hZ.init, fun k hk => ?_⟩
    have e : Z.x (k + 1) = p.f k (Z.x k) (Z.u k) (Z.t k) (Z.h k) := hZ.step k hk
    show Z'.x (k + 1) = p.f k (Z'.x k) (Z'.u k) (Z'.t k) (Z'.h k)
    have hk' : k < p.N := hk
    rw [← hx (k + 1) hk, ← hx k hk'.le, ← hu k hk, ht'.t k hk'.le, ht'.h k hk, e, ht.t k hk'.le, ht.h k hk]
  have hctl : ctl p.N Z' = ctl p.N Z := by
    funext k
    unfold ctl
    split
    · rename_i hk; exact (hu k hk).symm
    · rfl
  intro cs' hs ha hd hg
  refine hQ cs' hs (fun k hk v hv i => ?_) hd ?_
  · refine (ha k hk v hv i).imp_right fun e => ?_
    rcases Nat.lt_or_eq_of_le hk with h1 | h1
    · rw [hx k hk, hu k h1]; exact e
    · subst h1
      have := same_con (hs.ineqCons p.N le_rfl) (P := fun con => ∀ x u u', con.eval x u = con.eval x u') h.termIneq v hv
      rw [hx p.N le_rfl, this _ _ (Z'.u p.N)]; exact e
  · rw [degenerate_iff h hs hZ ht, ← hctl, ← degenerate_iff h hs hZ' ht']
    exact hg

/-- **C98**, exactness: at a Karush-Kuhn-Tucker point, the set of all its multipliers is bounded exactly if the constraint qualification holds. -/
theorem C98_exact (h : SmoothProblem p cs Y μ) (ht : SameTimes (alKernel p) Z Y) (h1 : SameProblem p cs c1) (hK : KKT p c1 Z) :
    (∃ M, ∀ c, SameProblem p cs c → KKT p c Z → MultipliersLE p c M) ↔ Qualified p cs Z := by
  constructor
  · rintro ⟨M, hM⟩ c2 h2 ha hd hg
    have key : ∀ a b : ℝ, (∀ t, 0 ≤ t → |a + t * b| ≤ |M|) → b = 0 := by
      intro a b hb
      by_contra h0
      have hb0 : 0 < |b| := abs_pos.mpr h0
      have h3 := hb ((|M| + |a| + 1) / |b|) (by positivity)
      have h4 : |(|M| + |a| + 1) / |b| * b| = |M| + |a| + 1 := by
        rw [abs_mul, abs_div, abs_abs, div_mul_cancel₀ _ hb0.ne', abs_of_pos (by positivity)]
      have h5 := abs_sub_abs_le_abs_sub ((|M| + |a| + 1) / |b| * b) (-a)
      rw [h4, abs_neg, sub_neg_eq_add, add_comm _ a] at h5
      linarith
    have hb : ∀ t, 0 ≤ t → MultipliersLE p (combine cs t c1 c2) |M| := fun t ht k hk =>
      ⟨fun v hv i => ((hM _ (combine_same t c1 c2) (KKT.add ht h1 h2 hK ha hd hg) k hk).1 v hv i).trans (le_abs_self M),
        fun v hv i => ((hM _ (combine_same t c1 c2) (KKT.add ht h1 h2 hK ha hd hg) k hk).2 v hv i).trans (le_abs_self M)⟩
    refine ⟨fun k hk v hv i => ?_, fun k hk v hv i => ?_⟩ <;> obtain ⟨j, hj⟩ := List.mem_iff_getElem?.mp hv <;> rw [lam_eq hj]
    · refine key (getMul (c1 k).eq j i) _ fun t ht => ?_
      rw [← (combine_mul t h1 h2 hk j i).1]
      exact getMul_le (abs_nonneg M) (hb t ht k hk).1 j i
    · refine key (getMul (c1 k).ineq j i) _ fun t ht => ?_
      rw [← (combine_mul t h1 h2 hk j i).2]
      exact getMul_le (abs_nonneg M) (hb t ht k hk).2 j i
  · intro hQ
    by_contra hno
    have hno : ∀ l : ℕ, ∃ c, SameProblem p cs c ∧ KKT p c Z ∧ ¬MultipliersLE p c l := fun l => by
      by_contra hc
      exact hno ⟨l, fun c h1 h2 => by
        by_contra h3
        exact hc ⟨c, h1, h2, h3⟩⟩
    choose ds hs hk hb using hno
    obtain ⟨B, hB⟩ : ∃ R : ℝ, ∀ k < p.N, ∀ i, |Z.u k i| ≤ R := by
      refine ⟨∑ k ∈ Finset.range p.N, ∑ i, |Z.u k i|, fun k hk i => ?_⟩
      refine le_trans ?_ (Finset.single_le_sum (f := fun k => ∑ i, |Z.u k i|) (fun _ _ => Finset.sum_nonneg fun _ _ => abs_nonneg _) (Finset.mem_range.mpr hk))
      exact Finset.single_le_sum (f := fun i => |Z.u k i|) (fun _ _ => abs_nonneg _) (Finset.mem_univ i)
    have hq : ∀ σ : ℕ → ℕ, StrictMono σ → ∀ Z', SameTimes (alKernel p) Z' Y → TrajConverges p ((fun _ => Z) ∘ σ) Z' → Qualified p cs Z' := by
      intro σ _ Z' ht' hc
      refine qualified_congr h ⟨hK.init, hK.step⟩ ht ht' (fun k hk => funext fun i => ?_) (fun k hk => funext fun i => ?_) hQ
      · exact tendsto_nhds_unique tendsto_const_nhds (hc.1 k hk i)
      · exact tendsto_nhds_unique tendsto_const_nhds (hc.2 k hk i)
    obtain ⟨M, hM⟩ := C98_bounded (ε := fun _ => 0) (ν := fun _ => 0) (δ := fun _ => 0) (Zs := fun _ => Z) h hs (fun _ => ht)
      (fun l => (C88_exact Z).mpr (hk l)) tendsto_const_nhds tendsto_const_nhds tendsto_const_nhds (fun _ => hB) hq
    obtain ⟨l, hl⟩ := exists_nat_ge M
    exact hb l fun k hk => ⟨fun v hv i => ((hM l k hk).1 v hv i).trans hl, fun v hv i => ((hM l k hk).2 v hv i).trans hl⟩

/-! ## Unique multipliers -/

/-- **C98**: with linearly independent derivatives of the active constraints, a trajectory has at most one set of multipliers. -/
theorem C98_unique (hL : LICQ p cs Z) (h1 : SameProblem p cs c1) (h2 : SameProblem p cs c2) (k1 : KKT p c1 Z) (k2 : KKT p c2 Z) :
    ∀ k ≤ p.N, ∀ j i, mulAt (c1 k).eq j i = mulAt (c2 k).eq j i ∧ mulAt (c1 k).ineq j i = mulAt (c2 k).ineq j i := by
  have hdeg : Degenerate p (combine cs (-1) c1 c2) Z := fun v hv => by
    have h3 := (k2.stationary v hv).sub (k1.stationary v hv)
    refine (h3.congr_of_eventuallyEq (.of_forall fun a => ?_)).congr_deriv (by simp)
    show (∑ k ∈ Finset.range (p.N + 1), (_ : ℝ)) = (∑ k ∈ Finset.range (p.N + 1), (_ : ℝ)) - ∑ k ∈ Finset.range (p.N + 1), (_ : ℝ)
    rw [← Finset.sum_sub_distrib]
    refine Finset.sum_congr rfl fun k hk => ?_
    have hk : k ≤ p.N := by have := Finset.mem_range.mp hk; omega
    beta_reduce
    rw [lagrangian_eq, lagrangian_eq, combine_weighted (-1) h1 h2 hk, h1.cost k hk, h2.cost k hk]
    ring
  have hno := hL _ (combine_same (-1) c1 c2) (combine_onActive (-1) h1 h2 (KKT.onActive k1) (KKT.onActive k2)) hdeg
  intro k hk j i
  have a1 := (combine_mul (-1) h1 h2 hk j i).1
  have a2 := (combine_mul (-1) h1 h2 hk j i).2
  rw [getMul_none (hno.eq k hk)] at a1
  rw [getMul_none (hno.ineq k hk)] at a2
  rw [mulAt_eq, mulAt_eq, mulAt_eq, mulAt_eq]
  exact ⟨by linarith, by linarith⟩

/-- **C98**: if approximate Karush-Kuhn-Tucker points with vanishing errors converge to a trajectory where the derivatives of the active
constraints are linearly independent, then the multipliers converge too, and the limit is a Karush-Kuhn-Tucker point. -/
theorem C98_converges (h : SmoothProblem p cs Y μ) {ds : ℕ → ℕ → ALCost n m ℝ} {Zs : ℕ → Traj (Fin n → ℝ) (Fin m → ℝ) ℝ} {ε ν δ : ℕ → ℝ}
    (hs : ∀ l, SameProblem p cs (ds l)) (ht : ∀ l, SameTimes (alKernel p) (Zs l) Y) (hK : ∀ l, NearKKT p (ds l) (Zs l) (ε l) (ν l) (δ l))
    (hε : Tendsto ε atTop (𝓝 0)) (hν : Tendsto ν atTop (𝓝 0)) (hδ : Tendsto δ atTop (𝓝 0)) (ht' : SameTimes (alKernel p) Z Y)
    (hc : TrajConverges p Zs Z) (hL : LICQ p cs Z) : ∃ cs', SameProblem p cs cs' ∧ KKT p cs' Z ∧ ConvergesTo p ds Zs cs' Z := by
  obtain ⟨R, hR⟩ : ∃ R : ℝ, ∀ l, ∀ k < p.N, ∀ i, |(Zs l).u k i| ≤ R := by
    have hb : ∀ k i, ∃ b, k < p.N → ∀ l, |(Zs l).u k i| ≤ b := fun k i => by
      by_cases hk : k < p.N
      · obtain ⟨b, hb⟩ := (Metric.isBounded_range_of_tendsto _ (hc.2 k hk i)).exists_norm_le
        exact ⟨b, fun _ l => hb _ ⟨l, rfl⟩⟩
      · exact ⟨0, fun h => absurd h hk⟩
    choose b hb using hb
    refine ⟨∑ k ∈ Finset.range p.N, ∑ i, |b k i|, fun l k hk i => (hb k i hk l).trans ((le_abs_self _).trans ?_)⟩
    refine le_trans ?_ (Finset.single_le_sum (f := fun k => ∑ i, |b k i|) (fun _ _ => Finset.sum_nonneg fun _ _ => abs_nonneg _) (Finset.mem_range.mpr hk))
    exact Finset.single_le_sum (f := fun i => |b k i|) (fun _ _ => abs_nonneg _) (Finset.mem_univ i)
  have hsub : ∀ σ : ℕ → ℕ, Tendsto σ atTop atTop → TrajConverges p (Zs ∘ σ) Z := fun σ hσ =>
    ⟨fun k hk i => (hc.1 k hk i).comp hσ, fun k hk i => (hc.2 k hk i).comp hσ⟩
  have hQ : ∀ σ : ℕ → ℕ, StrictMono σ → ∀ Z', SameTimes (alKernel p) Z' Y → TrajConverges p (Zs ∘ σ) Z' → Qualified p cs Z' := by
    intro σ hσ Z' hZ' hc'
    have hx : ∀ k ≤ p.N, Z.x k = Z'.x k := fun k hk => funext fun i => tendsto_nhds_unique ((hc.1 k hk i).comp hσ.tendsto_atTop) (hc'.1 k hk i)
    have hu : ∀ k < p.N, Z.u k = Z'.u k := fun k hk => funext fun i => tendsto_nhds_unique ((hc.2 k hk i).comp hσ.tendsto_atTop) (hc'.2 k hk i)
    have htx : ∀ k ≤ p.N, Tendsto (fun l => (Zs l).x k) atTop (𝓝 (Z.x k)) := fun k hk => tendsto_pi_nhds.mpr fun i => hc.1 k hk i
    have htu : ∀ k < p.N, Tendsto (fun l => (Zs l).u k) atTop (𝓝 (Z.u k)) := fun k hk => tendsto_pi_nhds.mpr fun i => hc.2 k hk i
    refine qualified_congr h ⟨?_, fun k hk => ?_⟩ ht' hZ' hx hu (C98_licq hL)
    · exact tendsto_nhds_unique ((htx 0 (Nat.zero_le _)).congr fun l => (hK l).init) tendsto_const_nhds
    · have hf : Continuous fun z : (Fin n → ℝ) × (Fin m → ℝ) => p.f k z.1 z.2 (Y.t k) (Y.h k) := IsJacAt.continuous (h.jac k hk)
      have h1 : Tendsto (fun l => p.f k ((Zs l).x k) ((Zs l).u k) (Y.t k) (Y.h k)) atTop (𝓝 (p.f k (Z.x k) (Z.u k) (Y.t k) (Y.h k))) :=
        (hf.tendsto (Z.x k, Z.u k)).comp ((htx k hk.le).prodMk_nhds (htu k hk))
      show Z.x (k + 1) = p.f k (Z.x k) (Z.u k) (Z.t k) (Z.h k)
      rw [ht'.t k hk.le, ht'.h k hk]
      exact tendsto_nhds_unique ((htx (k + 1) hk).congr fun l => by rw [(hK l).step k hk, (ht l).t k hk.le, (ht l).h k hk]) h1
  obtain ⟨M, hM⟩ := C98_bounded h hs ht hK hε hν hδ hR hQ
  -- every subsequence has a subsequence that converges to a Karush-Kuhn-Tucker point at `Z`
  have hacc : ∀ σ : ℕ → ℕ, Tendsto σ atTop atTop → ∃ (π : ℕ → ℕ) (c : ℕ → ALCost n m ℝ), StrictMono π ∧ SameProblem p cs c ∧ KKT p c Z ∧
      ConvergesTo p (ds ∘ σ ∘ π) (Zs ∘ σ ∘ π) c Z := fun σ hσ => by
    obtain ⟨π, c, Z', hπ, h1, -, h3, -⟩ := C92_accumulation h (fun l => hs (σ l)) (fun l => ht (σ l)) (fun l => hK (σ l)) (hε.comp hσ) (hν.comp hσ)
      (hδ.comp hσ) (fun l => hR (σ l)) (fun l => hM (σ l))
    have hσπ := hσ.comp hπ.tendsto_atTop
    have h4 : ConvergesTo p (ds ∘ σ ∘ π) (Zs ∘ σ ∘ π) c Z := ⟨(hsub _ hσπ).1, (hsub _ hσπ).2, h3.eq, h3.ineq⟩
    exact ⟨π, c, hπ, h1, C92_limit h (fun l => hs _) (fun l => ht _) (fun l => hK _) (hε.comp hσπ) (hν.comp hσπ) (hδ.comp hσπ) h1 ht' h4, h4⟩
  obtain ⟨-, c, -, h1, h2, -⟩ := hacc id tendsto_id
  refine ⟨c, h1, h2, hc.1, hc.2, fun k hk j i => ?_, fun k hk j i => ?_⟩ <;> refine tendsto_of_subseq_tendsto fun σ hσ => ?_ <;>
    obtain ⟨π, c', hπ, a1, a2, a3⟩ := hacc σ hσ
  · refine ⟨π, ?_⟩
    rw [((C98_unique hL h1 a1 h2 a2) k hk j i).1]
    exact a3.eq k hk j i
  · refine ⟨π, ?_⟩
    rw [((C98_unique hL h1 a1 h2 a2) k hk j i).2]
    exact a3.ineq k hk j i

/-! ## Convex problems -/

/-- Constraint values along a direction have derivatives. -/
theorem along_deriv (h : SmoothProblem p cs Y μ) (hZ : DynFeasible (alKernel p) Z) (ht : SameTimes (alKernel p) Z Y) {con : Con n m ℝ} (hs : SmoothCon con)
    {k : ℕ} (hk : k ≤ p.N) (i : Fin con.p) {v : ℕ → Fin m → ℝ} (hv : v p.N = 0) : ∃ d, HasDerivAt (along p Z con k i v) d 0 := by
  let J := con.jac (Z.x k) (Z.u k)
  let ℓ : ℕ → (Fin n → ℝ) → (Fin m → ℝ) → ℝ := fun j x u => if j = k then con.eval x u i else 0
  let g : ℕ → Altro.Spec.Z n m := fun j => if j = k then (fun a => J i (Sum.inl a), fun a => J i (Sum.inr a)) else 0
  let kd : ℕ → KP n m ℝ := fun j => { kdAt p Y (fun _ _ => 0) (ctl p.N Z) j with cost := ⟨0, 0, 0, (g j).1, (g j).2⟩ }
  have hF : FirstOrderOf p ℓ Z kd := by
    refine ⟨fun j hj => ?_, fun j hj => ?_⟩
    · show IsJacAt (fun x u => p.f j x u (Z.t j) (Z.h j)) (fromCols (p.jac j (openLoop p Y (ctl p.N Z) j) (ctl p.N Z j) (Y.t j) (Y.h j)).1
        (p.jac j (openLoop p Y (ctl p.N Z) j) (ctl p.N Z j) (Y.t j) (Y.h j)).2) _ _
      rw [openLoop_ctl hZ ht j hj.le, ctl_of_lt _ hj, ht.t j hj.le, ht.h j hj]
      exact h.jac j hj _ _
    · show IsGradAt (ℓ j) (g j).1 (g j).2 (Z.x j) (Z.u j)
      by_cases e : j = k
      · subst e
        have e1 : ℓ j = fun x u => con.eval x u i := by funext x u; exact if_pos rfl
        have e2 : g j = (fun a => J i (Sum.inl a), fun a => J i (Sum.inr a)) := if_pos rfl
        rw [e1, e2]
        exact hs.jac _ _ i
      · have e1 : ℓ j = fun x u => 0 := by funext x u; exact if_neg e
        have e2 : g j = 0 := if_neg e
        rw [e1, e2]
        exact h.base.grad j hj _ _
  refine ⟨_, (controlCost_deriv hF hZ v hv).congr_of_eventuallyEq (.of_forall fun a => ?_)⟩
  show along p Z con k i v a = ∑ j ∈ Finset.range (p.N + 1), if j = k then con.eval (openLoop p Z (fun k => Z.u k + a • v k) j) (Z.u j + a • v j) i else 0
  rw [Finset.sum_ite_eq' , if_pos (Finset.mem_range.mpr (by omega))]
  rfl

/-- A function below a chord to the right of zero has at most the slope of the chord. -/
theorem slope_le {f : ℝ → ℝ} {d b : ℝ} (hd : HasDerivAt f d 0) (hb : ∀ t, 0 ≤ t → t ≤ 1 → f t ≤ f 0 + t * b) : d ≤ b := by
  have h1 := hd.hasDerivWithinAt (s := Set.Ioi 0)
  rw [hasDerivWithinAt_iff_tendsto_slope' (by simp)] at h1
  refine le_of_tendsto h1 ?_
  filter_upwards [Ioo_mem_nhdsGT (zero_lt_one' ℝ)] with t ht
  rw [slope_def_field, sub_zero, div_le_iff₀ ht.1]
  have := hb t ht.1.le ht.2.le
  linarith

/-- **C98**, convex problems: if some trajectory satisfies equalities, and inequalities strictly, and the derivatives of the equalities are
linearly independent, then the Mangasarian-Fromovitz qualification holds at every trajectory that satisfies the equalities. -/
theorem C98_strict (h : SmoothProblem p cs Y μ) (hc : ConvexProblem p cs) {z0 : Traj (Fin n → ℝ) (Fin m → ℝ) ℝ} (h0 : Strict p cs Y z0)
    (hZ : DynFeasible (alKernel p) Z) (ht : SameTimes (alKernel p) Z Y) (hsat : ∀ k ≤ p.N, ∀ v ∈ (cs k).eq, ∀ i, v.con.eval (Z.x k) (Z.u k) i = 0)
    (hind : ∀ cs', SameProblem p cs cs' → (∀ k ≤ p.N, ∀ v ∈ (cs' k).ineq, ∀ i, v.lam i = 0) → Degenerate p cs' Z → NoMultipliers p cs') :
    MFCQ p cs Z := by
  let d : ℕ → Fin m → ℝ := fun k => if k < p.N then z0.u k - Z.u k else 0
  have hd : d p.N = 0 := if_neg (lt_irrefl _)
  have hdk : ∀ k < p.N, d k = z0.u k - Z.u k := fun k hk => if_pos hk
  have hx : ∀ t : ℝ, 0 ≤ t → t ≤ 1 → ∀ k ≤ p.N, openLoop p Z (fun k => Z.u k + t • d k) k = Z.x k + t • (z0.x k - Z.x k) := by
    intro t t0 t1 k
    induction k with
    | zero =>
      intro _
      have e1 : Z.x 0 = p.x0 := hZ.init
      have e2 : z0.x 0 = p.x0 := h0.alt.init
      show p.x0 = _
      rw [e1, e2, sub_self, smul_zero, add_zero]
    | succ k ih =>
      intro hk
      have e1 : Z.x (k + 1) = p.f k (Z.x k) (Z.u k) (Z.t k) (Z.h k) := hZ.step k hk
      have e2 := h0.alt.step k hk
      show p.f k (openLoop p Z _ k) (Z.u k + t • d k) (Z.t k) (Z.h k) = _
      rw [ih (Nat.le_of_lt hk), hdk k hk, hc.dyn k hk _ _ _ _ _ _ t t0 t1, e1, e2, ht.t k (Nat.le_of_lt hk), ht.h k hk]
  have hcon : ∀ {con : Con n m ℝ} {k : ℕ}, k ≤ p.N → (k = p.N → ∀ x u u', con.eval x u = con.eval x u') → ∀ (i : Fin con.p) (t : ℝ), 0 ≤ t → t ≤ 1 →
      along p Z con k i d t = con.eval (Z.x k + t • (z0.x k - Z.x k)) (Z.u k + t • (z0.u k - Z.u k)) i := by
    intro con k hk hN i t t0 t1
    unfold along
    rw [hx t t0 t1 k hk]
    rcases Nat.lt_or_eq_of_le hk with h1 | h1
    · rw [hdk k h1]
    · rw [hN h1 _ (Z.u k + t • d k)]
  have hcon0 : ∀ {con : Con n m ℝ} {k : ℕ}, k ≤ p.N → (k = p.N → ∀ x u u', con.eval x u = con.eval x u') → ∀ (i : Fin con.p),
      along p Z con k i d 0 = con.eval (Z.x k) (Z.u k) i := by
    intro con k hk hN i
    rw [hcon hk hN i 0 le_rfl zero_le_one, zero_smul, zero_smul, add_zero, add_zero]
  refine ⟨hind, d, hd, fun k hk v hv i => ?_, fun k hk v hv i hact => ?_⟩
  · have hN : k = p.N → ∀ x u u', v.con.eval x u = v.con.eval x u' := fun e => by subst e; exact h.termEq v hv
    obtain ⟨s, hs⟩ := along_deriv h hZ ht ((h.knot k hk).eq v hv).1 hk i hd
    have hz : ∀ t, 0 ≤ t → t ≤ 1 → along p Z v.con k i d t = 0 := fun t t0 t1 => by
      rw [hcon hk hN i t t0 t1, hc.eq k hk v hv i _ _ _ _ t t0 t1, hsat k hk v hv i, h0.eq k hk v hv i]
      simp
    have h1 : s ≤ 0 := slope_le hs fun t t0 t1 => by rw [hz t t0 t1, hz 0 le_rfl zero_le_one]; simp
    have h2 : -s ≤ 0 := slope_le hs.neg fun t t0 t1 => by
      show -along p Z v.con k i d t ≤ -along p Z v.con k i d 0 + t * 0
      rw [hz t t0 t1, hz 0 le_rfl zero_le_one]; simp
    have : s = 0 := by linarith
    rwa [this] at hs
  · have hN : k = p.N → ∀ x u u', v.con.eval x u = v.con.eval x u' := fun e => by subst e; exact h.termIneq v hv
    obtain ⟨s, hs⟩ := along_deriv h hZ ht ((h.knot k hk).ineq v hv).1 hk i hd
    refine ⟨s, lt_of_le_of_lt (slope_le hs fun t t0 t1 => ?_) (h0.ineq k hk v hv i), hs⟩
    rw [hcon hk hN i t t0 t1, hcon0 hk hN i, hact]
    have := hc.ineq k hk v hv i (Z.x k) (z0.x k) (Z.u k) (z0.u k) t t0 t1
    rw [hact] at this
    linarith

end Altro.Props
