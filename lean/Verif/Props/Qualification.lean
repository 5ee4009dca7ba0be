import Verif.Proofs.Qualification
import Verif.Props.KKTLimit

/-!
# C98: constraint qualifications bound the multipliers
-/

namespace Altro.Props
open Altro.Spec Matrix ILQR AL Filter
open scoped Topology
variable {n m : ℕ} {p : DynProblem n m ℝ} {cs : ℕ → ALCost n m ℝ} {Y Z : Traj (Fin n → ℝ) (Fin m → ℝ) ℝ} {μ : ℝ} {κ : ConKind}

/-! ## Multiples of multipliers -/

theorem scale_mem (a : ℝ) : ∀ {l l' : List (ConVal κ n m ℝ)}, l'.map (·.con) = l.map (·.con) → ∀ {v : ConVal κ n m ℝ},
    v ∈ setMul 1 (fun j i => a * getMul l' j i) l → ∃ w ∈ l', v.con = w.con ∧ ∀ i (h : i < v.con.p) (h' : i < w.con.p), v.lam ⟨i, h⟩ = a * w.lam ⟨i, h'⟩
  | [], _, _, _, h => nomatch h
  | _ :: _, [], e, _, _ => nomatch e
  | u :: l, w :: l', e, v, h => by
    obtain ⟨e1, e2⟩ := List.cons.inj e
    rcases List.mem_cons.mp h with rfl | h
    · refine ⟨w, by simp, e1.symm, fun i h h' => ?_⟩
      show a * (if h : i < w.con.p then w.lam ⟨i, h⟩ else 0) = _
      rw [dif_pos h']
    · obtain ⟨w', hw, h1, h2⟩ := scale_mem a e2 h
      exact ⟨w', by simp [hw], h1, h2⟩

/-- The cost objects of the problem `cs` with `a` times the multipliers of `ds`. -/
noncomputable def scale (cs : ℕ → ALCost n m ℝ) (a : ℝ) (ds : ℕ → ALCost n m ℝ) : ℕ → ALCost n m ℝ :=
  fun k => withMul 1 (fun b j i => a * mulOf (ds k) b j i) (cs k)

theorem scale_same (cs : ℕ → ALCost n m ℝ) (a : ℝ) (ds : ℕ → ALCost n m ℝ) : SameProblem p cs (scale cs a ds) :=
  ⟨fun _ _ => rfl, fun k _ => setMul_con 1 _ (cs k).eq, fun k _ => setMul_con 1 _ (cs k).ineq⟩

theorem multsOf_scale (a : ℝ) {ds : ℕ → ALCost n m ℝ} (hs : SameProblem p cs ds) : multsOf p (scale cs a ds) = fun k b j i => a * multsOf p ds k b j i := by
  funext k b j i
  unfold multsOf
  split
  · rename_i hk
    cases b
    · show getMul (setMul 1 (fun j i => a * getMul (ds k).ineq j i) (cs k).ineq) j i = a * getMul (ds k).ineq j i
      rw [setMul_getMul_mul, getMul_setMul 1 (hs.ineqCons k hk)]
    · show getMul (setMul 1 (fun j i => a * getMul (ds k).eq j i) (cs k).eq) j i = a * getMul (ds k).eq j i
      rw [setMul_getMul_mul, getMul_setMul 1 (hs.eqCons k hk)]
  · exact (mul_zero a).symm

theorem scale_signs {a : ℝ} (ha : 0 ≤ a) {ds : ℕ → ALCost n m ℝ} (hs : SameProblem p cs ds) {ν δ : ℝ} (h : NearSigns p ds Z ν δ) :
    NearSigns p (scale cs a ds) Z ν δ := by
  refine ⟨h.init, h.step, fun k hk v hv => ?_, fun k hk v hv => ?_, fun k hk v hv i => ?_, fun k hk v hv i => ?_⟩
  · obtain ⟨w, hw, e, -⟩ := scale_mem a (hs.eqCons k hk) hv
    have := h.eq k hk w hw
    rwa [← e] at this
  · obtain ⟨w, hw, e, -⟩ := scale_mem a (hs.ineqCons k hk) hv
    have := h.ineq k hk w hw
    rwa [← e] at this
  · obtain ⟨w, hw, e, hl⟩ := scale_mem a (hs.ineqCons k hk) hv
    have hi : (i : ℕ) < w.con.p := by rw [← e]; exact i.2
    rw [show v.lam i = a * w.lam ⟨i, hi⟩ from hl i i.2 hi]
    exact mul_nonpos_of_nonneg_of_nonpos ha (h.dual k hk w hw _)
  · obtain ⟨w, hw, e, hl⟩ := scale_mem a (hs.ineqCons k hk) hv
    have h1 : ∀ i (hi : i < w.con.p) (hi' : i < v.con.p), v.lam ⟨i, hi'⟩ = 0 ∨ -δ ≤ w.con.eval (Z.x k) (Z.u k) ⟨i, hi⟩ := fun i hi hi' => by
      rcases h.slack k hk w hw ⟨i, hi⟩ with h0 | h0
      · left; rw [hl i hi' hi, h0, mul_zero]
      · exact .inr h0
    rw [← e] at h1
    exact h1 i i.2 i.2

theorem mults_bound {ds : ℕ → ALCost n m ℝ} (hs : SameProblem p cs ds) {M : ℝ} (h : size p cs (multsOf p ds) ≤ M) : MultipliersLE p ds M := by
  refine fun k hk => ⟨fun v hv i => ?_, fun v hv i => ?_⟩ <;> obtain ⟨j, hj⟩ := List.mem_iff_getElem?.mp hv
  · have := mult_le_size hs k true j i
    rw [show multsOf p ds k true j i = v.lam i by unfold multsOf; rw [if_pos hk]; show getMul _ _ _ = _; rw [← mulAt_eq, place hj i i.2]] at this
    exact this.trans h
  · have := mult_le_size hs k false j i
    rw [show multsOf p ds k false j i = v.lam i by unfold multsOf; rw [if_pos hk]; show getMul _ _ _ = _; rw [← mulAt_eq, place hj i i.2]] at this
    exact this.trans h

theorem frequently_large {f : ℕ → ℝ} (h0 : ∀ l, 0 ≤ f l) (h : ∀ M, ∃ l, M < f l) (c : ℝ) : ∃ᶠ l in atTop, c < f l := by
  refine frequently_atTop.mpr fun a => ?_
  obtain ⟨l, hl⟩ := h (|c| + ∑ i ∈ Finset.range a, f i)
  have hs : 0 ≤ ∑ i ∈ Finset.range a, f i := Finset.sum_nonneg fun i _ => h0 i
  refine ⟨l, ?_, by have := le_abs_self c; linarith⟩
  by_contra hc
  have h1 := Finset.single_le_sum (fun i _ => h0 i) (Finset.mem_range.mpr (not_le.mp hc))
  have := abs_nonneg c
  linarith

/-- **C98**: approximate Karush-Kuhn-Tucker points with vanishing errors and bounded controls have bounded multipliers, if every trajectory that
a subsequence converges to meets the constraint qualification. -/
theorem C98_bounded (h : SmoothProblem p cs Y μ) {ds : ℕ → ℕ → ALCost n m ℝ} {Zs : ℕ → Traj (Fin n → ℝ) (Fin m → ℝ) ℝ} {ε ν δ : ℕ → ℝ}
    (hs : ∀ l, SameProblem p cs (ds l)) (ht : ∀ l, SameTimes (alKernel p) (Zs l) Y) (hK : ∀ l, NearKKT p (ds l) (Zs l) (ε l) (ν l) (δ l))
    (hε : Tendsto ε atTop (𝓝 0)) (hν : Tendsto ν atTop (𝓝 0)) (hδ : Tendsto δ atTop (𝓝 0)) {R : ℝ} (hR : ∀ l, ∀ k < p.N, ∀ i, |(Zs l).u k i| ≤ R)
    (hQ : ∀ σ : ℕ → ℕ, StrictMono σ → ∀ Z, SameTimes (alKernel p) Z Y → TrajConverges p (Zs ∘ σ) Z → Qualified p cs Z) :
    ∃ M, ∀ l, MultipliersLE p (ds l) M := by
  by_contra hno
  have hbig : ∀ M, ∃ l, M < size p cs (multsOf p (ds l)) := fun M => by
    by_contra hc
    exact hno ⟨M, fun l => mults_bound (hs l) (not_lt.mp fun hl => hc ⟨l, hl⟩)⟩
  obtain ⟨σ, hσ, hlarge⟩ := extraction_forall_of_frequently (P := fun j l => ((j : ℝ) + 1) < size p cs (multsOf p (ds l)))
    fun j => frequently_large (fun l => size_nonneg _) hbig _
  let τ : ℕ → ℝ := fun j => size p cs (multsOf p (ds (σ j)))
  have hτ : ∀ j, 0 < τ j := fun j => lt_trans (by positivity) (hlarge j)
  let es : ℕ → ℕ → ALCost n m ℝ := fun j => scale cs (τ j)⁻¹ (ds (σ j))
  have hes : ∀ j, multsOf p (es j) = fun k b i l => (τ j)⁻¹ * multsOf p (ds (σ j)) k b i l := fun j => multsOf_scale _ (hs (σ j))
  have hsize : ∀ j, size p cs (multsOf p (es j)) = 1 := fun j => by
    rw [hes, size_mul, abs_of_pos (inv_pos.mpr (hτ j))]
    exact inv_mul_cancel₀ (hτ j).ne'
  have hM' : ∀ j k b i l, |multsOf p (es j) k b i l| ≤ 1 := fun j k b i l => by
    rw [← hsize j]
    exact mult_le_size (scale_same _ _ _) k b i l
  have hR' : ∀ j k i, |ctl p.N (Zs (σ j)) k i| ≤ |R| := by
    intro j k i
    unfold ctl
    split
    · rename_i hk; exact (hR (σ j) k hk i).trans (le_abs_self R)
    · simp
  obtain ⟨⟨θ, U⟩, -, π, hπ, hlim⟩ := ((mults_compact 1).prod (controls_compact (m := m) |R|)).tendsto_subseq
    (x := fun j => (multsOf p (es j), ctl p.N (Zs (σ j)))) fun j => ⟨hM' j, hR' j⟩
  have hθ : Tendsto (fun j => multsOf p (es (π j))) atTop (𝓝 θ) := (continuous_fst.tendsto _).comp hlim
  have hU : Tendsto (fun j => ctl p.N (Zs (σ (π j)))) atTop (𝓝 U) := (continuous_snd.tendsto _).comp hlim
  have hσπ : StrictMono (σ ∘ π) := hσ.comp hπ
  let cs' : ℕ → ALCost n m ℝ := fun k => withMul 1 (θ k) (cs k)
  let Z : Traj (Fin n → ℝ) (Fin m → ℝ) ℝ := ⟨openLoop p Y U, U, Y.t, Y.h⟩
  have hs' : SameProblem p cs cs' := ⟨fun _ _ => rfl, fun k _ => setMul_con 1 _ (cs k).eq, fun k _ => setMul_con 1 _ (cs k).ineq⟩
  have ht' : SameTimes (alKernel p) Z Y := ⟨fun _ _ => rfl, fun _ _ => rfl⟩
  have hsig : ∀ l, NearSigns p (ds l) (Zs l) (ν l) (δ l) := fun l => NearSigns.of_kkt (hK l)
  have hc : ConvergesTo p (es ∘ π) (Zs ∘ σ ∘ π) cs' Z :=
    converges_of h (fun j => scale_same _ _ _) (fun j => ht _) (fun j => ⟨(hK _).init, (hK _).step⟩) hθ hU
  have hS := limit_signs h (ds := es ∘ π) (fun j => scale_same _ _ _) (fun j => ht _)
    (fun j => scale_signs (inv_nonneg.mpr (hτ (π j)).le) (hs _) (hsig (σ (π j)))) (hν.comp hσπ.tendsto_atTop) (hδ.comp hσπ.tendsto_atTop) hs' ht' hc
  have hctl : ctl p.N Z = U := by
    funext k
    unfold ctl
    split
    · rfl
    · rename_i hk
      refine tendsto_nhds_unique (f := fun _ : ℕ => (0 : Fin m → ℝ)) (l := atTop) tendsto_const_nhds ?_
      refine (tendsto_pi_nhds.mp hU k).congr fun j => ?_
      unfold ctl
      rw [if_neg hk]
  have hmul : multsOf p cs' = θ := by
    funext k b j i
    have h1 : Tendsto (fun l => multsOf p (es (π l)) k b j i) atTop (𝓝 (θ k b j i)) :=
      tendsto_pi_nhds.mp (tendsto_pi_nhds.mp (tendsto_pi_nhds.mp (tendsto_pi_nhds.mp hθ k) b) j) i
    refine tendsto_nhds_unique ?_ h1
    unfold multsOf
    by_cases hk : k ≤ p.N
    · simp only [if_pos hk]
      cases b
      · show Tendsto (fun l => getMul (es (π l) k).ineq j i) atTop (𝓝 (getMul (cs' k).ineq j i))
        simp only [← mulAt_eq]; exact hc.ineq k hk j i
      · show Tendsto (fun l => getMul (es (π l) k).eq j i) atTop (𝓝 (getMul (cs' k).eq j i))
        simp only [← mulAt_eq]; exact hc.eq k hk j i
    · simp only [if_neg hk]; exact tendsto_const_nhds
  have hinv : Tendsto (fun j => (τ (π j))⁻¹) atTop (𝓝 0) := by
    refine (tendsto_atTop_mono (fun j => ?_) (tendsto_natCast_atTop_atTop.comp hπ.tendsto_atTop)).inv_tendsto_atTop
    show ((π j : ℕ) : ℝ) ≤ τ (π j)
    have := hlarge (π j)
    show _ ≤ size p cs (multsOf p (ds (σ (π j))))
    linarith
  have hgrad : ∀ j, scaledSq p cs Y ((τ (π j))⁻¹, multsOf p (es (π j))) (ctl p.N (Zs (σ (π j)))) ≤ ((τ (π j))⁻¹ * ε (σ (π j))) ^ 2 := fun j => by
    have h1 := (lagSq_iff h (hs (σ (π j))) ⟨(hK _).init, (hK _).step⟩ (ht _)).mp (hK (σ (π j))).stationary
    have h2 := scaledSq_mul (p := p) (cs := cs) (Y := Y) (τ (π j))⁻¹ 1 (multsOf p (ds (σ (π j)))) (ctl p.N (Zs (σ (π j))))
    rw [mul_one, scaledSq_one] at h2
    rw [hes, h2, mul_pow]
    exact mul_le_mul_of_nonneg_left h1 (sq_nonneg _)
  have hdeg : Degenerate p cs' Z := by
    rw [degenerate_iff h hs' ⟨hS.init, hS.step⟩ ht', hmul, hctl]
    have h1 : Tendsto (fun j => (((τ (π j))⁻¹, multsOf p (es (π j))), ctl p.N (Zs (σ (π j))))) atTop (𝓝 ((0, θ), U)) :=
      (hinv.prodMk_nhds hθ).prodMk_nhds hU
    have h2 : Tendsto (fun j => ((τ (π j))⁻¹ * ε (σ (π j))) ^ 2) atTop (𝓝 0) := by
      simpa using (hinv.mul (hε.comp hσπ.tendsto_atTop)).pow 2
    exact le_of_tendsto_of_tendsto' (((scaledSq_continuous h).tendsto ((0, θ), U)).comp h1) h2 hgrad
  have hnone := hQ (σ ∘ π) hσπ Z ht' ⟨hc.x, hc.u⟩ cs' hs' (fun k hk v hv i => (hS.slack k hk v hv i).imp_right fun h0 =>
    le_antisymm (hS.ineq k hk v hv i) (by simpa using h0)) hS.dual hdeg
  have h1 : size p cs θ = 1 := tendsto_nhds_unique ((size_continuous.tendsto θ).comp hθ) (tendsto_const_nhds.congr fun j => (hsize (π j)).symm)
  rw [← hmul, multsOf_none hnone, size_zero] at h1
  exact zero_ne_one h1

/-- **C98**: such sequences have subsequences that converge, with their multipliers, to a Karush-Kuhn-Tucker point. -/
theorem C98_accumulation (h : SmoothProblem p cs Y μ) {ds : ℕ → ℕ → ALCost n m ℝ} {Zs : ℕ → Traj (Fin n → ℝ) (Fin m → ℝ) ℝ} {ε ν δ : ℕ → ℝ}
    (hs : ∀ l, SameProblem p cs (ds l)) (ht : ∀ l, SameTimes (alKernel p) (Zs l) Y) (hK : ∀ l, NearKKT p (ds l) (Zs l) (ε l) (ν l) (δ l))
    (hε : Tendsto ε atTop (𝓝 0)) (hν : Tendsto ν atTop (𝓝 0)) (hδ : Tendsto δ atTop (𝓝 0)) {R : ℝ} (hR : ∀ l, ∀ k < p.N, ∀ i, |(Zs l).u k i| ≤ R)
    (hQ : ∀ σ : ℕ → ℕ, StrictMono σ → ∀ Z, SameTimes (alKernel p) Z Y → TrajConverges p (Zs ∘ σ) Z → Qualified p cs Z) :
    ∃ (σ : ℕ → ℕ) (cs' : ℕ → ALCost n m ℝ) (Z : Traj (Fin n → ℝ) (Fin m → ℝ) ℝ), StrictMono σ ∧ SameProblem p cs cs' ∧
      SameTimes (alKernel p) Z Y ∧ ConvergesTo p (ds ∘ σ) (Zs ∘ σ) cs' Z ∧ KKT p cs' Z := by
  obtain ⟨M, hM⟩ := C98_bounded h hs ht hK hε hν hδ hR hQ
  exact C92_accumulation h hs ht hK hε hν hδ hR hM

/-- **C98**, solves with ever smaller tolerances: all report `kSolved`, the controls stay bounded, the multipliers before the last update stay
small against the penalties, and the trajectories they accumulate at meet the constraint qualification.  Then the multipliers stay bounded and a
subsequence of the results converges to a Karush-Kuhn-Tucker point. -/
theorem C98_solves (h : SmoothProblem p cs Y μ) {o : ℕ → Opts ℝ} {ρ ε Λ : ℕ → ℝ} {s : ℕ → ALSt (Fin n → ℝ) (Fin m → ℝ) ℝ (ALCost n m ℝ) (KP n m ℝ)}
    {prev : ℕ → ℕ → ALCost n m ℝ} (hN : ∀ l, NearSolved p (o l) cs (ρ l) (ε l) (s l) (prev l)) (hst : ∀ l, (s l).status = .kSolved)
    (ht : ∀ l, SameTimes (alKernel p) (s l).st.Z Y) (h0 : ∀ l, 0 ≤ ε l) (hε : Tendsto ε atTop (𝓝 0))
    (hcon : Tendsto (fun l => (o l).conTol) atTop (𝓝 0)) (hP : ∀ l, ∀ k ≤ p.N, ∀ v ∈ (prev l k).ineq, ∀ i, |v.lam i| ≤ Λ l)
    (hρ : Tendsto (fun l => Λ l / ρ l) atTop (𝓝 0)) {R : ℝ} (hR : ∀ l, ∀ k < p.N, ∀ i, |(s l).st.Z.u k i| ≤ R)
    (hQ : ∀ σ : ℕ → ℕ, StrictMono σ → ∀ Z, SameTimes (alKernel p) Z Y → TrajConverges p ((fun l => (s l).st.Z) ∘ σ) Z → Qualified p cs Z) :
    (∃ M, ∀ l, MultipliersLE p (s l).st.cs M) ∧
    ∃ (σ : ℕ → ℕ) (cs' : ℕ → ALCost n m ℝ) (Z : Traj (Fin n → ℝ) (Fin m → ℝ) ℝ), StrictMono σ ∧ SameProblem p cs cs' ∧
      SameTimes (alKernel p) Z Y ∧ ConvergesTo p (fun l => (s (σ l)).st.cs) (fun l => (s (σ l)).st.Z) cs' Z ∧ KKT p cs' Z := by
  have hδ : Tendsto (fun l => Λ l / ρ l + ε l) atTop (𝓝 0) := by simpa using hρ.add hε
  have hν : Tendsto (fun l => (o l).conTol + ε l) atTop (𝓝 0) := by simpa using hcon.add hε
  have hK := fun l => C88_solved (hN l) (h0 l) (hst l) (hP l)
  exact ⟨C98_bounded h (fun l => NearSolved.same (hN l)) ht hK hε hν hδ hR hQ, C98_accumulation h (fun l => NearSolved.same (hN l)) ht hK hε hν hδ hR hQ⟩

/-! ## The qualifications -/

theorem C98_licq (h : LICQ p cs Z) : Qualified p cs Z := fun cs' hs ha _ hd => h cs' hs ha hd

/-- The derivative of the weighted sum of a list of inequality constraints in a direction in which the active ones decrease. -/
theorem weighted_ineq_deriv {d : ℕ → Fin m → ℝ} {k : ℕ} : ∀ (l : List (ConVal κ n m ℝ)),
    (∀ v ∈ l, ∀ i, v.lam i ≤ 0 ∧ (v.lam i = 0 ∨ ∃ s < 0, HasDerivAt (along p Z v.con k i d) s 0)) →
    ∃ e, HasDerivAt (fun a : ℝ => (l.map fun v => v.lam ⬝ᵥ v.con.eval (openLoop p Z (fun k => Z.u k + a • d k) k) (Z.u k + a • d k)).sum) e 0 ∧
      0 ≤ e ∧ (e = 0 → ∀ v ∈ l, ∀ i, v.lam i = 0)
  | [], _ => ⟨0, hasDerivAt_const 0 0, le_rfl, fun _ _ hv => nomatch hv⟩
  | v :: l, h => by
    obtain ⟨e, h1, h2, h3⟩ := weighted_ineq_deriv l fun w hw => h w (by simp [hw])
    have ht : ∀ i, ∃ t, HasDerivAt (fun a => v.lam i * along p Z v.con k i d a) t 0 ∧ 0 ≤ t ∧ (t = 0 → v.lam i = 0) := fun i => by
      obtain ⟨h0, h0' | ⟨s, hs, hd⟩⟩ := h v (by simp) i
      · exact ⟨0, by simpa [h0'] using hasDerivAt_const (0 : ℝ) (0 : ℝ), le_rfl, fun _ => h0'⟩
      · exact ⟨v.lam i * s, hd.const_mul _, mul_nonneg_of_nonpos_of_nonpos h0 hs.le, fun e => (mul_eq_zero.mp e).resolve_right hs.ne⟩
    choose t ht1 ht2 ht3 using ht
    refine ⟨(∑ i, t i) + e, ?_, add_nonneg (Finset.sum_nonneg fun i _ => ht2 i) h2, fun he w hw => ?_⟩
    · have h4 := (HasDerivAt.fun_sum (u := Finset.univ) fun i _ => ht1 i).add h1
      refine h4.congr_of_eventuallyEq (.of_forall fun a => ?_)
      rfl
    · obtain ⟨a1, a2⟩ := (add_eq_zero_iff_of_nonneg (Finset.sum_nonneg fun i _ => ht2 i) h2).mp he
      rcases List.mem_cons.mp hw with rfl | hw
      · exact fun i => ht3 i ((Finset.sum_eq_zero_iff_of_nonneg fun i _ => ht2 i).mp a1 i (Finset.mem_univ i))
      · exact h3 a2 w hw

theorem weighted_eq_deriv {d : ℕ → Fin m → ℝ} {k : ℕ} : ∀ (l : List (ConVal κ n m ℝ)), (∀ v ∈ l, ∀ i, HasDerivAt (along p Z v.con k i d) 0 0) →
    HasDerivAt (fun a : ℝ => (l.map fun v => v.lam ⬝ᵥ v.con.eval (openLoop p Z (fun k => Z.u k + a • d k) k) (Z.u k + a • d k)).sum) 0 0
  | [], _ => hasDerivAt_const 0 0
  | v :: l, h => by
    have h1 := weighted_eq_deriv l fun w hw => h w (by simp [hw])
    have h2 := (HasDerivAt.fun_sum (u := Finset.univ) fun i _ => (h v (by simp) i).const_mul (v.lam i)).add h1
    refine (h2.congr_of_eventuallyEq (.of_forall fun a => ?_)).congr_deriv (by simp)
    rfl

/-- **C98**: the Mangasarian-Fromovitz qualification suffices. -/
theorem C98_mfcq (h : MFCQ p cs Z) : Qualified p cs Z := by
  intro cs' hs ha hd hdeg
  obtain ⟨d, hd0, heq, hineq⟩ := h.inward
  have h1 : ∀ k ≤ p.N, HasDerivAt (fun a : ℝ => ((cs' k).eq.map fun v => v.lam ⬝ᵥ v.con.eval (openLoop p Z (fun k => Z.u k + a • d k) k) (Z.u k + a • d k)).sum) 0 0 :=
    fun k hk => weighted_eq_deriv _ fun v hv => by
      obtain ⟨j, hj⟩ := List.mem_iff_getElem?.mp hv
      obtain ⟨w, hw, ew⟩ := place_con (hs.eqCons k hk).symm hj
      rw [← ew]
      exact heq k hk w (List.mem_iff_getElem?.mpr ⟨j, hw⟩)
  have h2 : ∀ k : ℕ, ∃ e, k ≤ p.N →
      HasDerivAt (fun a : ℝ => ((cs' k).ineq.map fun v => v.lam ⬝ᵥ v.con.eval (openLoop p Z (fun k => Z.u k + a • d k) k) (Z.u k + a • d k)).sum) e 0 ∧
      0 ≤ e ∧ (e = 0 → ∀ v ∈ (cs' k).ineq, ∀ i, v.lam i = 0) := fun k => by
    by_cases hk : k ≤ p.N
    · obtain ⟨e, he⟩ := weighted_ineq_deriv (p := p) (Z := Z) (d := d) (k := k) (cs' k).ineq fun v hv i => ⟨hd k hk v hv i, (ha k hk v hv i).imp_right fun h0 => by
        obtain ⟨j, hj⟩ := List.mem_iff_getElem?.mp hv
        obtain ⟨w, hw, ew⟩ := place_con (hs.ineqCons k hk).symm hj
        have := hineq k hk w (List.mem_iff_getElem?.mpr ⟨j, hw⟩)
        rw [ew] at this
        exact this i h0⟩
      exact ⟨e, fun _ => he⟩
    · exact ⟨0, fun h => absurd h hk⟩
  choose e he using h2
  have h3 : HasDerivAt (fun a : ℝ => controlCostOf p (fun k => weighted (cs' k)) Z fun k => Z.u k + a • d k) (∑ k ∈ Finset.range (p.N + 1), (0 + e k)) 0 :=
    HasDerivAt.fun_sum fun k hk => (h1 k (by have := Finset.mem_range.mp hk; omega)).add (he k (by have := Finset.mem_range.mp hk; omega)).1
  have h4 := h3.unique (hdeg d hd0)
  simp only [zero_add] at h4
  rw [Finset.sum_eq_zero_iff_of_nonneg fun k hk => (he k (by have := Finset.mem_range.mp hk; omega)).2.1] at h4
  exact h.indep cs' hs (fun k hk => (he k hk).2.2 (h4 k (Finset.mem_range.mpr (by omega)))) hdeg

end Altro.Props
