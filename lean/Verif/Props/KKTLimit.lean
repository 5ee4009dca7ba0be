import Verif.Proofs.KKTLimit
import Verif.Props.SmoothWhole

/-!
# C92: what approximate Karush-Kuhn-Tucker points converge to
-/

namespace Altro.Props
open Altro.Spec Matrix ILQR AL Filter
open scoped Topology
variable {n m : ℕ} {p : DynProblem n m ℝ} {cs : ℕ → ALCost n m ℝ} {Y : Traj (Fin n → ℝ) (Fin m → ℝ) ℝ} {μ φ : ℝ}

theorem place {κ : ConKind} {l : List (ConVal κ n m ℝ)} {v : ConVal κ n m ℝ} {j : ℕ} (hj : l[j]? = some v) (i : ℕ) (h : i < v.con.p) :
    mulAt l j i = v.lam ⟨i, h⟩ := by
  unfold mulAt
  rw [hj]
  exact dif_pos h

theorem place_con {κ : ConKind} {l l' : List (ConVal κ n m ℝ)} (e : l'.map (·.con) = l.map (·.con)) {v : ConVal κ n m ℝ} {j : ℕ} (hj : l[j]? = some v) :
    ∃ w, l'[j]? = some w ∧ w.con = v.con := by
  have h1 : (l'.map (·.con))[j]? = some v.con := by rw [e, List.getElem?_map, hj]; rfl
  rw [List.getElem?_map] at h1
  obtain ⟨w, hw, ew⟩ := Option.map_eq_some_iff.mp h1
  exact ⟨w, hw, ew⟩

/-- Values of a constraint along a convergent sequence of trajectories. -/
theorem con_limit {con : Con n m ℝ} (hs : SmoothCon con) {N k : ℕ} (hk : k ≤ N) (hN : k = N → ∀ x u u', con.eval x u = con.eval x u')
    {Zs : ℕ → Traj (Fin n → ℝ) (Fin m → ℝ) ℝ} {Z : Traj (Fin n → ℝ) (Fin m → ℝ) ℝ} (hx : Tendsto (fun l => (Zs l).x k) atTop (𝓝 (Z.x k)))
    (hu : k < N → Tendsto (fun l => (Zs l).u k) atTop (𝓝 (Z.u k))) (i : Fin con.p) :
    Tendsto (fun l => con.eval ((Zs l).x k) ((Zs l).u k) i) atTop (𝓝 (con.eval (Z.x k) (Z.u k) i)) := by
  have hc : Continuous fun z : (Fin n → ℝ) × (Fin m → ℝ) => con.eval z.1 z.2 i := (continuous_apply i).comp (IsJacAt.continuous hs.jac)
  rcases Nat.lt_or_eq_of_le hk with h | h
  · exact (hc.tendsto _).comp (hx.prodMk_nhds (hu h))
  · have : Tendsto (fun l => con.eval ((Zs l).x k) 0 i) atTop (𝓝 (con.eval (Z.x k) 0 i)) :=
      (hc.tendsto (Z.x k, 0)).comp (hx.prodMk_nhds tendsto_const_nhds)
    rw [hN h _ (Z.u k) 0]
    exact this.congr fun l => by rw [hN h _ ((Zs l).u k) 0]

/-- What approximate Karush-Kuhn-Tucker points satisfy besides stationarity. -/
structure NearSigns (p : DynProblem n m ℝ) (cs : ℕ → ALCost n m ℝ) (Z : Traj (Fin n → ℝ) (Fin m → ℝ) ℝ) (ν δ : ℝ) : Prop where
  init : Z.x 0 = p.x0
  step : ∀ k < p.N, Z.x (k + 1) = p.f k (Z.x k) (Z.u k) (Z.t k) (Z.h k)
  eq : ∀ k ≤ p.N, ∀ v ∈ (cs k).eq, ∀ i, |v.con.eval (Z.x k) (Z.u k) i| ≤ ν
  ineq : ∀ k ≤ p.N, ∀ v ∈ (cs k).ineq, ∀ i, v.con.eval (Z.x k) (Z.u k) i ≤ ν
  dual : ∀ k ≤ p.N, ∀ v ∈ (cs k).ineq, ∀ i, v.lam i ≤ 0
  slack : ∀ k ≤ p.N, ∀ v ∈ (cs k).ineq, ∀ i, v.lam i = 0 ∨ -δ ≤ v.con.eval (Z.x k) (Z.u k) i

theorem NearSigns.of_kkt {cs : ℕ → ALCost n m ℝ} {Z : Traj (Fin n → ℝ) (Fin m → ℝ) ℝ} {ε ν δ : ℝ} (h : NearKKT p cs Z ε ν δ) : NearSigns p cs Z ν δ :=
  ⟨h.init, h.step, h.eq, h.ineq, h.dual, h.slack⟩

theorem limit_signs (h : SmoothProblem p cs Y μ) {ds : ℕ → ℕ → ALCost n m ℝ} {Zs : ℕ → Traj (Fin n → ℝ) (Fin m → ℝ) ℝ} {ν δ : ℕ → ℝ}
    (hs : ∀ l, SameProblem p cs (ds l)) (ht : ∀ l, SameTimes (alKernel p) (Zs l) Y) (hK : ∀ l, NearSigns p (ds l) (Zs l) (ν l) (δ l))
    (hν : Tendsto ν atTop (𝓝 0)) (hδ : Tendsto δ atTop (𝓝 0)) {cs' : ℕ → ALCost n m ℝ}
    {Z : Traj (Fin n → ℝ) (Fin m → ℝ) ℝ} (hs' : SameProblem p cs cs') (ht' : SameTimes (alKernel p) Z Y) (hc : ConvergesTo p ds Zs cs' Z) :
    NearSigns p cs' Z 0 0 := by
  have hx : ∀ k ≤ p.N, Tendsto (fun l => (Zs l).x k) atTop (𝓝 (Z.x k)) := fun k hk => tendsto_pi_nhds.mpr fun i => hc.x k hk i
  have hu : ∀ k < p.N, Tendsto (fun l => (Zs l).u k) atTop (𝓝 (Z.u k)) := fun k hk => tendsto_pi_nhds.mpr fun i => hc.u k hk i
  have hinit : Z.x 0 = p.x0 := tendsto_nhds_unique ((hx 0 (Nat.zero_le _)).congr fun l => (hK l).init) tendsto_const_nhds
  have hstep : ∀ k < p.N, Z.x (k + 1) = p.f k (Z.x k) (Z.u k) (Z.t k) (Z.h k) := fun k hk => by
    have hf : Continuous fun z : (Fin n → ℝ) × (Fin m → ℝ) => p.f k z.1 z.2 (Y.t k) (Y.h k) := IsJacAt.continuous (h.jac k hk)
    have h1 : Tendsto (fun l => p.f k ((Zs l).x k) ((Zs l).u k) (Y.t k) (Y.h k)) atTop (𝓝 (p.f k (Z.x k) (Z.u k) (Y.t k) (Y.h k))) :=
      (hf.tendsto (Z.x k, Z.u k)).comp ((hx k hk.le).prodMk_nhds (hu k hk))
    rw [ht'.t k hk.le, ht'.h k hk]
    exact tendsto_nhds_unique ((hx (k + 1) hk).congr fun l => by rw [(hK l).step k hk, (ht l).t k hk.le, (ht l).h k hk]) h1
  have heq : ∀ k ≤ p.N, ∀ v ∈ (cs' k).eq, ∀ i, Tendsto (fun l => v.con.eval ((Zs l).x k) ((Zs l).u k) i) atTop (𝓝 (v.con.eval (Z.x k) (Z.u k) i)) := by
    intro k hk v hv
    obtain ⟨j, hj⟩ := List.mem_iff_getElem?.mp hv
    obtain ⟨w, hw, ew⟩ := place_con (hs'.eqCons k hk).symm hj
    have hw := List.mem_iff_getElem?.mpr ⟨j, hw⟩
    rw [← ew]
    exact con_limit ((h.knot k hk).eq w hw).1 hk (fun e => by subst e; exact h.termEq w hw) (hx k hk) (hu k)
  have hineq : ∀ k ≤ p.N, ∀ v ∈ (cs' k).ineq, ∀ i,
      Tendsto (fun l => v.con.eval ((Zs l).x k) ((Zs l).u k) i) atTop (𝓝 (v.con.eval (Z.x k) (Z.u k) i)) := by
    intro k hk v hv
    obtain ⟨j, hj⟩ := List.mem_iff_getElem?.mp hv
    obtain ⟨w, hw, ew⟩ := place_con (hs'.ineqCons k hk).symm hj
    have hw := List.mem_iff_getElem?.mpr ⟨j, hw⟩
    rw [← ew]
    exact con_limit ((h.knot k hk).ineq w hw).1 hk (fun e => by subst e; exact h.termIneq w hw) (hx k hk) (hu k)
  have hmul : ∀ k ≤ p.N, ∀ v ∈ (cs' k).ineq, ∀ i : Fin v.con.p, ∃ a : ℕ → ℝ, Tendsto a atTop (𝓝 (v.lam i)) ∧ (∀ l, a l ≤ 0) ∧
      ∀ l, a l = 0 ∨ -δ l ≤ v.con.eval ((Zs l).x k) ((Zs l).u k) i := by
    intro k hk v hv i
    obtain ⟨j, hj⟩ := List.mem_iff_getElem?.mp hv
    refine ⟨fun l => mulAt (ds l k).ineq j i, ?_, fun l => ?_, fun l => ?_⟩
    · have := hc.ineq k hk j i
      rwa [place hj i i.2] at this
    all_goals
      obtain ⟨w, hw, ew⟩ := place_con (((hs l).ineqCons k hk).trans (hs'.ineqCons k hk).symm) hj
      have hw' := List.mem_iff_getElem?.mpr ⟨j, hw⟩
    · show mulAt (ds l k).ineq j i ≤ 0
      have hi : (i : ℕ) < w.con.p := by rw [ew]; exact i.2
      rw [place hw i hi]
      exact (hK l).dual k hk w hw' _
    · have h1 : ∀ (i : ℕ) (hi : i < w.con.p), mulAt (ds l k).ineq j i = 0 ∨ -δ l ≤ w.con.eval ((Zs l).x k) ((Zs l).u k) ⟨i, hi⟩ := fun i hi => by
        rw [place hw i hi]
        exact (hK l).slack k hk w hw' _
      rw [ew] at h1
      exact h1 i i.2
  have heqv : ∀ k ≤ p.N, ∀ v ∈ (cs' k).eq, ∀ l, ∀ i, |v.con.eval ((Zs l).x k) ((Zs l).u k) i| ≤ ν l := by
    intro k hk v hv l
    obtain ⟨j, hj⟩ := List.mem_iff_getElem?.mp hv
    obtain ⟨w, hw, ew⟩ := place_con (((hs l).eqCons k hk).trans (hs'.eqCons k hk).symm) hj
    have h1 := (hK l).eq k hk w (List.mem_iff_getElem?.mpr ⟨j, hw⟩)
    rw [ew] at h1
    exact h1
  have hineqv : ∀ k ≤ p.N, ∀ v ∈ (cs' k).ineq, ∀ l, ∀ i, v.con.eval ((Zs l).x k) ((Zs l).u k) i ≤ ν l := by
    intro k hk v hv l
    obtain ⟨j, hj⟩ := List.mem_iff_getElem?.mp hv
    obtain ⟨w, hw, ew⟩ := place_con (((hs l).ineqCons k hk).trans (hs'.ineqCons k hk).symm) hj
    have h1 := (hK l).ineq k hk w (List.mem_iff_getElem?.mpr ⟨j, hw⟩)
    rw [ew] at h1
    exact h1
  refine ⟨hinit, hstep, fun k hk v hv i => ?_, fun k hk v hv i => ?_, fun k hk v hv i => ?_, fun k hk v hv i => ?_⟩
  · exact le_of_tendsto_of_tendsto' (heq k hk v hv i).abs hν fun l => heqv k hk v hv l i
  · exact le_of_tendsto_of_tendsto' (hineq k hk v hv i) hν fun l => hineqv k hk v hv l i
  · obtain ⟨a, h1, h2, -⟩ := hmul k hk v hv i
    exact le_of_tendsto' h1 h2
  · obtain ⟨a, h1, h2, h3⟩ := hmul k hk v hv i
    by_cases h0 : v.lam i = 0
    · exact .inl h0
    · refine .inr (le_of_tendsto_of_tendsto hδ.neg (hineq k hk v hv i) ?_)
      filter_upwards [h1.eventually_ne h0] with l hl
      exact (h3 l).resolve_left hl

/-- The limit of approximate Karush-Kuhn-Tucker points with errors that vanish is a Karush-Kuhn-Tucker point. -/
theorem C92_limit (h : SmoothProblem p cs Y μ) {ds : ℕ → ℕ → ALCost n m ℝ} {Zs : ℕ → Traj (Fin n → ℝ) (Fin m → ℝ) ℝ} {ε ν δ : ℕ → ℝ}
    (hs : ∀ l, SameProblem p cs (ds l)) (ht : ∀ l, SameTimes (alKernel p) (Zs l) Y) (hK : ∀ l, NearKKT p (ds l) (Zs l) (ε l) (ν l) (δ l))
    (hε : Tendsto ε atTop (𝓝 0)) (hν : Tendsto ν atTop (𝓝 0)) (hδ : Tendsto δ atTop (𝓝 0)) {cs' : ℕ → ALCost n m ℝ}
    {Z : Traj (Fin n → ℝ) (Fin m → ℝ) ℝ} (hs' : SameProblem p cs cs') (ht' : SameTimes (alKernel p) Z Y) (hc : ConvergesTo p ds Zs cs' Z) :
    KKT p cs' Z := by
  have hS := limit_signs h hs ht (fun l => NearSigns.of_kkt (hK l)) hν hδ hs' ht' hc
  have hu : ∀ k < p.N, Tendsto (fun l => (Zs l).u k) atTop (𝓝 (Z.u k)) := fun k hk => tendsto_pi_nhds.mpr fun i => hc.u k hk i
  refine (C88_exact Z).mp ⟨hS.init, hS.step, hS.eq, hS.ineq, ?_, hS.dual, hS.slack⟩
  rw [lagSq_iff h hs' ⟨hS.init, hS.step⟩ ht']
  have h1 : ∀ l, lagSq p cs Y (multsOf p (ds l)) (ctl p.N (Zs l)) ≤ ε l ^ 2 := fun l =>
    (lagSq_iff h (hs l) ⟨(hK l).init, (hK l).step⟩ (ht l)).mp (hK l).stationary
  have hθ : Tendsto (fun l => multsOf p (ds l)) atTop (𝓝 (multsOf p cs')) := by
    refine tendsto_pi_nhds.mpr fun k => ?_
    unfold multsOf
    by_cases hk : k ≤ p.N
    · simp only [if_pos hk]
      refine tendsto_pi_nhds.mpr fun b => tendsto_pi_nhds.mpr fun j => tendsto_pi_nhds.mpr fun i => ?_
      cases b
      · show Tendsto (fun l => getMul (ds l k).ineq j i) atTop (𝓝 (getMul (cs' k).ineq j i))
        simp only [← mulAt_eq]; exact hc.ineq k hk j i
      · show Tendsto (fun l => getMul (ds l k).eq j i) atTop (𝓝 (getMul (cs' k).eq j i))
        simp only [← mulAt_eq]; exact hc.eq k hk j i
    · simp only [if_neg hk]; exact tendsto_const_nhds
  have hU : Tendsto (fun l => ctl p.N (Zs l)) atTop (𝓝 (ctl p.N Z)) := by
    refine tendsto_pi_nhds.mpr fun k => ?_
    unfold ctl
    by_cases hk : k < p.N
    · simp only [if_pos hk]; exact hu k hk
    · simp only [if_neg hk]; exact tendsto_const_nhds
  exact le_of_tendsto_of_tendsto' (((lagSq_continuous h).tendsto (multsOf p cs', ctl p.N Z)).comp (hθ.prodMk_nhds hU)) (hε.pow 2) h1

/-- The limit of trajectories and multipliers from the limits of the controls and of the tables of multipliers. -/
theorem converges_of (h : SmoothProblem p cs Y μ) {ds : ℕ → ℕ → ALCost n m ℝ} {Zs : ℕ → Traj (Fin n → ℝ) (Fin m → ℝ) ℝ}
    (hs : ∀ l, SameProblem p cs (ds l)) (ht : ∀ l, SameTimes (alKernel p) (Zs l) Y) (hZ : ∀ l, DynFeasible (alKernel p) (Zs l))
    {θ : Mults} {U : ℕ → Fin m → ℝ} (hθ : Tendsto (fun l => multsOf p (ds l)) atTop (𝓝 θ)) (hU : Tendsto (fun l => ctl p.N (Zs l)) atTop (𝓝 U)) :
    ConvergesTo p ds Zs (fun k => withMul 1 (θ k) (cs k)) ⟨openLoop p Y U, U, Y.t, Y.h⟩ := by
  have hθk : ∀ k ≤ p.N, Tendsto (fun l => mulOf (ds l k)) atTop (𝓝 (θ k)) := fun k hk => by
    have := tendsto_pi_nhds.mp hθ k
    simpa only [multsOf, if_pos hk] using this
  refine ⟨fun k hk i => ?_, fun k hk i => ?_, fun k hk j i => ?_, fun k hk j i => ?_⟩
  · have h1 := ((continuous_apply i).tendsto _).comp (((continuous_fst.comp (SmoothDyn.cont_pair h.base k hk)).tendsto U).comp hU)
    refine h1.congr fun l => ?_
    exact congrFun (openLoop_ctl (hZ l) (ht l) k hk) i
  · refine (tendsto_pi_nhds.mp (tendsto_pi_nhds.mp hU k) i).congr fun l => ?_
    rw [ctl_of_lt _ hk]
  · rw [mulAt_eq]
    have h1 := tendsto_pi_nhds.mp (hθk k hk) true
    refine (((setMul_getMul_continuous 1 (cs k).eq j i).tendsto (θ k true)).comp h1).congr fun l => ?_
    show getMul (setMul 1 (getMul (ds l k).eq) (cs k).eq) j i = mulAt (ds l k).eq j i
    rw [getMul_setMul 1 ((hs l).eqCons k hk), mulAt_eq]
  · rw [mulAt_eq]
    have h1 := tendsto_pi_nhds.mp (hθk k hk) false
    refine (((setMul_getMul_continuous 1 (cs k).ineq j i).tendsto (θ k false)).comp h1).congr fun l => ?_
    show getMul (setMul 1 (getMul (ds l k).ineq) (cs k).ineq) j i = mulAt (ds l k).ineq j i
    rw [getMul_setMul 1 ((hs l).ineqCons k hk), mulAt_eq]

/-- Every sequence of approximate Karush-Kuhn-Tucker points with bounded controls and multipliers and errors that vanish has a subsequence
that converges to a Karush-Kuhn-Tucker point. -/
theorem C92_accumulation (h : SmoothProblem p cs Y μ) {ds : ℕ → ℕ → ALCost n m ℝ} {Zs : ℕ → Traj (Fin n → ℝ) (Fin m → ℝ) ℝ} {ε ν δ : ℕ → ℝ}
    (hs : ∀ l, SameProblem p cs (ds l)) (ht : ∀ l, SameTimes (alKernel p) (Zs l) Y) (hK : ∀ l, NearKKT p (ds l) (Zs l) (ε l) (ν l) (δ l))
    (hε : Tendsto ε atTop (𝓝 0)) (hν : Tendsto ν atTop (𝓝 0)) (hδ : Tendsto δ atTop (𝓝 0)) {R M : ℝ}
    (hR : ∀ l, ∀ k < p.N, ∀ i, |(Zs l).u k i| ≤ R) (hM : ∀ l, ∀ k ≤ p.N, (∀ v ∈ (ds l k).eq, ∀ i, |v.lam i| ≤ M) ∧ ∀ v ∈ (ds l k).ineq, ∀ i, |v.lam i| ≤ M) :
    ∃ (σ : ℕ → ℕ) (cs' : ℕ → ALCost n m ℝ) (Z : Traj (Fin n → ℝ) (Fin m → ℝ) ℝ), StrictMono σ ∧ SameProblem p cs cs' ∧
      SameTimes (alKernel p) Z Y ∧ ConvergesTo p (ds ∘ σ) (Zs ∘ σ) cs' Z ∧ KKT p cs' Z := by
  have hM' : ∀ l k b j i, |multsOf p (ds l) k b j i| ≤ |M| := by
    intro l k b j i
    unfold multsOf
    split
    · rename_i hk
      cases b
      · exact getMul_le (abs_nonneg M) (fun v hv i => ((hM l k hk).2 v hv i).trans (le_abs_self M)) j i
      · exact getMul_le (abs_nonneg M) (fun v hv i => ((hM l k hk).1 v hv i).trans (le_abs_self M)) j i
    · show |(0 : ℝ)| ≤ _; rw [abs_zero]; exact abs_nonneg M
  have hR' : ∀ l k i, |ctl p.N (Zs l) k i| ≤ |R| := by
    intro l k i
    unfold ctl
    split
    · rename_i hk; exact (hR l k hk i).trans (le_abs_self R)
    · simp
  obtain ⟨⟨θ, U⟩, -, σ, hσ, hlim⟩ := ((mults_compact |M|).prod (controls_compact (m := m) |R|)).tendsto_subseq
    (x := fun l => (multsOf p (ds l), ctl p.N (Zs l))) fun l => ⟨hM' l, hR' l⟩
  have hθ : Tendsto (fun l => multsOf p (ds (σ l))) atTop (𝓝 θ) := (continuous_fst.tendsto _).comp hlim
  have hU : Tendsto (fun l => ctl p.N (Zs (σ l))) atTop (𝓝 U) := (continuous_snd.tendsto _).comp hlim
  let cs' : ℕ → ALCost n m ℝ := fun k => withMul 1 (θ k) (cs k)
  let Z : Traj (Fin n → ℝ) (Fin m → ℝ) ℝ := ⟨openLoop p Y U, U, Y.t, Y.h⟩
  have hs' : SameProblem p cs cs' := ⟨fun _ _ => rfl, fun k _ => setMul_con 1 _ (cs k).eq, fun k _ => setMul_con 1 _ (cs k).ineq⟩
  have ht' : SameTimes (alKernel p) Z Y := ⟨fun _ _ => rfl, fun _ _ => rfl⟩
  have hc : ConvergesTo p (ds ∘ σ) (Zs ∘ σ) cs' Z :=
    converges_of h (fun l => hs (σ l)) (fun l => ht (σ l)) (fun l => ⟨(hK (σ l)).init, (hK (σ l)).step⟩) hθ hU
  exact ⟨σ, cs', Z, hσ, hs', ht', hc, C92_limit h (fun l => hs (σ l)) (fun l => ht (σ l)) (fun l => hK (σ l)) (hε.comp hσ.tendsto_atTop)
    (hν.comp hσ.tendsto_atTop) (hδ.comp hσ.tendsto_atTop) hs' ht' hc⟩

/-- The problem of a solve that ended is the one it started with. -/
theorem NearSolved.same {o : Opts ℝ} {ρ ε : ℝ} {s : ALSt (Fin n → ℝ) (Fin m → ℝ) ℝ (ALCost n m ℝ) (KP n m ℝ)} {prev : ℕ → ALCost n m ℝ}
    (h : NearSolved p o cs ρ ε s prev) : SameProblem p cs s.st.cs := by
  refine ⟨fun k hk => ?_, fun k hk => ?_, fun k hk => ?_⟩
  · rw [h.update k hk, ← h.cost k hk]; rfl
  · rw [h.update k hk, ← h.eqCons k hk]; simp only [ALCost.updateDuals, List.map_map]; rfl
  · rw [h.update k hk, ← h.ineqCons k hk]; simp only [ALCost.updateDuals, List.map_map]; rfl

/-- Solves with ever smaller tolerances: if all of them report `kSolved`, controls and multipliers stay bounded, and the penalties grow beyond
all bounds, then a subsequence of the results converges to a Karush-Kuhn-Tucker point of the problem. -/
theorem C92_solves (h : SmoothProblem p cs Y μ) {o : ℕ → Opts ℝ} {ρ ε : ℕ → ℝ} {s : ℕ → ALSt (Fin n → ℝ) (Fin m → ℝ) ℝ (ALCost n m ℝ) (KP n m ℝ)}
    {prev : ℕ → ℕ → ALCost n m ℝ} (hN : ∀ l, NearSolved p (o l) cs (ρ l) (ε l) (s l) (prev l)) (hst : ∀ l, (s l).status = .kSolved)
    (ht : ∀ l, SameTimes (alKernel p) (s l).st.Z Y) (h0 : ∀ l, 0 ≤ ε l) (hε : Tendsto ε atTop (𝓝 0))
    (hcon : Tendsto (fun l => (o l).conTol) atTop (𝓝 0)) (hρ : Tendsto ρ atTop atTop) {R M : ℝ}
    (hR : ∀ l, ∀ k < p.N, ∀ i, |(s l).st.Z.u k i| ≤ R)
    (hM : ∀ l, ∀ k ≤ p.N, (∀ v ∈ ((s l).st.cs k).eq, ∀ i, |v.lam i| ≤ M) ∧ ∀ v ∈ ((s l).st.cs k).ineq, ∀ i, |v.lam i| ≤ M)
    (hP : ∀ l, ∀ k ≤ p.N, ∀ v ∈ (prev l k).ineq, ∀ i, |v.lam i| ≤ M) :
    ∃ (σ : ℕ → ℕ) (cs' : ℕ → ALCost n m ℝ) (Z : Traj (Fin n → ℝ) (Fin m → ℝ) ℝ), StrictMono σ ∧ SameProblem p cs cs' ∧
      SameTimes (alKernel p) Z Y ∧ ConvergesTo p (fun l => (s (σ l)).st.cs) (fun l => (s (σ l)).st.Z) cs' Z ∧ KKT p cs' Z := by
  have hδ : Tendsto (fun l => M / ρ l + ε l) atTop (𝓝 0) := by simpa using (hρ.const_div_atTop M).add hε
  have hν : Tendsto (fun l => (o l).conTol + ε l) atTop (𝓝 0) := by simpa using hcon.add hε
  exact C92_accumulation h (fun l => NearSolved.same (hN l)) ht (fun l => C88_solved (hN l) (h0 l) (hst l) (hP l)) hε hν hδ hR hM

end Altro.Props
