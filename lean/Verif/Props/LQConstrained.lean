import Verif.Spec.LQEquality
import Mathlib.Tactic.Module
import Verif.Proofs.LQCore
import Verif.Props.ALConverge
import Verif.Proofs.LQMultipliers
import Verif.Props.LQExamples
import Mathlib.Algebra.Order.Archimedean.Basic

/-!
# C80: linear-quadratic problems with equality constraints
-/

namespace Altro.Props
open Altro.Spec Matrix ILQR
variable {K : Type} [Field K] [LinearOrder K] [IsStrictOrderedRing K] {n m : ℕ}

/-! ## The augmented cost is a convex quadratic -/

theorem quadModel_add (H H' : ConVal.HessBlocks n m K) (g g' : (Fin n → K) × (Fin m → K)) (δx : Fin n → K) (δu : Fin m → K) :
    quadModel ⟨(ALCost.addHess H H').dxdx, (ALCost.addHess H H').dxdu, (ALCost.addHess H H').dudu, g.1 + g'.1, g.2 + g'.2⟩ δx δu
      = quadModel ⟨H.dxdx, H.dxdu, H.dudu, g.1, g.2⟩ δx δu + quadModel ⟨H'.dxdx, H'.dxdu, H'.dudu, g'.1, g'.2⟩ δx δu := by
  simp only [quadModel, ALCost.addHess, add_mulVec, dotProduct_add, add_dotProduct]
  ring

/-- The term of an affine equality constraint is a quadratic with the reported derivatives. -/
theorem augLag_quadratic (v : ConVal .equality n m K) (hρ : 0 < v.rho) (x : Fin n → K) (u : Fin m → K) (δx : Fin n → K)
    (δu : Fin m → K) (hc : v.con.eval (x + δx) (u + δu)
      = v.con.eval x u + (v.con.jac x u).toCols₁ *ᵥ δx + (v.con.jac x u).toCols₂ *ᵥ δu) :
    (v.augLag (x + δx) (u + δu)).1 = (v.augLag x u).1
      + quadModel ⟨(v.augLagHessian x u).1.dxdx, (v.augLagHessian x u).1.dxdu, (v.augLagHessian x u).1.dudu,
          (v.augLagGradient x u).1.1, (v.augLagGradient x u).1.2⟩ δx δu := by
  rw [C02_auglag_equality_vec v _ _ hρ, C02_auglag_equality_vec v _ _ hρ, hc]
  have e1 : (v.augLagGradient x u).1 =
      (-(((1 : Matrix (Fin v.con.p) (Fin v.con.p) K) * (v.con.jac x u).toCols₁)ᵀ *ᵥ (v.lam - v.rho • v.con.eval x u)),
       -(((1 : Matrix (Fin v.con.p) (Fin v.con.p) K) * (v.con.jac x u).toCols₂)ᵀ *ᵥ (v.lam - v.rho • v.con.eval x u))) := rfl
  have e2 : (v.augLagHessian x u).1 =
      { dxdx := v.rho • (((1 : Matrix (Fin v.con.p) (Fin v.con.p) K) * v.con.jac x u).toCols₁ᵀ * ((1 : Matrix (Fin v.con.p) (Fin v.con.p) K) * v.con.jac x u).toCols₁)
        dxdu := v.rho • (((1 : Matrix (Fin v.con.p) (Fin v.con.p) K) * v.con.jac x u).toCols₁ᵀ * ((1 : Matrix (Fin v.con.p) (Fin v.con.p) K) * v.con.jac x u).toCols₂)
        dudu := v.rho • (((1 : Matrix (Fin v.con.p) (Fin v.con.p) K) * v.con.jac x u).toCols₂ᵀ * ((1 : Matrix (Fin v.con.p) (Fin v.con.p) K) * v.con.jac x u).toCols₂) } := rfl
  rw [e1, e2]
  simp only [Matrix.one_mul, quadModel]
  generalize v.con.eval x u = c
  generalize (v.con.jac x u).toCols₁ = A
  generalize (v.con.jac x u).toCols₂ = B
  generalize v.lam = l
  generalize v.rho = r
  have hq : ∀ {a b q : ℕ} (M : Matrix (Fin q) (Fin a) K) (M' : Matrix (Fin q) (Fin b) K) (y : Fin a → K) (z : Fin b → K),
      y ⬝ᵥ (r • (Mᵀ * M')) *ᵥ z = r * ((M *ᵥ y) ⬝ᵥ (M' *ᵥ z)) := by
    intro a b q M M' y z
    rw [smul_mulVec, dotProduct_smul, smul_eq_mul, ← mulVec_mulVec, dotProduct_mulVec, vecMul_transpose]
  have hg : ∀ {a q : ℕ} (M : Matrix (Fin q) (Fin a) K) (w : Fin q → K) (y : Fin a → K),
      (-(Mᵀ *ᵥ w)) ⬝ᵥ y = -(w ⬝ᵥ M *ᵥ y) := by
    intro a q M w y
    rw [neg_dotProduct, mulVec_transpose, dotProduct_mulVec]
  rw [hq, hq, hq, hg, hg]
  generalize A *ᵥ δx = a
  generalize B *ᵥ δu = b
  simp only [sub_dotProduct, smul_dotProduct, smul_eq_mul, dotProduct_add, add_dotProduct]
  rw [dotProduct_comm a c, dotProduct_comm b c, dotProduct_comm b a]
  ring

theorem foldl_quadratic (l : List (ConVal .equality n m K)) (x : Fin n → K) (u : Fin m → K) (δx : Fin n → K) (δu : Fin m → K)
    (h : ∀ v ∈ l, 0 < v.rho ∧ v.con.eval (x + δx) (u + δu)
      = v.con.eval x u + (v.con.jac x u).toCols₁ *ᵥ δx + (v.con.jac x u).toCols₂ *ᵥ δu) :
    ∀ (J J' : K) (g : (Fin n → K) × (Fin m → K)) (H : ConVal.HessBlocks n m K),
      J' = J + quadModel ⟨H.dxdx, H.dxdu, H.dudu, g.1, g.2⟩ δx δu →
      l.foldl (fun J v => J + (v.augLag (x + δx) (u + δu)).1) J' = l.foldl (fun J v => J + (v.augLag x u).1) J
        + quadModel ⟨(l.foldl (fun H v => ALCost.addHess H (v.augLagHessian x u).1) H).dxdx,
            (l.foldl (fun H v => ALCost.addHess H (v.augLagHessian x u).1) H).dxdu,
            (l.foldl (fun H v => ALCost.addHess H (v.augLagHessian x u).1) H).dudu,
            (l.foldl (fun g v => (g.1 + (v.augLagGradient x u).1.1, g.2 + (v.augLagGradient x u).1.2)) g).1,
            (l.foldl (fun g v => (g.1 + (v.augLagGradient x u).1.1, g.2 + (v.augLagGradient x u).1.2)) g).2⟩ δx δu := by
  induction l with
  | nil => exact fun J J' g H e => e
  | cons v l ih =>
    intro J J' g H e
    simp only [List.foldl_cons]
    refine ih (fun w hw => h w (by simp [hw])) _ _ _ _ ?_
    obtain ⟨h1, h2⟩ := h v (by simp)
    have := quadModel_add H (v.augLagHessian x u).1 g (v.augLagGradient x u).1 δx δu
    rw [this, e, augLag_quadratic v h1 x u δx δu h2]
    ring

theorem _root_.Altro.Spec.QuadKnot.expOf_eq {c : ALCost n m K} (h : QuadKnot c) (x : Fin n → K) (u : Fin m → K) :
    (c.gradient x u).1 = c.eq.foldl (fun g v => (g.1 + (v.augLagGradient x u).1.1, g.2 + (v.augLagGradient x u).1.2)) (c.cost.grad x u) ∧
    ((c.gradient x u).2.hessian x u).1 = c.eq.foldl (fun H v => ALCost.addHess H (v.augLagHessian x u).1) (c.cost.hess x u) := by
  simp only [ALCost.gradient, ALCost.hessian, h.free, List.map_nil, List.foldl_nil, List.foldl_map, List.map_map]
  exact ⟨trivial, rfl⟩

theorem _root_.Altro.Spec.QuadKnot.quadratic {c : ALCost n m K} (h : QuadKnot c) (hρ : ∀ v ∈ c.eq, 0 < v.rho) (x : Fin n → K) (u : Fin m → K)
    (δx : Fin n → K) (δu : Fin m → K) :
    (c.evaluate (x + δx) (u + δu)).1 = (c.evaluate x u).1 + quadModel (expOf c x u) δx δu := by
  obtain ⟨e1, e2⟩ := h.expOf_eq x u
  unfold expOf
  rw [e1, e2]
  have := foldl_quadratic c.eq x u δx δu (fun v hv => ⟨hρ v hv, h.con v hv x u δx δu⟩) (c.cost.eval x u)
    (c.cost.eval (x + δx) (u + δu)) (c.cost.grad x u) (c.cost.hess x u) (h.quad.exact x u δx δu)
  simp only [ALCost.evaluate, h.free, List.map_nil, List.foldl_nil, List.foldl_map]
  exact this

theorem _root_.Altro.Spec.QuadKnot.convex {c : ALCost n m K} (h : QuadKnot c) (hρ : ∀ v ∈ c.eq, 0 < v.rho) (x : Fin n → K) (u : Fin m → K) :
    ConvexExp (expOf c x u) := by
  have := C04_augmented_hessian_psd (c.gradient x u).2 x u (h.conv x u) (by
    intro v hv
    obtain ⟨r, hr, rfl⟩ := List.mem_map.mp hv
    obtain ⟨w, hw, rfl⟩ := List.mem_map.mp hr
    exact (hρ w hw).le) (by
    intro v hv
    have : (c.gradient x u).2.ineq = [] := by simp only [ALCost.gradient, h.free, List.map_nil]
    rw [this] at hv
    cases hv)
  exact ⟨this.symx, this.symu, fun δx δu => this.nonneg δx δu⟩

theorem _root_.Altro.Spec.QuadKnot.posDef {c : ALCost n m K} (h : QuadKnot c) (hρ : ∀ v ∈ c.eq, 0 < v.rho) (x : Fin n → K) (u : Fin m → K)
    (hp : PosDef (c.cost.hess x u).dudu) : PosDef (expOf c x u).dudu := by
  have hu : (expOf c x u).dudu = (c.eq.foldl (fun H v => ALCost.addHess H (v.augLagHessian x u).1) (c.cost.hess x u)).dudu :=
    congrArg ConVal.HessBlocks.dudu (h.expOf_eq x u).2
  rw [hu]
  have : ∀ (l : List (ConVal .equality n m K)) (H : ConVal.HessBlocks n m K), (∀ v ∈ l, 0 < v.rho) → PosDef H.dudu →
      PosDef (l.foldl (fun H v => ALCost.addHess H (v.augLagHessian x u).1) H).dudu := by
    intro l
    induction l with
    | nil => exact fun H _ hH => hH
    | cons v l ih =>
      intro H hl hH
      refine ih _ (fun w hw => hl w (by simp [hw])) fun z hz => ?_
      have h1 := hH z hz
      have h2 := (C04_hessian_psd v x u (hl v (by simp)).le).nonneg 0 z
      have h3 : 0 ≤ z ⬝ᵥ (v.augLagHessian x u).1.dudu *ᵥ z := by simpa [quadForm] using h2
      show 0 < z ⬝ᵥ (H.dudu + (v.augLagHessian x u).1.dudu) *ᵥ z
      rw [add_mulVec, dotProduct_add]
      linarith
  exact this _ _ hρ hp

/-! ## Problems up to multipliers and penalties -/

theorem _root_.Altro.Spec.QuadKnot.congr {c c' : ALCost n m K} (h : QuadKnot c) (e : c'.static = c.static) : QuadKnot c' := by
  simp only [ALCost.static, ALCost.mk.injEq] at e
  obtain ⟨e1, e2, e3⟩ := e
  refine ⟨?_, by rw [e1]; exact h.quad, by rw [e1]; exact h.conv, fun v hv => ?_⟩
  · rw [h.free, List.map_nil, List.map_eq_nil_iff] at e3; exact e3
  · have : v.static ∈ c.eq.map ConVal.static := by rw [← e2]; exact List.mem_map_of_mem hv
    obtain ⟨w, hw, ew⟩ := List.mem_map.mp this
    have := h.con w hw
    have hc : ∀ x u δx δu, w.static.con.eval (x + δx) (u + δu) = w.static.con.eval x u
      + (w.static.con.jac x u).toCols₁ *ᵥ δx + (w.static.con.jac x u).toCols₂ *ᵥ δu := this
    rw [ew] at hc
    exact hc

theorem _root_.Altro.Spec.LQEquality.congr {p : DynProblem n m K} {cs cs' : ℕ → ALCost n m K} (h : LQEquality p cs)
    (e : ∀ k ≤ p.N, (cs' k).static = (cs k).static) : LQEquality p cs' where
  dyn := h.dyn
  knot k hk := (h.knot k hk).congr (e k hk)
  pos k hk := by
    have := congrArg ALCost.cost (e k hk.le)
    have e1 : (cs' k).cost = (cs k).cost := this
    rw [e1]; exact h.pos k hk
  term := by
    have := congrArg ALCost.cost (e _ le_rfl)
    have e1 : (cs' p.N).cost = (cs p.N).cost := this
    rw [e1]; exact h.term
  termCon v hv := by
    have e2 : (cs' p.N).eq.map ConVal.static = (cs p.N).eq.map ConVal.static := congrArg ALCost.eq (e _ le_rfl)
    have : v.static ∈ (cs p.N).eq.map ConVal.static := by rw [← e2]; exact List.mem_map_of_mem hv
    obtain ⟨w, hw, ew⟩ := List.mem_map.mp this
    have hc : ∀ x u u', w.static.con.eval x u = w.static.con.eval x u' := h.termCon w hw
    rw [ew] at hc
    exact hc

theorem penU_core {c c' : ALCost n m K} {ρ : K} (e : c'.core = c.core) (h : PenU c ρ) : PenU c' ρ := by
  simp only [ALCost.core, ALCost.mk.injEq] at e
  obtain ⟨-, e2, e3⟩ := e
  constructor
  · intro v hv
    have : v.core ∈ c.eq.map ConVal.core := by rw [← e2]; exact List.mem_map_of_mem hv
    obtain ⟨w, hw, ew⟩ := List.mem_map.mp this
    have hc : ∀ i, w.core.pen i = ρ := h.1 w hw
    rw [ew] at hc
    exact hc
  · intro v hv
    have : v.core ∈ c.ineq.map ConVal.core := by rw [← e3]; exact List.mem_map_of_mem hv
    obtain ⟨w, hw, ew⟩ := List.mem_map.mp this
    have hc : ∀ i, w.core.pen i = ρ := h.2 w hw
    rw [ew] at hc
    exact hc

theorem _root_.Altro.Spec.LQEquality.core {p : DynProblem n m K} {cs : ℕ → ALCost n m K} (h : LQEquality p cs) {ρ : K} (hρ : 0 < ρ)
    (hpen : ∀ k ≤ p.N, PenU (cs k) ρ) : CoreLQ p cs := by
  have hst : ∀ {c c' : ALCost n m K}, c.core = c'.core → c.static = c'.static := fun e => by
    rw [← ALCost.static_of_core, e, ALCost.static_of_core]
  have hr : ∀ k ≤ p.N, ∀ c : ALCost n m K, c.core = (cs k).core → ∀ v ∈ c.eq, 0 < v.rho := fun k hk c hc v hv => by
    rw [show v.rho = ρ from (penU_core hc (hpen k hk)).1 v hv _]; exact hρ
  refine ⟨⟨h.dyn, fun k hk c hc => ((h.knot k hk).congr (hst hc)).convex (hr k hk c hc), fun k hk c hc x u => ?_,
    fun x u u' => ?_, fun x u u' => ?_⟩, fun k hk c hc => ((h.knot k hk).congr (hst hc)).quadratic (hr k hk c hc)⟩
  · refine ((h.knot k hk.le).congr (hst hc)).posDef (hr k hk.le c hc) x u ?_
    have e0 := congrArg ALCost.cost (hst hc)
    have e1 : c.cost = (cs k).cost := e0
    rw [e1]; exact h.pos k hk x u
  · rw [C02_evaluate_eq, C02_evaluate_eq, h.term x u u', (h.knot _ le_rfl).free]
    simp only [List.map_nil, List.sum_nil, add_zero, add_right_inj]
    refine congrArg List.sum (List.map_congr_left fun v hv => ?_)
    rw [C02_auglag_equality v _ _ (hr _ le_rfl _ rfl v hv), C02_auglag_equality v _ _ (hr _ le_rfl _ rfl v hv),
      h.termCon v hv x u u']
  · simp only [ALCost.valuesAt, ALCost.static, List.map_map, (h.knot _ le_rfl).free, List.map_nil, Prod.mk.injEq, and_true]
    refine List.map_congr_left fun v hv => ?_
    have := h.termCon v hv x u u'
    show (⟨v.con.p, v.con.eval x u⟩ : Σ q : ℕ, Fin q → K) = ⟨v.con.p, v.con.eval x u'⟩
    rw [this]

theorem _root_.Altro.Spec.LQEquality.convex {p : DynProblem n m K} {cs : ℕ → ALCost n m K} (h : LQEquality p cs) : ConvexProblem p cs where
  dyn k hk x x' u u' τ hh t _ _ := by
    have h1 := h.dyn k hk x u τ hh (t • (x' - x)) (t • (u' - u))
    have h2 := h.dyn k hk x u τ hh (x' - x) (u' - u)
    rw [add_sub_cancel, add_sub_cancel] at h2
    rw [h1, h2, mulVec_smul, mulVec_smul]
    module
  cost k hk x x' u u' t h0 h1 := by
    have e1 := (h.knot k hk).quad.exact x u (t • (x' - x)) (t • (u' - u))
    have e2 := (h.knot k hk).quad.exact x u (x' - x) (u' - u)
    rw [add_sub_cancel, add_sub_cancel] at e2
    have e3 := ((h.knot k hk).conv x u).nonneg (x' - x) (u' - u)
    rw [e1, e2]
    simp only [quadModel, quadForm, mulVec_smul, dotProduct_smul, smul_dotProduct, smul_eq_mul] at e3 ⊢
    nlinarith [mul_nonneg (mul_nonneg h0 (sub_nonneg.mpr h1)) e3]
  eq k hk v hv i x x' u u' t _ _ := by
    have e1 := congrFun ((h.knot k hk).con v hv x u (t • (x' - x)) (t • (u' - u))) i
    have e2 := congrFun ((h.knot k hk).con v hv x u (x' - x) (u' - u)) i
    rw [add_sub_cancel, add_sub_cancel] at e2
    rw [e1, e2]
    simp only [Pi.add_apply, mulVec_smul, Pi.smul_apply, smul_eq_mul]
    ring
  ineq k hk v hv := by rw [(h.knot k hk).free] at hv; cases hv

/-! ## The solver -/

section solver
variable {p : DynProblem n m K} {o : Opts K} {fuel : ℕ}

/-- One inner solve, with any multipliers and any positive penalty, from any starting trajectory: it returns after at most two
iterations with `kSolved`, and the returned trajectory minimises the augmented Lagrangian. -/
theorem C80_inner {s : St (Fin n → K) (Fin m → K) K (ALCost n m K) (KP n m K)} (h : LQEquality p s.cs) (ho : LQOptions o)
    (hN : p.N ≠ 0) {ρ : K} (hρ : 0 < ρ) (hpen : ∀ k ≤ p.N, PenU (s.cs k) ρ) (htot : (s.stats.total : ℤ) + 1 < o.maxTotal) :
    ∃ t, ILQR.solve (alKernel p) o (fuel + 1) s = some t ∧ ExactSolve p s t ∧ t.status = .kSolved ∧
      t.stats.total ≤ s.stats.total + 2 := by
  obtain ⟨t, e1, e2, e3, e4⟩ := (h.core hρ hpen).solves (o := o) (fuel := fuel) hN ho.reg ho.regMin ho.regMax ho.ls ho.low ho.up
    ho.lim ho.inner ho.cost ho.grad htot
  exact ⟨t, e1, e2.exactSolve, e3, e4⟩

theorem lq_exactOn {s : St (Fin n → K) (Fin m → K) K (ALCost n m K) (KP n m K)} (h : LQEquality p s.cs) (ho : LQOptions o)
    (hN : p.N ≠ 0) : ExactOn p s (ILQR.solve (alKernel p) o (fuel + 1)) := by
  intro q t hst hpen _ ht
  obtain ⟨ρ, hρ, hp⟩ := hpen
  obtain ⟨t', e1, e2⟩ := ((h.congr hst).core hρ hp).solve (o := o) (fuel := fuel) hN ho.reg ho.regMin ho.regMax ho.ls ho.low ho.up
    ho.lim (by have := ho.inner; omega)
  rw [e1] at ht
  cases ht
  exact e2.exactSolve

/-- The whole solver on a linear-quadratic problem with affine equality constraints that has multipliers `λ*`.  From any
starting trajectory, multipliers and penalties: it returns; if `‖λ*‖ < ρ_J · tolerance` for some `J` allowed by the penalty and
iteration limits, it reports `kSolved` after at most `J + 1` outer iterations of at most two inner ones each, no constraint is
violated by the tolerance, and the objective is at most `tolerance · ‖λ*‖₁` below and `tolerance (M / 2 + 2 ‖λ*‖²)` above the
optimum, where `M` is the number of scalar constraints. -/
theorem C80_solve {φ : K} {s : ALSt (Fin n → K) (Fin m → K) K (ALCost n m K) (KP n m K)}
    {zs : Traj (Fin n → K) (Fin m → K) K} {star : List K}
    (h : LQEquality p s.st.cs) (ho : LQOptions o) (hN : p.N ≠ 0)
    (hφ : 1 ≤ φ) (hpos : 0 < o.initialPenalty) (htol : 0 < o.conTol) (hr : o.resetDuals = true)
    (hscale : ∀ k ≤ p.N, ScaleU (s.st.cs k) φ)
    (hs : Saddle (Alternative p s.st.Z) (plainCost p s.st.cs) (rows p s.st.cs) zs star)
    (J : ℕ) (hJ : normSq star < (o.initialPenalty * φ ^ J * o.conTol) ^ 2) (hJpen : o.initialPenalty * φ ^ J ≤ o.maxPenalty)
    (hJout : (J : ℤ) < o.maxOuter) (hJtot : 2 * ((J : ℤ) + 1) < o.maxTotal) :
    ∃ s', AL.solve (alKernel p) alOps o (ILQR.solve (alKernel p) o (fuel + 1)) s = some s' ∧
      s'.status = .kSolved ∧ s'.st.stats.outer ≤ J + 1 ∧ s'.st.stats.total ≤ 2 * (J + 1) ∧
      (∀ r ∈ rows p s.st.cs, r.viol s'.st.Z < o.conTol) ∧
      plainCost p s.st.cs s'.st.Z ≤ plainCost p s.st.cs zs
        + o.conTol * ((rows p s.st.cs).length / 2 + 2 * normSq star) ∧
      plainCost p s.st.cs zs ≤ plainCost p s.st.cs s'.st.Z + o.conTol * (star.map (|·|)).sum := by
  have hφ0 : 0 < φ := lt_of_lt_of_le one_pos hφ
  have hex := lq_exactOn (o := o) (fuel := fuel) h ho hN
  have hko := solve_keepsOuter (alKernel p) o (fuel + 1)
  obtain ⟨s', hs'⟩ := C79_returns hφ0 hpos htol.le hr hscale h.convex hs hex (fun q hst hpen => by
    obtain ⟨ρ, hρ, hp⟩ := hpen
    obtain ⟨t, e1, _⟩ := ((h.congr hst).core hρ hp).solve (o := o) (fuel := fuel) hN ho.reg ho.regMin ho.regMax ho.ls ho.low
      ho.up ho.lim (by have := ho.inner; omega)
    exact ⟨t, e1⟩)
  have hsucc : SucceedsOn p o 2 s.st (ILQR.solve (alKernel p) o (fuel + 1)) := by
    intro q t hst hpen _ htot ht
    obtain ⟨ρ, hρ, hp⟩ := hpen
    obtain ⟨t', e1, _, e3, e4⟩ := C80_inner (fuel := fuel) (h.congr hst) ho hN hρ hp (by push_cast at htot; omega)
    rw [e1] at ht
    cases ht
    exact ⟨e3, e4⟩
  obtain ⟨c1, c2, c3, c4, c5⟩ := C79_solved hko hφ hpos htol hr hscale h.convex hs hex hs' J hJ hJpen hJout 2 hsucc hJtot
  obtain ⟨j, d1, d2, d3, d4, d5⟩ := C79_solve hko hφ0 hpos htol.le hr (by omega) hscale h.convex hs hex hs'
  have d6 := C79_solve_equality hko hφ0 hpos htol.le hr (by omega) hscale h.convex hs (fun r hr => by
    obtain ⟨k, hk, ⟨v, hv, i, rfl⟩ | ⟨v, hv, i, rfl⟩⟩ := (mem_rows p _ r).mp hr
    · rfl
    · rw [(h.knot k hk).free] at hv; cases hv) hex hs'
  have n1 : (0 : K) ≤ (rows p s.st.cs).length / 2 + 2 * normSq star := by
    have : 0 ≤ normSq star := sum_map_nonneg _ _ fun _ _ => sq_nonneg _
    positivity
  have n2 : 0 ≤ (star.map (|·|)).sum := sum_map_nonneg _ _ fun _ _ => abs_nonneg _
  have m1 := mul_le_mul_of_nonneg_right c4.le n1
  have m2 := mul_le_mul_of_nonneg_right c4.le n2
  exact ⟨s', hs', c1, c2, c3, c5, by linarith, by linarith⟩

/-- Multipliers exist whenever the constraints can be met. -/
theorem C80_multipliers {cs : ℕ → ALCost n m K} (h : LQEquality p cs) (Z : Traj (Fin n → K) (Fin m → K) K)
    (hf : ∃ Y, Alternative p Z Y ∧ ∀ r ∈ rows p cs, r.Holds Y) :
    ∃ zs star, Saddle (Alternative p Z) (plainCost p cs) (rows p cs) zs star := h.saddle Z hf

/-- The whole solver on a linear-quadratic problem with affine equality constraints that can be met, with penalties growing by a
factor greater than one.  There is an optimal trajectory `zs` and a constant `c` such that for every initial penalty and every
tolerance, if only the penalty and iteration limits are large enough, the solver returns from any starting trajectory with
`kSolved`, constraints violated by less than the tolerance and an objective within `c · tolerance` of the optimum. -/
theorem C80_converges [Archimedean K] {φ : K} {s : ALSt (Fin n → K) (Fin m → K) K (ALCost n m K) (KP n m K)}
    (h : LQEquality p s.st.cs) (hN : p.N ≠ 0) (hφ : 1 < φ) (hscale : ∀ k ≤ p.N, ScaleU (s.st.cs k) φ)
    (hf : ∃ Y, Alternative p s.st.Z Y ∧ ∀ r ∈ rows p s.st.cs, r.Holds Y) :
    ∃ (zs : Traj (Fin n → K) (Fin m → K) K) (c : K),
      (Alternative p s.st.Z zs ∧ (∀ r ∈ rows p s.st.cs, r.Holds zs) ∧
        ∀ Y, Alternative p s.st.Z Y → (∀ r ∈ rows p s.st.cs, r.Holds Y) → plainCost p s.st.cs zs ≤ plainCost p s.st.cs Y) ∧
      ∀ ρ τ : K, 0 < ρ → 0 < τ → ∃ J : ℕ, ∀ (o : Opts K) (fuel : ℕ), LQOptions o → o.resetDuals = true →
        o.initialPenalty = ρ → o.conTol = τ → ρ * φ ^ J ≤ o.maxPenalty → (J : ℤ) < o.maxOuter →
        2 * ((J : ℤ) + 1) < o.maxTotal →
        ∃ s', AL.solve (alKernel p) alOps o (ILQR.solve (alKernel p) o (fuel + 1)) s = some s' ∧ s'.status = .kSolved ∧
          (∀ r ∈ rows p s.st.cs, r.viol s'.st.Z < τ) ∧
          |plainCost p s.st.cs s'.st.Z - plainCost p s.st.cs zs| ≤ c * τ := by
  obtain ⟨zs, star, hs⟩ := C80_multipliers h s.st.Z hf
  have heq : ∀ r ∈ rows p s.st.cs, r.kind = .equality := fun r hr => by
    obtain ⟨k, hk, ⟨v, hv, i, rfl⟩ | ⟨v, hv, i, rfl⟩⟩ := (mem_rows p _ r).mp hr
    · rfl
    · rw [(h.knot k hk).free] at hv; cases hv
  have n0 : 0 ≤ normSq star := sum_map_nonneg _ _ fun _ _ => sq_nonneg _
  have n2 : 0 ≤ (star.map (|·|)).sum := sum_map_nonneg _ _ fun _ _ => abs_nonneg _
  have n3 : (0 : K) ≤ (rows p s.st.cs).length := Nat.cast_nonneg _
  have hzero : ∀ Y, (∀ r ∈ rows p s.st.cs, r.Holds Y) → (((rows p s.st.cs).zip star).map fun q => q.2 * q.1.fn Y).sum = 0 := by
    intro Y hY
    have : (((rows p s.st.cs).zip star).map fun q => q.2 * q.1.fn Y) = ((rows p s.st.cs).zip star).map fun _ => (0 : K) := by
      refine List.map_congr_left fun q hq => ?_
      have h1 := hY q.1 (List.of_mem_zip hq).1
      unfold Row.Holds at h1
      rw [heq q.1 (List.of_mem_zip hq).1] at h1
      have h2 : q.1.fn Y = 0 := h1
      rw [h2, mul_zero]
    rw [this]; simp
  refine ⟨zs, (rows p s.st.cs).length / 2 + 2 * normSq star + (star.map (|·|)).sum, ⟨hs.mem, hs.holds, fun Y hY hYr => ?_⟩,
    fun ρ τ hρ hτ => ?_⟩
  · have := hs.lag Y hY
    rw [hzero zs hs.holds, hzero Y hYr] at this
    linarith
  · obtain ⟨J, hJ⟩ := pow_unbounded_of_one_lt ((normSq star + 1) / (ρ * τ)) hφ
    refine ⟨J, fun o fuel ho hr e1 e2 l1 l2 l3 => ?_⟩
    subst e1
    subst e2
    have hJ' : normSq star < (o.initialPenalty * φ ^ J * o.conTol) ^ 2 := by
      rw [div_lt_iff₀ (mul_pos hρ hτ)] at hJ
      have : o.initialPenalty * φ ^ J * o.conTol = φ ^ J * (o.initialPenalty * o.conTol) := by ring
      rw [this]
      nlinarith
    obtain ⟨s', r1, r2, -, -, r5, r6, r7⟩ := C80_solve (fuel := fuel) h ho hN hφ.le hρ hτ hr hscale hs J hJ' l1 l2 l3
    refine ⟨s', r1, r2, r5, abs_le.mpr ⟨?_, ?_⟩⟩
    · have : 0 ≤ ((rows p s.st.cs).length / 2 + 2 * normSq star) * o.conTol := by positivity
      linarith
    · have : 0 ≤ (star.map (|·|)).sum * o.conTol := by positivity
      linarith

end solver

/-! ## A concrete case -/

section example80

/-- The double integrator of `LQExamples`, with the requirement that the first state ends at 2. -/
def eqGoalCon : Con 2 1 ℚ where
  p := 1
  hp := Nat.one_pos
  eval x _ := ![x 0 - 2]
  jac _ _ := Matrix.of fun _ j => Sum.elim ![1, 0] ![0] j

theorem eqGoalCon_affine (x : Fin 2 → ℚ) (u : Fin 1 → ℚ) (δx : Fin 2 → ℚ) (δu : Fin 1 → ℚ) :
    eqGoalCon.eval (x + δx) (u + δu) = eqGoalCon.eval x u + (eqGoalCon.jac x u).toCols₁ *ᵥ δx + (eqGoalCon.jac x u).toCols₂ *ᵥ δu := by
  have key : (![x 0 + δx 0 - 2] : Fin 1 → ℚ) = ![x 0 - 2]
      + (Matrix.of fun (_ : Fin 1) j => (![1, 0] : Fin 2 → ℚ) j) *ᵥ δx
      + (Matrix.of fun (_ : Fin 1) j => (![0] : Fin 1 → ℚ) j) *ᵥ δu := by
    funext i
    have : i = 0 := Subsingleton.elim _ _
    subst this
    show x 0 + δx 0 - 2 = (x 0 - 2) + ∑ j, (![1, 0] : Fin 2 → ℚ) j * δx j + ∑ j, (![0] : Fin 1 → ℚ) j * δu j
    simp [Fin.sum_univ_succ]
    ring
  exact key

def eqGoalCosts : ℕ → ALCost 2 1 ℚ := fun k =>
  ALCost.new (if k = 2 then dblTerm else dblStage) (if k = 2 then [eqGoalCon] else []) []

theorem eqGoal_lq : LQEquality dblProblem eqGoalCosts where
  dyn := dbl_lq.dyn
  knot k hk := by
    refine ⟨rfl, dbl_lq.quad k hk, fun x u => ?_, fun v hv x u δx δu => ?_⟩
    · have := dbl_convex k x u
      exact ⟨this.symx, this.symu, this.psd⟩
    · by_cases h2 : k = 2
      · have : (eqGoalCosts k).eq = [ConVal.new .equality eqGoalCon] := by simp [eqGoalCosts, ALCost.new, h2]
        rw [this, List.mem_singleton] at hv
        subst hv
        exact eqGoalCon_affine x u δx δu
      · have : (eqGoalCosts k).eq = [] := by simp [eqGoalCosts, ALCost.new, h2]
        rw [this] at hv; cases hv
  pos := dbl_posdef
  term _ _ _ := rfl
  termCon v hv x u u' := by
    have : (eqGoalCosts 2).eq = [ConVal.new .equality eqGoalCon] := rfl
    have hv : v ∈ (eqGoalCosts 2).eq := hv
    rw [this, List.mem_singleton] at hv
    subst hv
    rfl

def eqGoalOpts : Opts ℚ := { dblOpts with
  conTol := 1 / 100, maxPenalty := 100000, initialPenalty := 1, resetDuals := true, maxOuter := 10, maxTotal := 50, maxInner := 10 }

def eqGoalState : ALSt (Fin 2 → ℚ) (Fin 1 → ℚ) ℚ (ALCost 2 1 ℚ) (KP 2 1 ℚ) where
  st := { dblState with cs := eqGoalCosts }
  status := .kUnsolved

theorem eqGoal_options : LQOptions eqGoalOpts := by
  constructor <;> first | rfl | decide +kernel

def eqGoalRun := AL.solve (alKernel dblProblem) alOps eqGoalOpts (ILQR.solve (alKernel dblProblem) eqGoalOpts 1) eqGoalState

theorem eqGoalRun_report : (eqGoalRun.map fun s => (s.status, s.st.stats.outer, s.st.stats.total, [s.st.Z.u 0 0, s.st.Z.u 1 0])) =
    some (.kSolved, 4, 8, [148010395044 / 148017766477, -123341995870 / 148017766477]) := by
  decide +kernel

/-- The optimal trajectory and its multiplier. -/
def eqGoalBest : Traj (Fin 2 → ℚ) (Fin 1 → ℚ) ℚ :=
  { dblState.Z with x := fun k => if k = 0 then ![1, 0] else if k = 1 then ![1, 1] else ![2, 1 / 6]
                    u := fun k => if k = 0 then ![1] else ![-5 / 6] }

theorem eqGoal_rows : rows dblProblem eqGoalCosts = [⟨.equality, fun Z => Z.x 2 0 - 2, 0, 1⟩] := rfl

theorem eqGoal_saddle : Saddle (Alternative dblProblem dblState.Z) (plainCost dblProblem eqGoalCosts) (rows dblProblem eqGoalCosts)
    eqGoalBest [71 / 12] where
  len := rfl
  mem := by
    refine ⟨rfl, fun k hk => ?_⟩
    have hk : k < 2 := hk
    interval_cases k <;> (funext i; fin_cases i <;> simp [eqGoalBest, dblProblem] <;> norm_num)
  holds r hr := by
    rw [eqGoal_rows, List.mem_singleton] at hr
    subst hr
    show (2 : ℚ) - 2 = 0
    norm_num
  sign q hq hk := by
    rw [eqGoal_rows] at hq
    simp only [List.zip_cons_cons, List.zip_nil_left, List.mem_singleton] at hq
    subst hq
    cases hk
  lag y hy := by
    rw [eqGoal_rows]
    have h0 : y.x 0 = ![1, 0] := hy.init
    have h1 : y.x 1 = ![y.x 0 0 + y.x 0 1, y.x 0 1 + y.u 0 0] := hy.step 0 (by decide)
    have h2 : y.x 2 = ![y.x 1 0 + y.x 1 1, y.x 1 1 + y.u 1 0] := hy.step 1 (by decide)
    have e : ∀ Y, plainCost dblProblem eqGoalCosts Y
        = dblStage.eval (Y.x 0) (Y.u 0) + dblStage.eval (Y.x 1) (Y.u 1) + dblTerm.eval (Y.x 2) (Y.u 2) := fun Y => by
      show ∑ k ∈ Finset.range 3, _ = _
      rw [Finset.sum_range_succ, Finset.sum_range_succ, Finset.sum_range_succ, Finset.sum_range_zero, zero_add]
      rfl
    rw [e, e]
    simp only [h2, h1, h0, dblStage, dblTerm, eqGoalBest, dblState, List.zip_cons_cons, List.zip_nil_left, List.map_cons,
      List.map_nil, List.sum_cons, List.sum_nil]
    simp
    nlinarith [sq_nonneg (y.u 1 0 + 5 / 6 * y.u 0 0), sq_nonneg (y.u 0 0 - 1)]

theorem eqGoal_scale : ∀ k ≤ 2, ScaleU (eqGoalCosts k) 10 := by
  intro k _
  unfold eqGoalCosts ALCost.new ScaleU
  split
  · exact ⟨fun v hv => by
      rw [List.map_cons, List.map_nil, List.mem_singleton] at hv
      subst hv; rfl, fun v hv => by cases hv⟩
  · exact ⟨fun v hv => (nomatch hv), fun v hv => (nomatch hv)⟩

/-- C80 for this problem: four outer iterations with two inner ones each, as computed. -/
example : ∃ s', eqGoalRun = some s' ∧ s'.status = .kSolved ∧ s'.st.stats.outer ≤ 4 ∧ s'.st.stats.total ≤ 8 ∧
    |s'.st.Z.x 2 0 - 2| < 1 / 100 ∧
    plainCost dblProblem eqGoalCosts s'.st.Z ≤ plainCost dblProblem eqGoalCosts eqGoalBest + 1 / 100 * (1 / 2 + 2 * (71 / 12) ^ 2) := by
  obtain ⟨s', r1, r2, r3, r4, r5, r6, -⟩ := C80_solve (p := dblProblem) (o := eqGoalOpts) (fuel := 0) (s := eqGoalState) (φ := 10)
    eqGoal_lq eqGoal_options (by decide) (by norm_num) (by decide +kernel) (by decide +kernel) rfl eqGoal_scale eqGoal_saddle 3
    (by decide +kernel) (by decide +kernel) (by decide) (by decide)
  have hv := r5 ⟨.equality, fun Z => Z.x 2 0 - 2, 0, 1⟩
    (by rw [show eqGoalState.st.cs = eqGoalCosts from rfl, eqGoal_rows]; exact List.mem_singleton.mpr rfl)
  refine ⟨s', r1, r2, r3, r4, hv, ?_⟩
  have e : (1 / 100 : ℚ) * (1 / 2 + 2 * (71 / 12) ^ 2)
      = eqGoalOpts.conTol * ((rows dblProblem eqGoalState.st.cs).length / 2 + 2 * normSq [71 / 12]) := by
    rw [show eqGoalState.st.cs = eqGoalCosts from rfl, eqGoal_rows]
    simp [eqGoalOpts, normSq]
  rw [e]
  exact r6

/-- The constraint can be met, so `C80_converges` applies. -/
example : ∃ Y, Alternative dblProblem eqGoalState.st.Z Y ∧ ∀ r ∈ rows dblProblem eqGoalState.st.cs, r.Holds Y :=
  ⟨eqGoalBest, eqGoal_saddle.mem, eqGoal_saddle.holds⟩

/-- C79 for the same problem: the hypotheses about the inner solver hold for `ILQR.solve`. -/
example : ExactOn dblProblem eqGoalState.st (ILQR.solve (alKernel dblProblem) eqGoalOpts 1) ∧
    ConvexProblem dblProblem eqGoalState.st.cs ∧ Spec.KeepsOuter (ILQR.solve (alKernel dblProblem) eqGoalOpts 1) :=
  ⟨lq_exactOn (fuel := 0) eqGoal_lq eqGoal_options (by decide), eqGoal_lq.convex, solve_keepsOuter _ _ _⟩

end example80

end Altro.Props
