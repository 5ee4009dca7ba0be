import Verif.Proofs.SmoothFamily

/-!
# The augmented costs of a smooth problem as functions of the multipliers
-/

namespace Altro.Props
open Altro.Spec Matrix ILQR
variable {n m : ℕ} {κ : ConKind}

/-- A constraint object with other multipliers, and penalties all `ρ`. -/
def atMul (ρ : ℝ) (θ : ℕ → ℝ) (v : ConVal κ n m ℝ) : ConVal κ n m ℝ := { v with lam := fun i => θ i, pen := fun _ => ρ }

/-- A list of constraint objects with other multipliers. -/
def setMul (ρ : ℝ) : (ℕ → ℕ → ℝ) → List (ConVal κ n m ℝ) → List (ConVal κ n m ℝ)
  | _, [] => []
  | θ, v :: l => atMul ρ (θ 0) v :: setMul ρ (fun j => θ (j + 1)) l

/-- The multipliers of a list of constraint objects. -/
def getMul : List (ConVal κ n m ℝ) → ℕ → ℕ → ℝ
  | [], _, _ => 0
  | v :: _, 0, i => if h : i < v.con.p then v.lam ⟨i, h⟩ else 0
  | _ :: l, j + 1, i => getMul l j i

theorem mem_setMul {ρ : ℝ} : ∀ {θ : ℕ → ℕ → ℝ} {l : List (ConVal κ n m ℝ)} {w}, w ∈ setMul ρ θ l → ∃ v ∈ l, ∃ j, w = atMul ρ (θ j) v
  | _, [], _, h => nomatch h
  | θ, v :: l, w, h => by
    rcases List.mem_cons.mp h with rfl | h
    · exact ⟨v, by simp, 0, rfl⟩
    · obtain ⟨v', h1, j, h2⟩ := mem_setMul h
      exact ⟨v', by simp [h1], j + 1, h2⟩

theorem setMul_static (ρ : ℝ) : ∀ (θ : ℕ → ℕ → ℝ) (l : List (ConVal κ n m ℝ)), (setMul ρ θ l).map ConVal.static = l.map ConVal.static
  | _, [] => rfl
  | θ, v :: l => by
    show ConVal.static (atMul ρ (θ 0) v) :: (setMul ρ _ l).map ConVal.static = v.static :: l.map ConVal.static
    rw [setMul_static]; rfl

theorem atMul_core {ρ : ℝ} {v w : ConVal κ n m ℝ} (e : w.static = v.static) (hp : ∀ i, w.pen i = ρ) {θ : ℕ → ℝ}
    (hθ : ∀ (i : ℕ) (h : i < w.con.p), θ i = w.lam ⟨i, h⟩) : (atMul ρ θ v).core = w.core := by
  obtain ⟨con, c, lam, pen, pj, sc⟩ := v
  obtain ⟨con', c', lam', pen', pj', sc'⟩ := w
  obtain ⟨rfl, -, -, -, e1, e2⟩ := ConVal.mk.inj e
  have a1 : (fun i : Fin con'.p => θ i) = lam' := funext fun i => hθ i i.2
  have a2 : (fun _ : Fin con'.p => ρ) = pen' := funext fun i => (hp i).symm
  show ConVal.mk con' 0 (fun i => θ i) (fun _ => ρ) (κ.stale pj) sc = ConVal.mk con' 0 lam' pen' (κ.stale pj') sc'
  rw [a1, a2, ← eq_of_heq e1]
  exact congrArg _ e2.symm

theorem setMul_core {ρ : ℝ} : ∀ {l l' : List (ConVal κ n m ℝ)}, l'.map ConVal.static = l.map ConVal.static → (∀ v ∈ l', ∀ i, v.pen i = ρ) →
    (setMul ρ (getMul l') l).map ConVal.core = l'.map ConVal.core
  | [], [], _, _ => rfl
  | [], _ :: _, e, _ => nomatch e
  | _ :: _, [], e, _ => nomatch e
  | v :: l, w :: l', e, hp => by
    obtain ⟨e1, e2⟩ := List.cons.inj e
    show (atMul ρ (getMul (w :: l') 0) v).core :: (setMul ρ (getMul l') l).map ConVal.core = w.core :: l'.map ConVal.core
    rw [setMul_core e2 fun v hv => hp v (by simp [hv])]
    refine congrArg (· :: _) (atMul_core e1 (hp w (by simp)) fun i h => ?_)
    show (if h : i < w.con.p then w.lam ⟨i, h⟩ else 0) = _
    rw [dif_pos h]

theorem getMul_le {M : ℝ} (hM : 0 ≤ M) : ∀ {l : List (ConVal κ n m ℝ)}, (∀ v ∈ l, ∀ i, |v.lam i| ≤ M) → ∀ j i, |getMul l j i| ≤ M
  | [], _, j, i => by show |(0 : ℝ)| ≤ M; rw [abs_zero]; exact hM
  | v :: l, h, 0, i => by
    show |if h : i < v.con.p then v.lam ⟨i, h⟩ else 0| ≤ M
    split
    · exact h v (by simp) _
    · rw [abs_zero]; exact hM
  | v :: l, h, j + 1, i => getMul_le hM (l := l) (fun v hv => h v (by simp [hv])) j i

/-- The cost object of a knot point with other multipliers. -/
def withMul (ρ : ℝ) (θ : Bool → ℕ → ℕ → ℝ) (c : ALCost n m ℝ) : ALCost n m ℝ :=
  { c with eq := setMul ρ (θ true) c.eq, ineq := setMul ρ (θ false) c.ineq }

/-- The multipliers of the cost object of a knot point. -/
def mulOf (c : ALCost n m ℝ) : Bool → ℕ → ℕ → ℝ
  | true => getMul c.eq
  | false => getMul c.ineq

theorem withMul_static (ρ : ℝ) (θ : Bool → ℕ → ℕ → ℝ) (c : ALCost n m ℝ) : (withMul ρ θ c).static = c.static := by
  simp only [ALCost.static, withMul, setMul_static]

theorem withMul_core {ρ : ℝ} {c c' : ALCost n m ℝ} (e : c'.static = c.static) (hp : PenU c' ρ) : c'.core = (withMul ρ (mulOf c') c).core := by
  simp only [ALCost.static, ALCost.mk.injEq] at e
  obtain ⟨e1, e2, e3⟩ := e
  simp only [ALCost.core, withMul, ALCost.mk.injEq]
  exact ⟨e1, (setMul_core e2 hp.1).symm, (setMul_core e3 hp.2).symm⟩

theorem withMul_pen (ρ : ℝ) (θ : Bool → ℕ → ℕ → ℝ) (c : ALCost n m ℝ) : PenU (withMul ρ θ c) ρ := by
  refine ⟨fun v hv i => ?_, fun v hv i => ?_⟩
  · obtain ⟨w, -, j, rfl⟩ := mem_setMul hv; rfl
  · obtain ⟨w, -, j, rfl⟩ := mem_setMul hv; rfl

/-! ## Smoothness does not depend on multipliers and penalties -/

theorem SmoothKnot.congr_static {c c' : ALCost n m ℝ} (h : SmoothKnot c) (e : c'.static = c.static) {ρ : ℝ} (hρ : 0 < ρ)
    (hp : PenU c' ρ) : SmoothKnot c' := by
  simp only [ALCost.static, ALCost.mk.injEq] at e
  obtain ⟨e1, e2, e3⟩ := e
  refine ⟨by rw [e1]; exact h.grad, by rw [e1]; exact h.gradCont, by rw [e1]; exact h.dxdx, by rw [e1]; exact h.dxdu,
    by rw [e1]; exact h.dudu, fun v hv => ⟨?_, fun i => by rw [hp.1 v hv]; exact hρ⟩, fun v hv => ⟨?_, fun i => by rw [hp.2 v hv]; exact hρ⟩,
    fun v hv => ?_⟩
  · obtain ⟨w, hw, ew⟩ := mem_static e2 hv
    have hc : SmoothCon w.static.con := (h.eq w hw).1
    rw [ew] at hc
    exact hc
  · obtain ⟨w, hw, ew⟩ := mem_static e3 hv
    have hc : SmoothCon w.static.con := (h.ineq w hw).1
    rw [ew] at hc
    exact hc
  · obtain ⟨w, hw, ew⟩ := mem_static e3 hv
    have hc : ∀ i j, i ≠ j → w.static.projJac i j = 0 := fun i j hij => by
      have := congrFun (congrFun (stale_zero_of_buf (h.buf w hw)) i) j
      exact this
    rw [ew] at hc
    intro i j hij
    have := hc i j hij
    have e' : v.static.projJac i j = if i = j then 0 else v.projJac i j := rfl
    rw [e', if_neg hij] at this
    exact this

variable {p : DynProblem n m ℝ} {cs cs' : ℕ → ALCost n m ℝ} {Y : Traj (Fin n → ℝ) (Fin m → ℝ) ℝ} {μ ρ M : ℝ}

theorem _root_.Altro.Spec.SmoothProblem.congr (h : SmoothProblem p cs Y μ) (e : ∀ k ≤ p.N, (cs' k).static = (cs k).static) (hρ : 0 < ρ)
    (hp : ∀ k ≤ p.N, PenU (cs' k) ρ) : SmoothProblem p cs' Y μ := by
  have ec : ∀ k ≤ p.N, (cs' k).cost = (cs k).cost := fun k hk => (ALCost.mk.inj (e k hk)).1
  refine ⟨⟨fun k hk => by rw [ec k hk]; exact h.curved.psd k hk, fun k hk => by rw [ec k hk.le]; exact h.curved.strong k hk,
      fun k hk v hv i => by rw [(hp k hk).1 v hv]; exact hρ.le, fun k hk v hv i => by rw [(hp k hk).2 v hv]; exact hρ.le⟩,
    h.jac, h.cont, fun k hk => SmoothKnot.congr_static (h.knot k hk) (e k hk) hρ (hp k hk), ?_, ?_, ?_, fun v hv => ?_, fun v hv => ?_⟩
  · obtain ⟨c, b, hc, h1, h2⟩ := h.grows
    exact ⟨c, b, hc, fun k hk => by rw [ec k hk.le]; exact h1 k hk, by rw [ec _ le_rfl]; exact h2⟩
  · rw [ec _ le_rfl]; exact h.term
  · rw [ec _ le_rfl]; exact h.termHess
  · obtain ⟨w, hw, ew⟩ := mem_static (ALCost.mk.inj (e _ le_rfl)).2.1 hv
    have hc : ∀ x u u', w.static.con.eval x u = w.static.con.eval x u' := h.termEq w hw
    rw [ew] at hc
    exact hc
  · obtain ⟨w, hw, ew⟩ := mem_static (ALCost.mk.inj (e _ le_rfl)).2.2 hv
    have hc : ∀ x u u', w.static.con.eval x u = w.static.con.eval x u' := h.termIneq w hw
    rw [ew] at hc
    exact hc

theorem SmoothCore.congr_fun {ℓ ℓ' : ℕ → (Fin n → ℝ) → (Fin m → ℝ) → ℝ} {g g' : ℕ → Z n m → Z n m} (h : SmoothCore p cs Y μ ℓ g)
    (e1 : ∀ k ≤ p.N, ℓ' k = ℓ k) (e2 : ∀ k ≤ p.N, g' k = g k) : SmoothCore p cs Y μ ℓ' g' where
  dyn := ⟨h.dyn.jac, h.dyn.cont, fun k hk => by rw [e1 k hk, e2 k hk]; exact h.dyn.grad k hk, fun k hk => by rw [e2 k hk]; exact h.dyn.gcont k hk⟩
  curved := h.curved
  val k hk := by rw [e1 k hk]; exact h.val k hk
  grd k hk := by rw [e2 k hk]; exact h.grd k hk
  up := h.up
  term := by rw [e1 _ le_rfl]; exact h.term
  low := by
    obtain ⟨c, b, hc, hb, h1, h2⟩ := h.low
    exact ⟨c, b, hc, hb, fun k hk => by rw [e1 k hk.le]; exact h1 k hk, by rw [e1 _ le_rfl]; exact h2⟩

/-! ## Continuity in the multipliers -/

theorem atMul_continuous {X : Type} [TopologicalSpace X] (v : ConVal κ n m ℝ) (hb : κ.stale v.projJac = 0) (hs : SmoothCon v.con)
    {θ : X → ℕ → ℝ} {z : X → Z n m} (hθ : Continuous θ) (hz : Continuous z) :
    Continuous fun a => ((atMul ρ (θ a) v).augLagGradient (z a).1 (z a).2).1 := by
  have key : ∀ w : ConVal κ n m ℝ, w.BufOk → SmoothCon w.con →
      Continuous fun a => ((atMul ρ (θ a) w).augLagGradient (z a).1 (z a).2).1 := by
    intro w hw hs
    have hc : Continuous fun a => w.con.eval (z a).1 (z a).2 := (IsJacAt.continuous hs.jac).comp hz
    have hl : Continuous fun a => (fun i : Fin w.con.p => θ a i) := continuous_pi fun i => (continuous_apply (i : ℕ)).comp hθ
    have hp : Continuous fun a => κ.dualProj ((fun i : Fin w.con.p => θ a i) - ρ • w.con.eval (z a).1 (z a).2) :=
      (dualProj_continuous κ).comp (hl.sub (hc.const_smul ρ))
    have e : (fun a => ((atMul ρ (θ a) w).augLagGradient (z a).1 (z a).2).1) = fun a =>
        (-((w.con.jac (z a).1 (z a).2).toCols₁ᵀ *ᵥ κ.dualProj ((fun i : Fin w.con.p => θ a i) - ρ • w.con.eval (z a).1 (z a).2)),
          -((w.con.jac (z a).1 (z a).2).toCols₂ᵀ *ᵥ κ.dualProj ((fun i : Fin w.con.p => θ a i) - ρ • w.con.eval (z a).1 (z a).2))) := by
      funext a
      have key := projJac_mulVec κ ((fun i : Fin w.con.p => θ a i) - ρ • w.con.eval (z a).1 (z a).2) w.projJac hw
      show (-((κ.dualProjJac ((fun i : Fin w.con.p => θ a i) - ρ • w.con.eval (z a).1 (z a).2) w.projJac * (w.con.jac (z a).1 (z a).2).toCols₁)ᵀ
        *ᵥ κ.dualProj ((fun i : Fin w.con.p => θ a i) - ρ • w.con.eval (z a).1 (z a).2)),
        -((κ.dualProjJac ((fun i : Fin w.con.p => θ a i) - ρ • w.con.eval (z a).1 (z a).2) w.projJac * (w.con.jac (z a).1 (z a).2).toCols₂)ᵀ
        *ᵥ κ.dualProj ((fun i : Fin w.con.p => θ a i) - ρ • w.con.eval (z a).1 (z a).2))) = _
      rw [Matrix.transpose_mul, ← Matrix.mulVec_mulVec, key, Matrix.transpose_mul, ← Matrix.mulVec_mulVec, key]
    rw [e]
    have hj := hs.cont.comp hz
    have c1 : Continuous fun a => (w.con.jac (z a).1 (z a).2).toCols₁ᵀ :=
      continuous_pi fun i => continuous_pi fun j => hj.matrix_elem j (Sum.inl i)
    have c2 : Continuous fun a => (w.con.jac (z a).1 (z a).2).toCols₂ᵀ :=
      continuous_pi fun i => continuous_pi fun j => hj.matrix_elem j (Sum.inr i)
    exact ((c1.matrix_mulVec hp).neg).prodMk ((c2.matrix_mulVec hp).neg)
  rcases bufOk_of_stale hb with rfl | h
  · exact key { v with projJac := 0 } (fun i j _ => rfl) hs
  · exact key v h hs

theorem setMul_continuous {X : Type} [TopologicalSpace X] {z : X → Z n m} (hz : Continuous z) :
    ∀ (l : List (ConVal κ n m ℝ)), (∀ v ∈ l, κ.stale v.projJac = 0 ∧ SmoothCon v.con) → ∀ (θ : X → ℕ → ℕ → ℝ), Continuous θ →
    ∀ g : X → Z n m, Continuous g → Continuous fun a => (setMul ρ (θ a) l).foldl (fun s v =>
      (s.1 + (v.augLagGradient (z a).1 (z a).2).1.1, s.2 + (v.augLagGradient (z a).1 (z a).2).1.2)) (g a)
  | [], _, _, _, g, hg => hg
  | v :: l, hl, θ, hθ, g, hg => by
    have ha := atMul_continuous (ρ := ρ) v (hl v (by simp)).1 (hl v (by simp)).2 ((continuous_apply 0).comp hθ) hz
    exact setMul_continuous hz l (fun w hw => hl w (by simp [hw])) (fun a j => θ a (j + 1))
      (continuous_pi fun j => (continuous_apply (j + 1)).comp hθ)
      (fun a => ((g a).1 + ((atMul ρ (θ a 0) v).augLagGradient (z a).1 (z a).2).1.1,
        (g a).2 + ((atMul ρ (θ a 0) v).augLagGradient (z a).1 (z a).2).1.2))
      (((continuous_fst.comp hg).add (continuous_fst.comp ha)).prodMk ((continuous_snd.comp hg).add (continuous_snd.comp ha)))

theorem withMul_gradient_continuous {c : ALCost n m ℝ} (h : SmoothKnot c) :
    Continuous fun q : (Bool → ℕ → ℕ → ℝ) × Z n m => ((withMul ρ q.1 c).gradient q.2.1 q.2.2).1 := by
  simp only [ALCost.gradient, List.foldl_map]
  have h1 : Continuous fun q : (Bool → ℕ → ℕ → ℝ) × Z n m => q.1 true := (continuous_apply true).comp continuous_fst
  have h2 : Continuous fun q : (Bool → ℕ → ℕ → ℝ) × Z n m => q.1 false := (continuous_apply false).comp continuous_fst
  exact setMul_continuous continuous_snd c.ineq (fun v hv => ⟨stale_zero_of_buf (h.buf v hv), (h.ineq v hv).1⟩) _ h2 _
    (setMul_continuous continuous_snd c.eq (fun v hv => ⟨rfl, (h.eq v hv).1⟩) _ h1 _ (h.gradCont.comp continuous_snd))

theorem setMul_sum {ρ : ℝ} (f : Con n m ℝ → ℝ) : ∀ (θ : ℕ → ℕ → ℝ) (l : List (ConVal κ n m ℝ)),
    ((setMul ρ θ l).map fun v => v.rho * f v.con).sum = (l.map fun v => ρ * f v.con).sum
  | _, [] => rfl
  | θ, v :: l => by
    show ((atMul ρ (θ 0) v).rho * f v.con :: (setMul ρ _ l).map fun v => v.rho * f v.con).sum = (ρ * f v.con :: l.map fun v => ρ * f v.con).sum
    rw [List.sum_cons, List.sum_cons, setMul_sum f]
    rfl

theorem curvBound_withMul (θ θ' : Bool → ℕ → ℕ → ℝ) (c : ALCost n m ℝ) (z : Z n m) :
    curvBound (withMul ρ θ c) z = curvBound (withMul ρ θ' c) z := by
  have e : ∀ θ, curvBound (withMul ρ θ c) z
      = (frobSq (c.cost.hess z.1 z.2).dxdx + frobSq (c.cost.hess z.1 z.2).dxdu + frobSq (c.cost.hess z.1 z.2).dudu + 2)
        + (c.eq.map fun v => ρ * (2 * frobSq (v.con.jac z.1 z.2))).sum + (c.ineq.map fun v => ρ * (2 * frobSq (v.con.jac z.1 z.2))).sum :=
    fun θ => by
      have e1 := setMul_sum (ρ := ρ) (fun con => 2 * frobSq (con.jac z.1 z.2)) (θ true) c.eq
      have e2 := setMul_sum (ρ := ρ) (fun con => 2 * frobSq (con.jac z.1 z.2)) (θ false) c.ineq
      rw [← e1, ← e2]; rfl
  rw [e, e]

/-! ## The family -/

/-- The cost objects of the problem `cs` with one penalty `ρ` and multipliers of size at most `M`. -/
structure Near (p : DynProblem n m ℝ) (cs : ℕ → ALCost n m ℝ) (ρ M : ℝ) (cs' : ℕ → ALCost n m ℝ) : Prop where
  static : ∀ k ≤ p.N, (cs' k).static = (cs k).static
  pen : ∀ k ≤ p.N, PenU (cs' k) ρ
  eq : ∀ k ≤ p.N, ∀ v ∈ (cs' k).eq, ∀ i, |v.lam i| ≤ M
  ineq : ∀ k ≤ p.N, ∀ v ∈ (cs' k).ineq, ∀ i, |v.lam i| ≤ M

/-- Multipliers of all knot points. -/
abbrev Mults := ℕ → Bool → ℕ → ℕ → ℝ

theorem mults_compact (M : ℝ) : IsCompact {θ : Mults | ∀ k b j i, |θ k b j i| ≤ M} := by
  have := isCompact_univ_pi (X := fun _ : ℕ => Bool → ℕ → ℕ → ℝ) (s := fun _ => Set.univ.pi fun _ => Set.univ.pi fun _ => Set.univ.pi fun _ =>
    Set.Icc (-M) M) fun _ => isCompact_univ_pi fun _ => isCompact_univ_pi fun _ => isCompact_univ_pi fun _ => isCompact_Icc
  refine this.of_isClosed_subset ?_ ?_
  · simp only [Set.setOf_forall]
    exact isClosed_iInter fun k => isClosed_iInter fun b => isClosed_iInter fun j => isClosed_iInter fun i =>
      isClosed_le ((continuous_apply i).comp ((continuous_apply j).comp ((continuous_apply b).comp (continuous_apply k)))).abs continuous_const
  · intro θ hθ k _ b _ j _ i _; exact abs_le.mp (hθ k b j i)

theorem setMul_lower (hρ : 0 < ρ) (hM : 0 ≤ M) : ∀ (l : List (ConVal κ n m ℝ)) (θ : ℕ → ℕ → ℝ), (∀ j i, |θ j i| ≤ M) →
    ((setMul ρ θ l).map fun v => ∑ i, v.lam i ^ 2 / (2 * v.rho)).sum ≤ (l.map fun v => v.con.p * (M ^ 2 / (2 * ρ))).sum
  | [], _, _ => le_rfl
  | v :: l, θ, h => by
    show (_ :: List.map _ (setMul ρ (fun j => θ (j + 1)) l)).sum ≤ (_ :: List.map _ l).sum
    rw [List.sum_cons, List.sum_cons]
    refine add_le_add ?_ (setMul_lower hρ hM l (fun j => θ (j + 1)) fun j i => h (j + 1) i)
    have : ∑ i : Fin v.con.p, θ 0 i ^ 2 / (2 * ρ) ≤ ∑ _i : Fin v.con.p, M ^ 2 / (2 * ρ) := by
      refine Finset.sum_le_sum fun i _ => div_le_div_of_nonneg_right ?_ (by linarith)
      exact sq_le_sq' (abs_le.mp (h 0 i)).1 (abs_le.mp (h 0 i)).2
    rw [Finset.sum_const, Finset.card_univ, Fintype.card_fin, nsmul_eq_mul] at this
    exact this

theorem lower_withMul {c : ALCost n m ℝ} (hρ : 0 < ρ) (hM : 0 ≤ M) {θ : Bool → ℕ → ℕ → ℝ} (hθ : ∀ b j i, |θ b j i| ≤ M)
    (x : Fin n → ℝ) (u : Fin m → ℝ) :
    c.cost.eval x u - ((c.eq.map fun v => v.con.p * (M ^ 2 / (2 * ρ))).sum + (c.ineq.map fun v => v.con.p * (M ^ 2 / (2 * ρ))).sum)
      ≤ ((withMul ρ θ c).evaluate x u).1 := by
  have hp := withMul_pen ρ θ c
  rw [C02_evaluate_eq]
  have h1 := sum_map_le (withMul ρ θ c).eq (fun v => -∑ i, v.lam i ^ 2 / (2 * v.rho)) (fun v => (v.augLag x u).1) fun v hv =>
    augLag_lower v (by show 0 < v.pen _; rw [hp.1 v hv]; exact hρ) x u
  have h2 := sum_map_le (withMul ρ θ c).ineq (fun v => -∑ i, v.lam i ^ 2 / (2 * v.rho)) (fun v => (v.augLag x u).1) fun v hv =>
    augLag_lower v (by show 0 < v.pen _; rw [hp.2 v hv]; exact hρ) x u
  rw [sum_map_neg'] at h1 h2
  have h3 : ((withMul ρ θ c).eq.map fun v => ∑ i, v.lam i ^ 2 / (2 * v.rho)).sum ≤ _ := setMul_lower hρ hM c.eq (θ true) (hθ true)
  have h4 : ((withMul ρ θ c).ineq.map fun v => ∑ i, v.lam i ^ 2 / (2 * v.rho)).sum ≤ _ := setMul_lower hρ hM c.ineq (θ false) (hθ false)
  have e : (withMul ρ θ c).cost = c.cost := rfl
  rw [e]
  linarith

theorem _root_.Altro.Spec.SmoothProblem.family (h : SmoothProblem p cs Y μ) (hρ : 0 < ρ) (hM : 0 ≤ M) :
    SmoothFam p Y μ (Near p cs ρ M) {θ : Mults | ∀ k b j i, |θ k b j i| ≤ M}
      (fun θ k x u => ((withMul ρ (θ k) (cs k)).evaluate x u).1) fun θ k z => ((withMul ρ (θ k) (cs k)).gradient z.1 z.2).1 where
  compact := mults_compact M
  base := ⟨h.jac, h.cont, fun k _ x u => by
    show HasFDerivAt (fun _ : Z n m => (0 : ℝ)) (gradCLM 0 0) (x, u)
    refine (hasFDerivAt_const (0 : ℝ) (x, u)).congr_fderiv ?_
    ext z <;> simp [gradCLM], fun k _ => continuous_const⟩
  core cs' hcs := by
    have hS := h.congr hcs.static hρ hcs.pen
    refine ⟨fun k => if k ≤ p.N then mulOf (cs' k) else 0, fun k b j i => ?_, ?_⟩
    · by_cases hk : k ≤ p.N
      · simp only [if_pos hk]
        cases b
        · exact getMul_le hM (hcs.ineq k hk) j i
        · exact getMul_le hM (hcs.eq k hk) j i
      · simp only [if_neg hk]; show |(0 : ℝ)| ≤ M; rw [abs_zero]; exact hM
    · refine SmoothCore.congr_fun hS.core (fun k hk => ?_) fun k hk => ?_
      · funext x u
        simp only [if_pos hk]
        rw [← ALCost.evaluate_of_core (withMul _ _ _), ← withMul_core (hcs.static k hk) (hcs.pen k hk), ALCost.evaluate_of_core]
      · funext z
        simp only [if_pos hk]
        exact (hS.knot k hk).gradient_of_core (withMul_core (hcs.static k hk) (hcs.pen k hk)).symm z.1 z.2
  gcont k hk := by
    have hp : Continuous fun q : Mults × Z n m => (q.1 k, q.2) := ((continuous_apply k).comp continuous_fst).prodMk continuous_snd
    exact (withMul_gradient_continuous (ρ := ρ) (h.knot k hk)).comp hp
  up := by
    have hS : SmoothProblem p (fun k => withMul ρ 0 (cs k)) Y μ :=
      h.congr (fun k _ => withMul_static ρ 0 (cs k)) hρ fun k _ => withMul_pen ρ 0 (cs k)
    refine ⟨fun k => curvBound (withMul ρ 0 (cs k)), fun k hk => (hS.knot k hk).curvBound_continuous, fun cs' hcs k hk c e x u δx δu => ?_,
      fun x u u' => ?_⟩
    · have hS' := h.congr hcs.static hρ hcs.pen
      show _ ≤ curvBound (withMul ρ 0 (cs k)) (x, u) * _
      rw [curvBound_withMul 0 (mulOf (cs' k)), ← curvBound_core (withMul_core (hcs.static k hk) (hcs.pen k hk)), ← curvBound_core e]
      exact ((hS'.knot k hk).congr e).form_le x u δx δu
    · have a1 : (withMul ρ 0 (cs p.N)).eq.map (fun v => v.rho * (2 * frobSq (v.con.jac x u)))
          = (withMul ρ 0 (cs p.N)).eq.map fun v => v.rho * (2 * frobSq (v.con.jac x u')) :=
        List.map_congr_left fun v hv => by rw [((hS.knot _ le_rfl).eq v hv).1.jac_indep (hS.termEq v hv) x u u']
      have a2 : (withMul ρ 0 (cs p.N)).ineq.map (fun v => v.rho * (2 * frobSq (v.con.jac x u)))
          = (withMul ρ 0 (cs p.N)).ineq.map fun v => v.rho * (2 * frobSq (v.con.jac x u')) :=
        List.map_congr_left fun v hv => by rw [((hS.knot _ le_rfl).ineq v hv).1.jac_indep (hS.termIneq v hv) x u u']
      have a3 : (withMul ρ 0 (cs p.N)).cost.hess x u = (withMul ρ 0 (cs p.N)).cost.hess x u' := h.termHess x u u'
      simp only [curvBound, a1, a2, a3]
  low := by
    obtain ⟨c, b, hc, h1, h2⟩ := h.grows
    set b' : ℕ → ℝ := fun k => ((cs k).eq.map fun v => v.con.p * (M ^ 2 / (2 * ρ))).sum + ((cs k).ineq.map fun v => v.con.p * (M ^ 2 / (2 * ρ))).sum
      with hb'
    have h0 : ∀ k, 0 ≤ b' k := fun k => add_nonneg (sum_map_nonneg _ _ fun v _ => by positivity) (sum_map_nonneg _ _ fun v _ => by positivity)
    have hs : ∀ k ≤ p.N, b' k ≤ ∑ k ∈ Finset.range (p.N + 1), b' k := fun k hk =>
      Finset.single_le_sum (f := b') (fun k _ => h0 k) (Finset.mem_range.mpr (Nat.lt_succ_of_le hk))
    have h00 : 0 ≤ ∑ k ∈ Finset.range (p.N + 1), b' k := Finset.sum_nonneg fun k _ => h0 k
    refine ⟨c, |b| + ∑ k ∈ Finset.range (p.N + 1), b' k, hc, by positivity, fun θ hθ => ⟨fun k hk x u => ?_, fun x u => ?_⟩⟩
    · have a1 : c * nsq u - b ≤ _ := h1 k hk x u
      have a2 := lower_withMul (c := cs k) hρ hM (θ := θ k) (hθ k) x u
      have a3 := hs k hk.le
      have := le_abs_self b
      linarith
    · have a1 := h2 x u
      have a2 := lower_withMul (c := cs p.N) hρ hM (θ := θ p.N) (hθ p.N) x u
      have a3 := hs p.N le_rfl
      have := le_abs_self b
      linarith

end Altro.Props
