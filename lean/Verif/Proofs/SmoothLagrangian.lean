import Verif.Proofs.SmoothMult
import Verif.Props.KKT
import Verif.Spec.NearKKT

/-!
# The Lagrangian of a smooth problem as a function of the multipliers
-/

namespace Altro.Props
open Altro.Spec Matrix ILQR
variable {n m : ℕ} {κ : ConKind} {ρ : ℝ}

/-- One constraint's part of the gradient of the Lagrangian. -/
def mulGrad (θ : ℕ → ℝ) (con : Con n m ℝ) (z : Z n m) : Z n m :=
  (-((con.jac z.1 z.2).toCols₁ᵀ *ᵥ fun i => θ i), -((con.jac z.1 z.2).toCols₂ᵀ *ᵥ fun i => θ i))

/-- The constraints' part of the gradient of the Lagrangian. -/
def lagFold : (ℕ → ℕ → ℝ) → List (ConVal κ n m ℝ) → Z n m → Z n m
  | _, [], _ => 0
  | θ, v :: l, z => mulGrad (θ 0) v.con z + lagFold (fun j => θ (j + 1)) l z

/-- The gradient of the Lagrangian of a knot point with given multipliers. -/
def mulLagGrad (θ : Bool → ℕ → ℕ → ℝ) (c : ALCost n m ℝ) (z : Z n m) : Z n m :=
  c.cost.grad z.1 z.2 + lagFold (θ true) c.eq z + lagFold (θ false) c.ineq z

theorem mulGrad_continuous {X : Type} [TopologicalSpace X] {con : Con n m ℝ} (hs : SmoothCon con) {θ : X → ℕ → ℝ} {z : X → Z n m}
    (hθ : Continuous θ) (hz : Continuous z) : Continuous fun a => mulGrad (θ a) con (z a) := by
  have hj := hs.cont.comp hz
  have hl : Continuous fun a => (fun i : Fin con.p => θ a i) := continuous_pi fun i => (continuous_apply (i : ℕ)).comp hθ
  have c1 : Continuous fun a => (con.jac (z a).1 (z a).2).toCols₁ᵀ :=
    continuous_pi fun i => continuous_pi fun j => hj.matrix_elem j (Sum.inl i)
  have c2 : Continuous fun a => (con.jac (z a).1 (z a).2).toCols₂ᵀ :=
    continuous_pi fun i => continuous_pi fun j => hj.matrix_elem j (Sum.inr i)
  exact ((c1.matrix_mulVec hl).neg).prodMk ((c2.matrix_mulVec hl).neg)

theorem lagFold_continuous {X : Type} [TopologicalSpace X] {z : X → Z n m} (hz : Continuous z) :
    ∀ (l : List (ConVal κ n m ℝ)), (∀ v ∈ l, SmoothCon v.con) → ∀ (θ : X → ℕ → ℕ → ℝ), Continuous θ →
    Continuous fun a => lagFold (θ a) l (z a)
  | [], _, _, _ => continuous_const
  | v :: l, hl, θ, hθ =>
    (mulGrad_continuous (hl v (by simp)) ((continuous_apply 0).comp hθ) hz).add
      (lagFold_continuous hz l (fun w hw => hl w (by simp [hw])) (fun a j => θ a (j + 1))
        (continuous_pi fun j => (continuous_apply (j + 1)).comp hθ))

theorem mulLagGrad_continuous {c : ALCost n m ℝ} (h : SmoothKnot c) :
    Continuous fun q : (Bool → ℕ → ℕ → ℝ) × Z n m => mulLagGrad q.1 c q.2 := by
  have h1 : Continuous fun q : (Bool → ℕ → ℕ → ℝ) × Z n m => q.1 true := (continuous_apply true).comp continuous_fst
  have h2 : Continuous fun q : (Bool → ℕ → ℕ → ℝ) × Z n m => q.1 false := (continuous_apply false).comp continuous_fst
  exact ((h.gradCont.comp continuous_snd).add (lagFold_continuous continuous_snd c.eq (fun v hv => (h.eq v hv).1) _ h1)).add
    (lagFold_continuous continuous_snd c.ineq (fun v hv => (h.ineq v hv).1) _ h2)

theorem lagGrad_mul {v w : ConVal κ n m ℝ} (e : w.static = v.static) {θ : ℕ → ℝ} (hθ : ∀ (i : ℕ) (h : i < w.con.p), θ i = w.lam ⟨i, h⟩)
    (z : Z n m) : w.lagGrad z.1 z.2 = mulGrad θ v.con z := by
  obtain ⟨con, c, lam, pen, pj, sc⟩ := v
  obtain ⟨con', c', lam', pen', pj', sc'⟩ := w
  obtain ⟨rfl, -⟩ := ConVal.mk.inj e
  have a1 : (fun i : Fin con'.p => θ i) = lam' := funext fun i => hθ i i.2
  show (-((con'.jac z.1 z.2).toCols₁ᵀ *ᵥ lam'), -((con'.jac z.1 z.2).toCols₂ᵀ *ᵥ lam')) = _
  rw [← a1]; rfl

theorem foldl_lagGrad (z : Z n m) : ∀ {l l' : List (ConVal κ n m ℝ)}, l'.map ConVal.static = l.map ConVal.static → ∀ a : Z n m,
    l'.foldl (fun g v => (g.1 + (v.lagGrad z.1 z.2).1, g.2 + (v.lagGrad z.1 z.2).2)) a = a + lagFold (getMul l') l z
  | [], [], _, a => (add_zero a).symm
  | [], _ :: _, e, _ => nomatch e
  | _ :: _, [], e, _ => nomatch e
  | v :: l, w :: l', e, a => by
    obtain ⟨e1, e2⟩ := List.cons.inj e
    rw [List.foldl_cons, foldl_lagGrad z e2]
    show (a + w.lagGrad z.1 z.2) + lagFold (getMul l') l z = a + (mulGrad (getMul (w :: l') 0) v.con z + lagFold (getMul l') l z)
    rw [lagGrad_mul e1 (θ := getMul (w :: l') 0) fun i h => by
      show (if h : i < w.con.p then w.lam ⟨i, h⟩ else 0) = _
      rw [dif_pos h], add_assoc]

theorem lagGrad_eq {c c0 : ALCost n m ℝ} (e : c.static = c0.static) (z : Z n m) : lagGrad c z.1 z.2 = mulLagGrad (mulOf c) c0 z := by
  obtain ⟨e1, e2, e3⟩ := ALCost.mk.inj e
  unfold lagGrad
  rw [foldl_lagGrad z e2, foldl_lagGrad z e3, e1]
  rfl

/-- A knot point's costs with constraint values from `z`, and the multipliers updated. -/
noncomputable def updAt (c : ALCost n m ℝ) (z : Z n m) : ALCost n m ℝ :=
  { c with eq := c.eq.map fun v => (v.evalC z.1 z.2).updateDuals, ineq := c.ineq.map fun v => (v.evalC z.1 z.2).updateDuals }

theorem updAt_static (c : ALCost n m ℝ) (z : Z n m) : (updAt c z).static = c.static := by
  simp only [ALCost.static, updAt, List.map_map]; rfl

theorem augLagGradient_eq (v : ConVal κ n m ℝ) (hb : κ.stale v.projJac = 0) (hp : ∀ i, v.pen i = ρ) (z : Z n m) :
    (v.augLagGradient z.1 z.2).1 = ((v.evalC z.1 z.2).updateDuals).lagGrad z.1 z.2 := by
  have hu : v.Uniform := fun i => (hp i).trans (hp _).symm
  rcases bufOk_of_stale hb with rfl | h
  · obtain ⟨e1, e2⟩ := gradient_eq_of_uniform { v with projJac := 0 } z.1 z.2 (fun i j _ => rfl) hu
    exact Prod.ext e1 e2
  · obtain ⟨e1, e2⟩ := gradient_eq_of_uniform v z.1 z.2 h hu
    exact Prod.ext e1 e2

theorem gradient_eq_upd {c c0 : ALCost n m ℝ} (e : c.static = c0.static) (hp : PenU c ρ) (hb : ∀ v ∈ c.ineq, ConKind.inequality.stale v.projJac = 0)
    (z : Z n m) : (c.gradient z.1 z.2).1 = mulLagGrad (mulOf (updAt c z)) c0 z := by
  rw [← lagGrad_eq ((updAt_static c z).trans e)]
  have fold : ∀ {κ : ConKind} (l : List (ConVal κ n m ℝ)) (g : Z n m), (∀ v ∈ l, κ.stale v.projJac = 0 ∧ ∀ i, v.pen i = ρ) →
      l.foldl (fun g v => (g.1 + (v.augLagGradient z.1 z.2).1.1, g.2 + (v.augLagGradient z.1 z.2).1.2)) g
        = (l.map fun v => (v.evalC z.1 z.2).updateDuals).foldl
          (fun g v => (g.1 + (v.lagGrad z.1 z.2).1, g.2 + (v.lagGrad z.1 z.2).2)) g := by
    intro κ l
    induction l with
    | nil => intro g _; rfl
    | cons a l ih =>
      intro g hl
      rw [List.map_cons, List.foldl_cons, List.foldl_cons, augLagGradient_eq a (hl a (by simp)).1 (hl a (by simp)).2]
      exact ih _ fun v hv => hl v (by simp [hv])
  unfold ALCost.gradient lagGrad updAt
  dsimp only
  rw [List.foldl_map, List.foldl_map, fold _ _ fun v hv => ⟨rfl, hp.1 v hv⟩, fold _ _ fun v hv => ⟨hb v hv, hp.2 v hv⟩]

/-! ## Updated multipliers -/

theorem dualProj_sub_le (κ : ConKind) {q : ℕ} (a b : Fin q → ℝ) (i : Fin q) : |κ.dualProj a i - κ.dualProj b i| ≤ |a i - b i| := by
  cases κ
  · exact le_rfl
  · refine (abs_min_sub_min_le_max _ _ _ _).trans (max_le ?_ ?_)
    · simp
    · simp

theorem dualProj_le (κ : ConKind) {q : ℕ} (a : Fin q → ℝ) (i : Fin q) : |κ.dualProj a i| ≤ |a i| := by
  have := dualProj_sub_le κ a 0 i
  cases κ
  · exact le_rfl
  · have e : ConKind.inequality.dualProj (0 : Fin q → ℝ) i = 0 := min_self 0
    rw [e, sub_zero] at this
    simpa using this

end Altro.Props
