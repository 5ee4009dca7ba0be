import Verif.Proofs.ErrorBound
import Verif.Spec.SecondOrder
import Verif.Props.QualificationExact

/-!
# The problem as a function of the controls of the segments, and its constraints as a finite family
-/

namespace Altro.Props
open Altro.Spec Matrix ILQR AL Filter
open scoped Topology
variable {n m : ℕ} {p : DynProblem n m ℝ} {cs c' : ℕ → ALCost n m ℝ} {Z Z' : Traj (Fin n → ℝ) (Fin m → ℝ) ℝ} {κ : ConKind}

/-! ## Controls -/

/-- The controls of the segments. -/
def restU (N : ℕ) (Z : Traj (Fin n → ℝ) (Fin m → ℝ) ℝ) : Fin N → Fin m → ℝ := fun k => Z.u k

/-- Controls of the segments, followed by those of `Z`. -/
def extU (N : ℕ) (Z : Traj (Fin n → ℝ) (Fin m → ℝ) ℝ) (U : Fin N → Fin m → ℝ) : ℕ → Fin m → ℝ := fun k => if h : k < N then U ⟨k, h⟩ else Z.u k

theorem extU_lt {N : ℕ} (U : Fin N → Fin m → ℝ) {k : ℕ} (hk : k < N) : extU N Z U k = U ⟨k, hk⟩ := dif_pos hk

theorem openLoop_near {N : ℕ} (ht : ∀ k < N, Z'.t k = Z.t k ∧ Z'.h k = Z.h k) {w w' : ℕ → Fin m → ℝ} (hw : ∀ k < N, w k = w' k) :
    ∀ k ≤ N, openLoop p Z' w k = openLoop p Z w' k := by
  intro k hk
  induction k with
  | zero => rfl
  | succ k ih =>
    show p.f k _ _ _ _ = p.f k _ _ _ _
    rw [ih (by omega), hw k hk, (ht k hk).1, (ht k hk).2]

theorem extU_contDiff {N : ℕ} (k : ℕ) : ContDiff ℝ 2 fun U : Fin N → Fin m → ℝ => extU N Z U k := by
  unfold extU
  split
  · exact contDiff_apply _ _ _
  · exact contDiff_const

theorem states_contDiff (h : TwiceSmooth p cs Z) : ∀ k ≤ p.N, ContDiff ℝ 2 fun U : Fin p.N → Fin m → ℝ => openLoop p Z (extU p.N Z U) k := by
  intro k hk
  induction k with
  | zero => exact contDiff_const
  | succ k ih => exact (h.dyn k hk).comp ((ih (by omega)).prodMk (extU_contDiff k))

/-! ## Rows -/

/-- The components of the constraints of all knot points: equalities, then inequalities. -/
abbrev Place (N : ℕ) (cs : ℕ → ALCost n m ℝ) : Type :=
  Σ k : Fin (N + 1), (Σ j : Fin (cs k).eq.length, Fin ((cs k).eq.get j).con.p) ⊕ (Σ j : Fin (cs k).ineq.length, Fin ((cs k).ineq.get j).con.p)

/-- The value of a component. -/
def conRow {N : ℕ} : Place N cs → (Fin n → ℝ) → (Fin m → ℝ) → ℝ
  | ⟨k, .inl ⟨j, i⟩⟩, x, u => ((cs k).eq.get j).con.eval x u i
  | ⟨k, .inr ⟨j, i⟩⟩, x, u => ((cs k).ineq.get j).con.eval x u i

/-- The multiplier of a component in the cost objects `c'`. -/
def mulRow {N : ℕ} (c' : ℕ → ALCost n m ℝ) : Place N cs → ℝ
  | ⟨k, .inl ⟨j, i⟩⟩ => getMul (c' k).eq j i
  | ⟨k, .inr ⟨j, i⟩⟩ => getMul (c' k).ineq j i

theorem placeSum (x : Fin n → ℝ) (u : Fin m → ℝ) : ∀ {l l' : List (ConVal κ n m ℝ)}, l'.map (·.con) = l.map (·.con) →
    (l'.map fun v => v.lam ⬝ᵥ v.con.eval x u).sum = ∑ j : Fin l.length, ∑ i : Fin (l.get j).con.p, getMul l' j i * (l.get j).con.eval x u i
  | [], [], _ => rfl
  | [], _ :: _, e => nomatch e
  | _ :: _, [], e => nomatch e
  | v :: l, w :: l', e => by
    obtain ⟨e1, e2⟩ := List.cons.inj e
    rw [List.map_cons, List.sum_cons, placeSum x u e2]
    show _ = ∑ j : Fin (l.length + 1), ∑ i : Fin ((v :: l).get j).con.p, getMul (w :: l') j i * ((v :: l).get j).con.eval x u i
    rw [Fin.sum_univ_succ]
    congr 1
    have e1 : v.con = w.con := e1.symm
    show w.lam ⬝ᵥ w.con.eval x u = ∑ i : Fin v.con.p, getMul (w :: l') 0 i * v.con.eval x u i
    rw [e1]
    refine Finset.sum_congr rfl fun i _ => ?_
    show _ = (if h : (i : ℕ) < w.con.p then w.lam ⟨i, h⟩ else 0) * _
    rw [dif_pos i.2]

theorem total_rows (hs : SameProblem p cs c') (w : ℕ → Fin m → ℝ) : controlCostOf p (fun k => weighted (c' k)) Z w
    = ∑ q : Place p.N cs, mulRow c' q * conRow q (openLoop p Z w q.1) (w q.1) := by
  unfold controlCostOf
  rw [Finset.sum_range, Fintype.sum_sigma]
  refine Finset.sum_congr rfl fun k _ => ?_
  have hk : (k : ℕ) ≤ p.N := Nat.lt_succ_iff.mp k.2
  rw [Fintype.sum_sum_type, Fintype.sum_sigma, Fintype.sum_sigma]
  unfold weighted
  beta_reduce
  rw [placeSum _ _ (hs.eqCons k hk), placeSum _ _ (hs.ineqCons k hk)]
  rfl

theorem total_lagrangian (hs : SameProblem p cs c') (w : ℕ → Fin m → ℝ) : controlCostOf p (fun k => lagrangian (c' k)) Z w
    = controlCostOf p (fun k => (cs k).cost.eval) Z w - ∑ q : Place p.N cs, mulRow c' q * conRow q (openLoop p Z w q.1) (w q.1) := by
  rw [← total_rows hs]
  unfold controlCostOf
  rw [← Finset.sum_sub_distrib]
  refine Finset.sum_congr rfl fun k hk => ?_
  beta_reduce
  rw [lagrangian_eq, hs.cost k (by have := Finset.mem_range.mp hk; omega)]

/-! ## Multipliers for given places -/

theorem getMul_setMul_at (ρ : ℝ) : ∀ (l : List (ConVal κ n m ℝ)) (θ : ℕ → ℕ → ℝ) (j : Fin l.length) (i : Fin (l.get j).con.p),
    getMul (setMul ρ θ l) j i = θ j i
  | v :: l, θ, ⟨0, _⟩, i => dif_pos i.2
  | v :: l, θ, ⟨j + 1, h⟩, i => getMul_setMul_at ρ l (fun j => θ (j + 1)) ⟨j, Nat.lt_of_succ_lt_succ h⟩ i

/-- The cost objects of the problem with given multipliers. -/
noncomputable def putRow {N : ℕ} (η : Place N cs → ℝ) : ℕ → ALCost n m ℝ := fun k => withMul 1 (fun b j i =>
  open Classical in
  if hk : k < N + 1 then
    match b with
    | true => if hj : j < (cs k).eq.length then if hi : i < ((cs k).eq.get ⟨j, hj⟩).con.p then η ⟨⟨k, hk⟩, .inl ⟨⟨j, hj⟩, ⟨i, hi⟩⟩⟩ else 0 else 0
    | false => if hj : j < (cs k).ineq.length then if hi : i < ((cs k).ineq.get ⟨j, hj⟩).con.p then η ⟨⟨k, hk⟩, .inr ⟨⟨j, hj⟩, ⟨i, hi⟩⟩⟩ else 0 else 0
  else 0) (cs k)

theorem putRow_same {N : ℕ} (η : Place N cs → ℝ) : SameProblem p cs (putRow η) :=
  ⟨fun _ _ => rfl, fun k _ => setMul_con 1 _ (cs k).eq, fun k _ => setMul_con 1 _ (cs k).ineq⟩

theorem mulRow_putRow {N : ℕ} (η : Place N cs → ℝ) (q : Place N cs) : mulRow (putRow η) q = η q := by
  obtain ⟨k, ⟨j, i⟩ | ⟨j, i⟩⟩ := q
  · refine (getMul_setMul_at 1 (cs k).eq _ j i).trans ?_
    simp [k.2, j.2, i.2]
  · refine (getMul_setMul_at 1 (cs k).ineq _ j i).trans ?_
    simp [k.2, j.2, i.2]

theorem mulRow_none {N : ℕ} (hN : N = p.N) (h : NoMultipliers p c') (q : Place N cs) : mulRow c' q = 0 := by
  subst hN
  obtain ⟨k, ⟨j, i⟩ | ⟨j, i⟩⟩ := q
  · exact getMul_none (h.eq k (Nat.lt_succ_iff.mp k.2)) j i
  · exact getMul_none (h.ineq k (Nat.lt_succ_iff.mp k.2)) j i

end Altro.Props
