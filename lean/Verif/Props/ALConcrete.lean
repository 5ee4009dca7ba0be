import Verif.Props.ALSolver
import Verif.Proofs.Concrete

/-!
# C13-C15 for the model of `ALCost`, and concrete runs for C11-C16
-/

namespace Altro.Props
open Altro.Spec Altro.AL
variable {K : Type} [Field K] [LinearOrder K] {n m : ℕ} {κ : ConKind}

/-- What evaluating the costs one knot point at a time leaves behind. -/
theorem costsTo_at {X U F C D : Type} [Arith F] (P : Kernel X U F C D) (Z : Traj X U F) (s : St X U F C D) (k j : ℕ) :
    (j < k → (ILQR.costsTo P Z s k).costs j = (P.cost j (s.cs j) (Z.x j) (Z.u j)).1 ∧
      (ILQR.costsTo P Z s k).cs j = (P.cost j (s.cs j) (Z.x j) (Z.u j)).2) ∧
    (k ≤ j → (ILQR.costsTo P Z s k).costs j = s.costs j ∧ (ILQR.costsTo P Z s k).cs j = s.cs j) := by
  induction k with
  | zero => exact ⟨fun h => absurd h (by omega), fun _ => ⟨rfl, rfl⟩⟩
  | succ k ih =>
    simp only [ILQR.costsTo]
    refine ⟨fun h => ?_, fun h => ?_⟩
    · rcases Nat.lt_succ_iff_lt_or_eq.mp h with h | rfl
      · rw [upd_of_ne (by omega), upd_of_ne (by omega)]; exact ih.1 h
      · rw [upd_self, upd_self, (ih.2 le_rfl).2]; exact ⟨rfl, rfl⟩
    · rw [upd_of_ne (by omega), upd_of_ne (by omega)]; exact ih.2 (by omega)

/-- The part of a `ConstraintValues` object that the penalty update acts on. -/
def penPart (v : ConVal κ n m K) : ConVal κ n m K := { v with c := 0, projJac := 0, lam := 0 }

def penParts (c : ALCost n m K) : ALCost n m K :=
  { c with eq := c.eq.map penPart, ineq := c.ineq.map penPart }

/-- Every constraint of a cost object has the same penalty `f scaling` in all rows. -/
def PenAll (c : ALCost n m K) (f : K → K) : Prop :=
  (∀ v ∈ c.eq, ∀ i, v.pen i = f v.scaling) ∧ (∀ v ∈ c.ineq, ∀ i, v.pen i = f v.scaling)

theorem penAll_penParts (c : ALCost n m K) (f : K → K) : PenAll (penParts c) f ↔ PenAll c f := by
  simp only [PenAll, penParts, List.forall_mem_map]; rfl

theorem penAll_iterate (c : ALCost n m K) (r : K) (h : PenAll c fun _ => r) (j : ℕ) :
    PenAll (ALCost.updatePenalties^[j] c) fun phi => r * phi ^ j := by
  induction j with
  | zero => simpa using h
  | succ j ih =>
    rw [Function.iterate_succ_apply']
    simp only [PenAll, ALCost.updatePenalties, List.forall_mem_map, ConVal.updatePenalties] at ih ⊢
    refine ⟨fun v hv i => ?_, fun v hv i => ?_⟩
    · rw [ih.1 v hv i]; ring
    · rw [ih.2 v hv i]; ring

/-- After a solve with `j` outer iterations, the penalty of every constraint at every knot point is the initial
penalty times that constraint's scaling factor to the power `j - 1`, and the constraints, objective and scaling
factors are unchanged. -/
theorem C13_alcost_penalties (p : DynProblem n m K) (o : Opts K) (fuel : ℕ)
    (hmax : 1 ≤ o.maxOuter) (hpos : 0 < o.initialPenalty) (s s' : ALSt (Fin n → K) (Fin m → K) K (ALCost n m K) (KP n m K))
    (h : AL.solve (alKernel p) alOps o (ILQR.solve (alKernel p) o fuel) s = some s') (k : ℕ) (hk : k ≤ p.N) :
    PenAll (s'.st.cs k) (fun phi => o.initialPenalty * phi ^ (s'.st.stats.outer - 1)) ∧
    (s'.st.cs k).static = (s.st.cs k).static := by
  have hcost : ∀ k c x u, penParts ((alKernel p).cost k c x u).2 = penParts c := by
    intro k c x u
    show penParts (c.evaluate x u).2 = penParts c
    simp only [penParts, ALCost.evaluate, List.map_map]; rfl
  have hexp : ∀ k c x u t h d, penParts ((alKernel p).expand k c x u t h d).2 = penParts c := by
    intro k c x u t h d
    show penParts ((c.gradient x u).2.hessian x u).2 = penParts c
    simp only [penParts, ALCost.gradient, ALCost.hessian, List.map_map]; rfl
  have hstat : ∀ k c x u t h d, ((alKernel p).expand k c x u t h d).2.static = c.static := (alLaw p).expand_sig
  have hin := C11_inner_ok (alKernel p) o fuel
  constructor
  · have hu := C13_updates penParts id ALCost.updatePenalties (A := alOps)
      (fun c => by simp only [penParts, alOps, ALCost.updateDuals, List.map_map]; rfl)
      (fun c => by simp only [penParts, alOps, ALCost.updatePenalties, List.map_map]; rfl)
      hin (ILQR.solve_keeps _ o penParts hcost hexp fuel) hmax s s' h k hk
    rw [← penAll_penParts, hu]
    refine penAll_iterate _ _ ?_ _
    have h0 : penParts ((AL.init (alKernel p) alOps o s).st.cs k)
        = penParts ((s.st.cs k).setPenalty o.initialPenalty) := by
      unfold AL.init
      extract_lets s1 s2 s3 s4 s5
      show penParts (s4.cs k) = _
      rw [show s4.cs = (ILQR.cost (alKernel p) s3.Z s3).2.cs from rfl, ILQR.cost_obs _ penParts hcost]
      show penParts (s2.cs k) = _
      simp only [s2, Arith.gt_iff, hpos, if_true]
      show penParts (if k ≤ p.N then _ else _) = _
      rw [if_pos hk]
      simp only [s1]
      split
      · show penParts (ALCost.setPenalty (if k ≤ p.N then _ else _) _) = _
        rw [if_pos hk]
        simp only [penParts, alOps, ALCost.setPenalty, ALCost.resetDuals, List.map_map]; rfl
      · rfl
    rw [h0, penAll_penParts]
    simp only [PenAll, ALCost.setPenalty, List.forall_mem_map]
    exact ⟨fun _ _ _ => rfl, fun _ _ _ => rfl⟩
  · have hu := C13_updates ALCost.static id id (A := alOps)
      (fun c => c.updateDuals_static)
      (fun c => by
        show c.updatePenalties.static = c.static
        simp only [ALCost.static, ALCost.updatePenalties, List.map_map]; rfl)
      hin (ILQR.solve_keeps _ o ALCost.static (alLaw p).cost_sig hstat fuel) hmax s s' h k hk
    rw [hu]
    have hid : ∀ (j : ℕ) (c : ALCost n m K), (fun x => id (id x))^[j] c = c := fun j c => by
      induction j with
      | zero => rfl
      | succ j ih => rw [Function.iterate_succ_apply]; exact ih
    rw [hid]
    show ((AL.init (alKernel p) alOps o s).st.cs k).static = _
    unfold AL.init
    extract_lets s1 s2 s3 s4 s5
    show (s4.cs k).static = _
    rw [show s4.cs = (ILQR.cost (alKernel p) s3.Z s3).2.cs from rfl,
      ILQR.cost_obs _ ALCost.static (alLaw p).cost_sig]
    show (s2.cs k).static = _
    have e1 : (s1.cs k).static = (s.st.cs k).static := by
      simp only [s1]
      split
      · show (if k ≤ p.N then _ else _ : ALCost n m K).static = _
        rw [if_pos hk]
        simp only [alOps, ALCost.static, ALCost.resetDuals, List.map_map]; rfl
      · rfl
    simp only [s2]
    split
    · show (if k ≤ p.N then _ else _ : ALCost n m K).static = _
      rw [if_pos hk, ← e1]
      simp only [alOps, ALCost.static, ALCost.setPenalty, List.map_map]; rfl
    · exact e1

/-- With `reset_duals` and a positive initial penalty, the first inner solve starts with all multipliers zero, all
penalties equal to the initial penalty, and stored constraint values evaluated at the trajectory. -/
theorem C14_alcost_reset (p : DynProblem n m K) (o : Opts K) (hr : o.resetDuals = true) (hpos : 0 < o.initialPenalty)
    (s : ALSt (Fin n → K) (Fin m → K) K (ALCost n m K) (KP n m K)) (k : ℕ) (hk : k ≤ p.N) :
    (∀ v ∈ ((AL.init (alKernel p) alOps o s).st.cs k).eq,
      v.lam = 0 ∧ (∀ i, v.pen i = o.initialPenalty) ∧ v.c = v.con.eval (s.st.Z.x k) (s.st.Z.u k)) ∧
    (∀ v ∈ ((AL.init (alKernel p) alOps o s).st.cs k).ineq,
      v.lam = 0 ∧ (∀ i, v.pen i = o.initialPenalty) ∧ v.c = v.con.eval (s.st.Z.x k) (s.st.Z.u k)) := by
  have hcs : (AL.init (alKernel p) alOps o s).st.cs k
      = (((s.st.cs k).resetDuals.setPenalty o.initialPenalty).evaluate (s.st.Z.x k) (s.st.Z.u k)).2 := by
    unfold AL.init
    extract_lets s1 s2 s3 s4 s5
    show s4.cs k = _
    have e3 : s3.cs k = (s.st.cs k).resetDuals.setPenalty o.initialPenalty := by
      show s2.cs k = _
      simp only [s2, s1, Arith.gt_iff, hpos, if_true, hr]
      show (if k ≤ p.N then alOps.setPenalty _ (if k ≤ p.N then _ else _) else _) = _
      rw [if_pos hk, if_pos hk]
      rfl
    have e4 : s3.Z = s.st.Z := by
      show s2.Z = _
      simp only [s2, s1, hr, if_true]
      split <;> rfl
    rw [← e3, ← e4]
    exact ((costsTo_at (alKernel p) s3.Z s3 (p.N + 1) k).1 (by omega)).2
  rw [hcs]
  simp only [ALCost.evaluate, ALCost.setPenalty, ALCost.resetDuals, List.map_map, List.forall_mem_map]
  exact ⟨fun _ _ => ⟨rfl, fun _ => rfl, rfl⟩, fun _ _ => ⟨rfl, fun _ => rfl, rfl⟩⟩

end Altro.Props
