import Verif.Proofs.Slater
import Verif.Proofs.ConvexAL
import Verif.Spec.Slater

/-!
# Smooth problems with a feasible trajectory have a solution
-/

namespace Altro.Props
open Altro.Spec Matrix ILQR
variable {n m : ℕ} {p : DynProblem n m ℝ} {cs : ℕ → ALCost n m ℝ} {Y : Traj (Fin n → ℝ) (Fin m → ℝ) ℝ} {μ : ℝ}

theorem openLoop_alt {y : Traj (Fin n → ℝ) (Fin m → ℝ) ℝ} (hy : Alternative p Y y) : ∀ k ≤ p.N, openLoop p Y (ctl p.N y) k = y.x k := by
  intro k hk
  induction k with
  | zero => exact hy.init.symm
  | succ k ih =>
    show p.f k (openLoop p Y (ctl p.N y) k) (ctl p.N y k) (Y.t k) (Y.h k) = _
    rw [ih (by omega), ctl_of_lt y (show k < p.N from hk)]
    exact (hy.step k hk).symm

/-- The trajectory with given controls. -/
def trajOf (p : DynProblem n m ℝ) (Y : Traj (Fin n → ℝ) (Fin m → ℝ) ℝ) (U : ℕ → Fin m → ℝ) : Traj (Fin n → ℝ) (Fin m → ℝ) ℝ :=
  { Y with x := openLoop p Y U, u := U }

theorem trajOf_alt (U : ℕ → Fin m → ℝ) : Alternative p Y (trajOf p Y U) := ⟨rfl, fun _ _ => rfl⟩

/-- A function of a knot point that does not depend on the control at the last one. -/
theorem trajOf_ctl {α : Type} {f : ℕ → (Fin n → ℝ) → (Fin m → ℝ) → α} (hf : ∀ x u u', f p.N x u = f p.N x u')
    {y : Traj (Fin n → ℝ) (Fin m → ℝ) ℝ} (hy : Alternative p Y y) {k : ℕ} (hk : k ≤ p.N) :
    f k ((trajOf p Y (ctl p.N y)).x k) ((trajOf p Y (ctl p.N y)).u k) = f k (y.x k) (y.u k) := by
  show f k (openLoop p Y (ctl p.N y) k) (ctl p.N y k) = _
  rw [openLoop_alt hy k hk]
  rcases Nat.lt_or_eq_of_le hk with h1 | rfl
  · rw [ctl_of_lt y h1]
  · exact hf _ _ _

theorem objective_ctl (h : SmoothProblem p cs Y μ) {y : Traj (Fin n → ℝ) (Fin m → ℝ) ℝ} (hy : Alternative p Y y) :
    objective p cs (trajOf p Y (ctl p.N y)) = objective p cs y :=
  Finset.sum_congr rfl fun k hk => trajOf_ctl (f := fun k => (cs k).cost.eval) h.term hy (by have := Finset.mem_range.mp hk; omega)

theorem satisfies_ctl (h : SmoothProblem p cs Y μ) {y : Traj (Fin n → ℝ) (Fin m → ℝ) ℝ} (hy : Alternative p Y y)
    (hs : Satisfies p cs y) : Satisfies p cs (trajOf p Y (ctl p.N y)) := by
  have key : ∀ k ≤ p.N, ∀ c : Con n m ℝ, (k = p.N → ∀ x u u', c.eval x u = c.eval x u') →
      c.eval ((trajOf p Y (ctl p.N y)).x k) ((trajOf p Y (ctl p.N y)).u k) = c.eval (y.x k) (y.u k) := by
    intro k hk c hc
    show c.eval (openLoop p Y (ctl p.N y) k) (ctl p.N y k) = _
    rw [openLoop_alt hy k hk]
    rcases Nat.lt_or_eq_of_le hk with h1 | h1
    · rw [ctl_of_lt y h1]
    · exact hc h1 _ _ _
  refine ⟨fun k hk v hv i => ?_, fun k hk v hv i => ?_⟩
  · rw [key k hk v.con fun e => by subst e; exact h.termEq v hv]
    exact hs.eq k hk v hv i
  · rw [key k hk v.con fun e => by subst e; exact h.termIneq v hv]
    exact hs.ineq k hk v hv i

/-- Lower bound on the objective and bound on the controls of a sublevel set. -/
theorem objective_sublevel (h : SmoothProblem p cs Y μ) : ∃ L : ℝ, (∀ Z, L ≤ objective p cs Z) ∧ ∀ Jb : ℝ, ∃ R, 0 ≤ R ∧
    ∀ Z, objective p cs Z ≤ Jb → ∀ k i, |ctl p.N Z k i| ≤ R := by
  obtain ⟨c, b, hc, g1, g2⟩ := h.grows
  let bare : ℕ → ALCost n m ℝ := fun k => { cs k with eq := [], ineq := [] }
  have hb : SmoothProblem p bare Y μ :=
    { curved := ⟨h.curved.psd, h.curved.strong, fun _ _ v hv => absurd hv List.not_mem_nil, fun _ _ v hv => absurd hv List.not_mem_nil⟩
      jac := h.jac
      cont := h.cont
      knot := fun k hk =>
        { grad := (h.knot k hk).grad
          gradCont := (h.knot k hk).gradCont
          dxdx := (h.knot k hk).dxdx
          dxdu := (h.knot k hk).dxdu
          dudu := (h.knot k hk).dudu
          eq := fun v hv => absurd hv List.not_mem_nil
          ineq := fun v hv => absurd hv List.not_mem_nil
          buf := fun v hv => absurd hv List.not_mem_nil }
      grows := ⟨c, b, hc, g1, g2⟩
      term := h.term
      termHess := h.termHess
      termEq := fun v hv => absurd hv List.not_mem_nil
      termIneq := fun v hv => absurd hv List.not_mem_nil }
  exact hb.core.sublevel

theorem objective_continuous (h : SmoothProblem p cs Y μ) : Continuous fun U : ℕ → Fin m → ℝ => objective p cs (trajOf p Y U) := by
  refine continuous_finset_sum _ fun k hk => ?_
  have hk : k ≤ p.N := by have := Finset.mem_range.mp hk; omega
  have hc : Continuous fun z : Z n m => (cs k).cost.eval z.1 z.2 :=
    continuous_iff_continuousAt.mpr fun z => ((h.knot k hk).grad z.1 z.2).continuousAt
  exact hc.comp (SmoothDyn.cont_pair h.core.dyn k hk)

theorem satisfies_closed (h : SmoothProblem p cs Y μ) : IsClosed {U : ℕ → Fin m → ℝ | Satisfies p cs (trajOf p Y U)} := by
  have hc : ∀ k ≤ p.N, ∀ c : Con n m ℝ, SmoothCon c → Continuous fun U : ℕ → Fin m → ℝ => c.eval (openLoop p Y U k) (U k) := fun k hk c hc =>
    (Spec.IsJacAt.continuous hc.jac).comp (SmoothDyn.cont_pair h.core.dyn k hk)
  have e : {U : ℕ → Fin m → ℝ | Satisfies p cs (trajOf p Y U)}
      = (⋂ k, ⋂ (_ : k ≤ p.N), ⋂ v ∈ (cs k).eq, ⋂ i, {U | v.con.eval (openLoop p Y U k) (U k) i = 0}) ∩
        ⋂ k, ⋂ (_ : k ≤ p.N), ⋂ v ∈ (cs k).ineq, ⋂ i, {U | v.con.eval (openLoop p Y U k) (U k) i ≤ 0} := by
    ext U
    simp only [Set.mem_inter_iff, Set.mem_iInter, Set.mem_setOf_eq]
    exact ⟨fun h => ⟨h.eq, h.ineq⟩, fun h => ⟨h.1, h.2⟩⟩
  rw [e]
  refine IsClosed.inter ?_ ?_
  · refine isClosed_iInter fun k => isClosed_iInter fun hk => isClosed_iInter fun v => isClosed_iInter fun hv => isClosed_iInter fun i => ?_
    exact isClosed_eq ((continuous_apply i).comp (hc k hk _ ((h.knot k hk).eq v hv).1)) continuous_const
  · refine isClosed_iInter fun k => isClosed_iInter fun hk => isClosed_iInter fun v => isClosed_iInter fun hv => isClosed_iInter fun i => ?_
    exact isClosed_le ((continuous_apply i).comp (hc k hk _ ((h.knot k hk).ineq v hv).1)) continuous_const

theorem solution_exists (h : SmoothProblem p cs Y μ) {z0 : Traj (Fin n → ℝ) (Fin m → ℝ) ℝ} (h0 : Alternative p Y z0) (s0 : Satisfies p cs z0) :
    ∃ zs, Solution p cs Y zs := by
  obtain ⟨L, -, H⟩ := objective_sublevel h
  obtain ⟨R, hR, H⟩ := H (objective p cs z0)
  have hK : IsCompact ({U : ℕ → Fin m → ℝ | ∀ k i, |U k i| ≤ R} ∩ {U | Satisfies p cs (trajOf p Y U)}) :=
    (controls_compact R).inter_right (satisfies_closed h)
  obtain ⟨U, hU, hmin⟩ := hK.exists_isMinOn ⟨ctl p.N z0, H z0 le_rfl, satisfies_ctl h h0 s0⟩ (objective_continuous h).continuousOn
  have hmin : ∀ V : ℕ → Fin m → ℝ, (∀ k i, |V k i| ≤ R) → Satisfies p cs (trajOf p Y V) → objective p cs (trajOf p Y U) ≤ objective p cs (trajOf p Y V) :=
    fun V h1 h2 => hmin ⟨h1, h2⟩
  refine ⟨trajOf p Y U, trajOf_alt U, hU.2, fun y hy hs => ?_⟩
  rcases le_total (objective p cs y) (objective p cs z0) with hle | hle
  · have := hmin _ (H y hle) (satisfies_ctl h hy hs)
    rw [← objective_ctl h hy]
    exact this
  · refine le_trans ?_ hle
    rw [← objective_ctl h h0]
    exact hmin _ (H z0 le_rfl) (satisfies_ctl h h0 s0)

/-- Trajectories can be reflected in one another when the dynamics are affine. -/
def reflect (z y : Traj (Fin n → ℝ) (Fin m → ℝ) ℝ) : Traj (Fin n → ℝ) (Fin m → ℝ) ℝ :=
  { z with x := fun k => y.x k + (2 : ℝ) • (z.x k - y.x k), u := fun k => y.u k + (2 : ℝ) • (z.u k - y.u k) }

theorem reflect_mid {q : ℕ} (a b : Fin q → ℝ) : b + (1 / 2 : ℝ) • ((b + (2 : ℝ) • (a - b)) - b) = a := by
  rw [add_sub_cancel_left, smul_smul]; norm_num

theorem reflect_alt (hc : ConvexProblem p cs) {z y : Traj (Fin n → ℝ) (Fin m → ℝ) ℝ} (hz : Alternative p Y z) (hy : Alternative p Y y) :
    Alternative p Y (reflect z y) := by
  refine ⟨?_, fun k hk => ?_⟩
  · show y.x 0 + (2 : ℝ) • (z.x 0 - y.x 0) = _
    rw [hz.init, hy.init, sub_self, smul_zero, add_zero]
  · have := hc.dyn k hk (y.x k) ((reflect z y).x k) (y.u k) ((reflect z y).u k) (Y.t k) (Y.h k) (1 / 2) (by norm_num) (by norm_num)
    rw [show y.x k + (1 / 2 : ℝ) • ((reflect z y).x k - y.x k) = z.x k from reflect_mid _ _,
      show y.u k + (1 / 2 : ℝ) • ((reflect z y).u k - y.u k) = z.u k from reflect_mid _ _] at this
    show y.x (k + 1) + (2 : ℝ) • (z.x (k + 1) - y.x (k + 1)) = _
    rw [hz.step k hk, hy.step k hk, this, add_sub_cancel_left, smul_smul]
    norm_num

theorem rows_holds {Z : Traj (Fin n → ℝ) (Fin m → ℝ) ℝ} : (∀ r ∈ rows p cs, r.Holds Z) ↔ Satisfies p cs Z := by
  constructor
  · intro h
    exact ⟨fun k hk v hv i => h _ ((mem_rows p cs _).mpr ⟨k, hk, .inl ⟨v, hv, i, rfl⟩⟩),
      fun k hk v hv i => h _ ((mem_rows p cs _).mpr ⟨k, hk, .inr ⟨v, hv, i, rfl⟩⟩)⟩
  · intro h r hr
    obtain ⟨k, hk, ⟨v, hv, i, rfl⟩ | ⟨v, hv, i, rfl⟩⟩ := (mem_rows p cs r).mp hr
    · exact h.eq k hk v hv i
    · exact h.ineq k hk v hv i

theorem saddle_of_strict (hc : ConvexProblem p cs) {zs z0 : Traj (Fin n → ℝ) (Fin m → ℝ) ℝ} (hs : Solution p cs Y zs) (h0 : Strict p cs Y z0) :
    ∃ star, Saddle (Alternative p Y) (objective p cs) (rows p cs) zs star := by
  refine saddle_exists (hc.convex Y) hs.alt (rows_holds.mpr hs.sat) (fun y hy h => hs.best y hy (rows_holds.mp h)) h0.alt (fun r hr => ?_)
    fun y hy => ⟨reflect z0 y, reflect_alt hc h0.alt hy, fun r hr hk => ?_⟩
  · obtain ⟨k, hk, ⟨v, hv, i, rfl⟩ | ⟨v, hv, i, rfl⟩⟩ := (mem_rows p cs r).mp hr
    · exact h0.eq k hk v hv i
    · exact h0.ineq k hk v hv i
  · obtain ⟨k, hk', ⟨v, hv, i, rfl⟩ | ⟨v, hv, i, rfl⟩⟩ := (mem_rows p cs r).mp hr
    · have := hc.eq k hk' v hv i (y.x k) ((reflect z0 y).x k) (y.u k) ((reflect z0 y).u k) (1 / 2) (by norm_num) (by norm_num)
      rw [show y.x k + (1 / 2 : ℝ) • ((reflect z0 y).x k - y.x k) = z0.x k from reflect_mid _ _,
        show y.u k + (1 / 2 : ℝ) • ((reflect z0 y).u k - y.u k) = z0.u k from reflect_mid _ _, h0.eq k hk' v hv i] at this
      show v.con.eval ((reflect z0 y).x k) ((reflect z0 y).u k) i = - v.con.eval (y.x k) (y.u k) i
      linarith
    · cases hk

theorem solution_of_saddle {zs : Traj (Fin n → ℝ) (Fin m → ℝ) ℝ} {star : List ℝ}
    (hs : Saddle (Alternative p Y) (objective p cs) (rows p cs) zs star) : Solution p cs Y zs := by
  refine ⟨hs.mem, rows_holds.mp hs.holds, fun y hy h => ?_⟩
  have hl := hs.lag y hy
  have hle : ∀ l : List (Row (Traj (Fin n → ℝ) (Fin m → ℝ) ℝ) ℝ × ℝ), (∀ q ∈ l, q.2 * q.1.fn zs ≤ q.2 * q.1.fn y) →
      (l.map fun q => q.2 * q.1.fn zs).sum ≤ (l.map fun q => q.2 * q.1.fn y).sum := fun l hl => List.sum_le_sum hl
  have := hle ((rows p cs).zip star) fun q hq => by
    have hr := (List.of_mem_zip hq).1
    have h1 := hs.holds _ hr
    have h2 := rows_holds.mpr h _ hr
    unfold Row.Holds at h1 h2
    cases hk : q.1.kind
    · rw [hk] at h1 h2
      have h1 : q.1.fn zs = 0 := h1
      have h2 : q.1.fn y = 0 := h2
      rw [h1, h2]
    · rw [hk] at h1 h2
      obtain ⟨s1, s2⟩ := hs.sign q hq hk
      rw [s2]
      exact mul_nonneg_of_nonpos_of_nonpos s1 h2
  linarith

end Altro.Props
