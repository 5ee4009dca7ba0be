import Verif.Tactics
import Verif.Spec.ILQR

namespace Altro.ILQR
open Spec
variable {X U F C D : Type} [Arith F]
variable (P : Kernel X U F C D) (o : Opts F)

/-! ## Frames: what each function leaves alone -/

theorem costsTo_frame (Z : Traj X U F) (s : St X U F C D) (k : ℕ) :
    costsTo P Z s k = { s with costs := (costsTo P Z s k).costs, cs := (costsTo P Z s k).cs } := by
  induction k with
  | zero => rfl
  | succ k ih => simp only [costsTo]; rw [ih]

section costsToProj
variable (Z : Traj X U F) (s : St X U F C D) (k : ℕ)
@[simp] theorem costsTo_Z : (costsTo P Z s k).Z = s.Z := by rw [costsTo_frame]
@[simp] theorem costsTo_Zbar : (costsTo P Z s k).Zbar = s.Zbar := by rw [costsTo_frame]
@[simp] theorem costsTo_kd : (costsTo P Z s k).kd = s.kd := by rw [costsTo_frame]
@[simp] theorem costsTo_status : (costsTo P Z s k).status = s.status := by rw [costsTo_frame]
@[simp] theorem costsTo_rho : (costsTo P Z s k).rho = s.rho := by rw [costsTo_frame]
@[simp] theorem costsTo_drho : (costsTo P Z s k).drho = s.drho := by rw [costsTo_frame]
@[simp] theorem costsTo_dV0 : (costsTo P Z s k).dV0 = s.dV0 := by rw [costsTo_frame]
@[simp] theorem costsTo_dV1 : (costsTo P Z s k).dV1 = s.dV1 := by rw [costsTo_frame]
@[simp] theorem costsTo_stats : (costsTo P Z s k).stats = s.stats := by rw [costsTo_frame]
end costsToProj

section costProj
variable (Z : Traj X U F) (s : St X U F C D)
@[simp] theorem cost_Z : (cost P Z s).2.Z = s.Z := costsTo_Z ..
@[simp] theorem cost_Zbar : (cost P Z s).2.Zbar = s.Zbar := costsTo_Zbar ..
@[simp] theorem cost_kd : (cost P Z s).2.kd = s.kd := costsTo_kd ..
@[simp] theorem cost_status : (cost P Z s).2.status = s.status := costsTo_status ..
@[simp] theorem cost_rho : (cost P Z s).2.rho = s.rho := costsTo_rho ..
@[simp] theorem cost_drho : (cost P Z s).2.drho = s.drho := costsTo_drho ..
@[simp] theorem cost_dV0 : (cost P Z s).2.dV0 = s.dV0 := costsTo_dV0 ..
@[simp] theorem cost_dV1 : (cost P Z s).2.dV1 = s.dV1 := costsTo_dV1 ..
@[simp] theorem cost_stats : (cost P Z s).2.stats = s.stats := costsTo_stats ..
end costProj

theorem expandBlock_frame (b : ℕ) (s : St X U F C D) (j : ℕ) :
    expandBlock P b s j = { s with kd := (expandBlock P b s j).kd, cs := (expandBlock P b s j).cs,
                                    costs := (expandBlock P b s j).costs } := by
  induction j with
  | zero => rfl
  | succ k ih => simp only [expandBlock]; rw [ih]

section expandProj
variable (b : ℕ) (s : St X U F C D) (j : ℕ)
@[simp] theorem expandBlock_Z : (expandBlock P b s j).Z = s.Z := by rw [expandBlock_frame]
@[simp] theorem expandBlock_Zbar : (expandBlock P b s j).Zbar = s.Zbar := by rw [expandBlock_frame]
@[simp] theorem expandBlock_status : (expandBlock P b s j).status = s.status := by rw [expandBlock_frame]
@[simp] theorem expandBlock_rho : (expandBlock P b s j).rho = s.rho := by rw [expandBlock_frame]
@[simp] theorem expandBlock_drho : (expandBlock P b s j).drho = s.drho := by rw [expandBlock_frame]
@[simp] theorem expandBlock_dV0 : (expandBlock P b s j).dV0 = s.dV0 := by rw [expandBlock_frame]
@[simp] theorem expandBlock_dV1 : (expandBlock P b s j).dV1 = s.dV1 := by rw [expandBlock_frame]
@[simp] theorem expandBlock_stats : (expandBlock P b s j).stats = s.stats := by rw [expandBlock_frame]
@[simp] theorem updateExpansions_Z : (updateExpansions P s).Z = s.Z := expandBlock_Z ..
@[simp] theorem updateExpansions_Zbar : (updateExpansions P s).Zbar = s.Zbar := expandBlock_Zbar ..
@[simp] theorem updateExpansions_status : (updateExpansions P s).status = s.status := expandBlock_status ..
@[simp] theorem updateExpansions_rho : (updateExpansions P s).rho = s.rho := expandBlock_rho ..
@[simp] theorem updateExpansions_drho : (updateExpansions P s).drho = s.drho := expandBlock_drho ..
@[simp] theorem updateExpansions_stats : (updateExpansions P s).stats = s.stats := expandBlock_stats ..
end expandProj

section regProj
variable (s : St X U F C D)
@[simp] theorem increaseReg_Z : (increaseReg o s).Z = s.Z := rfl
@[simp] theorem increaseReg_Zbar : (increaseReg o s).Zbar = s.Zbar := rfl
@[simp] theorem increaseReg_kd : (increaseReg o s).kd = s.kd := rfl
@[simp] theorem increaseReg_cs : (increaseReg o s).cs = s.cs := rfl
@[simp] theorem increaseReg_costs : (increaseReg o s).costs = s.costs := rfl
@[simp] theorem increaseReg_status : (increaseReg o s).status = s.status := rfl
@[simp] theorem increaseReg_dV0 : (increaseReg o s).dV0 = s.dV0 := rfl
@[simp] theorem increaseReg_dV1 : (increaseReg o s).dV1 = s.dV1 := rfl
@[simp] theorem increaseReg_stats : (increaseReg o s).stats = s.stats := rfl
@[simp] theorem decreaseReg_Z : (decreaseReg o s).Z = s.Z := rfl
@[simp] theorem decreaseReg_Zbar : (decreaseReg o s).Zbar = s.Zbar := rfl
@[simp] theorem decreaseReg_kd : (decreaseReg o s).kd = s.kd := rfl
@[simp] theorem decreaseReg_cs : (decreaseReg o s).cs = s.cs := rfl
@[simp] theorem decreaseReg_costs : (decreaseReg o s).costs = s.costs := rfl
@[simp] theorem decreaseReg_status : (decreaseReg o s).status = s.status := rfl
@[simp] theorem decreaseReg_dV0 : (decreaseReg o s).dV0 = s.dV0 := rfl
@[simp] theorem decreaseReg_dV1 : (decreaseReg o s).dV1 = s.dV1 := rfl
@[simp] theorem decreaseReg_stats : (decreaseReg o s).stats = s.stats := rfl
end regProj

/-- The backward loop only touches knot data, `deltaV_`, regularization and possibly the status. -/
structure BPFrame (s s' : St X U F C D) : Prop where
  Z : s'.Z = s.Z
  Zbar : s'.Zbar = s.Zbar
  cs : s'.cs = s.cs
  costs : s'.costs = s.costs
  stats : s'.stats = s.stats
  status : s'.status = s.status ∨ s'.status = .kBackwardPassRegularizationFailed

theorem bpLoop_frame (fuel count : ℕ) (s s' : St X U F C D) (h : bpLoop P o fuel count s = some s') :
    BPFrame s s' := by
  induction fuel generalizing count s with
  | zero => simp [bpLoop] at h
  | succ fuel ih =>
    unfold bpLoop at h; extract_lets r s1 s2 count' at h
    split at h
    · split at h
      · obtain ⟨a, b, c, d, e, f⟩ := ih _ _ h
        exact ⟨a, b, c, d, e, f⟩
      · injection h with h; subst h; exact ⟨rfl, rfl, rfl, rfl, rfl, .inl rfl⟩
    · split at h
      · injection h with h; subst h; exact ⟨rfl, rfl, rfl, rfl, rfl, .inr rfl⟩
      · obtain ⟨a, b, c, d, e, f⟩ := ih _ _ h
        exact ⟨a, b, c, d, e, f⟩

/-- What the backward pass leaves alone; the statistics gain one `reg` entry. -/
structure BackwardFrame (s s' : St X U F C D) : Prop where
  Z : s'.Z = s.Z
  Zbar : s'.Zbar = s.Zbar
  cs : s'.cs = s.cs
  costs : s'.costs = s.costs
  stats : ∃ r, s'.stats = s.stats.log (some .reg) r
  status : s'.status = s.status ∨ s'.status = .kBackwardPassRegularizationFailed

theorem backwardPass_frame (fuel : ℕ) (s s' : St X U F C D) (h : backwardPass P o fuel s = some s') :
    BackwardFrame s s' := by
  unfold backwardPass at h
  split at h
  · cases h
  · rename_i s1 h1
    injection h with h; subst h
    obtain ⟨a, b, c, d, e, f⟩ := bpLoop_frame P o _ _ _ _ h1
    exact ⟨a, b, c, d, ⟨s1.rho, by simp only [decreaseReg_stats]; rw [e]⟩, f⟩

theorem rolloutClosedLoop_frame (alpha : F) (s : St X U F C D) :
    (rolloutClosedLoop P o alpha s).1 =
      { s with Zbar := (closedLoopTo P o alpha s P.N).1, status := (rolloutClosedLoop P o alpha s).1.status } := by
  unfold rolloutClosedLoop
  rcases closedLoopTo P o alpha s P.N with ⟨Zb, _ | st⟩ <;> rfl

theorem rolloutClosedLoop_ok (alpha : F) (s : St X U F C D) :
    (rolloutClosedLoop P o alpha s).2 = true ↔ (closedLoopTo P o alpha s P.N).2 = none := by
  unfold rolloutClosedLoop
  rcases closedLoopTo P o alpha s P.N with ⟨Zb, _ | st⟩ <;> simp

section rolloutProj
variable (alpha : F) (s : St X U F C D)
@[simp] theorem rcl_Z : (rolloutClosedLoop P o alpha s).1.Z = s.Z := by rw [rolloutClosedLoop_frame]
@[simp] theorem rcl_Zbar : (rolloutClosedLoop P o alpha s).1.Zbar = (closedLoopTo P o alpha s P.N).1 := by
  rw [rolloutClosedLoop_frame]
@[simp] theorem rcl_kd : (rolloutClosedLoop P o alpha s).1.kd = s.kd := by rw [rolloutClosedLoop_frame]
@[simp] theorem rcl_cs : (rolloutClosedLoop P o alpha s).1.cs = s.cs := by rw [rolloutClosedLoop_frame]
@[simp] theorem rcl_costs : (rolloutClosedLoop P o alpha s).1.costs = s.costs := by rw [rolloutClosedLoop_frame]
@[simp] theorem rcl_rho : (rolloutClosedLoop P o alpha s).1.rho = s.rho := by rw [rolloutClosedLoop_frame]
@[simp] theorem rcl_drho : (rolloutClosedLoop P o alpha s).1.drho = s.drho := by rw [rolloutClosedLoop_frame]
@[simp] theorem rcl_dV0 : (rolloutClosedLoop P o alpha s).1.dV0 = s.dV0 := by rw [rolloutClosedLoop_frame]
@[simp] theorem rcl_dV1 : (rolloutClosedLoop P o alpha s).1.dV1 = s.dV1 := by rw [rolloutClosedLoop_frame]
@[simp] theorem rcl_stats : (rolloutClosedLoop P o alpha s).1.stats = s.stats := by rw [rolloutClosedLoop_frame]
end rolloutProj

/-! ## The closed-loop rollout -/

theorem limitStatus_some (x : X) (u : U) (st : Status) (h : limitStatus P o x u = some st) :
    st = .kStateLimit ∨ st = .kControlLimit := by
  unfold limitStatus at h
  split at h
  · split at h
    · simp at h; exact .inl h.symm
    · split at h
      · simp at h; exact .inr h.symm
      · simp at h
  · simp at h

theorem limitStatus_none (x : X) (u : U) : limitStatus P o x u = none ↔
    (o.checkBounds = true → Arith.gt (P.normX x) o.stateMax = false ∧ Arith.gt (P.normU u) o.controlMax = false) := by
  unfold limitStatus
  split
  · rename_i hb
    split
    · rename_i h; simp [hb, h]
    · split
      · rename_i h; simp [hb, h]
      · rename_i h h'; simp [hb, h, h']
  · rename_i hb; simp [hb]

theorem closedLoopTo_status (alpha : F) (s : St X U F C D) (k : ℕ) (st : Status)
    (h : (closedLoopTo P o alpha s k).2 = some st) : st = .kStateLimit ∨ st = .kControlLimit := by
  induction k with
  | zero => simp [closedLoopTo] at h
  | succ k ih =>
    unfold closedLoopTo at h
    split at h
    · rename_i Zb st' heq
      rw [heq] at ih; exact ih h
    · exact limitStatus_some P o _ _ _ h

theorem rcl_status (alpha : F) (s : St X U F C D) :
    (rolloutClosedLoop P o alpha s).1.status = .kUnsolved ∨
    (rolloutClosedLoop P o alpha s).1.status = .kStateLimit ∨
    (rolloutClosedLoop P o alpha s).1.status = .kControlLimit := by
  have h := closedLoopTo_status P o alpha s P.N
  unfold rolloutClosedLoop
  rcases hc : closedLoopTo P o alpha s P.N with ⟨Zb, _ | st⟩
  · exact .inl rfl
  · rw [hc] at h
    exact .inr (h st rfl)

theorem rcl_status_ok (alpha : F) (s : St X U F C D) (h : (rolloutClosedLoop P o alpha s).2 = true) :
    (rolloutClosedLoop P o alpha s).1.status = .kUnsolved := by
  unfold rolloutClosedLoop at *
  rcases hc : closedLoopTo P o alpha s P.N with ⟨Zb, _ | st⟩
  · rfl
  · rw [hc] at h; simp at h

/-- Times, steps and the controls from `k` on are untouched by the first `k` steps. -/
theorem closedLoopTo_untouched (alpha : F) (s : St X U F C D) (k : ℕ) :
    (closedLoopTo P o alpha s k).1.t = s.Zbar.t ∧ (closedLoopTo P o alpha s k).1.h = s.Zbar.h ∧
    (∀ j, k ≤ j → (closedLoopTo P o alpha s k).1.u j = s.Zbar.u j) ∧
    (∀ j, k < j → (closedLoopTo P o alpha s k).1.x j = s.Zbar.x j) := by
  induction k with
  | zero =>
    refine ⟨rfl, rfl, fun j _ => rfl, fun j hj => ?_⟩
    exact upd_of_ne (Nat.ne_of_gt hj)
  | succ k ih =>
    unfold closedLoopTo
    rcases hc : closedLoopTo P o alpha s k with ⟨Zb, _ | st⟩
    · rw [hc] at ih
      obtain ⟨h1, h2, h3, h4⟩ := ih
      refine ⟨h1, h2, fun j hj => ?_, fun j hj => ?_⟩
      · show upd Zb.u k _ j = _
        rw [upd_of_ne (by omega)]; exact h3 j (by omega)
      · show upd Zb.x (k + 1) _ j = _
        rw [upd_of_ne (by omega)]; exact h4 j (by omega)
    · rw [hc] at ih
      obtain ⟨h1, h2, h3, h4⟩ := ih
      exact ⟨h1, h2, fun j hj => h3 j (by omega), fun j hj => h4 j (by omega)⟩

/-- If the first `k` steps all respect the limits, the loop has not been left and holds the candidate. -/
theorem closedLoopTo_candidate (alpha : F) (s : St X U F C D) (k : ℕ)
    (h : ∀ j < k, stepWithin o P s.kd s.Z s.Zbar.t s.Zbar.h alpha j) :
    (closedLoopTo P o alpha s k).2 = none ∧
    (∀ j ≤ k, (closedLoopTo P o alpha s k).1.x j = candidate P s.kd s.Z s.Zbar.t s.Zbar.h alpha j) ∧
    (∀ j < k, (closedLoopTo P o alpha s k).1.u j = candidateU P s.kd s.Z s.Zbar.t s.Zbar.h alpha j) := by
  induction k with
  | zero =>
    refine ⟨rfl, fun j hj => ?_, fun j hj => absurd hj (by omega)⟩
    have : j = 0 := by omega
    subst this; simp [closedLoopTo, candidate]
  | succ k ih =>
    obtain ⟨i1, i2, i3⟩ := ih fun j hj => h j (by omega)
    obtain ⟨t1, t2, _, _⟩ := closedLoopTo_untouched P o alpha s k
    have hw := h k (by omega)
    unfold closedLoopTo
    rcases hc : closedLoopTo P o alpha s k with ⟨Zb, q⟩
    rw [hc] at i1 i2 i3 t1 t2
    simp only at i1 t1 t2
    subst i1
    have hu : P.policy (s.kd k) (Zb.x k) (s.Z.x k) (s.Z.u k) alpha
        = candidateU P s.kd s.Z s.Zbar.t s.Zbar.h alpha k := by
      rw [i2 k le_rfl]; rfl
    have hx : P.dyn k (Zb.x k) (candidateU P s.kd s.Z s.Zbar.t s.Zbar.h alpha k) (Zb.t k) (Zb.h k)
        = candidate P s.kd s.Z s.Zbar.t s.Zbar.h alpha (k + 1) := by
      rw [i2 k le_rfl, t1, t2]; rfl
    simp only [hu, hx]
    refine ⟨(limitStatus_none P o _ _).mpr hw, fun j hj => ?_, fun j hj => ?_⟩
    · by_cases hj' : j = k + 1
      · subst hj'; exact upd_self ..
      · show upd Zb.x (k + 1) _ j = _
        rw [upd_of_ne hj']; exact i2 j (by omega)
    · by_cases hj' : j = k
      · subst hj'; exact upd_self ..
      · show upd Zb.u k _ j = _
        rw [upd_of_ne hj']; exact i3 j (by omega)

/-- Conversely, if the loop was not left, every step respected the limits. -/
theorem closedLoopTo_within (alpha : F) (s : St X U F C D) (k : ℕ)
    (h : (closedLoopTo P o alpha s k).2 = none) :
    ∀ j < k, stepWithin o P s.kd s.Z s.Zbar.t s.Zbar.h alpha j := by
  induction k with
  | zero => intro j hj; omega
  | succ k ih =>
    have hk : (closedLoopTo P o alpha s k).2 = none := by
      unfold closedLoopTo at h
      rcases hc : closedLoopTo P o alpha s k with ⟨Zb, _ | st⟩
      · rfl
      · rw [hc] at h; simp at h
    have ih' := ih hk
    intro j hj
    by_cases hj' : j < k
    · exact ih' j hj'
    · have : j = k := by omega
      subst this
      obtain ⟨i1, i2, i3⟩ := closedLoopTo_candidate P o alpha s j ih'
      obtain ⟨t1, t2, _, _⟩ := closedLoopTo_untouched P o alpha s j
      unfold closedLoopTo at h
      rcases hc : closedLoopTo P o alpha s j with ⟨Zb, q⟩
      rw [hc] at i1 i2 i3 t1 t2 h
      simp only at i1 t1 t2
      subst i1
      have hu : P.policy (s.kd j) (Zb.x j) (s.Z.x j) (s.Z.u j) alpha
          = candidateU P s.kd s.Z s.Zbar.t s.Zbar.h alpha j := by
        rw [i2 j le_rfl]; rfl
      have hx : P.dyn j (Zb.x j) (candidateU P s.kd s.Z s.Zbar.t s.Zbar.h alpha j) (Zb.t j) (Zb.h j)
          = candidate P s.kd s.Z s.Zbar.t s.Zbar.h alpha (j + 1) := by
        rw [i2 j le_rfl, t1, t2]; rfl
      simp only [hu, hx] at h
      exact (limitStatus_none P o _ _).mp h

theorem rcl_ok_iff (alpha : F) (s : St X U F C D) :
    (rolloutClosedLoop P o alpha s).2 = true ↔ withinLimits o P s.kd s.Z s.Zbar.t s.Zbar.h alpha := by
  rw [rolloutClosedLoop_ok]
  constructor
  · exact closedLoopTo_within P o alpha s P.N
  · intro h; exact (closedLoopTo_candidate P o alpha s P.N h).1

/-- A completed rollout is dynamically feasible for its own times. -/
theorem closedLoopTo_feasible (alpha : F) (s : St X U F C D)
    (h : withinLimits o P s.kd s.Z s.Zbar.t s.Zbar.h alpha) :
    DynFeasible P (closedLoopTo P o alpha s P.N).1 := by
  obtain ⟨_, i2, i3⟩ := closedLoopTo_candidate P o alpha s P.N h
  obtain ⟨t1, t2, _, _⟩ := closedLoopTo_untouched P o alpha s P.N
  refine ⟨by rw [i2 0 (by omega)]; rfl, fun k hk => ?_⟩
  rw [i2 (k + 1) (by omega), i2 k (by omega), i3 k hk, t1, t2]; rfl

/-! ## The open-loop rollout -/

theorem rolloutTo_spec (Z : Traj X U F) (k : ℕ) :
    (rolloutTo P Z k).u = Z.u ∧ (rolloutTo P Z k).t = Z.t ∧ (rolloutTo P Z k).h = Z.h ∧
    (rolloutTo P Z k).x 0 = P.x0 ∧
    ∀ j < k, (rolloutTo P Z k).x (j + 1) = P.dyn j ((rolloutTo P Z k).x j) (Z.u j) (Z.t j) (Z.h j) := by
  induction k with
  | zero => exact ⟨rfl, rfl, rfl, by simp [rolloutTo], fun j hj => absurd hj (by omega)⟩
  | succ k ih =>
    obtain ⟨h1, h2, h3, h4, h5⟩ := ih
    refine ⟨h1, h2, h3, ?_, fun j hj => ?_⟩
    · simp only [rolloutTo]
      rw [upd_of_ne (by omega)]; exact h4
    · simp only [rolloutTo]
      by_cases hj' : j = k
      · subst hj'
        rw [upd_self, upd_of_ne (by omega), h1, h2, h3]
      · rw [upd_of_ne (by omega), upd_of_ne (by omega)]
        exact h5 j (by omega)

theorem rollout_feasible (s : St X U F C D) : DynFeasible P (rollout P s).Z := by
  obtain ⟨h1, h2, h3, h4, h5⟩ := rolloutTo_spec P s.Z P.N
  refine ⟨h4, fun k hk => ?_⟩
  show (rolloutTo P s.Z P.N).x (k + 1) = _
  rw [h5 k hk]
  show _ = P.dyn k ((rolloutTo P s.Z P.N).x k) ((rolloutTo P s.Z P.N).u k) ((rolloutTo P s.Z P.N).t k)
    ((rolloutTo P s.Z P.N).h k)
  rw [h1, h2, h3]

/-! ## Costs -/

theorem sumTo_congr (n : ℕ) (f g : ℕ → F) (h : ∀ k < n, f k = g k) :
    Arith.sumTo n f = Arith.sumTo n g := by
  unfold Arith.sumTo
  have : ∀ (l : List ℕ) (a : F), (∀ k ∈ l, f k = g k) →
      l.foldl (fun acc k => acc + f k) a = l.foldl (fun acc k => acc + g k) a := by
    intro l
    induction l with
    | nil => intro a _; rfl
    | cons k l ih =>
      intro a hl
      simp only [List.foldl_cons]
      rw [hl k List.mem_cons_self, ih _ fun j hj => hl j (List.mem_cons_of_mem _ hj)]
  exact this _ _ fun k hk => h k (List.mem_range.mp hk)

variable {P}

theorem costsTo_law (L : CostLaw P) (Z : Traj X U F) (s : St X U F C D) (k : ℕ) :
    (∀ j, L.inv ((costsTo P Z s k).cs j) = L.inv (s.cs j)) ∧
    (∀ j < k, (costsTo P Z s k).costs j = L.val j (L.inv (s.cs j)) (Z.x j) (Z.u j)) ∧
    (∀ j, k ≤ j → (costsTo P Z s k).costs j = s.costs j) := by
  induction k with
  | zero => exact ⟨fun _ => rfl, fun j hj => absurd hj (by omega), fun _ _ => rfl⟩
  | succ k ih =>
    obtain ⟨h1, h2, h3⟩ := ih
    refine ⟨fun j => ?_, fun j hj => ?_, fun j hj => ?_⟩
    · show L.inv (upd _ k _ j) = _
      by_cases hj : j = k
      · subst hj; rw [upd_self, L.cost_inv]; exact h1 j
      · rw [upd_of_ne hj]; exact h1 j
    · show upd _ k _ j = _
      by_cases hj' : j = k
      · subst hj'; rw [upd_self, L.cost_val, h1]
      · rw [upd_of_ne hj']; exact h2 j (by omega)
    · show upd _ k _ j = _
      rw [upd_of_ne (by omega)]; exact h3 j (by omega)

theorem cost_law (L : CostLaw P) (Z : Traj X U F) (s : St X U F C D) :
    (cost P Z s).1 = L.total s.cs Z ∧ ∀ j, L.inv ((cost P Z s).2.cs j) = L.inv (s.cs j) := by
  obtain ⟨h1, h2, _⟩ := costsTo_law L Z s (P.N + 1)
  exact ⟨sumTo_congr _ _ _ h2, h1⟩

theorem expandBlock_law (L : CostLaw P) (b : ℕ) (s : St X U F C D) (k : ℕ) :
    (∀ j, L.inv ((expandBlock P b s k).cs j) = L.inv (s.cs j)) ∧
    (∀ j < k, (expandBlock P b s k).costs (b + j)
      = L.val (b + j) (L.inv (s.cs (b + j))) (s.Z.x (b + j)) (s.Z.u (b + j))) := by
  induction k with
  | zero => exact ⟨fun _ => rfl, fun j hj => absurd hj (by omega)⟩
  | succ k ih =>
    obtain ⟨h1, h2⟩ := ih
    refine ⟨fun j => ?_, fun j hj => ?_⟩
    · show L.inv (upd _ (b + k) _ j) = _
      by_cases hj : j = b + k
      · subst hj; rw [upd_self, L.cost_inv, L.expand_inv]; exact h1 _
      · rw [upd_of_ne hj]; exact h1 j
    · show upd _ (b + k) _ (b + j) = _
      by_cases hj' : j = k
      · subst hj'; rw [upd_self, L.cost_val, L.expand_inv, h1, expandBlock_Z]
      · rw [upd_of_ne (by omega)]; exact h2 j (by omega)

theorem updateExpansions_law (L : CostLaw P) (s : St X U F C D) :
    costSum P (updateExpansions P s) = L.total s.cs s.Z ∧
    ∀ j, L.inv ((updateExpansions P s).cs j) = L.inv (s.cs j) := by
  obtain ⟨h1, h2⟩ := expandBlock_law L 0 s (P.N + 1)
  refine ⟨sumTo_congr _ _ _ fun k hk => ?_, h1⟩
  have := h2 k hk
  simpa [updateExpansions] using this

theorem total_congr (L : CostLaw P) (cs cs' : ℕ → C) (Z Z' : Traj X U F)
    (hcs : ∀ j ≤ P.N, L.inv (cs j) = L.inv (cs' j)) (hx : ∀ j ≤ P.N, Z.x j = Z'.x j)
    (hu : ∀ j ≤ P.N, Z.u j = Z'.u j) : L.total cs Z = L.total cs' Z' := by
  refine sumTo_congr _ _ _ fun k hk => ?_
  rw [hcs k (by omega), hx k (by omega), hu k (by omega)]

variable (P)

/-! ## The line search -/

/-- Everything the line search leaves alone, whatever happens. -/
structure LSFrame (s s' : St X U F C D) : Prop where
  Z : s'.Z = s.Z
  kd : s'.kd = s.kd
  rho : s'.rho = s.rho
  drho : s'.drho = s.drho
  dV0 : s'.dV0 = s.dV0
  dV1 : s'.dV1 = s.dV1
  t : s'.Zbar.t = s.Zbar.t
  h : s'.Zbar.h = s.Zbar.h
  uN : ∀ j, P.N ≤ j → s'.Zbar.u j = s.Zbar.u j
  inner : s'.stats.inner = s.stats.inner
  total : s'.stats.total = s.stats.total
  outer : s'.stats.outer = s.stats.outer
  initialCost : s'.stats.initialCost = s.stats.initialCost

theorem log_counters (st : Stats F) (c : Option Col) (x : F) :
    (st.log c x).inner = st.inner ∧ (st.log c x).total = st.total ∧ (st.log c x).outer = st.outer ∧
    (st.log c x).initialCost = st.initialCost := by
  unfold Stats.log
  cases c <;> (simp only; split <;> exact ⟨rfl, rfl, rfl, rfl⟩)

theorem LSFrame.refl (s : St X U F C D) : LSFrame P s s :=
  ⟨rfl, rfl, rfl, rfl, rfl, rfl, rfl, rfl, fun _ _ => rfl, rfl, rfl, rfl, rfl⟩

theorem LSFrame.trans {a b c : St X U F C D} (h : LSFrame P a b) (h' : LSFrame P b c) : LSFrame P a c :=
  ⟨h'.Z.trans h.Z, h'.kd.trans h.kd, h'.rho.trans h.rho, h'.drho.trans h.drho, h'.dV0.trans h.dV0,
   h'.dV1.trans h.dV1, h'.t.trans h.t, h'.h.trans h.h, fun j hj => (h'.uN j hj).trans (h.uN j hj),
   h'.inner.trans h.inner, h'.total.trans h.total, h'.outer.trans h.outer, h'.initialCost.trans h.initialCost⟩

theorem rcl_LSFrame (alpha : F) (s : St X U F C D) : LSFrame P s (rolloutClosedLoop P o alpha s).1 := by
  obtain ⟨h1, h2, h3, _⟩ := closedLoopTo_untouched P o alpha s P.N
  exact ⟨rcl_Z .., rcl_kd .., rcl_rho .., rcl_drho .., rcl_dV0 .., rcl_dV1 .., by rw [rcl_Zbar]; exact h1,
    by rw [rcl_Zbar]; exact h2, fun j hj => by rw [rcl_Zbar]; exact h3 j hj, by rw [rcl_stats],
    by rw [rcl_stats], by rw [rcl_stats], by rw [rcl_stats]⟩

theorem cost_LSFrame (Z : Traj X U F) (s : St X U F C D) : LSFrame P s (cost P Z s).2 := by
  refine ⟨?_, ?_, ?_, ?_, ?_, ?_, ?_, ?_, ?_, ?_, ?_, ?_, ?_⟩ <;> simp

theorem logs_LSFrame (s : St X U F C D) (a b c : F) :
    LSFrame P s { s with stats := ((s.stats.log (some .cost) a).log (some .alpha) b).log (some .z) c } := by
  obtain ⟨a1, a2, a3, a4⟩ := log_counters s.stats (some .cost) a
  obtain ⟨b1, b2, b3, b4⟩ := log_counters (s.stats.log (some .cost) a) (some .alpha) b
  obtain ⟨c1, c2, c3, c4⟩ := log_counters ((s.stats.log (some .cost) a).log (some .alpha) b) (some .z) c
  exact ⟨rfl, rfl, rfl, rfl, rfl, rfl, rfl, rfl, fun _ _ => rfl, by simp only [a1, b1, c1],
    by simp only [a2, b2, c2], by simp only [a3, b3, c3], by simp only [a4, b4, c4]⟩

theorem lineSearch_LSFrame (J0 : F) (r : ℕ) (alpha J : F) (s : St X U F C D) :
    LSFrame P s (lineSearch P o J0 r alpha J s).1.1 := by
  induction r generalizing alpha J s with
  | zero => exact LSFrame.refl P s
  | succ r ih =>
    simp only [lineSearch]
    split
    · split
      · exact ((rcl_LSFrame P o alpha s).trans P (cost_LSFrame P _ _)).trans P (logs_LSFrame P _ _ _ _)
      · exact ((rcl_LSFrame P o alpha s).trans P (cost_LSFrame P _ _)).trans P (ih _ _ _)
    · exact (rcl_LSFrame P o alpha s).trans P (ih _ _ _)

end Altro.ILQR
