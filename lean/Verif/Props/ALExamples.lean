import Verif.Props.ALConcrete
import Verif.Props.ILQRExamples

/-!
# Concrete runs of the augmented Lagrangian solver (C11-C16) and the counterexample for C15
-/

namespace Altro.Props
open Altro.Spec Altro.AL Matrix

/-- The rational objective `x² / (1 + x²)` on the state, with its derivatives. -/
def bumpCost (w : ℚ) : CostFun 1 1 ℚ where
  eval x u := w * (x 0 ^ 2 / (1 + x 0 ^ 2))
  grad x u := (fun _ => w * (2 * x 0 / (1 + x 0 ^ 2) ^ 2), fun _ => 0)
  hess x u := { dxdx := fun _ _ => w * ((2 - 6 * x 0 ^ 2) / (1 + x 0 ^ 2) ^ 3), dxdu := 0, dudu := 0 }

/-- The constraint `x + 2 = 0`. -/
def bumpCon : Con 1 1 ℚ where
  p := 1
  hp := by decide
  eval x _ := fun _ => x 0 + 2
  jac _ _ := fun _ j => Sum.elim (fun _ => 1) (fun _ => 0) j

/-- One segment, `x' = x + u`, starting from `x = 1/2`. -/
def bumpProblem : DynProblem 1 1 ℚ where
  N := 1
  x0 := fun _ => 1 / 2
  f _ x u _ _ := x + u
  jac _ _ _ _ _ := (1, 1)
  normX x := |x 0|
  normU u := |u 0|

abbrev bumpK := alKernel bumpProblem

/-- One line-search step, loose tolerances. -/
def bumpOpts : Opts ℚ :=
  { scalarOpts with lsMax := 1, costTol := 1, gradTol := 10, conTol := 1 / 2, initialPenalty := 1 / 1000, maxInner := 5 }

abbrev VSt := St (Fin 1 → ℚ) (Fin 1 → ℚ) ℚ (ALCost 1 1 ℚ) (KP 1 1 ℚ)

def bumpState : VSt where
  Z := { x := fun _ => 0, u := fun _ => 0, t := fun k => k / 10, h := fun _ => 1 / 10 }
  Zbar := { x := fun _ => 0, u := fun _ => 0, t := fun _ => 0, h := fun _ => 0 }
  kd := fun _ => KP.new
  cs := fun k => if k = 1 then ALCost.new (bumpCost 1) [bumpCon] [] else ALCost.new (bumpCost 0) [] []
  costs := fun _ => 0
  status := .kUnsolved
  rho := 0
  drho := 0
  dV0 := 0
  dV1 := 0
  stats := Stats.new

def bumpSolved : Option (ALSt (Fin 1 → ℚ) (Fin 1 → ℚ) ℚ (ALCost 1 1 ℚ) (KP 1 1 ℚ)) :=
  AL.solve bumpK alOps bumpOpts (ILQR.solve bumpK bumpOpts 5) ⟨bumpState, .kUnsolved⟩

theorem bumpSolved_report : (bumpSolved.map fun s => (s.status, Stats.back (s.st.stats.col .viol),
    (alLaw bumpProblem).violation s.st.cs s.st.Z, s.st.Z.x 1 0, s.st.stats.outer)) =
    some (.kSolved, 0, 5 / 2, 1 / 2, 1) := by decide +kernel

/-- The failure of C15: the only line-search step is rejected, the constraint values stored are those of the
rejected candidate, and the solver reports `kSolved` with violation zero for a trajectory that violates the
constraint by `5/2`. -/
theorem C15_counterexample :
    ∃ (p : DynProblem 1 1 ℚ) (o : Opts ℚ) (s s' : ALSt (Fin 1 → ℚ) (Fin 1 → ℚ) ℚ (ALCost 1 1 ℚ) (KP 1 1 ℚ)),
      AL.solve (alKernel p) alOps o (ILQR.solve (alKernel p) o 5) s = some s' ∧ s'.status = .kSolved ∧
      Stats.back (s'.st.stats.col .viol) = 0 ∧ (alLaw p).violation s'.st.cs s'.st.Z = 5 / 2 ∧
      o.conTol < 5 / 2 := by
  have h := bumpSolved_report
  cases hb : bumpSolved with
  | none => rw [hb] at h; cases h
  | some s' =>
    rw [hb] at h
    simp only [Option.map_some, Option.some.injEq, Prod.mk.injEq] at h
    exact ⟨bumpProblem, bumpOpts, _, s', hb, h.1, h.2.1, h.2.2.1, by decide +kernel⟩

/-! ## A run with several outer iterations -/

/-- A scalar cost object: a multiplier, a penalty and the stored value of the terminal constraint `x = 0`. -/
structure AC where
  (lam pen c : ℚ)
  deriving DecidableEq

/-- Two scalar segments `x' = x + u` from `x = 1`, cost `x²/2 + u²/2`, terminal constraint `x = 0`. -/
def goalK : Kernel ℚ ℚ ℚ AC SD :=
  let S := scalarKernel 2 1 1 1 1 (fun _ => 1)
  { N := 2
    x0 := 1
    dyn := S.dyn
    cost := fun k c x u =>
      if k = 2 then ((S.cost k () x u).1 - c.lam * x + c.pen / 2 * x * x, { c with c := x })
      else ((S.cost k () x u).1, { c with c := 0 })
    expand := fun k c x u t h d =>
      let e := (S.expand k () x u t h d).1
      if k = 2 then ({ e with lx := e.lx - c.lam + c.pen * x, lxx := e.lxx + c.pen }, { c with c := x })
      else (e, { c with c := 0 })
    term := S.term
    actionValue := S.actionValue
    regularize := S.regularize
    gains := S.gains
    costToGo := S.costToGo
    delta := S.delta
    policy := S.policy
    gradTerm := S.gradTerm
    normX := S.normX
    normU := S.normU
    viol := fun cs => |(cs 2).c| }

def goalOps : CostOps AC ℚ where
  updateDuals c := { c with lam := c.lam - c.pen * c.c }
  updatePenalties c := { c with pen := 10 * c.pen }
  resetDuals c := { c with lam := 0 }
  setPenalty r c := { c with pen := r }
  maxPenalty c := c.pen

/-- The cost objects satisfy the assumed laws. -/
def goalLaw : ALLaw goalK goalOps where
  S := Unit
  sig _ := ()
  V := ℚ
  stored c := c.c
  con k _ x _ := if k = 2 then x else 0
  agg v := |v 2|
  stored_cost k c x u := by simp only [goalK]; split <;> rfl
  cost_sig _ _ _ _ := rfl
  expand_sig _ _ _ _ _ _ _ := rfl
  agg_congr v v' h := by simp only [h 2 le_rfl]
  viol_eq _ := rfl
  W := ℚ × ℚ
  work c := (c.lam, c.pen)
  cost_work k c x u := by simp only [goalK]; split <;> rfl
  dual_stored _ := rfl
  dual_sig _ := rfl
  reset_work _ _ _ _ := rfl
  reset_sig _ _ := rfl
  maxPenalty_work c c' h := congrArg Prod.snd h

def goalOpts : Opts ℚ := { scalarOpts with maxInner := 4, maxTotal := 20, conTol := 1 / 50 }

def goalState : St ℚ ℚ ℚ AC SD :=
  { Z := zeroTraj, Zbar := { zeroTraj with x := fun _ => 0, t := fun _ => 0, h := fun _ => 0 }
    kd := fun _ => SD.zero, cs := fun _ => ⟨5, 7, 9⟩, costs := fun _ => 0, status := .kUnsolved
    rho := 0, drho := 0, dV0 := 0, dV1 := 0, stats := Stats.new }

def goalSolve (s : ALSt ℚ ℚ ℚ AC SD) := AL.solve goalK goalOps goalOpts (ILQR.solve goalK goalOpts 3) s
def goalSolved := goalSolve ⟨goalState, .kMaxPenalty⟩

/-- What the examples look at. -/
structure ALReport where
  status : Status
  innerStatus : Status
  outer : ℕ
  total : ℕ
  viol : ℚ
  x : List ℚ
  c2 : AC
  deriving DecidableEq

def alReport (s : Option (ALSt ℚ ℚ ℚ AC SD)) : Option ALReport :=
  s.map fun s => ⟨s.status, s.st.status, s.st.stats.outer, s.st.stats.total, Stats.back (s.st.stats.col .viol),
    [s.st.Z.x 0, s.st.Z.x 1, s.st.Z.x 2], s.st.cs 2⟩

/-- Two outer iterations (three inner ones, then one): penalty 1 then 10, two dual updates. -/
theorem goalSolved_report : alReport goalSolved =
    some ⟨.kSolved, .kSolved, 2, 4, 1 / 56, [1, 19 / 56, 1 / 56], ⟨-17 / 56, 10, 1 / 56⟩⟩ := by decide +kernel

/-- The hypotheses of C11-C16 hold for this run, and it ends as the theorems say: solved after two of at most five
outer iterations, multiplier `-(1 * 1/8 + 10 * 1/56)`, penalty `1 * 10^(2-1)`, recorded violation that of the
returned trajectory. -/
example : ∃ s', goalSolved = some s' ∧ s'.status = .kSolved ∧
    Outcome goalOpts s'.st.status (Stats.back (s'.st.stats.col .viol)) (Stats.back (s'.st.stats.col .pen))
      s'.st.stats.outer s'.st.stats.total s'.status ∧
    s'.st.stats.outer = 2 ∧ (s'.st.cs 2).pen = 1 * 10 ^ (2 - 1) ∧ (s'.st.cs 2).lam = -(1 / 8 + 10 * (1 / 56)) ∧
    Stats.back (s'.st.stats.col .viol) = goalLaw.violation s'.st.cs s'.st.Z := by
  have h := goalSolved_report
  cases hb : goalSolved with
  | none => rw [hb] at h; cases h
  | some s' =>
    rw [hb] at h
    simp only [alReport, Option.map_some, Option.some.injEq, ALReport.mk.injEq, List.cons.injEq] at h
    obtain ⟨h1, h2, h3, h4, h5, h6, h7⟩ := h
    have hk := C11_inner_ok goalK goalOpts 3
    have hm : 1 ≤ goalOpts.maxOuter := by decide
    have hs : AL.solve goalK goalOps goalOpts (ILQR.solve goalK goalOpts 3) ⟨goalState, .kMaxPenalty⟩ = some s' := hb
    have hpen := C13_penalties (P := goalK) (A := goalOps) (o := goalOpts) AC.pen 10 (fun _ => rfl) (fun _ => rfl)
      (fun _ _ => rfl) (fun k c x u => by simp only [goalK]; split <;> rfl) hk
      (ILQR.solve_keeps goalK goalOpts AC.pen (fun k c x u => by simp only [goalK]; split <;> rfl)
        (fun k c x u t h d => by simp only [goalK]; split <;> rfl) 3) hm (by decide +kernel) _ s' hs 2 (by decide)
    refine ⟨s', rfl, h1, (C11_status hk hm _ s' hs).1, h3, ?_, ?_, ?_⟩
    · rw [hpen, h3]; rfl
    · rw [h7]; norm_num
    · rw [h5]
      show (1 : ℚ) / 56 = |s'.st.Z.x 2|
      rw [h6.2.2.1]; norm_num

/-- C17 for this run. -/
example : ∃ s', goalSolved = some s' ∧ DynFeasible goalK s'.st.Z ∧ SameTimes goalK s'.st.Z goalState.Z := by
  cases hb : goalSolved with
  | none => have h := goalSolved_report; rw [hb] at h; cases h
  | some s' => exact ⟨s', rfl, C17_outer 3 (by decide) _ s' hb⟩

/-- C12, C16: the stale status `kMaxPenalty` had no influence; other prior statuses give the same result. -/
example (st : Status) : alReport (goalSolve ⟨goalState, st⟩) = alReport goalSolved := by
  cases st <;> decide +kernel

/-- C14: an earlier solve (stale multipliers, penalties, statistics) does not change the starting point of the next
solve from the same trajectory. -/
example : ∃ s', goalSolved = some s' ∧ (s'.st.cs 2).lam ≠ (goalState.cs 2).lam ∧
    let t : ALSt ℚ ℚ ℚ AC SD := { s' with st := { s'.st with Z := zeroTraj } }
    (AL.init goalK goalOps goalOpts t).st.stats = (AL.init goalK goalOps goalOpts ⟨goalState, .kUnsolved⟩).st.stats := by
  have h := goalSolved_report
  cases hb : goalSolved with
  | none => rw [hb] at h; cases h
  | some s' =>
    rw [hb] at h
    simp only [alReport, Option.map_some, Option.some.injEq, ALReport.mk.injEq] at h
    refine ⟨s', rfl, ?_, ?_⟩
    · show (s'.st.cs 2).lam ≠ 5
      rw [h.2.2.2.2.2.2]; norm_num
    · have hp : Arith.gt goalOpts.initialPenalty 0 = true := by decide +kernel
      intro t
      have key := C14_reset (o := goalOpts) goalLaw rfl hp t ⟨goalState, .kUnsolved⟩
        (fun k _ => show zeroTraj.x k = zeroTraj.x k from rfl) (fun k _ => show zeroTraj.u k = zeroTraj.u k from rfl)
        (fun k _ => show () = () from rfl)
      exact key.1

/-- C14: with `reset_duals` off the multipliers are kept. -/
example : ((AL.init goalK goalOps { goalOpts with resetDuals := false } ⟨goalState, .kUnsolved⟩).st.cs 2).lam = 5 := by
  rw [C14_keep AC.lam (fun _ _ => rfl) (fun k c x u => by simp only [goalK]; split <;> rfl) rfl]
  rfl

/-- C12: the outer iteration limit is reached. -/
example : (AL.solve goalK goalOps { goalOpts with maxOuter := 1 } (ILQR.solve goalK goalOpts 3)
    ⟨goalState, .kSolved⟩).map (fun s : ALSt ℚ ℚ ℚ AC SD => (s.status, s.st.stats.outer))
      = some (.kMaxOuterIterations, 1) := by decide +kernel

/-- C11: the penalty limit is reached. -/
example : (AL.solve goalK goalOps { goalOpts with maxPenalty := 1 / 2 } (ILQR.solve goalK goalOpts 3)
    ⟨goalState, .kSolved⟩).map (fun s : ALSt ℚ ℚ ℚ AC SD => (s.status, s.st.stats.outer))
      = some (.kMaxPenalty, 1) := by decide +kernel

/-- C11: the inner solver stops at its iteration limit, and that is the outer status. -/
example : (AL.solve goalK goalOps goalOpts (ILQR.solve goalK { goalOpts with maxInner := 1 } 3)
    ⟨goalState, .kSolved⟩).map (fun s : ALSt ℚ ℚ ℚ AC SD => (s.status, s.st.stats.outer))
      = some (.kMaxInnerIterations, 1) := by decide +kernel

/-- C16: the stale status. -/
example : (AL.solve goalK goalOps { goalOpts with maxOuter := 0 } (ILQR.solve goalK goalOpts 3)
    ⟨goalState, .kSolved⟩).map (fun s : ALSt ℚ ℚ ℚ AC SD => (s.status, s.st.stats.outer))
      = some (.kSolved, 0) := by decide +kernel

/-- C13 and C14 for the model of `ALCost`: the run of the counterexample meets the hypotheses, with one constraint
at the terminal knot point. -/
example : ∃ s', bumpSolved = some s' ∧ (s'.st.cs 1).eq.length = 1 ∧
    PenAll (s'.st.cs 1) (fun phi => 1 / 1000 * phi ^ (1 - 1)) := by
  have h := bumpSolved_report
  cases hb : bumpSolved with
  | none => rw [hb] at h; cases h
  | some s' =>
    rw [hb] at h
    simp only [Option.map_some, Option.some.injEq, Prod.mk.injEq] at h
    obtain ⟨h1, h2⟩ := C13_alcost_penalties bumpProblem bumpOpts 5 (by decide) (by decide +kernel) _ s' hb 1 (by decide)
    rw [h.2.2.2.2] at h1
    refine ⟨s', rfl, ?_, h1⟩
    have := congrArg (fun c => c.eq.length) h2
    simpa [ALCost.static, bumpState, ALCost.new] using this
example : ((AL.init bumpK alOps bumpOpts ⟨bumpState, .kUnsolved⟩).st.cs 1).eq.map (fun v => (v.pen ⟨0, v.con.hp⟩, v.c ⟨0, v.con.hp⟩))
    = [(1 / 1000, 2)] := by decide +kernel

end Altro.Props
