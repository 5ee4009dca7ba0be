import Verif.Spec.Limits
import Verif.Proofs.LineSearch

/-!
# Runs with and without limits
-/

namespace Altro.ILQR
open Spec
variable {X U F C D : Type} [Arith F] {P : Kernel X U F C D} {o : Opts F} {a b : F} {fuel : ℕ}

theorem stepWithin_off (ho : o.checkBounds = false) (kd : ℕ → D) (Z : Traj X U F) (t h : ℕ → F) (alpha : F) (k : ℕ) :
    stepWithin o P kd Z t h alpha k := fun hc => by rw [ho] at hc; cases hc

/-- A candidate within the limits is computed in the same way. -/
theorem closedLoopTo_limited (ho : o.checkBounds = false) (alpha : F) (s : St X U F C D) (k : ℕ)
    (h : ∀ j < k, stepWithin (limited o a b) P s.kd s.Z s.Zbar.t s.Zbar.h alpha j) :
    closedLoopTo P (limited o a b) alpha s k = closedLoopTo P o alpha s k := by
  induction k with
  | zero => rfl
  | succ k ih =>
    have e := ih fun j hj => h j (by omega)
    have h1 := (closedLoopTo_candidate P (limited o a b) alpha s (k + 1) h).1
    have h2 := (closedLoopTo_candidate P o alpha s (k + 1) fun j _ => stepWithin_off ho _ _ _ _ _ j).1
    unfold closedLoopTo at h1 h2 ⊢
    rw [e] at h1 ⊢
    rcases hc : closedLoopTo P o alpha s k with ⟨Zb, _ | st⟩
    · rw [hc] at h1 h2
      exact Prod.ext rfl (h1.trans h2.symm)
    · rfl

theorem rcl_limited (ho : o.checkBounds = false) (alpha : F) (s : St X U F C D)
    (h : withinLimits (limited o a b) P s.kd s.Z s.Zbar.t s.Zbar.h alpha) :
    rolloutClosedLoop P (limited o a b) alpha s = rolloutClosedLoop P o alpha s := by
  unfold rolloutClosedLoop
  rw [closedLoopTo_limited ho alpha s P.N h]

theorem withinLimits_frame {l : Opts F} {s s' : St X U F C D} (hf : LSFrame P s s') {alpha : F}
    (h : withinLimits l P s.kd s.Z s.Zbar.t s.Zbar.h alpha) : withinLimits l P s'.kd s'.Z s'.Zbar.t s'.Zbar.h alpha := by
  rwa [hf.kd, hf.Z, hf.t, hf.h]

theorem lineSearch_limited (ho : o.checkBounds = false) (J0 : F) (r : ℕ) : ∀ (i : ℕ) (J : F) (s : St X U F C D),
    (∀ j < r, withinLimits (limited o a b) P s.kd s.Z s.Zbar.t s.Zbar.h (stepLength o.lsFactor (i + j))) →
    lineSearch P (limited o a b) J0 r (stepLength o.lsFactor i) J s = lineSearch P o J0 r (stepLength o.lsFactor i) J s := by
  induction r with
  | zero => intros; rfl
  | succ r ih =>
    intro i J s h
    have hstep : stepLength o.lsFactor i / o.lsFactor = stepLength o.lsFactor (i + 1) := rfl
    have h0 : withinLimits (limited o a b) P s.kd s.Z s.Zbar.t s.Zbar.h (stepLength o.lsFactor i) := h 0 (by omega)
    unfold lineSearch
    rw [rcl_limited ho _ s h0]
    have hf := rcl_LSFrame P o (stepLength o.lsFactor i) s
    have hf2 := hf.trans P (cost_LSFrame P (rolloutClosedLoop P o (stepLength o.lsFactor i) s).1.Zbar
      (rolloutClosedLoop P o (stepLength o.lsFactor i) s).1)
    have n1 : ∀ j < r, withinLimits (limited o a b) P s.kd s.Z s.Zbar.t s.Zbar.h (stepLength o.lsFactor (i + 1 + j)) := fun j hj => by
      have := h (j + 1) (by omega)
      rwa [show i + (j + 1) = i + 1 + j by omega] at this
    have e1 := fun J => ih (i + 1) J _ fun j hj => withinLimits_frame hf (n1 j hj)
    have e2 := fun J => ih (i + 1) J _ fun j hj => withinLimits_frame hf2 (n1 j hj)
    show (if _ then (if accept o _ _ _ then _ else lineSearch P (limited o a b) J0 r (stepLength o.lsFactor i / o.lsFactor) _ _)
      else lineSearch P (limited o a b) J0 r (stepLength o.lsFactor i / o.lsFactor) _ _) = _
    rw [hstep, e1, e2]

theorem forwardPass_limited (ho : o.checkBounds = false) {s : St X U F C D} (h : SearchWithin P (limited o a b) s) :
    forwardPass P (limited o a b) s = forwardPass P o s := by
  have e := lineSearch_limited (P := P) (a := a) (b := b) ho (costSum P s) o.lsMax.toNat 0 (costSum P s) s fun j hj => by
    rw [Nat.zero_add]; exact h j (by show (j : ℤ) < o.lsMax; omega)
  unfold forwardPass
  change (lineSearch P (limited o a b) (costSum P s) o.lsMax.toNat 1 (costSum P s) s) = _ at e
  show (let J0 := costSum P s
    let q := lineSearch P (limited o a b) J0 o.lsMax.toNat 1 J0 s
    let s1 := if q.2 then { q.1.1 with Z := q.1.1.Zbar } else increaseReg o q.1.1
    let J := if q.2 then q.1.2 else J0
    if Arith.gt J J0 then { s1 with status := .kCostIncrease } else s1) = _
  simp only [e]
  rfl

theorem bpLoop_limited (c : ℕ) : ∀ (s : St X U F C D), bpLoop P (limited o a b) fuel c s = bpLoop P o fuel c s := by
  induction fuel generalizing c with
  | zero => intro s; rfl
  | succ fuel ih =>
    intro s
    unfold bpLoop
    simp only [ih]
    rfl

theorem backwardPass_limited (s : St X U F C D) : backwardPass P (limited o a b) fuel s = backwardPass P o fuel s := by
  unfold backwardPass
  rw [bpLoop_limited]
  rfl

theorem iterate_limited (ho : o.checkBounds = false) {s : St X U F C D}
    (h : ∀ s1, backwardPass P o fuel (updateExpansions P s) = some s1 → SearchWithin P (limited o a b) s1) :
    iterate P (limited o a b) fuel s = iterate P o fuel s := by
  unfold iterate
  rw [backwardPass_limited]
  rcases hb : backwardPass P o fuel (updateExpansions P s) with _ | s1
  · rfl
  · simp only [forwardPass_limited ho (h s1 hb)]

theorem solveLoop_limited (ho : o.checkBounds = false) (r : ℕ) : ∀ {s : St X U F C D}, RunWithin P o (limited o a b) fuel r s →
    solveLoop P (limited o a b) fuel r s = solveLoop P o fuel r s := by
  induction r with
  | zero => intros; rfl
  | succ r ih =>
    intro s ⟨h1, h2⟩
    unfold solveLoop
    rw [iterate_limited ho h1]
    rcases hq : iterate P o fuel s with _ | q
    · rfl
    · show (if (ILQR.isDone o q).2 then some (ILQR.isDone o q).1 else solveLoop P (limited o a b) fuel r (ILQR.isDone o q).1) = _
      by_cases hd : (ILQR.isDone o q).2 = true
      · simp only [hd, if_true]
      · rw [ih (h2 q hq (Bool.eq_false_iff.mpr hd))]

theorem solve_limited (ho : o.checkBounds = false) {s : St X U F C D} (h : SolveWithin P o (limited o a b) fuel s) :
    solve P (limited o a b) fuel s = solve P o fuel s := solveLoop_limited ho _ h

end Altro.ILQR

namespace Altro.AL
open Spec
variable {X U F C D : Type} [Arith F] {P : Kernel X U F C D} {A : CostOps C F} {o : Opts F} {a b : F} {fuel : ℕ}

theorem outerLoop_limited (ho : o.checkBounds = false) (r : ℕ) : ∀ {s : ALSt X U F C D}, OuterWithin P A o (limited o a b) fuel r s →
    outerLoop P A (limited o a b) (ILQR.solve P (limited o a b) fuel) r s = outerLoop P A o (ILQR.solve P o fuel) r s := by
  induction r with
  | zero => intros; rfl
  | succ r ih =>
    intro s ⟨h1, h2⟩
    unfold outerLoop
    rw [ILQR.solve_limited ho h1]
    rcases hq : ILQR.solve P o fuel s.st with _ | t
    · rfl
    · by_cases hd : (isDone o (updateConvergence P A { s with st := eachCost P A.updateDuals t })).2 = true
      · have hd' : (isDone (limited o a b) (updateConvergence P A { s with st := eachCost P A.updateDuals t })).2 = true := hd
        simp only [hd, hd', if_true]
        rfl
      · have hd := Bool.eq_false_iff.mpr hd
        have hd' : (isDone (limited o a b) (updateConvergence P A { s with st := eachCost P A.updateDuals t })).2 = false := hd
        simp only [hd, hd', Bool.false_eq_true, if_false]
        exact ih (h2 t hq hd)

end Altro.AL

namespace Altro.Spec
open ILQR
variable {X U F C D : Type} [Arith F] {P : Kernel X U F C D} {A : CostOps C F} {o : Opts F} {fuel : ℕ}

theorem unlimited_off (h : o.checkBounds = false) : unlimited o = o := by
  obtain ⟨⟩ := o
  cases h
  rfl

theorem limited_on (h : o.checkBounds = true) : limited (unlimited o) o.stateMax o.controlMax = o := by
  obtain ⟨⟩ := o
  cases h
  rfl

/-- With the test on or off. -/
theorem solve_either {s : St X U F C D}
    (h : o.checkBounds = true → SolveWithin P (unlimited o) (limited (unlimited o) o.stateMax o.controlMax) fuel s) :
    ILQR.solve P o fuel s = ILQR.solve P (unlimited o) fuel s := by
  cases hb : o.checkBounds
  · rw [unlimited_off hb]
  · have := solve_limited rfl (h hb)
    rwa [limited_on hb] at this

theorem outer_either (r : ℕ) {s : ALSt X U F C D}
    (h : o.checkBounds = true → OuterWithin P A (unlimited o) (limited (unlimited o) o.stateMax o.controlMax) fuel r s) :
    AL.outerLoop P A o (ILQR.solve P o fuel) r s = AL.outerLoop P A (unlimited o) (ILQR.solve P (unlimited o) fuel) r s := by
  cases hb : o.checkBounds
  · rw [unlimited_off hb]
  · have := AL.outerLoop_limited rfl r (h hb)
    rwa [limited_on hb] at this

theorem stays_either {good : Traj X U F → Prop} : ∀ (r : ℕ) {s : ALSt X U F C D},
    (o.checkBounds = true → OuterWithin P A (unlimited o) (limited (unlimited o) o.stateMax o.controlMax) fuel r s) →
    OuterStays P A o fuel good r s → OuterStays P A (unlimited o) fuel good r s
  | 0, _, _, _ => trivial
  | r + 1, s, hw, h => fun t ht => by
    obtain ⟨h1, h2⟩ := h t ((solve_either fun hb => (hw hb).1).trans ht)
    exact ⟨h1, fun hd => stays_either r (fun hb => (hw hb).2 t ht hd) (h2 hd)⟩

end Altro.Spec
