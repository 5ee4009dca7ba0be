import Verif.Props.Lifecycle

/-!
# C72, continued: the solver constructed from a problem; C09, continued: counting before initialising
-/

namespace Altro.Props
open Prob hiding new
open Spec Lifecycle
variable {C M E X U K : Type}

/-- **C72, the constructor.**  `iLQR(prob)` is the solver with the problem's number of segments initialised from the problem: the same
state where that succeeds, and it stops where that stops. -/
theorem C72_constructor (I : ProbIface M E) (n m : Option ℕ) (h : Heap K) (p : Prob C M E) :
    (ofProblem I n m h p : Except Err (Solver C M X U K)) = initFrom I n m h (new p.N) p := by
  unfold ofProblem initFrom copyFrom
  show (assertThat (p.N = p.N) >>= fun _ => _) = (assertThat (p.N = p.N) >>= fun _ => _)
  rfl

/-- With a complete problem it succeeds, and a trajectory with the same number of segments is all it needs: `Solve` works on that
trajectory, with the problem's costs and dynamics, from the problem's initial state. -/
theorem C72_constructed {N addr : ℕ} {h₀ : Heap K} {calls : List (Call C M E K)} {p : Heap K × Prob C M E}
    [Field K] [LinearOrder K] [Zero X] [Zero U] (I : ProbIface M E) (hI : IdentOk I) (n m : Option ℕ)
    (hr : run I calls (h₀, Prob.new N addr) = .ok p) (hf : FullyDefined I N (h₀ addr) calls)
    (hn : ∀ k md, modelAt calls k = some md → (∀ a, n = some a → I.sdim md = a) ∧ (∀ a, m = some a → I.cdim md = a))
    (T T' : TrajHeap X U K) (a : ℕ) (h1 : (T a).length = N + 1) (h2 : (T' a).length = N + 1) :
    ∃ s i, (ofProblem I n m p.1 p.2 >>= fun s => setTrajectory s T (some a)) = .ok s ∧
      prepare s T' = .ok i ∧ i.Z = T' a ∧ i.x0 = addr ∧ i.kps.length = N + 1 ∧
      ∀ k : ℕ, k ≤ N → ∃ c md, costAt calls k = some c ∧ getDynamics p.2 k = .ok md ∧ i.kps[k]? = some (md, some c) := by
  obtain ⟨s, i, e1, -, e3, e4, e5, e6, e7, -⟩ := C72_standard I hI n m hr hf hn T T' a h1 h2
  refine ⟨s, i, ?_, e3, e4, e5, e6, e7⟩
  rw [C72_constructor, (agrees_of_run I hr).hN]
  exact e1

/-- On the demonstration problem. -/
example : ∃ s i, (ofProblem demoIface (some 2) none demoFinal.1 demoFinal.2 >>=
      fun s : Solver String (ℕ × ℕ) ℚ ℚ ℚ => setTrajectory s demoTraj (some 7)) = .ok s ∧ prepare s demoTraj = .ok i ∧ i.Z = demoTraj 7 := by
  obtain ⟨s, i, h1, h3, h4, -⟩ := C72_constructed (X := ℚ) (U := ℚ) demoIface demoIdent (some 2) none demoRun
    demoFull demoDims demoTraj demoTraj 7 rfl rfl
  exact ⟨s, i, h1, h3, h4⟩

/-- **C09, counting too early.**  As long as there is not one augmented cost per knot point, the solver's count stops at an assertion,
at every knot point and in total. -/
theorem C09_counts_early {C' : Type} (count : C' → ℕ) (d : ALData C' M) (hN : 0 ≤ d.N) (hc : (d.costs.length : ℤ) ≠ d.N + 1) :
    (∀ k : ℤ, alNumConstraintsAt count d k = .error .assertion) ∧ alNumConstraints count d = .error .assertion := by
  have key : ∀ k : ℤ, alNumConstraintsAt count d k = .error .assertion := by
    intro k
    unfold alNumConstraintsAt assertThat
    by_cases h : 0 ≤ k ∧ k ≤ d.N
    · rw [if_pos (by simpa using h), if_neg (by simpa using hc)]; rfl
    · rw [if_neg (by simpa using h)]; rfl
  refine ⟨key, ?_⟩
  have loop : ∀ r : ℕ, alNumConstraintsUpTo count d (r + 1) = .error .assertion := by
    intro r
    induction r with
    | zero =>
      rw [alNumConstraintsUpTo, key]
      rfl
    | succ r ih =>
      rw [alNumConstraintsUpTo, ih]
      rfl
  unfold alNumConstraints
  obtain ⟨N, hN'⟩ := Int.eq_ofNat_of_zero_le hN
  rw [show (d.N + 1).toNat = N + 1 by omega]
  exact loop N

/-- A solver with two segments that was not initialised. -/
example : alNumConstraints (C' := ℕ) id (⟨[], 2, [], 0⟩ : ALData ℕ ℕ) = .error .assertion :=
  (C09_counts_early id _ (by decide) (by decide)).2

end Altro.Props
