import Verif.Proofs.ALSolver
import Verif.Props.ILQR

/-!
# C11-C16: the augmented Lagrangian solver

The theorems hold for every inner solver (`inner` is an arbitrary function) that leaves the outer-iteration
counter alone; `C11_inner_ok` shows that the iLQR model does.
-/

namespace Altro.Props
open Altro.Spec Altro.AL
variable {X U F C D : Type} [Arith F]
variable {P : Kernel X U F C D} {A : CostOps C F} {o : Opts F}
variable {inner : St X U F C D → Option (St X U F C D)}

/-- The iLQR solver is an admissible inner solver. -/
theorem C11_inner_ok (P : Kernel X U F C D) (o : Opts F) (fuel : ℕ) : KeepsOuter (ILQR.solve P o fuel) :=
  ILQR.solve_keepsOuter P o fuel

/-- The status on return is the documented outcome of the last outer iteration: decided by the inner solver's
status on return, the last recorded violation and penalty, and the counters, in that order of precedence.  The last
recorded violation and penalty are the ones computed from the cost objects as returned. -/
theorem C11_status (hk : KeepsOuter inner) (hmax : 1 ≤ o.maxOuter) (s s' : ALSt X U F C D)
    (h : AL.solve P A o inner s = some s') :
    Outcome o s'.st.status (Stats.back (s'.st.stats.col .viol)) (Stats.back (s'.st.stats.col .pen))
      s'.st.stats.outer s'.st.stats.total s'.status ∧
    Stats.back (s'.st.stats.col .viol) = P.viol s'.st.cs ∧
    Stats.back (s'.st.stats.col .pen) = AL.maxPenalty P A s'.st.cs := by
  obtain ⟨j, s0, t, _, _, _, _, _, hd, rfl⟩ :=
    solve_last P A o inner hk (fun _ _ => True) s s' trivial (fun _ _ _ _ _ _ => trivial) hmax h
  obtain ⟨h1, h2⟩ := isDone_true o _ hd
  obtain ⟨b1, _, _, _, _, _, b7, b8⟩ := body_facts P A s0 t
  rw [h2]
  exact ⟨h1, by rw [b7, b1], by rw [b8, b1]⟩

/-- `kSolved` is reported exactly when the last inner solve reported `kSolved` and the last recorded violation is
below the tolerance. -/
theorem C11_solved_iff (hk : KeepsOuter inner) (hmax : 1 ≤ o.maxOuter) (s s' : ALSt X U F C D)
    (h : AL.solve P A o inner s = some s') :
    s'.status = .kSolved ↔
      s'.st.status = .kSolved ∧ Arith.lt (Stats.back (s'.st.stats.col .viol)) o.conTol = true := by
  obtain ⟨h1, _, _⟩ := C11_status hk hmax s s' h
  generalize s'.status = a at *
  generalize hb : s'.st.status = b at *
  cases h1 with
  | innerFailed h => exact ⟨fun e => absurd e h, fun e => absurd e.1 h⟩
  | solved h hv => exact ⟨fun _ => ⟨h, hv⟩, fun _ => rfl⟩
  | maxPenalty h hv => simp [hv]
  | maxOuter h hv => simp [hv]
  | maxTotal h hv => simp [hv]

/-- The inner solver's status on return is the one it left in the last outer iteration. -/
theorem C11_last_inner (hk : KeepsOuter inner) (hmax : 1 ≤ o.maxOuter) (s s' : ALSt X U F C D)
    (h : AL.solve P A o inner s = some s') :
    ∃ a t : St X U F C D, inner a = some t ∧ s'.st.status = t.status ∧ s'.st.Z = t.Z ∧
      s'.st.stats.total = t.stats.total ∧ ∀ k ≤ P.N, s'.st.cs k = A.updateDuals (t.cs k) := by
  obtain ⟨j, s0, t, _, _, ht, _, _, hd, rfl⟩ :=
    solve_last P A o inner hk (fun _ _ => True) s s' trivial (fun _ _ _ _ _ _ => trivial) hmax h
  obtain ⟨h1, h2⟩ := isDone_true o _ hd
  obtain ⟨b1, b2, b3, _, _, b6, _, _⟩ := body_facts P A s0 t
  refine ⟨s0.st, t, ht, by rw [h2, b3], by rw [h2, b2], by rw [h2, b6], fun k hk => ?_⟩
  rw [h2, b1]
  exact if_pos hk

/-- The number of outer iterations is between one and the limit, the loop went on after every earlier one, and the
status is not `kUnsolved` unless the inner solver's is. -/
theorem C12_bounds (hk : KeepsOuter inner) (hmax : 1 ≤ o.maxOuter) (s s' : ALSt X U F C D)
    (h : AL.solve P A o inner s = some s') :
    1 ≤ s'.st.stats.outer ∧ (s'.st.stats.outer : ℤ) ≤ o.maxOuter ∧
    (s'.status = .kUnsolved → s'.st.status = .kUnsolved) := by
  obtain ⟨j, s0, t, hj, _, ht, _, hjt, hd, he⟩ :=
    solve_last P A o inner hk (fun _ _ => True) s s' trivial (fun _ _ _ _ _ _ => trivial) hmax h
  obtain ⟨h1, h2⟩ := isDone_true o _ hd
  obtain ⟨_, _, _, _, b5, _, _, _⟩ := body_facts P A s0 t
  have ho : s'.st.stats.outer = j + 1 := by rw [he, h2, b5, hjt]
  refine ⟨by omega, by omega, fun hu => ?_⟩
  obtain ⟨hout, _, _⟩ := C11_status hk hmax s s' h
  rw [hu] at hout
  generalize s'.st.status = b at *
  cases hout
  rfl

/-- Termination: the solve returns whenever every call of the inner solver returns. -/
theorem C12_returns (P : Kernel X U F C D) (A : CostOps C F) (o : Opts F)
    (hinner : ∀ a, (inner a).isSome) (s : ALSt X U F C D) : (AL.solve P A o inner s).isSome := by
  unfold AL.solve
  generalize AL.init P A o s = q
  generalize o.maxOuter.toNat = r
  induction r generalizing q with
  | zero => rfl
  | succ r ih =>
    unfold outerLoop
    have := hinner q.st
    cases hq : inner q.st with
    | none => rw [hq] at this; cases this
    | some t =>
      simp only
      split
      · rfl
      · exact ih _

/-- The prior status has no influence on a solve with at least one outer iteration. -/
theorem C12_status_from_this_call (hk : KeepsOuter inner) (hmax : 1 ≤ o.maxOuter) (s s1 s2 : ALSt X U F C D)
    (st : Status) (h1 : AL.solve P A o inner s = some s1)
    (h2 : AL.solve P A o inner { s with status := st } = some s2) : s1 = s2 := by
  have hinit : AL.init P A o { s with status := st } = { AL.init P A o s with status := st } := rfl
  unfold AL.solve at h1 h2
  rw [hinit] at h2
  have hr : o.maxOuter.toNat ≠ 0 := by omega
  have hout := (init_facts P A o s).1
  have hmx : (o.maxOuter.toNat : ℤ) = o.maxOuter := by omega
  generalize AL.init P A o s = q at *
  generalize o.maxOuter.toNat = r at *
  have hb : (q.st.stats.outer : ℤ) + r = o.maxOuter := by omega
  clear hinit hout hmx
  have hb' : ∀ (a : ALSt X U F C D) t, body P A { a with status := st } t = { body P A a t with status := st } :=
    fun _ _ => rfl
  have hd' : ∀ a : ALSt X U F C D, (isDone o { a with status := st }).2 = (isDone o a).2 ∧
      ((isDone o a).2 = true → (isDone o { a with status := st }).1 = (isDone o a).1) ∧
      ((isDone o a).2 = false → (isDone o { a with status := st }).1 = { (isDone o a).1 with status := st }) := by
    intro a
    unfold isDone
    simp only
    split
    · simp
    · split
      · simp
      · split
        · simp
        · split
          · simp
          · split <;> simp
  induction r generalizing q with
  | zero => exact absurd rfl hr
  | succ r ih =>
    unfold outerLoop at h1 h2
    cases hq : inner q.st with
    | none => rw [hq] at h1; cases h1
    | some t =>
      simp only [hq] at h1 h2
      change (if (isDone o (body P A q t)).2 = true then some (isDone o (body P A q t)).1
        else outerLoop P A o inner r { (isDone o (body P A q t)).1 with
          st := eachCost P A.updatePenalties (isDone o (body P A q t)).1.st }) = some s1 at h1
      change (if (isDone o (body P A { q with status := st } t)).2 = true then
          some (isDone o (body P A { q with status := st } t)).1
        else outerLoop P A o inner r { (isDone o (body P A { q with status := st } t)).1 with
          st := eachCost P A.updatePenalties (isDone o (body P A { q with status := st } t)).1.st }) = some s2 at h2
      obtain ⟨d1, d2, d3⟩ := hd' (body P A q t)
      rw [hb', d1] at h2
      obtain ⟨_, _, _, _, b5, _, _, _⟩ := body_facts P A q t
      by_cases hd : (isDone o (body P A q t)).2 = true
      · rw [if_pos hd] at h1 h2
        rw [d2 hd] at h2
        exact Option.some.inj (h1.symm.trans h2)
      · rw [if_neg hd] at h1 h2
        have hdf : (isDone o (body P A q t)).2 = false := by simpa using hd
        have hc := isDone_continues o _ hdf
        rw [d3 hdf] at h2
        have hco := hc.outer
        rw [isDone_false o _ hdf] at h1 h2
        have hko := hk _ _ hq
        rw [b5] at hco
        refine ih ⟨_, _⟩ ?_ h1 h2 ?_
        · rintro rfl; push_cast at hb; omega
        · show ((body P A q t).st.stats.outer : ℤ) + r = _
          rw [b5, hko]; push_cast at hb ⊢; omega

/-- The dual and penalty updates as seen through any observer: whatever aspect `obs` of a cost object is looked at,
if the dual update acts on it as `d`, the penalty update as `p`, and the inner solver leaves it alone, then after
`j` outer iterations it has gone through `d` and `p` alternately, `d` exactly `j` times and `p` exactly `j - 1`
times, ending with `d`. -/
theorem C13_updates {M : Type} (obs : C → M) (d p : M → M)
    (hd : ∀ c, obs (A.updateDuals c) = d (obs c)) (hp : ∀ c, obs (A.updatePenalties c) = p (obs c))
    (hk : KeepsOuter inner) (hobs : Keeps obs inner) (hmax : 1 ≤ o.maxOuter) (s s' : ALSt X U F C D)
    (h : AL.solve P A o inner s = some s') (k : ℕ) (hkN : k ≤ P.N) :
    obs (s'.st.cs k) = d ((fun x => p (d x))^[s'.st.stats.outer - 1] (obs ((AL.init P A o s).st.cs k))) := by
  obtain ⟨j, s0, t, hj, hJ, ht, _, hjt, hdn, he⟩ :=
    solve_last P A o inner hk
      (fun j q => obs (q.st.cs k) = (fun x => p (d x))^[j] (obs ((AL.init P A o s).st.cs k))) s s' rfl
      (by
        intro j q t hJ ht _
        rw [Function.iterate_succ_apply', ← hJ, ← hobs _ _ ht k, ← hd, ← hp]
        show obs (if k ≤ P.N then A.updatePenalties ((body P A q t).st.cs k) else _) = _
        rw [if_pos hkN, (body_facts P A q t).1]
        show obs (A.updatePenalties (if k ≤ P.N then A.updateDuals (t.cs k) else _)) = _
        rw [if_pos hkN]) hmax h
  obtain ⟨h1, h2⟩ := isDone_true o _ hdn
  obtain ⟨b1, _, _, _, b5, _, _, _⟩ := body_facts P A s0 t
  have ho : s'.st.stats.outer = j + 1 := by rw [he, h2, b5, hjt]
  rw [ho, Nat.add_sub_cancel, ← hJ, ← hobs _ _ ht k, ← hd, he, h2, b1]
  show obs (if k ≤ P.N then A.updateDuals (t.cs k) else _) = _
  rw [if_pos hkN]

/-- Penalties: if the penalty update multiplies an observed penalty by `phi` and everything else leaves it alone,
then it is the initial one times `phi^(j-1)`. -/
theorem C13_penalties {K : Type} [Field K] [LinearOrder K] {C : Type} {P : Kernel X U K C D} {A : CostOps C K}
    {o : Opts K} {inner : St X U K C D → Option (St X U K C D)} (pen : C → K) (phi : K)
    (hd : ∀ c, pen (A.updateDuals c) = pen c) (hp : ∀ c, pen (A.updatePenalties c) = phi * pen c)
    (hs : ∀ r c, pen (A.setPenalty r c) = r) (hcost : ∀ k c x u, pen (P.cost k c x u).2 = pen c)
    (hk : KeepsOuter inner) (hobs : Keeps pen inner) (hmax : 1 ≤ o.maxOuter) (hpos : 0 < o.initialPenalty)
    (s s' : ALSt X U K C D) (h : AL.solve P A o inner s = some s') (k : ℕ) (hkN : k ≤ P.N) :
    pen (s'.st.cs k) = o.initialPenalty * phi ^ (s'.st.stats.outer - 1) := by
  have h0 : pen ((AL.init P A o s).st.cs k) = o.initialPenalty := by
    unfold AL.init
    extract_lets s1 s2 s3 s4 s5
    show pen (s4.cs k) = _
    rw [show s4.cs = (ILQR.cost P s3.Z s3).2.cs from rfl, ILQR.cost_obs P pen hcost]
    show pen (s2.cs k) = _
    simp only [s2, Arith.gt_iff, hpos, if_true]
    show pen (if k ≤ P.N then _ else _) = _
    rw [if_pos hkN, hs]
  rw [C13_updates pen id (phi * ·) (fun c => hd c) (fun c => hp c) hk hobs hmax s s' h k hkN, h0]
  generalize s'.st.stats.outer - 1 = j
  simp only [id]
  rw [mul_left_iterate]
  simp only; ring

/-- With `reset_duals` and a positive `initial_penalty`, the state in which the first inner solve starts — the
statistics, the stored constraint values and everything later evaluations depend on — is a function of the
trajectory and of the immutable parts of the cost objects: it is the same for any two prior states of the solver
that agree on those. -/
theorem C14_reset (L : ALLaw P A) (hr : o.resetDuals = true) (hp : Arith.gt o.initialPenalty 0 = true)
    (s1 s2 : ALSt X U F C D)
    (hx : ∀ k ≤ P.N, s1.st.Z.x k = s2.st.Z.x k) (hu : ∀ k ≤ P.N, s1.st.Z.u k = s2.st.Z.u k)
    (hsig : ∀ k ≤ P.N, L.sig (s1.st.cs k) = L.sig (s2.st.cs k)) :
    (AL.init P A o s1).st.stats = (AL.init P A o s2).st.stats ∧
    (∀ k ≤ P.N, L.work ((AL.init P A o s1).st.cs k) = L.work ((AL.init P A o s2).st.cs k)) ∧
    (∀ k ≤ P.N, L.stored ((AL.init P A o s1).st.cs k) = L.stored ((AL.init P A o s2).st.cs k)) ∧
    L.Fresh (AL.init P A o s1).st.cs s1.st.Z := by
  -- the cost objects before the evaluation
  let pre (s : ALSt X U F C D) : St X U F C D :=
    { eachCost P (A.setPenalty o.initialPenalty) (eachCost P A.resetDuals s.st) with
      stats := Stats.reset (F := F) s.st.stats |>.log none 0 }
  have hpre : ∀ s : ALSt X U F C D, ∀ k ≤ P.N,
      (pre s).cs k = A.setPenalty o.initialPenalty (A.resetDuals (s.st.cs k)) := by
    intro s k hk
    show (if k ≤ P.N then _ else _) = _
    rw [if_pos hk]
    show A.setPenalty _ (if k ≤ P.N then _ else _) = _
    rw [if_pos hk]
  have hinit : ∀ s : ALSt X U F C D, (AL.init P A o s).st =
      { (ILQR.cost P (pre s).Z (pre s)).2 with
        stats := ((pre s).stats.log (some .viol) (P.viol (ILQR.cost P (pre s).Z (pre s)).2.cs)).log (some .pen)
          (AL.maxPenalty P A (ILQR.cost P (pre s).Z (pre s)).2.cs) } := by
    intro s
    unfold AL.init
    simp only [hr, hp, if_true]
    have : (ILQR.cost P (pre s).Z (pre s)).2.stats = (pre s).stats := ILQR.cost_stats ..
    rw [← this]
    rfl
  have hw : ∀ s : ALSt X U F C D, ∀ k ≤ P.N, L.work ((ILQR.cost P (pre s).Z (pre s)).2.cs k)
      = L.work (A.setPenalty o.initialPenalty (A.resetDuals (s.st.cs k))) := by
    intro s k hk
    rw [ILQR.cost_obs P L.work L.cost_work, hpre s k hk]
  have hg : ∀ s : ALSt X U F C D, ∀ k ≤ P.N, L.sig ((ILQR.cost P (pre s).Z (pre s)).2.cs k) = L.sig (s.st.cs k) := by
    intro s k hk
    rw [ILQR.cost_obs P L.sig L.cost_sig, hpre s k hk, L.reset_sig]
  have hst : ∀ s : ALSt X U F C D, L.Fresh (ILQR.cost P (pre s).Z (pre s)).2.cs s.st.Z :=
    fun s => ILQR.cost_fresh L.toViolLaw (pre s).Z (pre s)
  have hW : ∀ k ≤ P.N, L.work ((ILQR.cost P (pre s1).Z (pre s1)).2.cs k)
      = L.work ((ILQR.cost P (pre s2).Z (pre s2)).2.cs k) := by
    intro k hk
    rw [hw s1 k hk, hw s2 k hk, L.reset_work _ _ _ (hsig k hk)]
  have hS : ∀ k ≤ P.N, L.stored ((ILQR.cost P (pre s1).Z (pre s1)).2.cs k)
      = L.stored ((ILQR.cost P (pre s2).Z (pre s2)).2.cs k) := by
    intro k hk
    rw [hst s1 k hk, hst s2 k hk, hg s1 k hk, hg s2 k hk, hx k hk, hu k hk, hsig k hk]
  refine ⟨?_, ?_, ?_, ?_⟩
  · have hstats : ∀ s : ALSt X U F C D, (AL.init P A o s).st.stats =
        ((pre s).stats.log (some .viol) (P.viol (ILQR.cost P (pre s).Z (pre s)).2.cs)).log (some .pen)
          (AL.maxPenalty P A (ILQR.cost P (pre s).Z (pre s)).2.cs) := fun s => by rw [hinit]
    rw [hstats, hstats]
    have e1 : P.viol (ILQR.cost P (pre s1).Z (pre s1)).2.cs = P.viol (ILQR.cost P (pre s2).Z (pre s2)).2.cs := by
      rw [L.viol_eq, L.viol_eq]; exact L.agg_congr _ _ hS
    have e2 : AL.maxPenalty P A (ILQR.cost P (pre s1).Z (pre s1)).2.cs
        = AL.maxPenalty P A (ILQR.cost P (pre s2).Z (pre s2)).2.cs := by
      unfold AL.maxPenalty
      have : ∀ (l : List ℕ) (a : F), (∀ k ∈ l, k ≤ P.N) →
          l.foldl (fun a k => Arith.smax a (A.maxPenalty ((ILQR.cost P (pre s1).Z (pre s1)).2.cs k))) a =
          l.foldl (fun a k => Arith.smax a (A.maxPenalty ((ILQR.cost P (pre s2).Z (pre s2)).2.cs k))) a := by
        intro l
        induction l with
        | nil => intros; rfl
        | cons k l ih =>
          intro a hl
          simp only [List.foldl_cons]
          rw [L.maxPenalty_work _ _ (hW k (hl k (by simp)))]
          exact ih _ fun k' hk' => hl k' (by simp [hk'])
      exact this _ _ fun k hk => by simp at hk; omega
    rw [e1, e2]
    rfl
  · intro k hk; rw [hinit, hinit]; exact hW k hk
  · intro k hk; rw [hinit, hinit]; exact hS k hk
  · rw [hinit]; exact hst s1

/-- With `reset_duals` disabled, whatever aspect of the cost objects is not touched by evaluations and by
`SetPenalty` (the multipliers) is kept from the previous solve. -/
theorem C14_keep {M : Type} (obs : C → M) (hset : ∀ r c, obs (A.setPenalty r c) = obs c)
    (hcost : ∀ k c x u, obs (P.cost k c x u).2 = obs c) (hr : o.resetDuals = false) (s : ALSt X U F C D) (k : ℕ) :
    obs ((AL.init P A o s).st.cs k) = obs (s.st.cs k) := by
  unfold AL.init
  extract_lets s1 s2 s3 s4 s5
  show obs (s4.cs k) = _
  rw [show s4.cs = (ILQR.cost P s3.Z s3).2.cs from rfl, ILQR.cost_obs P obs hcost]
  show obs (s2.cs k) = _
  have e1 : s1 = s.st := by simp only [s1, hr]; rfl
  have e2 : obs (s2.cs k) = obs (s1.cs k) := by
    simp only [s2]
    split
    · show obs (if k ≤ P.N then _ else _) = _
      split
      · rw [hset]
      · rfl
    · rfl
  rw [e2, e1]

/-- Partial form of C15 (one inner iteration): if some step length qualifies — the line search succeeds — the
stored constraint values after the iteration are those of the new trajectory.  Missing for the full property: after
a failed line search they are not (`C15_counterexample`). -/
theorem C15_accepted_partial (V : ViolLaw P) (L : CostLaw P) {fuel : ℕ} {s s' : St X U F C D}
    (h : ILQR.iterate P o fuel s = some s') :
    ∃ s1, ILQR.backwardPass P o fuel (ILQR.updateExpansions P s) = some s1 ∧
      ((∃ i < o.lsMax.toNat, Qualifies L o s1 (L.total s.cs s.Z) (stepLength o.lsFactor i)) →
        V.Fresh s'.cs s'.Z) := by
  obtain ⟨s1, h1, h2⟩ := ILQR.iterate_stored o V h
  refine ⟨s1, h1, ?_⟩
  rintro ⟨i, hi, hq⟩
  rcases h2 with ⟨_, hf⟩ | ⟨hno, _, _⟩
  · exact hf
  · have hb := ILQR.backwardPass_frame P o _ _ _ h1
    obtain ⟨u1, u2⟩ := ILQR.updateExpansions_law L s
    have hJ0 : ILQR.costSum P s1 = L.total s.cs s.Z := by
      unfold ILQR.costSum at *; rw [hb.costs]; exact u1
    obtain ⟨_, l2⟩ := ILQR.lineSearch_spec o L s1 (ILQR.costSum P s1) o.lsMax.toNat 0 (ILQR.costSum P s1) s1
      ⟨ILQR.LSFrame.refl P s1, fun _ => rfl⟩ rfl
    rw [hJ0] at l2 hno
    exact absurd hq ((l2 hno).1 i (by omega) (by omega))

/-- Partial form of C15 (whole solve, with the iLQR solver inside): the reported violation, and the constraint
values used by the last dual update, are those of the returned trajectory — unless the last line search failed, in
which case they are those of the last rejected candidate around the returned trajectory. -/
theorem C15_reported_partial (L : ALLaw P A) (fuel : ℕ) (hmax : 1 ≤ o.maxOuter) (s s' : ALSt X U F C D)
    (h : AL.solve P A o (ILQR.solve P o fuel) s = some s') :
    ∃ Zc : Traj X U F, L.Fresh s'.st.cs Zc ∧
      Stats.back (s'.st.stats.col .viol) = L.violation s'.st.cs Zc ∧
      (Zc = s'.st.Z ∨
       ∃ s1 : St X U F C D, ∃ i < o.lsMax.toNat,
         (∀ k ≤ P.N, s1.Z.x k = s'.st.Z.x k ∧ s1.Z.u k = s'.st.Z.u k) ∧
         (ILQR.lineSearch P o (ILQR.costSum P s1) o.lsMax.toNat 1 (ILQR.costSum P s1) s1).2 = false ∧
         withinLimits o P s1.kd s1.Z s1.Zbar.t s1.Zbar.h (stepLength o.lsFactor i) ∧
         (∀ j, i < j → j < o.lsMax.toNat →
           ¬ withinLimits o P s1.kd s1.Z s1.Zbar.t s1.Zbar.h (stepLength o.lsFactor j)) ∧
         Zc = candidateTraj P s1.kd s1.Z s1.Zbar (stepLength o.lsFactor i)) := by
  have hk := C11_inner_ok P o fuel
  obtain ⟨a, t, ht, _, hZ, _, hcs⟩ := C11_last_inner hk hmax s s' h
  obtain ⟨_, hv, _⟩ := C11_status hk hmax s s' h
  have lift : ∀ Zc : Traj X U F, L.Fresh t.cs Zc → L.Fresh s'.st.cs Zc := by
    intro Zc hf k hkN
    rw [hcs k hkN, L.dual_stored, L.dual_sig]
    exact hf k hkN
  have hviol : ∀ Zc : Traj X U F, L.Fresh s'.st.cs Zc → Stats.back (s'.st.stats.col .viol) = L.violation s'.st.cs Zc := by
    intro Zc hf
    rw [hv, L.viol_eq]
    exact L.agg_congr _ _ hf
  have key : L.Fresh t.cs t.Z ∨ ∃ s1 : St X U F C D, ∃ i < o.lsMax.toNat, s1.Z = t.Z ∧
      (ILQR.lineSearch P o (ILQR.costSum P s1) o.lsMax.toNat 1 (ILQR.costSum P s1) s1).2 = false ∧
      ILQR.LastCandidate L.toViolLaw o s1 0 o.lsMax.toNat t.cs i := by
    unfold ILQR.solve at ht
    rcases ILQR.solveLoop_last o fuel _ _ _ ht with ⟨_, e⟩ | ⟨s0, s1, hit, e1, e2, _⟩
    · refine .inl ?_
      rw [e]
      unfold ILQR.start
      extract_lets q c
      have hc : c.2.Z = q.Z := ILQR.cost_Z ..
      show L.Fresh c.2.cs c.2.Z
      rw [hc]
      exact ILQR.cost_fresh L.toViolLaw _ _
    · obtain ⟨s2, hb, hh⟩ := ILQR.iterate_stored o L.toViolLaw hit
      rcases hh with ⟨_, hf⟩ | ⟨hno, hZs, ⟨hf, _⟩ | ⟨i', hl⟩⟩
      · exact .inl (by rw [e1, e2]; exact hf)
      · exact .inl (by rw [e1, e2]; exact hf)
      · refine .inr ⟨s2, i', by have := hl.lt; omega, ?_, hno, by rw [e1]; exact hl⟩
        rw [(ILQR.backwardPass_frame P o _ _ _ hb).Z, ILQR.updateExpansions_Z, ← hZs, e2]
  rcases key with hf | ⟨s1, i, hi, hZ1, hno, hl⟩
  · refine ⟨s'.st.Z, ?_, ?_, .inl rfl⟩
    · rw [hZ]; exact lift _ hf
    · rw [hZ]; exact hviol _ (lift _ hf)
  · refine ⟨_, lift _ hl.fresh, hviol _ (lift _ hl.fresh), .inr ⟨s1, i, hi, ?_, hno, hl.within, ?_, rfl⟩⟩
    · intro k _
      rw [hZ1, hZ]; exact ⟨rfl, rfl⟩
    · intro j h1 h2; exact hl.last j h1 (by omega)

/-- The failure of C16: when no outer iteration is allowed, the solve returns with whatever status was left from an
earlier solve. -/
theorem C16_stale_status_counterexample (hmax : o.maxOuter ≤ 0) (s : ALSt X U F C D) :
    ∃ s', AL.solve P A o inner s = some s' ∧ s'.status = s.status := by
  unfold AL.solve
  have : o.maxOuter.toNat = 0 := by omega
  rw [this]
  exact ⟨_, rfl, (init_facts P A o s).2.2.1⟩

/-- What does hold of C16: as soon as one outer iteration is allowed, the status is decided by the data of this
call, whatever the earlier status was.  Missing: the case `max_iterations_outer <= 0`. -/
theorem C16_status_partial (hk : KeepsOuter inner) (hmax : 1 ≤ o.maxOuter) (s s1 s2 : ALSt X U F C D) (st : Status)
    (h1 : AL.solve P A o inner s = some s1) (h2 : AL.solve P A o inner { s with status := st } = some s2) :
    s1.status = s2.status := by rw [C12_status_from_this_call hk hmax s s1 s2 st h1 h2]

/-- C17 for the augmented Lagrangian solver: with at least one outer iteration, the trajectory on return obeys the dynamics from the initial
state, and its times and steps are the user's. -/
theorem C17_outer (fuel : ℕ) (hmax : 1 ≤ o.maxOuter) (s s' : ALSt X U F C D) (h : AL.solve P A o (ILQR.solve P o fuel) s = some s') :
    DynFeasible P s'.st.Z ∧ SameTimes P s'.st.Z s.st.Z := by
  obtain ⟨j, s0, t, -, h0, ht, -, -, hd, rfl⟩ := solve_last P A o _ (C11_inner_ok P o fuel) (fun _ q => SameTimes P q.st.Z s.st.Z) s s'
    (by rw [(init_facts P A o s).2.2.2]; exact ⟨fun _ _ => rfl, fun _ _ => rfl⟩)
    (fun j q t hq ht _ => by
      have e : (AL.next P A q t).st.Z = t.Z := (body_facts P A q t).2.1
      rw [e]
      obtain ⟨-, h2⟩ := C17_dynamically_feasible P o fuel q.st t ht
      exact ⟨fun k hk => (h2.t k hk).trans (hq.t k hk), fun k hk => (h2.h k hk).trans (hq.h k hk)⟩) hmax h
  have e : (isDone o (body P A s0 t)).1.st.Z = t.Z := by rw [(isDone_true o _ hd).2]; exact (body_facts P A s0 t).2.1
  rw [e]
  obtain ⟨h1, h2⟩ := C17_dynamically_feasible P o fuel s0.st t ht
  exact ⟨h1, fun k hk => (h2.t k hk).trans (h0.t k hk), fun k hk => (h2.h k hk).trans (h0.h k hk)⟩

end Altro.Props
