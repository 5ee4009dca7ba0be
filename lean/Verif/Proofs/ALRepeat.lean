import Verif.Spec.ALRepeat
import Verif.Proofs.Repeat
import Verif.Props.Repeat

/-!
# Two augmented Lagrangian solves from solver states with different pasts
-/

namespace Altro.ILQR
open Spec Props
variable {X U F C D : Type} [Arith F]
variable {P : Kernel X U F C D} {A : CostOps C F} (o : Opts F) (R : Replay P A)

/-- The same gains at all knot points. -/
def SameGains (R : Replay P A) (s s' : St X U F C D) : Prop := ∀ j < P.N, R.RG (s.kd j) (s'.kd j)

/-- Two runs at the beginning of an iteration, with the same statistics. -/
structure ESim (s s' : St X U F C D) : Prop where
  Z : SameTraj P s.Z s'.Z
  bar : SameBar P s.Zbar s'.Zbar
  cs : ∀ k ≤ P.N, R.RC (s.cs k) (s'.cs k)
  status : s.status = s'.status
  rho : s.rho = s'.rho
  drho : s.drho = s'.drho
  stats : s.stats = s'.stats

variable {R}

/-! ## Gains -/

theorem expandBlock_gain {s s' : St X U F C D} (hZ : SameTraj P s.Z s'.Z) (hg : SameGains R s s') (j : ℕ) :
    SameGains R (expandBlock P 0 s j) (expandBlock P 0 s' j) := by
  induction j with
  | zero => exact hg
  | succ j ih =>
    intro k hk
    simp only [expandBlock, Nat.zero_add, expandBlock_Z]
    by_cases e : k = j
    · subst e
      obtain ⟨zx, zu, zt, zh⟩ := hZ k (by omega)
      rw [upd_self, upd_self, ← zx, ← zu, ← zt, ← zh]
      exact R.expand_gain _ _ _ _ _ _ _ _ _ (ih k hk)
    · rw [upd_of_ne e, upd_of_ne e]; exact ih k hk

theorem bpSweep_gain (rho : F) (k : ℕ) (hk : k ≤ P.N) : ∀ (kd kd' : ℕ → D) (dV : F × F),
    (∀ j ≤ P.N, R.RE (kd j) (kd' j)) → R.RS (kd k) (kd' k) → (∀ j < P.N, R.RG (kd j) (kd' j)) →
    ∀ j < P.N, R.RG ((bpSweep P rho k kd dV).1.1 j) ((bpSweep P rho k kd' dV).1.1 j) := by
  induction k with
  | zero => intro kd kd' dV _ _ h3; exact h3
  | succ k ih =>
    intro kd kd' dV h1 h2 h3
    have hg := R.gains rho _ _ _ _ (h1 k (by omega)) h2
    have ht := R.toGo rho _ _ _ _ (h1 k (by omega)) h2
    have hgg := R.gains_gain rho _ _ _ _ (h1 k (by omega)) h2 (h3 k (by omega))
    simp only [bpSweep]
    rw [← hg.1]
    by_cases hs : (P.gains (P.regularize rho (P.actionValue (kd k) (kd (k + 1))))).2 = true
    · rw [if_pos hs, if_pos hs]
      obtain ⟨t1, t2, t3, t4⟩ := ht hs _ _ rfl rfl
      rw [← t4]
      refine ih (by omega) _ _ _ (fun j hj => ?_) (by rw [upd_self, upd_self]; exact t2) (fun j hj => ?_)
      · by_cases e : j = k
        · subst e; rw [upd_self, upd_self]; exact t1
        · rw [upd_of_ne e, upd_of_ne e]; exact h1 j hj
      · by_cases e : j = k
        · subst e; rw [upd_self, upd_self]; exact t3
        · rw [upd_of_ne e, upd_of_ne e]; exact h3 j hj
    · rw [if_neg hs, if_neg hs]
      intro j hj
      dsimp only
      by_cases e : j = k
      · subst e; rw [upd_self, upd_self]; exact hgg
      · rw [upd_of_ne e, upd_of_ne e]; exact h3 j hj

theorem bpLoop_gain (fuel : ℕ) : ∀ (count : ℕ) (s s' s1 s1' : St X U F C D), BSim R.toAlike s s' → SameGains R s s' →
    bpLoop P o fuel count s = some s1 → bpLoop P o fuel count s' = some s1' → SameGains R s1 s1' := by
  induction fuel with
  | zero => intro count s s' s1 s1' _ _ h; simp [bpLoop] at h
  | succ fuel ih =>
    intro count s s' s1 s1' hb hg h h'
    obtain ⟨w1, w2, w3, w4, -⟩ := bpSweep_sim (M := R.toAlike) s.rho P.N le_rfl s.kd s'.kd (s.dV0, s.dV1) hb.re hb.rs
    have wg := bpSweep_gain (R := R) s.rho P.N le_rfl s.kd s'.kd (s.dV0, s.dV1) hb.re hb.rs hg
    have hN := w4 P.N le_rfl
    unfold bpLoop at h h'
    extract_lets r r1 r2 c' at h
    extract_lets q q1 q2 d' at h'
    have er : q = bpSweep P s.rho P.N s'.kd (s.dV0, s.dV1) := by
      show bpSweep P s'.rho P.N s'.kd (s'.dV0, s'.dV1) = _
      rw [hb.rho, hb.dV0, hb.dV1]
    have g1 : SameGains R r1 q1 := by
      show ∀ j < P.N, R.RG (r.1.1 j) (q.1.1 j)
      rw [er]; exact wg
    have b1 : BSim R.toAlike r1 q1 := by
      refine ⟨?_, ?_, ?_, ?_, hb.rho, hb.drho, hb.status⟩
      · show ∀ j ≤ P.N, R.RE (r.1.1 j) (q.1.1 j)
        rw [er]; exact w3
      · show R.RS (r.1.1 P.N) (q.1.1 P.N)
        rw [er, show r.1.1 P.N = s.kd P.N from hN.1, hN.2]; exact hb.rs
      · show r.1.2.1 = q.1.2.1
        rw [er]; exact congrArg Prod.fst w2
      · show r.1.2.2 = q.1.2.2
        rw [er]; exact congrArg Prod.snd w2
    have e2 : r.2 = q.2 := by rw [er]; exact w1
    have b2 : BSim R.toAlike r2 q2 := by
      refine ⟨b1.re, b1.rs, b1.dV0, b1.dV1, ?_, ?_, b1.status⟩
      · show (increaseReg o r1).rho = (increaseReg o q1).rho
        simp only [increaseReg, b1.rho, b1.drho]
      · show (increaseReg o r1).drho = (increaseReg o q1).drho
        simp only [increaseReg, b1.drho]
    have g2 : SameGains R r2 q2 := g1
    have ec : c' = d' := by
      show (if Arith.ge r2.rho o.regMax then count + 1 else count) = if Arith.ge q2.rho o.regMax then count + 1 else count
      rw [b2.rho]
    rw [← e2, ← ec] at h'
    by_cases hr : r.2 = true
    · rw [if_pos hr] at h h'
      by_cases h0 : P.N = 0
      · rw [if_pos h0] at h h'
        exact ih _ _ _ _ _ b1 g1 h h'
      · rw [if_neg h0] at h h'
        rw [← Option.some.inj h, ← Option.some.inj h']
        exact g1
    · rw [if_neg hr] at h h'
      by_cases hc : (c' : ℤ) ≥ o.regFailThreshold
      · rw [if_pos hc] at h h'
        rw [← Option.some.inj h, ← Option.some.inj h']
        exact g2
      · rw [if_neg hc] at h h'
        exact ih _ _ _ _ _ b2 g2 h h'

/-! ## One iteration -/

theorem backwardPass_esim {fuel : ℕ} {s s' s1 : St X U F C D} (hs : ESim R s s')
    (h : backwardPass P o fuel (updateExpansions P s) = some s1)
    (hg : SameGains R s s' ∨ s1.status ≠ .kBackwardPassRegularizationFailed) :
    ∃ s1', backwardPass P o fuel (updateExpansions P s') = some s1' ∧ LSim R.toAlike s1 s1' ∧ s1.stats = s1'.stats ∧
      costSum P s1 = costSum P s1' := by
  obtain ⟨x1, x2, x3⟩ := expandBlock_sim (M := R.toAlike) hs.Z hs.cs (P.N + 1) le_rfl
  obtain ⟨t1, t2⟩ := R.term _ _ (x2 P.N (by omega))
  unfold backwardPass at h
  cases hb : bpLoop P o fuel 0 { updateExpansions P s with
      kd := upd (updateExpansions P s).kd P.N (P.term ((updateExpansions P s).kd P.N)), dV0 := 0, dV1 := 0 } with
  | none => rw [hb] at h; cases h
  | some b =>
    rw [hb] at h
    injection h with h
    subst h
    have b0 : BSim R.toAlike
        { updateExpansions P s with
          kd := upd (updateExpansions P s).kd P.N (P.term ((updateExpansions P s).kd P.N)), dV0 := 0, dV1 := 0 }
        { updateExpansions P s' with
          kd := upd (updateExpansions P s').kd P.N (P.term ((updateExpansions P s').kd P.N)), dV0 := 0, dV1 := 0 } := by
      refine ⟨fun j hj => ?_, ?_, rfl, rfl, ?_, ?_, ?_⟩
      · show R.RE (upd _ P.N _ j) (upd _ P.N _ j)
        by_cases e : j = P.N
        · subst e; rw [upd_self, upd_self]; exact t1
        · rw [upd_of_ne e, upd_of_ne e]; exact x2 j (by omega)
      · show R.RS (upd _ P.N _ P.N) (upd _ P.N _ P.N)
        rw [upd_self, upd_self]; exact t2
      · simpa using hs.rho
      · simpa using hs.drho
      · simpa using hs.status
    obtain ⟨b', hb', bs, brg⟩ := bpLoop_sim o fuel 0 _ _ _ b0 hb
    have hrg : SameGains R b b' := by
      rcases hg with hg | hf
      · refine bpLoop_gain o fuel 0 _ _ _ _ b0 ?_ hb hb'
        intro j hj
        show R.RG (upd _ P.N _ j) (upd _ P.N _ j)
        rw [upd_of_ne (by omega), upd_of_ne (by omega)]
        exact expandBlock_gain hs.Z hg (P.N + 1) j hj
      · exact brg hf
    have f1 := bpLoop_frame P o _ _ _ _ hb
    have f2 := bpLoop_frame P o _ _ _ _ hb'
    have eZ : b.Z = s.Z := f1.Z.trans (updateExpansions_Z P s)
    have eZ' : b'.Z = s'.Z := f2.Z.trans (updateExpansions_Z P s')
    have eB : b.Zbar = s.Zbar := f1.Zbar.trans (updateExpansions_Zbar P s)
    have eB' : b'.Zbar = s'.Zbar := f2.Zbar.trans (updateExpansions_Zbar P s')
    have ec : b.cs = (updateExpansions P s).cs := f1.cs
    have ec' : b'.cs = (updateExpansions P s').cs := f2.cs
    have es : b.stats = s.stats := f1.stats.trans (updateExpansions_stats P s)
    have es' : b'.stats = s'.stats := f2.stats.trans (updateExpansions_stats P s')
    refine ⟨decreaseReg o { b' with stats := b'.stats.log (some .reg) b'.rho }, ?_, ?_, ?_, ?_⟩
    · unfold backwardPass; rw [hb']
    · refine ⟨?_, ?_, ?_, hrg, bs.status, ?_, ?_, bs.dV0, bs.dV1⟩
      · show SameTraj P b.Z b'.Z
        rw [eZ, eZ']; exact hs.Z
      · show SameBar P b.Zbar b'.Zbar
        rw [eB, eB']; exact hs.bar
      · show ∀ k ≤ P.N, R.RC (b.cs k) (b'.cs k)
        rw [ec, ec']; exact x1
      · simp only [decreaseReg, bs.rho, bs.drho]
      · simp only [decreaseReg, bs.drho]
    · show b.stats.log (some .reg) b.rho = b'.stats.log (some .reg) b'.rho
      rw [es, es', hs.stats, bs.rho]
    · show costSum P b = costSum P b'
      have k1 : b.costs = (updateExpansions P s).costs := f1.costs
      have k2 : b'.costs = (updateExpansions P s').costs := f2.costs
      unfold costSum
      rw [k1, k2]
      exact sumTo_congr _ _ _ x3

theorem lineSearch_esim (J0 : F) (r : ℕ) : ∀ (alpha J : F) (s s' : St X U F C D), LSim R.toAlike s s' →
    s.stats = s'.stats →
    ∀ q q', q = lineSearch P o J0 r alpha J s → q' = lineSearch P o J0 r alpha J s' →
    q.2 = q'.2 ∧ q.1.2 = q'.1.2 ∧ LSim R.toAlike q.1.1 q'.1.1 ∧ (q.2 = true → SameTraj P q.1.1.Zbar q'.1.1.Zbar) ∧
    q.1.1.stats = q'.1.1.stats := by
  induction r with
  | zero =>
    intro alpha J s s' hs a q q' hq hq'
    subst hq hq'
    exact ⟨rfl, rfl, hs, fun h => absurd h (by simp [lineSearch]), a⟩
  | succ r ih =>
    intro alpha J s s' hs a q q' hq hq'
    obtain ⟨c1, c2, c3⟩ := rcl_sim o alpha hs
    unfold lineSearch at hq hq'
    extract_lets p c z at hq
    extract_lets p' c' z' at hq'
    have ep : p.2 = p'.2 := c1
    have esp : p.1.stats = s.stats := rcl_stats ..
    have esp' : p'.1.stats = s'.stats := rcl_stats ..
    rw [← ep] at hq'
    by_cases hp : p.2 = true
    · rw [if_pos hp] at hq hq'
      obtain ⟨k1, k2⟩ := cost_sim (c3 hp) c2.cs
      have kc : LSim R.toAlike c.2 c'.2 := by
        refine ⟨?_, ?_, k2, ?_, ?_, ?_, ?_, ?_, ?_⟩
        · show SameTraj P (cost P p.1.Zbar p.1).2.Z (cost P p'.1.Zbar p'.1).2.Z
          rw [cost_Z, cost_Z]; exact c2.Z
        · show SameBar P (cost P p.1.Zbar p.1).2.Zbar (cost P p'.1.Zbar p'.1).2.Zbar
          rw [cost_Zbar, cost_Zbar]; exact c2.bar
        · show ∀ j < P.N, R.RG ((cost P p.1.Zbar p.1).2.kd j) ((cost P p'.1.Zbar p'.1).2.kd j)
          rw [cost_kd, cost_kd]; exact c2.rg
        · exact ((cost_status P _ _).trans c2.status).trans (cost_status P _ _).symm
        · exact ((cost_rho P _ _).trans c2.rho).trans (cost_rho P _ _).symm
        · exact ((cost_drho P _ _).trans c2.drho).trans (cost_drho P _ _).symm
        · exact ((cost_dV0 P _ _).trans c2.dV0).trans (cost_dV0 P _ _).symm
        · exact ((cost_dV1 P _ _).trans c2.dV1).trans (cost_dV1 P _ _).symm
      have ec : c.1 = c'.1 := k1
      have ez : z = z' := by
        show ratio J0 c.1 alpha c.2 = ratio J0 c'.1 alpha c'.2
        unfold ratio expected
        rw [ec, kc.dV0, kc.dV1]
      have es : c.2.stats = s.stats := (cost_stats P _ _).trans esp
      have es' : c'.2.stats = s'.stats := (cost_stats P _ _).trans esp'
      have hbar : SameTraj P c.2.Zbar c'.2.Zbar := by
        show SameTraj P (cost P p.1.Zbar p.1).2.Zbar (cost P p'.1.Zbar p'.1).2.Zbar
        rw [cost_Zbar, cost_Zbar]; exact c3 hp
      rw [← ec, ← ez] at hq'
      by_cases ha : accept o J0 c.1 z = true
      · rw [if_pos ha] at hq hq'
        subst hq hq'
        refine ⟨rfl, rfl, ⟨kc.Z, kc.bar, kc.cs, kc.rg, kc.status, kc.rho, kc.drho, kc.dV0, kc.dV1⟩, fun _ => hbar, ?_⟩
        dsimp only
        rw [es, es', a]
      · rw [if_neg ha] at hq hq'
        exact ih _ _ _ _ kc (by rw [es, es', a]) q q' hq hq'
    · rw [if_neg hp] at hq hq'
      exact ih _ _ _ _ c2 (by rw [rcl_stats, rcl_stats, a]) q q' hq hq'

theorem forwardPass_esim {s s' : St X U F C D} (hs : LSim R.toAlike s s') (hst : s.stats = s'.stats)
    (hJ : costSum P s = costSum P s') :
    LSim R.toAlike (forwardPass P o s) (forwardPass P o s') ∧ (forwardPass P o s).stats = (forwardPass P o s').stats := by
  obtain ⟨l1, l2, l3, l4, l5⟩ := lineSearch_esim o (costSum P s) o.lsMax.toNat 1 (costSum P s) s s' hs hst _ _ rfl rfl
  unfold forwardPass
  extract_lets J0 q src s1 J J0' q' src' s1' J'
  have eJ0 : J0' = J0 := hJ.symm
  have eq' : q' = lineSearch P o (costSum P s) o.lsMax.toNat 1 (costSum P s) s' := by
    show lineSearch P o J0' _ 1 J0' s' = _
    rw [eJ0]
  rw [← eq'] at l1 l2 l3 l4 l5
  by_cases hq : q.2 = true
  · have hq2 : q'.2 = true := l1 ▸ hq
    have e1 : s1 = { q.1.1 with Z := q.1.1.Zbar } := if_pos hq
    have e1' : s1' = { q'.1.1 with Z := q'.1.1.Zbar } := if_pos hq2
    have eJ : J = J' := by
      show (if q.2 then q.1.2 else J0) = if q'.2 then q'.1.2 else J0'
      rw [if_pos hq, if_pos hq2]; exact l2
    have b : LSim R.toAlike s1 s1' := by
      rw [e1, e1']
      exact ⟨l4 hq, l3.bar, l3.cs, l3.rg, l3.status, l3.rho, l3.drho, l3.dV0, l3.dV1⟩
    rw [eJ, eJ0]
    refine ⟨?_, ?_⟩
    · split
      · exact ⟨b.Z, b.bar, b.cs, b.rg, rfl, b.rho, b.drho, b.dV0, b.dV1⟩
      · exact b
    · rw [e1, e1']
      split <;> exact l5
  · have hq0 : q.2 = false := by simpa using hq
    have hq2 : q'.2 = false := l1 ▸ hq0
    have e1 : s1 = increaseReg o q.1.1 := if_neg hq
    have e1' : s1' = increaseReg o q'.1.1 := if_neg (by rw [hq2]; simp)
    have eJ : J = J' := by
      show (if q.2 then q.1.2 else J0) = if q'.2 then q'.1.2 else J0'
      rw [hq0, hq2, eJ0]
      simp
    have b : LSim R.toAlike s1 s1' := by
      rw [e1, e1']
      have hr : q.1.1.rho = q'.1.1.rho := l3.rho
      have hd : q.1.1.drho = q'.1.1.drho := l3.drho
      refine ⟨l3.Z, l3.bar, l3.cs, l3.rg, l3.status, ?_, ?_, l3.dV0, l3.dV1⟩
      · simp only [increaseReg, hr, hd]
      · simp only [increaseReg, hd]
    rw [eJ, eJ0]
    refine ⟨?_, ?_⟩
    · split
      · exact ⟨b.Z, b.bar, b.cs, b.rg, rfl, b.rho, b.drho, b.dV0, b.dV1⟩
      · exact b
    · rw [e1, e1']
      split <;> exact l5

theorem iterate_esim {fuel : ℕ} {s s' s1 : St X U F C D} (hs : ESim R s s') (h : iterate P o fuel s = some s1)
    (hg : SameGains R s s' ∨ ∀ b, backwardPass P o fuel (updateExpansions P s) = some b →
      b.status ≠ .kBackwardPassRegularizationFailed) :
    ∃ s1', iterate P o fuel s' = some s1' ∧ ESim R s1 s1' ∧ SameGains R s1 s1' := by
  obtain ⟨b, hb, rfl⟩ := iterate_some P o h
  obtain ⟨b', hb', g1, g2, g3⟩ := backwardPass_esim o hs hb (hg.imp_right fun h => h b hb)
  obtain ⟨f1, f2⟩ := forwardPass_esim o g1 g2 g3
  refine ⟨updateConvergence P (forwardPass P o b'), by unfold iterate; rw [hb'], ?_, f1.rg⟩
  refine ⟨f1.Z, f1.bar, f1.cs, f1.status, f1.rho, f1.drho, ?_⟩
  have hn : normalizedGain P (forwardPass P o b) = normalizedGain P (forwardPass P o b') := by
    unfold normalizedGain
    congr 1
    refine sumTo_congr _ _ _ fun k hk => ?_
    rw [R.grad _ _ _ (f1.rg k hk), (f1.Z k (by omega)).2.1]
  have hd : recordedDJ (forwardPass P o b) = recordedDJ (forwardPass P o b') := by
    unfold recordedDJ; rw [f2]
  have hv := R.viol _ _ f1.cs
  simp only [updateConvergence, hn, hd, hv, f2]

theorem isDone_esim {s s' : St X U F C D} (hs : ESim R s s') :
    (isDone o s).2 = (isDone o s').2 ∧ ESim R (isDone o s).1 (isDone o s').1 ∧
    (SameGains R s s' → SameGains R (isDone o s).1 (isDone o s').1) := by
  obtain ⟨h1, h2, h3, h4, h5, h6, h7⟩ := hs
  unfold isDone
  rw [h7, h4]
  split
  · exact ⟨rfl, ⟨h1, h2, h3, rfl, h5, h6, rfl⟩, fun h => h⟩
  · split
    · exact ⟨rfl, ⟨h1, h2, h3, rfl, h5, h6, rfl⟩, fun h => h⟩
    · split
      · exact ⟨rfl, ⟨h1, h2, h3, rfl, h5, h6, rfl⟩, fun h => h⟩
      · exact ⟨rfl, ⟨h1, h2, h3, h4, h5, h6, h7⟩, fun h => h⟩

theorem solveLoop_esim {fuel : ℕ} (r : ℕ) : ∀ {s s' s1 : St X U F C D}, ESim R s s' →
    (SameGains R s s' ∨ ∀ b, backwardPass P o fuel (updateExpansions P s) = some b →
      b.status ≠ .kBackwardPassRegularizationFailed) →
    solveLoop P o fuel r s = some s1 →
    ∃ s1', solveLoop P o fuel r s' = some s1' ∧ ESim R s1 s1' ∧ (r = 0 ∨ SameGains R s1 s1') := by
  induction r with
  | zero =>
    intro s s' s1 hs _ h
    simp only [solveLoop] at h
    injection h with h
    exact ⟨s', rfl, h ▸ hs, .inl rfl⟩
  | succ r ih =>
    intro s s' s1 hs hg h
    unfold solveLoop at h ⊢
    cases hi : iterate P o fuel s with
    | none => rw [hi] at h; cases h
    | some a =>
      rw [hi] at h
      simp only at h
      obtain ⟨a', ha', hsim, hga⟩ := iterate_esim o hs hi hg
      rw [ha']
      simp only
      obtain ⟨d1, d2, d3⟩ := isDone_esim o hsim
      rw [← d1]
      by_cases hdone : (isDone o a).2 = true
      · rw [if_pos hdone] at h ⊢
        injection h with h
        exact ⟨_, rfl, h ▸ d2, .inr (h ▸ d3 hga)⟩
      · rw [if_neg hdone] at h ⊢
        obtain ⟨b, hb, e, g⟩ := ih d2 (.inl (d3 hga)) h
        refine ⟨b, hb, e, .inr ?_⟩
        rcases g with rfl | g
        · simp only [solveLoop] at h hb
          injection h with h
          injection hb with hb
          rw [← h, ← hb]
          exact d3 hga
        · exact g

/-- Two runs at the beginning of an inner solve. -/
structure OSim (R : Replay P A) (s s' : St X U F C D) : Prop where
  Z : ∀ k ≤ P.N, s.Z.u k = s'.Z.u k ∧ s.Z.t k = s'.Z.t k ∧ s.Z.h k = s'.Z.h k
  u : s.Zbar.u P.N = s'.Zbar.u P.N
  h : s.Zbar.h P.N = s'.Zbar.h P.N
  cs : ∀ k ≤ P.N, R.RC (s.cs k) (s'.cs k)
  stats : s.stats = s'.stats

theorem start_esim {s s' : St X U F C D} (hs : OSim R s s') :
    ESim R (start P o s) (start P o s') ∧ (SameGains R s s' → SameGains R (start P o s) (start P o s')) := by
  have hr : SameTraj P (rolloutTo P s.Z P.N) (rolloutTo P s'.Z P.N) := by
    obtain ⟨a1, a2, a3, a4, a5⟩ := rolloutTo_spec P s.Z P.N
    obtain ⟨b1, b2, b3, b4, b5⟩ := rolloutTo_spec P s'.Z P.N
    have hx : ∀ k ≤ P.N, (rolloutTo P s.Z P.N).x k = (rolloutTo P s'.Z P.N).x k := by
      intro k hk
      induction k with
      | zero => rw [a4, b4]
      | succ k ih =>
        obtain ⟨z1, z2, z3⟩ := hs.Z k (by omega)
        rw [a5 k (by omega), b5 k (by omega), ih (by omega), z1, z2, z3]
    intro k hk
    obtain ⟨z1, z2, z3⟩ := hs.Z k hk
    refine ⟨hx k hk, ?_, ?_, ?_⟩
    · rw [a1, b1, z1]
    · rw [a2, b2, z2]
    · rw [a3, b3, z3]
  obtain ⟨c1, c2⟩ := cost_sim (M := R.toAlike) (s := rollout P (solveSetup P o s))
    (s' := rollout P (solveSetup P o s')) hr hs.cs
  obtain ⟨-, f2, -, -, -, -, -, -, f9⟩ := start_facts P o s
  obtain ⟨-, g2, -, -, -, -, -, -, g9⟩ := start_facts P o s'
  have eB : (start P o s).Zbar = (solveSetup P o s).Zbar := cost_Zbar P _ (rollout P (solveSetup P o s))
  have eB' : (start P o s').Zbar = (solveSetup P o s').Zbar := cost_Zbar P _ (rollout P (solveSetup P o s'))
  refine ⟨⟨?_, ?_, c2, f2.trans g2.symm, f9.trans g9.symm, ?_, ?_⟩, fun hg j hj => ?_⟩
  · show SameTraj P (cost P _ (rollout P (solveSetup P o s))).2.Z (cost P _ (rollout P (solveSetup P o s'))).2.Z
    rw [cost_Z, cost_Z]; exact hr
  · rw [eB, eB']
    refine ⟨fun k hk' => ?_, fun k hk' => ?_, hs.u⟩
    · show (if k ≤ P.N then s.Z.t k else s.Zbar.t k) = if k ≤ P.N then s'.Z.t k else s'.Zbar.t k
      rw [if_pos hk', if_pos hk']; exact (hs.Z k hk').2.1
    · show (if k < P.N then s.Z.h k else s.Zbar.h k) = if k < P.N then s'.Z.h k else s'.Zbar.h k
      by_cases e : k < P.N
      · rw [if_pos e, if_pos e]; exact (hs.Z k hk').2.2
      · have : k = P.N := by omega
        subst this
        rw [if_neg e, if_neg e]; exact hs.h
  · exact (cost_drho P _ _).trans (cost_drho P _ (rollout P (solveSetup P o s'))).symm
  · simp only [start]
    rw [cost_stats, cost_stats]
    have e : (rollout P (solveSetup P o s)).stats = (rollout P (solveSetup P o s')).stats := by
      show ({ s.stats with inner := 0 } : Stats F) = { s'.stats with inner := 0 }
      rw [hs.stats]
    have c : (cost P (rollout P (solveSetup P o s)).Z (rollout P (solveSetup P o s))).1
      = (cost P (rollout P (solveSetup P o s')).Z (rollout P (solveSetup P o s'))).1 := c1
    rw [e, c]
  · show R.RG ((cost P _ (rollout P (solveSetup P o s))).2.kd j) ((cost P _ (rollout P (solveSetup P o s'))).2.kd j)
    rw [cost_kd, cost_kd]; exact hg j hj

theorem solve_esim {fuel : ℕ} {s s' s1 : St X U F C D} (hs : OSim R s s')
    (hg : SameGains R s s' ∨ FirstPass P o fuel s) (h : solve P o fuel s = some s1) :
    ∃ s1', solve P o fuel s' = some s1' ∧ ESim R s1 s1' ∧ (o.maxInner.toNat = 0 ∨ SameGains R s1 s1') := by
  obtain ⟨e, g⟩ := start_esim o hs
  exact solveLoop_esim o _ e (hg.imp g fun h => h) h

end Altro.ILQR
