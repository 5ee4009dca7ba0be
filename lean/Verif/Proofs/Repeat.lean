import Verif.Spec.Repeat
import Verif.Props.ILQRRecords

/-!
# Two solves of the same problem from solver states with different pasts
-/

namespace Altro.ILQR
open Spec Props
variable {X U F C D : Type} [Arith F]
variable {P : Kernel X U F C D} (o : Opts F) (M : Alike P)

/-- What matters of the work trajectory between rollouts. -/
structure SameBar (P : Kernel X U F C D) (Z Z' : Traj X U F) : Prop where
  t : ∀ k ≤ P.N, Z.t k = Z'.t k
  h : ∀ k ≤ P.N, Z.h k = Z'.h k
  u : Z.u P.N = Z'.u P.N

/-- Statistics of two runs that agree on what the solver reads. -/
structure SameStats (st st' : Stats F) : Prop where
  al : Aligned st
  al' : Aligned st'
  inner : st.inner = st'.inner
  initialCost : st.initialCost = st'.initialCost
  hist : st.inner ≠ 0 → st.len ≠ 0 ∧ st'.len ≠ 0 ∧ Stats.back (st.col .cost) = Stats.back (st'.col .cost) ∧
    Stats.back2 (st.col .cost) = Stats.back2 (st'.col .cost)

/-- Two runs at the beginning of an iteration. -/
structure Sim (s s' : St X U F C D) : Prop where
  Z : SameTraj P s.Z s'.Z
  bar : SameBar P s.Zbar s'.Zbar
  cs : ∀ k ≤ P.N, M.RC (s.cs k) (s'.cs k)
  status : s.status = s'.status
  rho : s.rho = s'.rho
  drho : s.drho = s'.drho
  stats : SameStats s.stats s'.stats

variable {M}

/-! ## Costs and expansions -/

theorem costsTo_sim {Z Z' : Traj X U F} (hZ : SameTraj P Z Z') {s s' : St X U F C D}
    (hc : ∀ k ≤ P.N, M.RC (s.cs k) (s'.cs k)) (k : ℕ) (hk : k ≤ P.N + 1) :
    (∀ j ≤ P.N, M.RC ((costsTo P Z s k).cs j) ((costsTo P Z' s' k).cs j)) ∧
    ∀ j < k, (costsTo P Z s k).costs j = (costsTo P Z' s' k).costs j := by
  induction k with
  | zero => exact ⟨hc, fun j hj => absurd hj (by omega)⟩
  | succ k ih =>
    obtain ⟨h1, h2⟩ := ih (by omega)
    obtain ⟨zx, zu, -, -⟩ := hZ k (by omega)
    have hk' := M.cost k _ _ (Z.x k) (Z.u k) (h1 k (by omega))
    refine ⟨fun j hj => ?_, fun j hj => ?_⟩
    · show M.RC (upd _ k _ j) (upd _ k _ j)
      by_cases e : j = k
      · subst e; rw [upd_self, upd_self, ← zx, ← zu]; exact hk'.2
      · rw [upd_of_ne e, upd_of_ne e]; exact h1 j hj
    · show upd _ k _ j = upd _ k _ j
      by_cases e : j = k
      · subst e; rw [upd_self, upd_self, ← zx, ← zu]; exact hk'.1
      · rw [upd_of_ne e, upd_of_ne e]; exact h2 j (by omega)

theorem cost_sim {Z Z' : Traj X U F} (hZ : SameTraj P Z Z') {s s' : St X U F C D}
    (hc : ∀ k ≤ P.N, M.RC (s.cs k) (s'.cs k)) :
    (cost P Z s).1 = (cost P Z' s').1 ∧ ∀ j ≤ P.N, M.RC ((cost P Z s).2.cs j) ((cost P Z' s').2.cs j) := by
  obtain ⟨h1, h2⟩ := costsTo_sim hZ hc (P.N + 1) le_rfl
  exact ⟨sumTo_congr _ _ _ h2, h1⟩

theorem expandBlock_sim {s s' : St X U F C D} (hZ : SameTraj P s.Z s'.Z)
    (hc : ∀ k ≤ P.N, M.RC (s.cs k) (s'.cs k)) (j : ℕ) (hj : j ≤ P.N + 1) :
    (∀ k ≤ P.N, M.RC ((expandBlock P 0 s j).cs k) ((expandBlock P 0 s' j).cs k)) ∧
    (∀ k < j, M.RE ((expandBlock P 0 s j).kd k) ((expandBlock P 0 s' j).kd k)) ∧
    ∀ k < j, (expandBlock P 0 s j).costs k = (expandBlock P 0 s' j).costs k := by
  induction j with
  | zero => exact ⟨hc, fun j hj => absurd hj (by omega), fun j hj => absurd hj (by omega)⟩
  | succ j ih =>
    obtain ⟨h1, h2, h3⟩ := ih (by omega)
    obtain ⟨zx, zu, zt, zh⟩ := hZ j (by omega)
    have he := M.expand j _ _ (s.Z.x j) (s.Z.u j) (s.Z.t j) (s.Z.h j) ((expandBlock P 0 s j).kd j)
      ((expandBlock P 0 s' j).kd j) (h1 j (by omega))
    have hk := M.cost j _ _ (s.Z.x j) (s.Z.u j) he.2
    simp only [expandBlock, Nat.zero_add, expandBlock_Z]
    rw [← zx, ← zu, ← zt, ← zh]
    refine ⟨fun k hk' => ?_, fun k hk' => ?_, fun k hk' => ?_⟩
    · by_cases e : k = j
      · subst e; rw [upd_self, upd_self]; exact hk.2
      · rw [upd_of_ne e, upd_of_ne e]; exact h1 k hk'
    · by_cases e : k = j
      · subst e; rw [upd_self, upd_self]; exact he.1
      · rw [upd_of_ne e, upd_of_ne e]; exact h2 k (by omega)
    · by_cases e : k = j
      · subst e; rw [upd_self, upd_self]; exact hk.1
      · rw [upd_of_ne e, upd_of_ne e]; exact h3 k (by omega)

/-! ## Backward pass -/

theorem bpSweep_sim (rho : F) (k : ℕ) (hk : k ≤ P.N) : ∀ (kd kd' : ℕ → D) (dV : F × F),
    (∀ j ≤ P.N, M.RE (kd j) (kd' j)) → M.RS (kd k) (kd' k) →
    (bpSweep P rho k kd dV).2 = (bpSweep P rho k kd' dV).2 ∧
    (bpSweep P rho k kd dV).1.2 = (bpSweep P rho k kd' dV).1.2 ∧
    (∀ j ≤ P.N, M.RE ((bpSweep P rho k kd dV).1.1 j) ((bpSweep P rho k kd' dV).1.1 j)) ∧
    (∀ j, k ≤ j → (bpSweep P rho k kd dV).1.1 j = kd j ∧ (bpSweep P rho k kd' dV).1.1 j = kd' j) ∧
    ((bpSweep P rho k kd dV).2 = true →
      ∀ j < k, M.RG ((bpSweep P rho k kd dV).1.1 j) ((bpSweep P rho k kd' dV).1.1 j)) := by
  induction k with
  | zero =>
    intro kd kd' dV h1 h2
    exact ⟨rfl, rfl, h1, fun j _ => ⟨rfl, rfl⟩, fun _ j hj => absurd hj (by omega)⟩
  | succ k ih =>
    intro kd kd' dV h1 h2
    have hg := M.gains rho _ _ _ _ (h1 k (by omega)) h2
    have ht := M.toGo rho _ _ _ _ (h1 k (by omega)) h2
    simp only [bpSweep]
    rw [← hg.1]
    by_cases hs : (P.gains (P.regularize rho (P.actionValue (kd k) (kd (k + 1))))).2 = true
    · rw [if_pos hs, if_pos hs]
      obtain ⟨t1, t2, t3, t4⟩ := ht hs _ _ rfl rfl
      rw [← t4]
      set a := P.costToGo (P.gains (P.regularize rho (P.actionValue (kd k) (kd (k + 1))))).1
      set a' := P.costToGo (P.gains (P.regularize rho (P.actionValue (kd' k) (kd' (k + 1))))).1
      have hre : ∀ j ≤ P.N, M.RE (upd kd k a j) (upd kd' k a' j) := by
        intro j hj
        by_cases e : j = k
        · subst e; rw [upd_self, upd_self]; exact t1
        · rw [upd_of_ne e, upd_of_ne e]; exact h1 j hj
      have hrs : M.RS (upd kd k a k) (upd kd' k a' k) := by rw [upd_self, upd_self]; exact t2
      obtain ⟨i1, i2, i3, i4, i5⟩ := ih (by omega) (upd kd k a) (upd kd' k a')
        (dV.1 + (P.delta a).1, dV.2 + (P.delta a).2) hre hrs
      refine ⟨i1, i2, i3, fun j hj => ?_, fun hsucc j hj => ?_⟩
      · obtain ⟨q1, q2⟩ := i4 j (by omega)
        rw [q1, q2, upd_of_ne (by omega), upd_of_ne (by omega)]
        exact ⟨rfl, rfl⟩
      · by_cases e : j = k
        · subst e
          obtain ⟨q1, q2⟩ := i4 j le_rfl
          rw [q1, q2, upd_self, upd_self]
          exact t3
        · exact i5 hsucc j (by omega)
    · rw [if_neg hs, if_neg hs]
      refine ⟨rfl, rfl, fun j hj => ?_, fun j hj => ?_, fun h => absurd h (by simp)⟩
      · dsimp only
        by_cases e : j = k
        · subst e; rw [upd_self, upd_self]; exact hg.2
        · rw [upd_of_ne e, upd_of_ne e]; exact h1 j hj
      · dsimp only
        rw [upd_of_ne (by omega), upd_of_ne (by omega)]
        exact ⟨rfl, rfl⟩

/-- Two runs inside the backward pass. -/
structure BSim (M : Alike P) (s s' : St X U F C D) : Prop where
  re : ∀ j ≤ P.N, M.RE (s.kd j) (s'.kd j)
  rs : M.RS (s.kd P.N) (s'.kd P.N)
  dV0 : s.dV0 = s'.dV0
  dV1 : s.dV1 = s'.dV1
  rho : s.rho = s'.rho
  drho : s.drho = s'.drho
  status : s.status = s'.status

theorem bpLoop_sim (fuel : ℕ) : ∀ (count : ℕ) (s s' s1 : St X U F C D), BSim M s s' →
    bpLoop P o fuel count s = some s1 →
    ∃ s1', bpLoop P o fuel count s' = some s1' ∧ BSim M s1 s1' ∧
      (s1.status ≠ .kBackwardPassRegularizationFailed → ∀ j < P.N, M.RG (s1.kd j) (s1'.kd j)) := by
  induction fuel with
  | zero => intro count s s' s1 _ h; simp [bpLoop] at h
  | succ fuel ih =>
    intro count s s' s1 hb h
    obtain ⟨w1, w2, w3, w4, w5⟩ := bpSweep_sim s.rho P.N le_rfl s.kd s'.kd (s.dV0, s.dV1) hb.re hb.rs
    have hN := w4 P.N le_rfl
    unfold bpLoop at h ⊢
    extract_lets r r1 r2 c' at h
    extract_lets q q1 q2 d'
    have er : q = bpSweep P s.rho P.N s'.kd (s.dV0, s.dV1) := by
      show bpSweep P s'.rho P.N s'.kd (s'.dV0, s'.dV1) = _
      rw [hb.rho, hb.dV0, hb.dV1]
    have b1 : BSim M r1 q1 := by
      refine ⟨?_, ?_, ?_, ?_, hb.rho, hb.drho, hb.status⟩
      · show ∀ j ≤ P.N, M.RE (r.1.1 j) (q.1.1 j)
        rw [er]; exact w3
      · show M.RS (r.1.1 P.N) (q.1.1 P.N)
        rw [er, show r.1.1 P.N = s.kd P.N from hN.1, hN.2]; exact hb.rs
      · show r.1.2.1 = q.1.2.1
        rw [er]; exact congrArg Prod.fst w2
      · show r.1.2.2 = q.1.2.2
        rw [er]; exact congrArg Prod.snd w2
    have e2 : r.2 = q.2 := by rw [er]; exact w1
    have b2 : BSim M r2 q2 := by
      refine ⟨b1.re, b1.rs, b1.dV0, b1.dV1, ?_, ?_, b1.status⟩
      · show (increaseReg o r1).rho = (increaseReg o q1).rho
        simp only [increaseReg, b1.rho, b1.drho]
      · show (increaseReg o r1).drho = (increaseReg o q1).drho
        simp only [increaseReg, b1.drho]
    have ec : c' = d' := by
      show (if Arith.ge r2.rho o.regMax then count + 1 else count) = if Arith.ge q2.rho o.regMax then count + 1 else count
      rw [b2.rho]
    rw [← e2, ← ec]
    by_cases hr : r.2 = true
    · rw [if_pos hr] at h ⊢
      by_cases h0 : P.N = 0
      · rw [if_pos h0] at h ⊢
        exact ih _ _ _ _ b1 h
      · rw [if_neg h0] at h ⊢
        injection h with h
        subst h
        refine ⟨q1, rfl, b1, fun _ j hj => ?_⟩
        show M.RG (r.1.1 j) (q.1.1 j)
        rw [er]
        exact w5 hr j hj
    · rw [if_neg hr] at h ⊢
      by_cases hc : (c' : ℤ) ≥ o.regFailThreshold
      · rw [if_pos hc] at h ⊢
        injection h with h
        subst h
        exact ⟨_, rfl, ⟨b2.re, b2.rs, b2.dV0, b2.dV1, b2.rho, b2.drho, rfl⟩, fun hn => absurd rfl hn⟩
      · rw [if_neg hc] at h ⊢
        exact ih _ _ _ _ b2 h

/-- Two runs between the backward and the forward pass, and during the line search. -/
structure LSim (M : Alike P) (s s' : St X U F C D) : Prop where
  Z : SameTraj P s.Z s'.Z
  bar : SameBar P s.Zbar s'.Zbar
  cs : ∀ k ≤ P.N, M.RC (s.cs k) (s'.cs k)
  rg : ∀ j < P.N, M.RG (s.kd j) (s'.kd j)
  status : s.status = s'.status
  rho : s.rho = s'.rho
  drho : s.drho = s'.drho
  dV0 : s.dV0 = s'.dV0
  dV1 : s.dV1 = s'.dV1

theorem sameStats_log {st st' : Stats F} (h : SameStats st st') (c : Option Col) (x x' : F) (hc : c ≠ some .cost) :
    SameStats (st.log c x) (st'.log c x') := by
  obtain ⟨c1, -, -, c4⟩ := log_counters st c x
  obtain ⟨d1, -, -, d4⟩ := log_counters st' c x'
  refine ⟨aligned_log _ _ _ h.al, aligned_log _ _ _ h.al', by rw [c1, d1]; exact h.inner,
    by rw [c4, d4]; exact h.initialCost, fun hi => ?_⟩
  rw [c1] at hi
  obtain ⟨a1, a2, a3, a4⟩ := h.hist hi
  have e : (st.log c x).col .cost = st.col .cost := by
    rw [(log_col st c x a1).2]
    by_cases hcc : c = some .cost
    · exact absurd hcc hc
    · simp [hcc, Ne.symm hcc]
  have e' : (st'.log c x').col .cost = st'.col .cost := by
    rw [(log_col st' c x' a2).2]
    by_cases hcc : c = some .cost
    · exact absurd hcc hc
    · simp [hcc, Ne.symm hcc]
  rw [e, e']
  exact ⟨log_len_ne _ _ _, log_len_ne _ _ _, a3, a4⟩

theorem backwardPass_sim {fuel : ℕ} {s s' s1 : St X U F C D} (hs : Sim M s s')
    (h : backwardPass P o fuel (updateExpansions P s) = some s1)
    (hf : s1.status ≠ .kBackwardPassRegularizationFailed) :
    ∃ s1', backwardPass P o fuel (updateExpansions P s') = some s1' ∧ LSim M s1 s1' ∧
      SameStats s1.stats s1'.stats ∧ s1.stats.len ≠ 0 ∧ s1'.stats.len ≠ 0 ∧ costSum P s1 = costSum P s1' := by
  obtain ⟨x1, x2, x3⟩ := expandBlock_sim hs.Z hs.cs (P.N + 1) le_rfl
  obtain ⟨t1, t2⟩ := M.term _ _ (x2 P.N (by omega))
  unfold backwardPass at h
  cases hb : bpLoop P o fuel 0 { updateExpansions P s with
      kd := upd (updateExpansions P s).kd P.N (P.term ((updateExpansions P s).kd P.N)), dV0 := 0, dV1 := 0 } with
  | none => rw [hb] at h; cases h
  | some b =>
    rw [hb] at h
    injection h with h
    subst h
    have b0 : BSim M
        { updateExpansions P s with
          kd := upd (updateExpansions P s).kd P.N (P.term ((updateExpansions P s).kd P.N)), dV0 := 0, dV1 := 0 }
        { updateExpansions P s' with
          kd := upd (updateExpansions P s').kd P.N (P.term ((updateExpansions P s').kd P.N)), dV0 := 0, dV1 := 0 } := by
      refine ⟨fun j hj => ?_, ?_, rfl, rfl, ?_, ?_, ?_⟩
      · show M.RE (upd _ P.N _ j) (upd _ P.N _ j)
        by_cases e : j = P.N
        · subst e; rw [upd_self, upd_self]; exact t1
        · rw [upd_of_ne e, upd_of_ne e]; exact x2 j (by omega)
      · show M.RS (upd _ P.N _ P.N) (upd _ P.N _ P.N)
        rw [upd_self, upd_self]; exact t2
      · simpa using hs.rho
      · simpa using hs.drho
      · simpa using hs.status
    obtain ⟨b', hb', bs, brg⟩ := bpLoop_sim o fuel 0 _ _ _ b0 hb
    have f1 := bpLoop_frame P o _ _ _ _ hb
    have f2 := bpLoop_frame P o _ _ _ _ hb'
    have eZ : b.Z = s.Z := f1.Z.trans (updateExpansions_Z P s)
    have eZ' : b'.Z = s'.Z := f2.Z.trans (updateExpansions_Z P s')
    have eB : b.Zbar = s.Zbar := f1.Zbar.trans (updateExpansions_Zbar P s)
    have eB' : b'.Zbar = s'.Zbar := f2.Zbar.trans (updateExpansions_Zbar P s')
    have ec : b.cs = (updateExpansions P s).cs := f1.cs
    have ec' : b'.cs = (updateExpansions P s').cs := f2.cs
    have es : b.stats = s.stats := f1.stats.trans (updateExpansions_stats P s)
    have es' : b'.stats = s'.stats := f2.stats.trans (updateExpansions_stats P s')
    refine ⟨decreaseReg o { b' with stats := b'.stats.log (some .reg) b'.rho }, ?_, ?_, ?_, ?_, ?_, ?_⟩
    · unfold backwardPass; rw [hb']
    · refine ⟨?_, ?_, ?_, brg hf, bs.status, ?_, ?_, bs.dV0, bs.dV1⟩
      · show SameTraj P b.Z b'.Z
        rw [eZ, eZ']; exact hs.Z
      · show SameBar P b.Zbar b'.Zbar
        rw [eB, eB']; exact hs.bar
      · show ∀ k ≤ P.N, M.RC (b.cs k) (b'.cs k)
        rw [ec, ec']; exact x1
      · simp only [decreaseReg, bs.rho, bs.drho]
      · simp only [decreaseReg, bs.drho]
    · show SameStats (b.stats.log (some .reg) b.rho) (b'.stats.log (some .reg) b'.rho)
      rw [es, es']
      exact sameStats_log hs.stats _ _ _ (by simp)
    · exact log_len_ne _ _ _
    · exact log_len_ne _ _ _
    · show costSum P b = costSum P b'
      have k1 : b.costs = (updateExpansions P s).costs := f1.costs
      have k2 : b'.costs = (updateExpansions P s').costs := f2.costs
      unfold costSum
      rw [k1, k2]
      exact sumTo_congr _ _ _ x3

/-! ## Forward pass -/

theorem closedLoopTo_sim (alpha : F) {s s' : St X U F C D} (hs : LSim M s s') (k : ℕ) (hk : k ≤ P.N) :
    (closedLoopTo P o alpha s k).2 = (closedLoopTo P o alpha s' k).2 ∧
    ((closedLoopTo P o alpha s k).2 = none →
      (∀ j ≤ k, (closedLoopTo P o alpha s k).1.x j = (closedLoopTo P o alpha s' k).1.x j) ∧
      (∀ j < k, (closedLoopTo P o alpha s k).1.u j = (closedLoopTo P o alpha s' k).1.u j)) := by
  induction k with
  | zero =>
    refine ⟨rfl, fun _ => ⟨fun j hj => ?_, fun j hj => absurd hj (by omega)⟩⟩
    have : j = 0 := by omega
    subst this
    simp [closedLoopTo]
  | succ k ih =>
    obtain ⟨i1, i2⟩ := ih (by omega)
    obtain ⟨u1, u2, -, -⟩ := closedLoopTo_untouched P o alpha s k
    obtain ⟨v1, v2, -, -⟩ := closedLoopTo_untouched P o alpha s' k
    unfold closedLoopTo
    rcases hc : closedLoopTo P o alpha s k with ⟨Zb, q⟩
    rcases hc' : closedLoopTo P o alpha s' k with ⟨Zb', q'⟩
    rw [hc] at i1 i2 u1 u2
    rw [hc'] at i1 i2 v1 v2
    simp only at i1 i2 u1 u2 v1 v2
    subst i1
    cases q with
    | some st => exact ⟨rfl, fun h => absurd h (by simp)⟩
    | none =>
      obtain ⟨j1, j2⟩ := i2 rfl
      obtain ⟨zx, zu, -, -⟩ := hs.Z k (by omega)
      have hx := j1 k le_rfl
      have hu : P.policy (s.kd k) (Zb.x k) (s.Z.x k) (s.Z.u k) alpha
          = P.policy (s'.kd k) (Zb'.x k) (s'.Z.x k) (s'.Z.u k) alpha := by
        rw [M.policy _ _ _ _ _ _ (hs.rg k (by omega)), hx, zx, zu]
      have ht : Zb.t k = Zb'.t k := by rw [u1, v1]; exact hs.bar.t k (by omega)
      have hh : Zb.h k = Zb'.h k := by rw [u2, v2]; exact hs.bar.h k (by omega)
      simp only
      rw [hu, hx, ht, hh]
      refine ⟨rfl, fun _ => ⟨fun j hj => ?_, fun j hj => ?_⟩⟩
      · by_cases e : j = k + 1
        · subst e; rw [upd_self, upd_self]
        · rw [upd_of_ne e, upd_of_ne e]; exact j1 j (by omega)
      · by_cases e : j = k
        · subst e; rw [upd_self, upd_self]
        · rw [upd_of_ne e, upd_of_ne e]; exact j2 j (by omega)

theorem rcl_sim (alpha : F) {s s' : St X U F C D} (hs : LSim M s s') :
    (rolloutClosedLoop P o alpha s).2 = (rolloutClosedLoop P o alpha s').2 ∧
    LSim M (rolloutClosedLoop P o alpha s).1 (rolloutClosedLoop P o alpha s').1 ∧
    ((rolloutClosedLoop P o alpha s).2 = true →
      SameTraj P (rolloutClosedLoop P o alpha s).1.Zbar (rolloutClosedLoop P o alpha s').1.Zbar) := by
  obtain ⟨c1, c2⟩ := closedLoopTo_sim o alpha hs P.N le_rfl
  obtain ⟨u1, u2, u3, -⟩ := closedLoopTo_untouched P o alpha s P.N
  obtain ⟨v1, v2, v3, -⟩ := closedLoopTo_untouched P o alpha s' P.N
  have hbar : SameBar P (closedLoopTo P o alpha s P.N).1 (closedLoopTo P o alpha s' P.N).1 := by
    refine ⟨fun k hk => ?_, fun k hk => ?_, ?_⟩
    · rw [u1, v1]; exact hs.bar.t k hk
    · rw [u2, v2]; exact hs.bar.h k hk
    · rw [u3 _ le_rfl, v3 _ le_rfl]; exact hs.bar.u
  unfold rolloutClosedLoop
  rcases hc : closedLoopTo P o alpha s P.N with ⟨Zb, q⟩
  rcases hc' : closedLoopTo P o alpha s' P.N with ⟨Zb', q'⟩
  rw [hc, hc'] at c1 c2 hbar
  simp only at c1 c2 hbar
  subst c1
  cases q with
  | some st =>
    exact ⟨rfl, ⟨hs.Z, hbar, hs.cs, hs.rg, rfl, hs.rho, hs.drho, hs.dV0, hs.dV1⟩, fun h => absurd h (by simp)⟩
  | none =>
    refine ⟨rfl, ⟨hs.Z, hbar, hs.cs, hs.rg, rfl, hs.rho, hs.drho, hs.dV0, hs.dV1⟩, fun _ k hk => ?_⟩
    obtain ⟨j1, j2⟩ := c2 rfl
    refine ⟨j1 k hk, ?_, hbar.t k hk, hbar.h k hk⟩
    by_cases e : k = P.N
    · subst e; exact hbar.u
    · exact j2 k (by omega)

/-- What the line search does to the statistics of two runs. -/
structure LStats (st st' r r' : Stats F) (ok : Bool) : Prop where
  al : Aligned r
  al' : Aligned r'
  len : r.len ≠ 0
  len' : r'.len ≠ 0
  inner : r.inner = st.inner
  inner' : r'.inner = st'.inner
  initialCost : r.initialCost = st.initialCost
  initialCost' : r'.initialCost = st'.initialCost
  fail : ok = false → r = st ∧ r' = st'
  succ : ok = true → Stats.back (r.col .cost) = Stats.back (r'.col .cost) ∧
    Stats.back2 (r.col .cost) = Stats.back2 (st.col .cost) ∧ Stats.back2 (r'.col .cost) = Stats.back2 (st'.col .cost)

theorem logs_cost (st : Stats F) (hl : st.len ≠ 0) (J a z : F) :
    (((st.log (some .cost) J).log (some .alpha) a).log (some .z) z).col .cost = Stats.setBack (st.col .cost) J := by
  rw [(log_col _ _ _ (log_len_ne _ _ _)).2, (log_col _ _ _ (log_len_ne _ _ _)).2, (log_col _ _ _ hl).2]
  simp

theorem lineSearch_sim (J0 : F) (r : ℕ) : ∀ (alpha J : F) (s s' : St X U F C D), LSim M s s' →
    Aligned s.stats → Aligned s'.stats → s.stats.len ≠ 0 → s'.stats.len ≠ 0 →
    ∀ q q', q = lineSearch P o J0 r alpha J s → q' = lineSearch P o J0 r alpha J s' →
    q.2 = q'.2 ∧ q.1.2 = q'.1.2 ∧ LSim M q.1.1 q'.1.1 ∧ (q.2 = true → SameTraj P q.1.1.Zbar q'.1.1.Zbar) ∧
    LStats s.stats s'.stats q.1.1.stats q'.1.1.stats q.2 := by
  induction r with
  | zero =>
    intro alpha J s s' hs a a' l l' q q' hq hq'
    subst hq hq'
    exact ⟨rfl, rfl, hs, fun h => absurd h (by simp [lineSearch]),
      ⟨a, a', l, l', rfl, rfl, rfl, rfl, fun _ => ⟨rfl, rfl⟩, fun h => absurd h (by simp [lineSearch])⟩⟩
  | succ r ih =>
    intro alpha J s s' hs a a' l l' q q' hq hq'
    obtain ⟨c1, c2, c3⟩ := rcl_sim o alpha hs
    unfold lineSearch at hq hq'
    extract_lets p c z at hq
    extract_lets p' c' z' at hq'
    have ep : p.2 = p'.2 := c1
    have esp : p.1.stats = s.stats := rcl_stats ..
    have esp' : p'.1.stats = s'.stats := rcl_stats ..
    rw [← ep] at hq'
    by_cases hp : p.2 = true
    · rw [if_pos hp] at hq hq'
      obtain ⟨k1, k2⟩ := cost_sim (c3 hp) c2.cs
      have kc : LSim M c.2 c'.2 := by
        refine ⟨?_, ?_, k2, ?_, ?_, ?_, ?_, ?_, ?_⟩
        · show SameTraj P (cost P p.1.Zbar p.1).2.Z (cost P p'.1.Zbar p'.1).2.Z
          rw [cost_Z, cost_Z]; exact c2.Z
        · show SameBar P (cost P p.1.Zbar p.1).2.Zbar (cost P p'.1.Zbar p'.1).2.Zbar
          rw [cost_Zbar, cost_Zbar]; exact c2.bar
        · show ∀ j < P.N, M.RG ((cost P p.1.Zbar p.1).2.kd j) ((cost P p'.1.Zbar p'.1).2.kd j)
          rw [cost_kd, cost_kd]; exact c2.rg
        · exact ((cost_status P _ _).trans c2.status).trans (cost_status P _ _).symm
        · exact ((cost_rho P _ _).trans c2.rho).trans (cost_rho P _ _).symm
        · exact ((cost_drho P _ _).trans c2.drho).trans (cost_drho P _ _).symm
        · exact ((cost_dV0 P _ _).trans c2.dV0).trans (cost_dV0 P _ _).symm
        · exact ((cost_dV1 P _ _).trans c2.dV1).trans (cost_dV1 P _ _).symm
      have ec : c.1 = c'.1 := k1
      have ez : z = z' := by
        show ratio J0 c.1 alpha c.2 = ratio J0 c'.1 alpha c'.2
        unfold ratio expected
        rw [ec, kc.dV0, kc.dV1]
      have es : c.2.stats = s.stats := (cost_stats P _ _).trans esp
      have es' : c'.2.stats = s'.stats := (cost_stats P _ _).trans esp'
      have hbar : SameTraj P c.2.Zbar c'.2.Zbar := by
        show SameTraj P (cost P p.1.Zbar p.1).2.Zbar (cost P p'.1.Zbar p'.1).2.Zbar
        rw [cost_Zbar, cost_Zbar]; exact c3 hp
      rw [← ec, ← ez] at hq'
      by_cases ha : accept o J0 c.1 z = true
      · rw [if_pos ha] at hq hq'
        subst hq hq'
        refine ⟨rfl, rfl, ⟨kc.Z, kc.bar, kc.cs, kc.rg, kc.status, kc.rho, kc.drho, kc.dV0, kc.dV1⟩,
          fun _ => hbar, ?_⟩
        have hcol := logs_cost s.stats l c.1 alpha z
        have hcol' := logs_cost s'.stats l' c.1 alpha z
        refine ⟨?_, ?_, log_len_ne _ _ _, log_len_ne _ _ _, ?_, ?_, ?_, ?_, fun h => absurd h (by simp), fun _ => ?_⟩
        · dsimp only
          rw [es]; exact aligned_log _ _ _ (aligned_log _ _ _ (aligned_log _ _ _ a))
        · dsimp only
          rw [es']; exact aligned_log _ _ _ (aligned_log _ _ _ (aligned_log _ _ _ a'))
        · dsimp only
          rw [(log_counters _ _ _).1, (log_counters _ _ _).1, (log_counters _ _ _).1, es]
        · dsimp only
          rw [(log_counters _ _ _).1, (log_counters _ _ _).1, (log_counters _ _ _).1, es']
        · dsimp only
          rw [(log_counters _ _ _).2.2.2, (log_counters _ _ _).2.2.2, (log_counters _ _ _).2.2.2, es]
        · dsimp only
          rw [(log_counters _ _ _).2.2.2, (log_counters _ _ _).2.2.2, (log_counters _ _ _).2.2.2, es']
        · simp only [es, es']
          rw [hcol, hcol', back_setBack, back_setBack, back2_setBack, back2_setBack]
          exact ⟨rfl, rfl, rfl⟩
      · rw [if_neg ha] at hq hq'
        have := ih _ _ _ _ kc (by rw [es]; exact a) (by rw [es']; exact a') (by rw [es]; exact l)
          (by rw [es']; exact l') q q' hq hq'
        rw [es, es'] at this
        exact this
    · rw [if_neg hp] at hq hq'
      have := ih _ _ _ _ c2 (by rw [rcl_stats]; exact a) (by rw [rcl_stats]; exact a') (by rw [rcl_stats]; exact l)
        (by rw [rcl_stats]; exact l') q q' hq hq'
      rw [rcl_stats, rcl_stats] at this
      exact this

/-- The forward pass and the convergence record of two runs. -/
theorem finish_sim {s s' : St X U F C D} (hs : LSim M s s') (hst : SameStats s.stats s'.stats) (hl : s.stats.len ≠ 0)
    (hl' : s'.stats.len ≠ 0) (hJ : costSum P s = costSum P s')
    (hmove : s.stats.inner = 0 → (forwardPass P o s).Z ≠ s.Z) :
    Sim M (updateConvergence P (forwardPass P o s)) (updateConvergence P (forwardPass P o s')) ∧
    Stats.back ((updateConvergence P (forwardPass P o s)).stats.col .dJ)
      = Stats.back ((updateConvergence P (forwardPass P o s')).stats.col .dJ) ∧
    Stats.back ((updateConvergence P (forwardPass P o s)).stats.col .grad)
      = Stats.back ((updateConvergence P (forwardPass P o s')).stats.col .grad) := by
  obtain ⟨l1, l2, l3, l4, l5⟩ := lineSearch_sim o (costSum P s) o.lsMax.toNat 1 (costSum P s) s s' hs hst.al hst.al' hl hl'
    _ _ rfl rfl
  -- the state after the forward pass
  have key : ∃ f f' : St X U F C D, f = forwardPass P o s ∧ f' = forwardPass P o s' ∧ LSim M f f' ∧
      LStats s.stats s'.stats f.stats f'.stats
        (lineSearch P o (costSum P s) o.lsMax.toNat 1 (costSum P s) s).2 ∧
      ((lineSearch P o (costSum P s) o.lsMax.toNat 1 (costSum P s) s).2 = false → f.Z = s.Z) := by
    refine ⟨_, _, rfl, rfl, ?_⟩
    unfold forwardPass
    extract_lets J0 q src s1 J J0' q' src' s1' J'
    have eJ0 : J0' = J0 := hJ.symm
    have eq' : q' = lineSearch P o (costSum P s) o.lsMax.toNat 1 (costSum P s) s' := by
      show lineSearch P o J0' _ 1 J0' s' = _
      rw [eJ0]
    rw [← eq'] at l1 l2 l3 l4 l5
    have hLS : LSFrame P s q.1.1 := lineSearch_LSFrame P o _ _ _ _ _
    by_cases hq : q.2 = true
    · have hq2 : q'.2 = true := l1 ▸ hq
      have e1 : s1 = { q.1.1 with Z := q.1.1.Zbar } := if_pos hq
      have e1' : s1' = { q'.1.1 with Z := q'.1.1.Zbar } := if_pos hq2
      have eJ : J = J' := by
        show (if q.2 then q.1.2 else J0) = if q'.2 then q'.1.2 else J0'
        rw [if_pos hq, if_pos hq2]; exact l2
      have b : LSim M s1 s1' := by
        rw [e1, e1']
        exact ⟨l4 hq, l3.bar, l3.cs, l3.rg, l3.status, l3.rho, l3.drho, l3.dV0, l3.dV1⟩
      rw [eJ, eJ0]
      refine ⟨?_, ?_, fun h => absurd (hq.symm.trans h) (by simp)⟩
      · split
        · exact ⟨b.Z, b.bar, b.cs, b.rg, rfl, b.rho, b.drho, b.dV0, b.dV1⟩
        · exact b
      · rw [e1, e1']
        split <;> exact l5
    · have hq0 : q.2 = false := by simpa using hq
      have hq2 : q'.2 = false := l1 ▸ hq0
      have e1 : s1 = increaseReg o q.1.1 := if_neg hq
      have e1' : s1' = increaseReg o q'.1.1 := if_neg (by rw [hq2]; simp)
      have eJ : J = J' := by
        show (if q.2 then q.1.2 else J0) = if q'.2 then q'.1.2 else J0'
        rw [hq0, hq2, eJ0]
        simp
      have b : LSim M s1 s1' := by
        rw [e1, e1']
        have hr : q.1.1.rho = q'.1.1.rho := l3.rho
        have hd : q.1.1.drho = q'.1.1.drho := l3.drho
        refine ⟨l3.Z, l3.bar, l3.cs, l3.rg, l3.status, ?_, ?_, l3.dV0, l3.dV1⟩
        · simp only [increaseReg, hr, hd]
        · simp only [increaseReg, hd]
      rw [eJ, eJ0]
      refine ⟨?_, ?_, fun _ => ?_⟩
      · split
        · exact ⟨b.Z, b.bar, b.cs, b.rg, rfl, b.rho, b.drho, b.dV0, b.dV1⟩
        · exact b
      · rw [e1, e1']
        split <;> exact l5
      · rw [e1]
        split <;> exact hLS.Z
  obtain ⟨f, f', ef, ef', hf, hS, hfail⟩ := key
  rw [← ef, ← ef']
  rw [← ef] at hmove
  -- recorded costs
  have hb : Stats.back (f.stats.col .cost) = Stats.back (f'.stats.col .cost) := by
    by_cases h : (lineSearch P o (costSum P s) o.lsMax.toNat 1 (costSum P s) s).2 = true
    · exact (hS.succ h).1
    · have h0 : (lineSearch P o (costSum P s) o.lsMax.toNat 1 (costSum P s) s).2 = false := by simpa using h
      obtain ⟨g1, g2⟩ := hS.fail h0
      by_cases hi : s.stats.inner = 0
      · exact absurd (hfail h0) (hmove hi)
      · rw [g1, g2]; exact (hst.hist hi).2.2.1
  have hd : recordedDJ f = recordedDJ f' := by
    unfold recordedDJ
    have e1 : f.stats.inner = f'.stats.inner := by rw [hS.inner, hS.inner', hst.inner]
    have e2 : f.stats.initialCost = f'.stats.initialCost := by rw [hS.initialCost, hS.initialCost', hst.initialCost]
    rw [e1, e2, hb]
    by_cases hi : f'.stats.inner = 0
    · rw [if_pos hi, if_pos hi]
    · rw [if_neg hi, if_neg hi]
      have hi' : s.stats.inner ≠ 0 := by rw [← hS.inner, e1]; exact hi
      congr 1
      by_cases h : (lineSearch P o (costSum P s) o.lsMax.toNat 1 (costSum P s) s).2 = true
      · rw [(hS.succ h).2.1, (hS.succ h).2.2]; exact (hst.hist hi').2.2.2
      · have h0 : (lineSearch P o (costSum P s) o.lsMax.toNat 1 (costSum P s) s).2 = false := by simpa using h
        obtain ⟨g1, g2⟩ := hS.fail h0
        rw [g1, g2]; exact (hst.hist hi').2.2.2
  have hn : normalizedGain P f = normalizedGain P f' := by
    unfold normalizedGain
    congr 1
    refine sumTo_congr _ _ _ fun k hk => ?_
    rw [M.grad _ _ _ (hf.rg k hk), (hf.Z k (by omega)).2.1]
  obtain ⟨u1, u2, u3, u4, -, u5, u6⟩ := updateConvergence_cols (P := P) f hS.al hS.len
  obtain ⟨w1, w2, w3, w4, -, w5, w6⟩ := updateConvergence_cols (P := P) f' hS.al' hS.len'
  obtain ⟨c1, -, -, c4⟩ := updateConvergence_counters P f
  obtain ⟨d1, -, -, d4⟩ := updateConvergence_counters P f'
  refine ⟨⟨hf.Z, hf.bar, hf.cs, hf.status, hf.rho, hf.drho, ⟨u5, w5, ?_, ?_, fun _ => ⟨?_, ?_, ?_, ?_⟩⟩⟩, ?_, ?_⟩
  · rw [c1, d1, hS.inner, hS.inner', hst.inner]
  · rw [c4, d4, hS.initialCost, hS.initialCost', hst.initialCost]
  · rw [u6]; omega
  · rw [w6]; omega
  · rw [u1, w1, hb]
  · rw [u2, w2, hb]
  · rw [u3, w3, hd]
  · rw [u4, w4, hn]

/-- One iteration of two runs. -/
theorem iterate_sim {fuel : ℕ} {s s' s1 : St X U F C D} (hs : Sim M s s') (h : iterate P o fuel s = some s1)
    (hf : ∀ b, backwardPass P o fuel (updateExpansions P s) = some b → b.status ≠ .kBackwardPassRegularizationFailed)
    (hmove : s.stats.inner = 0 → s1.Z ≠ s.Z) :
    ∃ s1', iterate P o fuel s' = some s1' ∧ Sim M s1 s1' ∧
      Stats.back (s1.stats.col .dJ) = Stats.back (s1'.stats.col .dJ) ∧
      Stats.back (s1.stats.col .grad) = Stats.back (s1'.stats.col .grad) := by
  obtain ⟨b, hb, rfl⟩ := iterate_some P o h
  obtain ⟨b', hb', g1, g2, g3, g4, g5⟩ := backwardPass_sim o hs hb (hf b hb)
  have fr := backwardPass_frame P o _ _ _ hb
  have eZ : b.Z = s.Z := fr.Z.trans (updateExpansions_Z P s)
  have ei : b.stats.inner = s.stats.inner := by
    obtain ⟨r, hr⟩ := fr.stats
    rw [hr, (log_counters _ _ _).1, updateExpansions_stats]
  refine ⟨updateConvergence P (forwardPass P o b'), by unfold iterate; rw [hb'], ?_⟩
  refine finish_sim o g1 g2 g3 g4 g5 fun hi => ?_
  rw [eZ]
  exact hmove (ei ▸ hi)

end Altro.ILQR
