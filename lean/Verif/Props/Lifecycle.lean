import Verif.Model.Lifecycle
import Verif.Props.BuildAugLag

/-!
# C72: setting up an iLQR solver
-/

namespace Altro.Props
open Prob hiding new
open Spec Lifecycle
variable {C M E X U K : Type}

section reads
variable {α : Type}

theorem vread_nat_some {l : List α} {k : ℕ} {a : α} (h : l[k]? = some a) : vread l (k : ℤ) = .ok a := by
  simp [vread, h]

theorem vread_nat_none {l : List α} {k : ℕ} (h : l[k]? = none) : vread l (k : ℤ) = .error .undefined := by
  simp only [vread, Int.natCast_nonneg, if_true, Int.toNat_natCast, h]

theorem vwrite_nat {l : List α} {k : ℕ} (h : k < l.length) (a : α) : vwrite l (k : ℤ) a = .ok (l.set k a) := by
  unfold vwrite
  simp [h]

end reads

/-- Entry `k` of the second trajectory after the times and steps of the first `r` knot points were copied. -/
def timedAt (Z Zb : List (KnotPt X U K)) (r k : ℕ) : Option (KnotPt X U K) :=
  if k < r then Zb[k]?.bind fun b => Z[k]?.map fun z => { b with h := z.h, t := z.t } else Zb[k]?

theorem copySteps_ok (Z Zb : List (KnotPt X U K)) (r : ℕ) (h1 : r ≤ Z.length) (h2 : r ≤ Zb.length) :
    ∃ Zb', copySteps Z r Zb = .ok Zb' ∧ Zb'.length = Zb.length ∧ ∀ k, Zb'[k]? = timedAt Z Zb r k := by
  induction r with
  | zero => exact ⟨Zb, rfl, rfl, fun k => by simp [timedAt]⟩
  | succ r ih =>
    obtain ⟨Zb', e1, e2, e3⟩ := ih (by omega) (by omega)
    have z1 : Z[r]? = some Z[r] := List.getElem?_eq_getElem (by omega)
    have b1 : Zb'[r]? = some Zb[r] := by
      rw [e3, timedAt, if_neg (by omega)]; exact List.getElem?_eq_getElem (by omega)
    have b2 : Zb[r]? = some Zb[r] := List.getElem?_eq_getElem (by omega)
    refine ⟨Zb'.set r { Zb[r] with h := Z[r].h, t := Z[r].t }, ?_, by simp [e2], fun k => ?_⟩
    · rw [copySteps, e1]
      simp only [bind, Except.bind]
      rw [vread_nat_some z1]
      dsimp only
      rw [vread_nat_some b1]
      dsimp only
      rw [vwrite_nat (by omega)]
    · rw [List.getElem?_set]
      by_cases hk : r = k
      · subst hk
        rw [if_pos rfl, if_pos (by omega), timedAt, if_pos (by omega), b2, z1]
        rfl
      · rw [if_neg hk, e3]
        unfold timedAt
        by_cases hk2 : k < r
        · rw [if_pos hk2, if_pos (by omega)]
        · rw [if_neg hk2, if_neg (by omega)]

theorem copySteps_error (Z Zb : List (KnotPt X U K)) (r : ℕ) (h1 : r ≤ Z.length) (h2 : Zb.length < r) :
    copySteps Z r Zb = .error .undefined := by
  induction r with
  | zero => omega
  | succ r ih =>
    rw [copySteps]
    by_cases h : Zb.length < r
    · rw [ih (by omega) h]; rfl
    · obtain ⟨Zb', e1, e2, e3⟩ := copySteps_ok Z Zb r (by omega) (by omega)
      rw [e1]
      simp only [bind, Except.bind]
      rw [vread_nat_some (List.getElem?_eq_getElem (show r < Z.length by omega))]
      dsimp only
      rw [vread_nat_none (by rw [List.getElem?_eq_none_iff]; omega)]

theorem readKnots_ok (kps : List (M × Option C)) (r : ℕ) (h1 : r ≤ kps.length)
    (h2 : ∀ k a, k < r → kps[k]? = some a → a.2.isSome) : readKnots kps r = .ok (kps.take r) := by
  induction r with
  | zero => rfl
  | succ r ih =>
    have hr : kps[r]? = some kps[r] := List.getElem?_eq_getElem (by omega)
    obtain ⟨c, hc⟩ := Option.isSome_iff_exists.mp (h2 r _ (by omega) hr)
    rw [readKnots, ih (by omega) fun k a hk => h2 k a (by omega)]
    simp only [bind, Except.bind]
    rw [vread_nat_some hr]
    dsimp only
    rw [hc]
    rw [List.take_add_one, hr]
    rfl

theorem readKnots_error (kps : List (M × Option C)) (r : ℕ)
    (h : kps.length < r ∨ ∃ k a, k < r ∧ kps[k]? = some a ∧ a.2 = none) :
    readKnots kps r = .error .undefined := by
  induction r with
  | zero => rcases h with h | ⟨k, a, h, -⟩ <;> omega
  | succ r ih =>
    rw [readKnots]
    by_cases h' : kps.length < r ∨ ∃ k a, k < r ∧ kps[k]? = some a ∧ a.2 = none
    · rw [ih h']; rfl
    · have h1 : ¬ kps.length < r := fun x => h' (Or.inl x)
      rw [readKnots_ok kps r (by omega) fun k a hk ha => by
        cases hc : a.2 with
        | none => exact absurd (Or.inr ⟨k, a, hk, ha, hc⟩) h'
        | some c => rfl]
      simp only [bind, Except.bind]
      rcases h with h | ⟨k, a, hk, ha, hc⟩
      · rw [vread_nat_none (by rw [List.getElem?_eq_none_iff]; omega)]
      · have : k = r := by
          by_contra hne
          exact h' (Or.inr ⟨k, a, by omega, ha, hc⟩)
        subst this
        rw [vread_nat_some ha]
        dsimp only
        rw [hc]

/-- What `Solve` asserts. -/
def ChecksPass (s : Solver C M X U K) (T : TrajHeap X U K) (N : ℕ) : Prop :=
  s.isSet = true ∧ ∃ a, s.Z = some a ∧ (T a).length = N + 1

/-- What `Solve` needs beyond its assertions. -/
def Complete (s : Solver C M X U K) (N : ℕ) : Prop :=
  (∃ Zb, s.Zbar = some Zb ∧ N + 1 ≤ Zb.length) ∧ s.x0.isSome ∧ N + 1 ≤ s.kps.length ∧
    ∀ k a, k ≤ N → s.kps[k]? = some a → a.2.isSome

theorem prepare_fail (s : Solver C M X U K) (T : TrajHeap X U K) (N : ℕ) (hN : s.N = N) (h : ¬ ChecksPass s T N) :
    prepare s T = .error .assertion := by
  unfold prepare
  by_cases h1 : s.isSet = true
  · cases h2 : s.Z with
    | none => simp [h1, assertThat, bind, Except.bind]
    | some a =>
      have h3 : decide (((T a).length : ℤ) - 1 = s.N) = false := by
        rw [decide_eq_false_iff_not, hN]
        intro h4
        exact h ⟨h1, a, h2, by omega⟩
      simp [h1, assertThat, bind, Except.bind, h3]
  · have : s.isSet = false := by simpa using h1
    simp [this, assertThat, bind, Except.bind]

theorem prepare_ok (s : Solver C M X U K) (T : TrajHeap X U K) (N : ℕ) (hN : s.N = N) {a : ℕ} (h1 : s.isSet = true)
    (h2 : s.Z = some a) (h3 : (T a).length = N + 1) {Zb : List (KnotPt X U K)} (h4 : s.Zbar = some Zb)
    (h5 : N + 1 ≤ Zb.length) {x : ℕ} (h6 : s.x0 = some x) (h7 : N + 1 ≤ s.kps.length)
    (h8 : ∀ k a, k ≤ N → s.kps[k]? = some a → a.2.isSome) :
    ∃ Zb', prepare s T = .ok ⟨s.kps.take (N + 1), x, T a, Zb'⟩ ∧ Zb'.length = Zb.length ∧
      ∀ k b z, k ≤ N → Zb[k]? = some b → (T a)[k]? = some z →
        Zb'[k]? = some ⟨b.x, b.u, z.t, if k < N then z.h else b.h⟩ := by
  obtain ⟨Zb', e1, e2, e3⟩ := copySteps_ok (T a) Zb N (by omega) (by omega)
  have z1 : (T a)[N]? = some (T a)[N] := List.getElem?_eq_getElem (by omega)
  have b1 : Zb'[N]? = some Zb[N] := by
    rw [e3, timedAt, if_neg (by omega)]; exact List.getElem?_eq_getElem (by omega)
  refine ⟨Zb'.set N { Zb[N] with t := (T a)[N].t }, ?_, by simp [e2], fun k b z hk hb hz => ?_⟩
  · unfold prepare
    have c3 : decide (((T a).length : ℤ) - 1 = s.N) = true := by rw [decide_eq_true_iff, hN]; omega
    have e4 : s.N.toNat = N := by omega
    have e5 : (s.N + 1).toNat = N + 1 := by omega
    simp only [h1, h2, h4, h6, assertThat, bind, Except.bind, if_true, c3, e4, e5, e1]
    rw [hN, vread_nat_some z1]
    dsimp only
    rw [vread_nat_some b1]
    dsimp only
    rw [vwrite_nat (by omega)]
    dsimp only
    rw [readKnots_ok _ _ h7 fun k a hk => h8 k a (by omega)]
    rfl
  · rw [List.getElem?_set]
    by_cases hkN : N = k
    · subst hkN
      have hb' : b = Zb[N] := by rw [List.getElem?_eq_getElem (by omega)] at hb; exact (Option.some.inj hb).symm
      have hz' : z = (T a)[N] := by rw [z1] at hz; exact (Option.some.inj hz).symm
      rw [if_pos rfl, if_pos (by omega), hb', hz', if_neg (lt_irrefl N)]
    · rw [if_neg hkN, e3, timedAt, if_pos (by omega), hb, hz, if_pos (by omega)]
      rfl

theorem prepare_undefined (s : Solver C M X U K) (T : TrajHeap X U K) (N : ℕ) (hN : s.N = N) (hc : ChecksPass s T N)
    (h : ¬ Complete s N) : prepare s T = .error .undefined := by
  obtain ⟨h1, a, h2, h3⟩ := hc
  unfold prepare
  have c3 : decide (((T a).length : ℤ) - 1 = s.N) = true := by rw [decide_eq_true_iff, hN]; omega
  have e4 : s.N.toNat = N := by omega
  have e5 : (s.N + 1).toNat = N + 1 := by omega
  cases h4 : s.Zbar with
  | none => simp [h1, h2, assertThat, bind, Except.bind, c3]
  | some Zb =>
    simp only [h1, h2, assertThat, bind, Except.bind, if_true, c3, e4, e5]
    by_cases h5 : Zb.length < N
    · rw [copySteps_error _ _ _ (by omega) h5]
    · obtain ⟨Zb', e1, e2, e3⟩ := copySteps_ok (T a) Zb N (by omega) (by omega)
      rw [e1]
      dsimp only
      rw [hN, vread_nat_some (List.getElem?_eq_getElem (show N < (T a).length by omega))]
      dsimp only
      by_cases h6 : Zb.length = N
      · rw [vread_nat_none (by rw [List.getElem?_eq_none_iff]; omega)]
      · rw [vread_nat_some (List.getElem?_eq_getElem (show N < Zb'.length by omega))]
        dsimp only
        rw [vwrite_nat (by omega)]
        dsimp only
        cases h7 : s.x0 with
        | none => rfl
        | some x =>
          dsimp only
          rw [readKnots_error]
          by_contra h8
          refine h ⟨⟨Zb, h4, by omega⟩, by rw [h7]; rfl, ?_, fun k a hk ha => ?_⟩
          · by_contra h9
            exact h8 (Or.inl (by omega))
          · cases hc : a.2 with
            | none => exact absurd (Or.inr ⟨k, a, by omega, ha, hc⟩) h8
            | some c => rfl

/-- C72, exactly when `Solve` starts: it stops with an assertion exactly when no problem was given, no trajectory was
given, or the trajectory has the wrong number of knot points; it starts iterating exactly when in addition the second
trajectory exists and is long enough, and there are knot point functions for every knot point; in every other case it
reads out of range or through a null pointer. -/
theorem C72_start (s : Solver C M X U K) (T : TrajHeap X U K) (N : ℕ) (hN : s.N = N) :
    (prepare s T = .error .assertion ↔ ¬ ChecksPass s T N) ∧
    ((∃ i, prepare s T = .ok i) ↔ ChecksPass s T N ∧ Complete s N) ∧
    (prepare s T = .error .undefined ↔ ChecksPass s T N ∧ ¬ Complete s N) := by
  by_cases hc : ChecksPass s T N
  · by_cases hd : Complete s N
    · obtain ⟨h1, a, h2, h3⟩ := id hc
      obtain ⟨⟨Zb, h4, h5⟩, h6, h7, h8⟩ := id hd
      obtain ⟨x, h6⟩ := Option.isSome_iff_exists.mp h6
      obtain ⟨Zb', h, -⟩ := prepare_ok s T N hN h1 h2 h3 h4 h5 h6 h7 h8
      rw [h]
      simp [hc, hd]
    · rw [prepare_undefined s T N hN hc hd]
      simp [hc, hd]
  · rw [prepare_fail s T N hN hc]
    simp [hc]

section forgotten
variable [Field K] [LinearOrder K] [Zero X] [Zero U]

/-- The states a solver made with `iLQR(N)` gets into when no problem is copied into it; the trajectories may change at any time. -/
inductive NoProblem (R : Rounding K) (N : ℤ) : Solver C M X U K → Prop
  | new : NoProblem R N (new N)
  | make {s} (T : TrajHeap X U K) (a : ℕ) (dt : K) : NoProblem R N s → NoProblem R N (makeTrajectory R s T a dt).1
  | set {s s'} (T : TrajHeap X U K) (a : ℕ) : NoProblem R N s → setTrajectory s T (some a) = .ok s' → NoProblem R N s'

/-- The states it gets into when it never is given a trajectory. -/
inductive NoTrajectory (I : ProbIface M E) (N : ℤ) : Solver C M X U K → Prop
  | new : NoTrajectory I N (new N)
  | copy {s s'} (n m : Option ℕ) (h : Heap K) (p : Prob C M E) (a b : ℕ) : NoTrajectory I N s → copyFrom I n m h s p a b = .ok s' →
    NoTrajectory I N s'
  | init {s s'} (n m : Option ℕ) (h : Heap K) (p : Prob C M E) : NoTrajectory I N s → initFrom I n m h s p = .ok s' →
    NoTrajectory I N s'

/-- **C72**, what is forgotten: without a problem, or without a trajectory, `Solve` stops at an assertion. -/
theorem C72_forgotten (I : ProbIface M E) (R : Rounding K) (N : ℤ) (s : Solver C M X U K) (T : TrajHeap X U K)
    (h : NoProblem R N s ∨ NoTrajectory I N s) : prepare s T = .error .assertion := by
  rcases h with h | h
  · have : s.isSet = false := by
      induction h with
      | new => rfl
      | make T a dt _ ih => exact ih
      | set T a _ e ih => cases e; exact ih
    simp [prepare, this, assertThat, bind, Except.bind]
  · have hc : ∀ {n m : Option ℕ} {h : Heap K} {p : Prob C M E} {a b : ℕ} {s s' : Solver C M X U K},
        copyFrom I n m h s p a b = .ok s' → s'.Z = s.Z := fun e => by
      obtain ⟨r, -, e⟩ := bind_ok.mp e
      cases e
      rfl
    have hz : s.Z = none := by
      induction h with
      | new => rfl
      | copy n m h p a b _ e ih => rw [hc e, ih]
      | init n m h p _ e ih =>
        obtain ⟨-, -, e⟩ := bind_ok.mp e
        rw [hc e, ih]
    unfold prepare
    rw [hz]
    cases s.isSet <;> rfl

end forgotten

/-- C72, what the iterations get: the first `N + 1` knot point functions given, the last initial state, the trajectory
itself, and a second trajectory with the times of the first (steps likewise, except the last). -/
theorem C72_inputs (s : Solver C M X U K) (T : TrajHeap X U K) (N : ℕ) (hN : s.N = N) (i : Inputs C M X U K)
    (h : prepare s T = .ok i) :
    i.kps = s.kps.take (N + 1) ∧ i.kps.length = N + 1 ∧ s.x0 = some i.x0 ∧
    (∃ a, s.Z = some a ∧ i.Z = T a ∧ i.Z.length = N + 1) ∧
    ∃ Zb, s.Zbar = some Zb ∧ i.Zbar.length = Zb.length ∧ ∀ k b z, k ≤ N → Zb[k]? = some b → i.Z[k]? = some z →
      i.Zbar[k]? = some ⟨b.x, b.u, z.t, if k < N then z.h else b.h⟩ := by
  obtain ⟨⟨h1, a, h2, h3⟩, ⟨Zb, h4, h5⟩, h6, h7, h8⟩ := (C72_start s T N hN).2.1.mp ⟨i, h⟩
  obtain ⟨x, h6⟩ := Option.isSome_iff_exists.mp h6
  obtain ⟨Zb', h', h9, h10⟩ := prepare_ok s T N hN h1 h2 h3 h4 h5 h6 h7 h8
  rw [h] at h'
  cases h'
  exact ⟨rfl, by simp; omega, h6, ⟨a, h2, rfl, h3⟩, Zb, h4, h9, h10⟩

/-! ## Copying a problem -/

theorem copyLoop_append (I : ProbIface M E) (n m : Option ℕ) (p : Prob C M E) (a r₁ r₂ : ℕ) (kps : List (M × Option C)) :
    copyLoop I n m p a (r₁ + r₂) kps = copyLoop I n m p a r₁ kps >>= copyLoop I n m p (a + r₁) r₂ := by
  induction r₂ with
  | zero =>
    cases h : copyLoop I n m p a r₁ kps <;> simp [h, bind, Except.bind, copyLoop]
  | succ r₂ ih =>
    rw [← Nat.add_assoc, copyLoop, ih, ← Nat.add_assoc a r₁ r₂]
    cases copyLoop I n m p a r₁ kps <;> rfl

/-- C72, copying in pieces is copying at once: the same knot points, the same initial state, and a failure exactly when
copying at once fails. -/
theorem C72_pieces (I : ProbIface M E) (n m : Option ℕ) (h : Heap K) (s : Solver C M X U K) (p : Prob C M E)
    (a b c : ℕ) (h1 : a ≤ b) (h2 : b ≤ c) (hb : (b : ℤ) ≤ s.N) (hc : (c : ℤ) ≤ s.N + 1) :
    (copyFrom I n m h s p a b >>= fun s' => copyFrom I n m h s' p b c) = copyFrom I n m h s p a c := by
  have hl : copyLoop I n m p a (c - a) s.kps = copyLoop I n m p a (b - a) s.kps >>= copyLoop I n m p b (c - b) := by
    have := copyLoop_append I n m p a (b - a) (c - b) s.kps
    rwa [show b - a + (c - b) = c - a by omega, show a + (b - a) = b by omega] at this
  have e1 : decide ((a : ℤ) ≤ s.N) = true := by rw [decide_eq_true_iff]; omega
  have e2 : decide ((b : ℤ) ≤ s.N) = true := by rw [decide_eq_true_iff]; omega
  have e3 : decide ((b : ℤ) ≤ s.N + 1) = true := by rw [decide_eq_true_iff]; omega
  have e4 : decide ((c : ℤ) ≤ s.N + 1) = true := by rw [decide_eq_true_iff]; omega
  unfold copyFrom copyFromProblem
  rw [hl]
  cases hf : isFullyDefined I h p with
  | error e => simp [e1, e3, e4, assertThat, bind, Except.bind]
  | ok ok =>
    cases ok with
    | false => simp [e1, e3, e4, assertThat, bind, Except.bind]
    | true =>
      cases hk : copyLoop I n m p a (b - a) s.kps with
      | error e => simp [e1, e3, e4, assertThat, bind, Except.bind]
      | ok l =>
        cases hk2 : copyLoop I n m p b (c - b) l <;>
          simp [e1, e2, e3, e4, assertThat, bind, Except.bind, pure, Except.pure, hk2]

section complete
variable {N addr : ℕ} {h₀ : Heap K} {calls : List (Call C M E K)} {p : Heap K × Prob C M E}

/-- Copying all of a complete problem: the knot points are appended. -/
theorem initFrom_ok (I : ProbIface M E) (hI : IdentOk I) (n m : Option ℕ)
    (hr : run I calls (h₀, Prob.new N addr) = .ok p) (hf : FullyDefined I N (h₀ addr) calls)
    (hn : ∀ k md, modelAt calls k = some md → (∀ a, n = some a → I.sdim md = a) ∧ (∀ a, m = some a → I.cdim md = a))
    (s : Solver C M X U K) (hN : s.N = N) :
    ∃ l, initFrom I n m p.1 s p.2 = .ok { s with kps := s.kps ++ l, x0 := some addr, isSet := true } ∧
      l.length = N + 1 ∧ ∀ k : ℕ, k ≤ N → ∃ c md, costAt calls k = some c ∧ getDynamics p.2 k = .ok md ∧
        l[k]? = some (md, some c) := by
  have ha := agrees_of_run I hr
  have hmo : ∀ k, k ≤ N → ∃ md, modelsOf I N calls k = some md ∧ (∀ a, n = some a → I.sdim md = a) ∧
      (∀ a, m = some a → I.cdim md = a) := by
    intro k hk
    unfold modelsOf
    by_cases hkN : k < N
    · rw [if_pos hkN]
      obtain ⟨md, hmd⟩ := Option.isSome_iff_exists.mp (hf.dyn k hkN)
      exact ⟨md, hmd, hn _ md hmd⟩
    · rw [if_neg hkN]
      obtain ⟨-, md, hmd, -⟩ := C41_terminal I hr hf
      refine ⟨_, by rw [hmd]; rfl, ?_⟩
      have := hn _ md hmd
      rw [(hI _ _).1, (hI _ _).2]; exact this
  obtain ⟨b, hb1, hb2⟩ := C41_exact_partial I hr (Or.inr (by obtain ⟨m0, h0, -⟩ := hf.state; rw [h0]; rfl))
  have hb : b = true := hb2.mpr hf
  subst hb
  obtain ⟨l, hl1, hl2⟩ := copyLoop_spec I n m p.2 _ _ ha.hN ha.models ha.costs hmo s.kps (N + 1) le_rfl
  have hll : l.length = N + 1 := by have := congrArg List.length hl2; simpa [tab_length] using this
  refine ⟨l, ?_, hll, fun k hk => ?_⟩
  · have e3 : (s.N + 1).toNat = N + 1 := by omega
    unfold initFrom copyFrom copyFromProblem
    rw [e3, hb1, ha.hN, hN]
    simp [assertThat, bind, Except.bind, hl1, pure, Except.pure, ha.x0]
  · obtain ⟨c, hc⟩ := Option.isSome_iff_exists.mp (hf.cost k hk)
    obtain ⟨md, hmd, -⟩ := hmo k hk
    refine ⟨c, md, hc, getDynamics_eval p.2 _ ha.hN ha.models k hk md hmd, ?_⟩
    have := congrArg (·[k]?) hl2
    simp only [List.getElem?_map, tab_get _ (show k < N + 1 by omega), hc, hmd] at this
    cases hlk : l[k]? with
    | none => rw [hlk] at this; cases this
    | some x => rw [hlk] at this; simp at this; rw [← this.1, ← this.2]

variable [Field K] [LinearOrder K] [Zero X] [Zero U] (R : Rounding K)

/-- C72, the documented way: a new solver, a complete problem with the solver's dimensions and number of segments, and a
trajectory with that number of segments, in either order.  `Solve` starts; whatever the user wrote to the trajectory in
between, it works on that trajectory; at every knot point it uses the problem's cost and dynamics, and it starts from the
problem's initial state (the same vector); the second trajectory is zero with the times of the first. -/
theorem C72_standard (I : ProbIface M E) (hI : IdentOk I) (n m : Option ℕ)
    (hr : run I calls (h₀, Prob.new N addr) = .ok p) (hf : FullyDefined I N (h₀ addr) calls)
    (hn : ∀ k md, modelAt calls k = some md → (∀ a, n = some a → I.sdim md = a) ∧ (∀ a, m = some a → I.cdim md = a))
    (T T' : TrajHeap X U K) (a : ℕ) (h1 : (T a).length = N + 1) (h2 : (T' a).length = N + 1) :
    ∃ s i, (initFrom I n m p.1 (new N) p.2 >>= fun s => setTrajectory s T (some a)) = .ok s ∧
      (setTrajectory (new N) T (some a) >>= fun s => initFrom I n m p.1 s p.2) = .ok s ∧
      prepare s T' = .ok i ∧ i.Z = T' a ∧ i.x0 = addr ∧ i.kps.length = N + 1 ∧
      (∀ k : ℕ, k ≤ N → ∃ c md, costAt calls k = some c ∧ getDynamics p.2 k = .ok md ∧
        i.kps[k]? = some (md, some c)) ∧
      i.Zbar.length = N + 1 ∧
      ∀ k b z, i.Zbar[k]? = some b → (T' a)[k]? = some z → b.x = 0 ∧ b.u = 0 ∧ b.t = z.t ∧ (k < N → b.h = z.h) := by
  obtain ⟨l, hl1, hl2, hl3⟩ := initFrom_ok I hI n m hr hf hn (new N : Solver C M X U K) rfl
  obtain ⟨l', hl1', hl2', hl3'⟩ := initFrom_ok I hI n m hr hf hn
    ({ (new N : Solver C M X U K) with Z := some a, Zbar := some (Traj.setZero (T a)) }) rfl
  have hll : l' = l := by
    refine List.ext_getElem? fun k => ?_
    by_cases hk : k ≤ N
    · obtain ⟨c, md, e1, e2, e3⟩ := hl3 k hk
      obtain ⟨c', md', e1', e2', e3'⟩ := hl3' k hk
      rw [e3, e3']
      rw [e1] at e1'; rw [e2] at e2'
      cases e1'; cases e2'; rfl
    · rw [List.getElem?_eq_none (by omega), List.getElem?_eq_none (by omega)]
  subst hll
  have hlen : (Traj.setZero (T a)).length = N + 1 := by simp [Traj.setZero, h1]
  set s : Solver C M X U K := ⟨N, some addr, l', some a, some (Traj.setZero (T a)), true⟩ with hs
  obtain ⟨Zb', p1, p2, p3⟩ := prepare_ok s T' N rfl rfl rfl h2 rfl (by omega) rfl (show N + 1 ≤ l'.length by omega)
    (fun k x hk hx => by
      obtain ⟨c, md, -, -, e⟩ := hl3 k hk
      have hx' : l'[k]? = some x := hx
      rw [e] at hx'
      cases hx'; rfl)
  refine ⟨s, _, ?_, ?_, p1, rfl, rfl, by simp [hs, hl2], fun k hk => ?_, by rw [p2, hlen], fun k b z hb hz => ?_⟩
  · rw [hl1]; rfl
  · show initFrom I n m p.1 { (new N : Solver C M X U K) with Z := some a, Zbar := some (Traj.setZero (T a)) } p.2 = _
    rw [hl1']; rfl
  · obtain ⟨c, md, e1, e2, e3⟩ := hl3 k hk
    refine ⟨c, md, e1, e2, ?_⟩
    rw [List.getElem?_take_of_lt (by omega)]; exact e3
  · have hk : k < (T' a).length := (List.getElem?_eq_some_iff.mp hz).1
    have hk1 : (Traj.setZero (T a))[k]? = some { (T a)[k] with x := 0, u := 0 } := by
      simp [Traj.setZero, List.getElem?_eq_getElem (show k < (T a).length by omega)]
    have := p3 k _ z (by omega) hk1 hz
    rw [hb] at this
    cases this
    exact ⟨rfl, rfl, rfl, fun h => if_pos h⟩

/-- C72 fails for `MakeTrajectory`, "used both as the initial guess and as the storage location": every solver whose
trajectory was made only by it passes the assertions and then dereferences the null pointer of the second trajectory. -/
theorem C72_make_counterexample (I : ProbIface M E) (hI : IdentOk I) (n m : Option ℕ)
    (hr : run I calls (h₀, Prob.new N addr) = .ok p) (hf : FullyDefined I N (h₀ addr) calls)
    (hn : ∀ k md, modelAt calls k = some md → (∀ a, n = some a → I.sdim md = a) ∧ (∀ a, m = some a → I.cdim md = a))
    (T : TrajHeap X U K) (a : ℕ) (dt : K) :
    ∃ s, initFrom I n m p.1 (new N : Solver C M X U K) p.2 = .ok s ∧
      let r := makeTrajectory R s T a dt
      ChecksPass r.1 r.2 N ∧ prepare r.1 r.2 = .error .undefined := by
  obtain ⟨l, hl1, hl2, hl3⟩ := initFrom_ok I hI n m hr hf hn (new N : Solver C M X U K) rfl
  refine ⟨_, hl1, ?_⟩
  have hc : ChecksPass (makeTrajectory R { (new N : Solver C M X U K) with
      kps := (new N : Solver C M X U K).kps ++ l, x0 := some addr, isSet := true } T a dt).1
      (makeTrajectory R { (new N : Solver C M X U K) with
        kps := (new N : Solver C M X U K).kps ++ l, x0 := some addr, isSet := true } T a dt).2 N := by
    refine ⟨rfl, a, rfl, ?_⟩
    simp [makeTrajectory, Traj.setUniformStep, Traj.zero, new]
  refine ⟨hc, prepare_undefined _ _ N rfl hc ?_⟩
  rintro ⟨⟨Zb, h, -⟩, -⟩
  cases h

/-- Calling `SetTrajectory` with the result of `MakeTrajectory` repairs it. -/
theorem C72_make_then_set (I : ProbIface M E) (hI : IdentOk I) (n m : Option ℕ)
    (hr : run I calls (h₀, Prob.new N addr) = .ok p) (hf : FullyDefined I N (h₀ addr) calls)
    (hn : ∀ k md, modelAt calls k = some md → (∀ a, n = some a → I.sdim md = a) ∧ (∀ a, m = some a → I.cdim md = a))
    (T : TrajHeap X U K) (a : ℕ) (dt : K) :
    ∃ s s' i, initFrom I n m p.1 (new N : Solver C M X U K) p.2 = .ok s ∧
      setTrajectory (makeTrajectory R s T a dt).1 (makeTrajectory R s T a dt).2 (some a) = .ok s' ∧
      prepare s' (makeTrajectory R s T a dt).2 = .ok i := by
  obtain ⟨l, hl1, hl2, hl3⟩ := initFrom_ok I hI n m hr hf hn (new N : Solver C M X U K) rfl
  set s : Solver C M X U K := { (new N : Solver C M X U K) with kps := [] ++ l, x0 := some addr, isSet := true } with hs
  have key : ∃ i, prepare { (makeTrajectory R s T a dt).1 with
      Z := some a, Zbar := some (Traj.setZero ((makeTrajectory R s T a dt).2 a)) } (makeTrajectory R s T a dt).2
      = .ok i := ?_
  · exact ⟨s, _, key.choose, hl1, rfl, key.choose_spec⟩
  refine (C72_start _ _ N rfl).2.1.mpr ⟨⟨rfl, a, rfl, ?_⟩, ⟨_, rfl, ?_⟩, rfl, ?_, fun k x hk hx => ?_⟩
  · simp [makeTrajectory, Traj.setUniformStep, Traj.zero, hs, new]
  · simp [makeTrajectory, Traj.setUniformStep, Traj.zero, Traj.setZero, hs, new]
  · show N + 1 ≤ ([] ++ l).length
    simp [hl2]
  · obtain ⟨c, md, -, -, e⟩ := hl3 k hk
    have hx' : l[k]? = some x := hx
    rw [e] at hx'
    cases hx'; rfl

/-- C72 fails after `SetTrajectory` with a shorter trajectory and `MakeTrajectory`: the assertions pass, the second
trajectory keeps the wrong length, and `Solve` writes past its end. -/
theorem C72_length_counterexample (s : Solver C M X U K) (hN : s.N = N) (hs : s.isSet = true) (T : TrajHeap X U K)
    (a b : ℕ) (dt : K) (h : (T b).length ≤ N) :
    ∃ s', setTrajectory s T (some b) = .ok s' ∧
      let r := makeTrajectory R s' T a dt
      ChecksPass r.1 r.2 N ∧ prepare r.1 r.2 = .error .undefined := by
  refine ⟨_, rfl, ?_⟩
  have hc : ChecksPass (makeTrajectory R { s with Z := some b, Zbar := some (Traj.setZero (T b)) } T a dt).1
      (makeTrajectory R { s with Z := some b, Zbar := some (Traj.setZero (T b)) } T a dt).2 N := by
    refine ⟨hs, a, rfl, ?_⟩
    simp [makeTrajectory, Traj.setUniformStep, Traj.zero, hN]
  refine ⟨hc, prepare_undefined _ _ N hN hc ?_⟩
  rintro ⟨⟨Zb, h1, h2⟩, -⟩
  cases h1
  simp only [Traj.setZero, List.length_map] at h2
  omega

/-- C72 fails for a part of a problem: after copying only some of the knot points the assertions of `Solve` pass, and it
reads past the end of the knot points. -/
theorem C72_subset_counterexample (I : ProbIface M E) (hI : IdentOk I) (n m : Option ℕ)
    (hr : run I calls (h₀, Prob.new N addr) = .ok p) (hf : FullyDefined I N (h₀ addr) calls)
    (hn : ∀ k md, modelAt calls k = some md → (∀ a, n = some a → I.sdim md = a) ∧ (∀ a, m = some a → I.cdim md = a))
    (T : TrajHeap X U K) (a r : ℕ) (hr' : r ≤ N) (h1 : (T a).length = N + 1) :
    ∃ s, (copyFrom I n m p.1 (new N) p.2 0 r >>= fun s => setTrajectory s T (some a)) = .ok s ∧
      ChecksPass s T N ∧ prepare s T = .error .undefined := by
  obtain ⟨l, hl1, hl2, hl3⟩ := initFrom_ok I hI n m hr hf hn (new N : Solver C M X U K) rfl
  unfold initFrom at hl1
  obtain ⟨-, -, hl1⟩ := bind_ok.mp hl1
  have hN1 : ((new N : Solver C M X U K).N + 1).toNat = N + 1 := by simp [new]
  rw [hN1, ← C72_pieces I n m p.1 (new N : Solver C M X U K) p.2 0 r (N + 1) (by omega) (by omega)
    (by simp [new]; omega) (by simp [new])] at hl1
  obtain ⟨s1, hs1, hs2⟩ := bind_ok.mp hl1
  -- the first piece appends `r` knot points
  have hk : s1.kps.length = r ∧ s1.N = N ∧ s1.isSet = true := by
    unfold copyFrom copyFromProblem at hs1
    obtain ⟨q, hq, hs1⟩ := bind_ok.mp hs1
    obtain ⟨_, _, hq⟩ := bind_ok.mp hq
    obtain ⟨_, _, hq⟩ := bind_ok.mp hq
    obtain ⟨_, _, hq⟩ := bind_ok.mp hq
    obtain ⟨_, _, hq⟩ := bind_ok.mp hq
    obtain ⟨kl, hkl, hq⟩ := bind_ok.mp hq
    cases hq; cases hs1
    refine ⟨?_, rfl, rfl⟩
    have : ∀ r (x y : List (M × Option C)), copyLoop I n m p.2 0 r x = .ok y → y.length = x.length + r := by
      intro r
      induction r with
      | zero => intro x y h; cases h; rfl
      | succ r ih =>
        intro x y h
        rw [copyLoop] at h
        obtain ⟨z, hz, h⟩ := bind_ok.mp h
        obtain ⟨_, _, h⟩ := bind_ok.mp h
        obtain ⟨_, _, h⟩ := bind_ok.mp h
        obtain ⟨_, _, h⟩ := bind_ok.mp h
        obtain ⟨_, _, h⟩ := bind_ok.mp h
        cases h
        have := ih x z hz
        simp; omega
    have := this _ _ _ hkl
    simpa [new] using this
  refine ⟨{ s1 with Z := some a, Zbar := some (Traj.setZero (T a)) }, by rw [hs1]; rfl, ⟨hk.2.2, a, rfl, h1⟩, ?_⟩
  refine prepare_undefined _ _ N hk.2.1 ⟨hk.2.2, a, rfl, h1⟩ ?_
  rintro ⟨-, -, h, -⟩
  have h' : N + 1 ≤ s1.kps.length := h
  omega

/-- C72 fails when a solver is initialised from a second complete problem of the same size: `Solve` uses the costs and
dynamics of the first problem with the initial state of the second. -/
theorem C72_twice_counterexample (I : ProbIface M E) (hI : IdentOk I) (n m : Option ℕ)
    (hr : run I calls (h₀, Prob.new N addr) = .ok p) (hf : FullyDefined I N (h₀ addr) calls)
    (hn : ∀ k md, modelAt calls k = some md → (∀ a, n = some a → I.sdim md = a) ∧ (∀ a, m = some a → I.cdim md = a))
    {addr' : ℕ} {h₀' : Heap K} {calls' : List (Call C M E K)} {p' : Heap K × Prob C M E}
    (hr' : run I calls' (h₀', Prob.new N addr') = .ok p') (hf' : FullyDefined I N (h₀' addr') calls')
    (hn' : ∀ k md, modelAt calls' k = some md → (∀ a, n = some a → I.sdim md = a) ∧ (∀ a, m = some a → I.cdim md = a))
    (T : TrajHeap X U K) (a : ℕ) (h1 : (T a).length = N + 1) :
    ∃ s i, (initFrom I n m p.1 (new N) p.2 >>= fun s => initFrom I n m p'.1 s p'.2 >>= fun s =>
        setTrajectory s T (some a)) = .ok s ∧
      prepare s T = .ok i ∧ i.x0 = addr' ∧ i.kps.length = N + 1 ∧
      ∀ k : ℕ, k ≤ N → ∃ c md, costAt calls k = some c ∧ getDynamics p.2 k = .ok md ∧
        i.kps[k]? = some (md, some c) := by
  obtain ⟨l, hl1, hl2, hl3⟩ := initFrom_ok I hI n m hr hf hn (new N : Solver C M X U K) rfl
  obtain ⟨l', hl1', hl2', hl3'⟩ := initFrom_ok I hI n m hr' hf' hn'
    ({ (new N : Solver C M X U K) with kps := [] ++ l, x0 := some addr, isSet := true }) rfl
  have hk : ∀ k, k ≤ N → (([] ++ l) ++ l')[k]? = l[k]? := fun k hk => by
    rw [List.nil_append, List.getElem?_append_left (by omega)]
  set s : Solver C M X U K := ⟨N, some addr', ([] ++ l) ++ l', some a, some (Traj.setZero (T a)), true⟩ with hs
  obtain ⟨Zb', p1, p2, p3⟩ := prepare_ok s T N rfl rfl rfl h1 rfl (show N + 1 ≤ (Traj.setZero (T a)).length by
      simp [Traj.setZero, h1]) rfl (show N + 1 ≤ (([] ++ l) ++ l').length by simp; omega)
    (fun k x hk1 hx => by
      obtain ⟨c, md, -, -, e⟩ := hl3 k hk1
      have hx' : (([] ++ l) ++ l')[k]? = some x := hx
      rw [hk k hk1, e] at hx'
      cases hx'; rfl)
  refine ⟨s, _, ?_, p1, rfl, by simp [hs, hl2], fun k hk1 => ?_⟩
  · rw [hl1]
    show (initFrom I n m p'.1 { (new N : Solver C M X U K) with kps := [] ++ l, x0 := some addr, isSet := true } p'.2
      >>= fun s => setTrajectory s T (some a)) = _
    rw [hl1']; rfl
  · obtain ⟨c, md, e1, e2, e3⟩ := hl3 k hk1
    refine ⟨c, md, e1, e2, ?_⟩
    rw [List.getElem?_take_of_lt (by omega)]
    exact (hk k hk1).trans e3

end complete

/-! ## A concrete case -/

/-- A trajectory of two segments with steps 1/2 and a copy of it with other steps. -/
def demoTraj : TrajHeap ℚ ℚ ℚ := fun _ => [⟨0, 3, 0, 1/2⟩, ⟨0, 4, 1/2, 1/2⟩, ⟨0, 0, 1, 0⟩]

theorem demoIdent : IdentOk demoIface := fun _ _ => ⟨rfl, rfl⟩

theorem demoDims : ∀ k md, modelAt demoCalls k = some md →
    (∀ a, (some 2 : Option ℕ) = some a → demoIface.sdim md = a) ∧ (∀ a, (none : Option ℕ) = some a → demoIface.cdim md = a) := by
  intro k md h
  refine ⟨fun a ha => ?_, fun a ha => by cases ha⟩
  cases ha
  obtain ⟨k, rfl⟩ := Int.eq_ofNat_of_zero_le ((agrees_of_run demoIface demoRun).rng k (by rw [h]; rfl)).1
  have hk := ((agrees_of_run demoIface demoRun).rng (k : ℤ) (by rw [h]; rfl)).2
  have : k < 2 := by omega
  interval_cases k <;> cases h <;> rfl

/-- The standard path on the demonstration problem, computed. -/
example : ∃ s i, initFrom demoIface (some 2) none demoFinal.1 (new 2 : Solver String (ℕ × ℕ) ℚ ℚ ℚ) demoFinal.2 = .ok s ∧
    setTrajectory s demoTraj (some 7) = .ok i ∧ (prepare i demoTraj).map (fun i => (i.kps, i.x0)) =
      .ok ([((2, 1), some "a"), ((2, 1), some "c"), ((2, 1), some "b")], 0) := ⟨_, _, rfl, rfl, rfl⟩

/-- The hypotheses of the general theorem hold for it. -/
example : ∃ s i, (initFrom demoIface (some 2) none demoFinal.1 (new (2 : ℕ) : Solver String (ℕ × ℕ) ℚ ℚ ℚ) demoFinal.2 >>=
      fun s => setTrajectory s demoTraj (some 7)) = .ok s ∧ prepare s demoTraj = .ok i ∧ i.Z = demoTraj 7 := by
  obtain ⟨s, i, h1, -, h3, h4, -⟩ := C72_standard (X := ℚ) (U := ℚ) demoIface demoIdent (some 2) none demoRun
    demoFull demoDims demoTraj demoTraj 7 rfl rfl
  exact ⟨s, i, h1, h3, h4⟩

/-- `MakeTrajectory` alone, on the same problem. -/
example : ∃ s, initFrom demoIface (some 2) none demoFinal.1 (new (2 : ℕ) : Solver String (ℕ × ℕ) ℚ ℚ ℚ) demoFinal.2 = .ok s ∧
    prepare (makeTrajectory Rounding.exact s demoTraj 7 (1/2)).1 (makeTrajectory Rounding.exact s demoTraj 7 (1/2)).2
      = .error .undefined := by
  obtain ⟨s, h1, -, h3⟩ := C72_make_counterexample (X := ℚ) (U := ℚ) Rounding.exact demoIface demoIdent (some 2) none
    demoRun demoFull demoDims demoTraj 7 (1/2)
  exact ⟨s, h1, h3⟩

/-- The same problem with another cost, and its initial state in another place. -/
def demoOther : Prob String (ℕ × ℕ) ℕ :=
  { N := 2, x0 := 5, costs := [some "x", some "y", some "z"], models := [some (2, 1), some (2, 1), some (2, 1)]
    eq := [[], [], []], ineq := [[], [], []] }

/-- Initialising again: the new initial state with the old costs. -/
example : ∃ s s' s'', initFrom demoIface (some 2) none demoFinal.1 (new 2 : Solver String (ℕ × ℕ) ℚ ℚ ℚ) demoFinal.2 = .ok s ∧
    initFrom demoIface (some 2) none (Function.update demoFinal.1 5 [8, 9]) s demoOther = .ok s' ∧
    setTrajectory s' demoTraj (some 7) = .ok s'' ∧ (prepare s'' demoTraj).map (fun i => (i.kps, i.x0)) =
      .ok ([((2, 1), some "a"), ((2, 1), some "c"), ((2, 1), some "b")], 5) := ⟨_, _, _, rfl, rfl, rfl, rfl⟩

/-- A trajectory without a problem, and a problem without a trajectory. -/
example : (∃ s, setTrajectory (new 2 : Solver String (ℕ × ℕ) ℚ ℚ ℚ) demoTraj (some 7) = .ok s ∧
      prepare s demoTraj = .error .assertion) ∧
    ∃ s, initFrom demoIface (some 2) none demoFinal.1 (new 2 : Solver String (ℕ × ℕ) ℚ ℚ ℚ) demoFinal.2 = .ok s ∧
      prepare s demoTraj = .error .assertion :=
  ⟨⟨_, rfl, C72_forgotten demoIface Rounding.exact 2 _ demoTraj (.inl (.set demoTraj 7 .new rfl))⟩,
   ⟨_, rfl, C72_forgotten demoIface Rounding.exact 2 _ demoTraj (.inr (.init (some 2) none demoFinal.1 demoFinal.2 .new rfl))⟩⟩

end Altro.Props
