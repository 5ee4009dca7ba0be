import Verif.Model.Trajectory
import Verif.Proofs.Float
import Verif.Proofs.Problem

/-!
# C44: uniform trajectories
-/

namespace Altro.Props
open Traj

section
variable {X U K : Type} [Field K] [LinearOrder K]

theorem checkTimes_iff (R : Rounding K) (eps : K) (Z : List (KnotPt X U K)) :
    checkTimes R eps Z = true ↔ ∀ k (h : k + 1 < Z.length), stepOk R eps Z[k] Z[k + 1] = true := by
  induction Z with
  | nil => simp [checkTimes]
  | cons z Z ih =>
    cases Z with
    | nil => simp [checkTimes]
    | cons z' Z =>
      rw [checkTimes, Bool.and_eq_true, ih]
      constructor
      · rintro ⟨h1, h2⟩ k hk
        cases k with
        | zero => exact h1
        | succ k => exact h2 k (by simpa using hk)
      · intro h
        exact ⟨h 0 (by simp), fun k hk => h (k + 1) (by simpa using hk)⟩

/-- What the call stores, in any arithmetic: knot point `k` of `N + 1`. -/
theorem C44_stored (R : Rounding K) (h : K) (Z : List (KnotPt X U K)) (N : ℕ) (hN : Z.length = N + 1) (k : ℕ)
    (hk : k ≤ N) : ∃ z z', Z[k]? = some z ∧ (setUniformStep R h Z)[k]? = some z' ∧ z'.x = z.x ∧ z'.u = z.u ∧
      z'.h = (if k = N then 0 else h) ∧ z'.t = R.r32 (R.r32 (k : K) * h) := by
  have hk' : k < Z.length := by omega
  refine ⟨Z[k], _, by simp [hk'], by simp only [setUniformStep, List.getElem?_mapIdx, List.getElem?_eq_getElem hk']; rfl, ?_⟩
  by_cases h1 : k = N
  · subst h1; simp [hN, mul_comm]
  · have : ¬ k + 1 = Z.length := by omega
    simp [this, h1]

theorem setUniformStep_get (R : Rounding K) (h : K) (Z : List (KnotPt X U K)) (N : ℕ) (hN : Z.length = N + 1) (k : ℕ)
    (hk : k < (setUniformStep R h Z).length) :
    ((setUniformStep R h Z)[k]).t = R.r32 (R.r32 (k : K) * h) ∧
    ((setUniformStep R h Z)[k]).h = (if k = N then 0 else h) := by
  have hl : (setUniformStep R h Z).length = N + 1 := by simp [setUniformStep, hN]
  obtain ⟨z, z', -, h2, -, -, h5, h6⟩ := C44_stored R h Z N hN k (by omega)
  rw [List.getElem?_eq_getElem hk] at h2
  cases h2
  exact ⟨h6, h5⟩

theorem check_uniform (R : Rounding K) (h eps : K) (Z : List (KnotPt X U K)) (N : ℕ) (hN : Z.length = N + 1) :
    checkTimes R eps (setUniformStep R h Z) = true ↔ ∀ k : ℕ, k < N → |R.r32 (h - R.r32 (R.r64
      (R.r32 (R.r32 ((k + 1 : ℕ) : K) * h) - R.r32 (R.r32 (k : K) * h))))| ≤ eps := by
  have hl : (setUniformStep R h Z).length = N + 1 := by simp [setUniformStep, hN]
  rw [checkTimes_iff]
  constructor
  · intro H k hk
    have := H k (by omega)
    simp only [stepOk, (setUniformStep_get R h Z N hN _ _).1, (setUniformStep_get R h Z N hN _ _).2,
      if_neg (show ¬ k = N by omega), decide_eq_true_eq, not_lt] at this
    exact this
  · intro H k hk
    simp only [stepOk, (setUniformStep_get R h Z N hN _ _).1, (setUniformStep_get R h Z N hN _ _).2,
      if_neg (show ¬ k = N by omega), decide_eq_true_eq, not_lt]
    exact H k (by omega)

/-- C44 in exact arithmetic: knot point `k` has time `k h`, step `h` (0 at the end), and the check accepts for every
tolerance `≥ 0`, every `N` and `h`.  Missing: the same in `float` (`C44_float_partial`, `C44_counterexample`). -/
theorem C44_exact_partial [IsStrictOrderedRing K] (h eps : K) (he : 0 ≤ eps) (Z : List (KnotPt X U K)) (N : ℕ)
    (hN : Z.length = N + 1) :
    (∀ k (hk : k < (setUniformStep .exact h Z).length), ((setUniformStep .exact h Z)[k]).t = k * h ∧
      ((setUniformStep .exact h Z)[k]).h = if k = N then 0 else h) ∧
    checkTimes .exact eps (setUniformStep .exact h Z) = true := by
  refine ⟨fun k hk => setUniformStep_get .exact h Z N hN k hk, (check_uniform _ _ _ _ _ hN).mpr fun k _ => ?_⟩
  simp only [Rounding.exact, id]
  have : h - (((k + 1 : ℕ) : K) * h - (k : K) * h) = 0 := by push_cast; ring
  rw [this]; simpa using he

/-- Only the last knot point is terminal (`h ≠ 0`), whatever the rounding. -/
theorem C44_terminal (R : Rounding K) (h : K) (hh : h ≠ 0) (Z : List (KnotPt X U K)) (N : ℕ) (hN : Z.length = N + 1)
    (k : ℕ) (hk : k < (setUniformStep R h Z).length) :
    ((setUniformStep R h Z)[k]).isTerminal = true ↔ k = N := by
  unfold KnotPt.isTerminal
  rw [(setUniformStep_get R h Z N hN k hk).2]
  by_cases h1 : k = N <;> simp [h1, hh]

end

section float
variable {X U : Type}

theorem f32_nat (k : ℕ) (hk : k < 2 ^ 24) : f32 (k : ℚ) = k := by
  have := ieee_int 24 (-149) (by norm_num) (by norm_num) (k : ℤ) (by rw [abs_of_nonneg (by positivity)]; exact_mod_cast hk)
  simpa [f32] using this

/-- C44 in `float` for steps that are short binary fractions: if `h = a 2^e` with `N |a| < 2^24`, everything is exact
and the check accepts. -/
theorem C44_dyadic_partial (a e : ℤ) (he : -149 ≤ e) (eps : ℚ) (hp : 0 ≤ eps) (Z : List (KnotPt X U ℚ)) (N : ℕ)
    (hN : Z.length = N + 1) (hN' : N < 2 ^ 24) (ha : (N : ℤ) * |a| < 2 ^ 24) (ha' : |a| < 2 ^ 24) :
    (∀ k (hk : k < (setUniformStep .ieee754 (a * 2 ^ e) Z).length),
      ((setUniformStep .ieee754 (a * 2 ^ e) Z)[k]).t = k * (a * 2 ^ e)) ∧
    checkTimes .ieee754 eps (setUniformStep .ieee754 (a * 2 ^ e) Z) = true := by
  have ht : ∀ k : ℕ, k ≤ N → f32 (f32 (k : ℚ) * (a * 2 ^ e)) = k * (a * 2 ^ e) := by
    intro k hk
    rw [f32_nat k (by omega)]
    have hz : |(k : ℤ) * a| < 2 ^ 24 := by
      rw [abs_mul, abs_of_nonneg (by positivity : (0 : ℤ) ≤ k)]
      calc (k : ℤ) * |a| ≤ (N : ℤ) * |a| := by
            have : (k : ℤ) ≤ N := by exact_mod_cast hk
            have := abs_nonneg a
            gcongr
        _ < _ := ha
    have := ieee_repr 24 (-149) (by norm_num) ((k : ℤ) * a) e hz he
    have e2 : (((k : ℤ) * a : ℤ) : ℚ) * (2 : ℚ) ^ e = (k : ℚ) * (a * 2 ^ e) := by push_cast; ring
    rw [e2] at this
    exact this
  have hl : (setUniformStep .ieee754 (a * (2 : ℚ) ^ e) Z).length = N + 1 := by simp [setUniformStep, hN]
  refine ⟨fun k hk => ?_, (check_uniform _ _ _ _ _ hN).mpr fun k hk => ?_⟩
  · rw [(setUniformStep_get .ieee754 _ Z N hN k hk).1]; exact ht k (by omega)
  · simp only [Rounding.ieee754]
    rw [ht k (by omega), ht (k + 1) (by omega)]
    have e1 : ((k + 1 : ℕ) : ℚ) * (a * 2 ^ e) - k * (a * 2 ^ e) = a * 2 ^ e := by push_cast; ring
    have e2 : f64 (a * 2 ^ e) = a * 2 ^ e :=
      ieee_repr 53 (-1074) (by norm_num) a e (ha'.trans (by norm_num)) (by omega)
    have e3 : f32 (a * 2 ^ e) = a * 2 ^ e := ieee_repr 24 (-149) (by norm_num) a e ha' he
    rw [e1, e2, e3, sub_self]
    have : f32 0 = 0 := ieee_zero _ _
    rw [this]; simpa using hp

/-- C44 in `float` for short trajectories: for every step `h > 0` (a `float`) with `N h ≤ 5`, times are right to
`N h 2^-24` and the check with its default tolerance `1e-6` accepts. -/
theorem C44_float_partial (h : ℚ) (h0 : 0 ≤ h) (Z : List (KnotPt X U ℚ)) (N : ℕ)
    (hN : Z.length = N + 1) (hN' : N < 2 ^ 24) (hT : N * h ≤ 5) :
    (∀ k (hk : k < (setUniformStep .ieee754 h Z).length),
      |((setUniformStep .ieee754 h Z)[k]).t - k * h| ≤ N * h * 2 ^ (-24 : ℤ) + 2 ^ (-150 : ℤ)) ∧
    checkTimes .ieee754 (1 / 1000000) (setUniformStep .ieee754 h Z) = true := by
  have hl : (setUniformStep .ieee754 h Z).length = N + 1 := by simp [setUniformStep, hN]
  have ht : ∀ k : ℕ, k ≤ N → |f32 (f32 (k : ℚ) * h) - k * h| ≤ N * h * 2 ^ (-24 : ℤ) + 2 ^ (-150 : ℤ) := by
    intro k hk
    rw [f32_nat k (by omega)]
    refine (ieee_rel 24 (-149) ((k : ℚ) * h)).trans ?_
    rw [abs_of_nonneg (by positivity)]
    have : (k : ℚ) ≤ N := by exact_mod_cast hk
    have e1 : (-149 - 1 : ℤ) = -150 := by norm_num
    have e2 : (-((24 : ℕ) : ℤ)) = -24 := by norm_num
    rw [e1, e2]
    gcongr
  refine ⟨fun k hk => ?_, (check_uniform _ _ _ _ _ hN).mpr fun k hk => ?_⟩
  · rw [(setUniformStep_get .ieee754 _ Z N hN k hk).1]; exact ht k (by omega)
  · simp only [Rounding.ieee754]
    have t0 := ht k (by omega)
    have t1 := ht (k + 1) (by omega)
    set a := f32 (f32 (k : ℚ) * h)
    set b := f32 (f32 ((k + 1 : ℕ) : ℚ) * h)
    have hh : h ≤ 5 := by
      have : (1 : ℚ) ≤ N := by exact_mod_cast (show 1 ≤ N by omega)
      nlinarith
    have w1 : (2 : ℚ) ^ (-24 : ℤ) = 1 / 16777216 := by norm_num
    have w2 : (2 : ℚ) ^ (-150 : ℤ) ≤ 1 / 10 ^ 20 := by norm_num
    have t0 := abs_le.mp t0
    have t1 := abs_le.mp t1
    rw [w1] at t0 t1
    push_cast at t1
    -- the exact difference of the stored times
    have d1 : |b - a - h| ≤ 597 / 10 ^ 9 := by rw [abs_le]; constructor <;> linarith
    have d1' := abs_le.mp d1
    have r1 := ieee_rel 53 (-1074) (b - a)
    have r1' : |f64 (b - a) - (b - a)| ≤ 1 / 10 ^ 14 := by
      refine r1.trans ?_
      have : |b - a| ≤ 6 := by rw [abs_le]; constructor <;> linarith
      have w3 : (2 : ℚ) ^ (-((53 : ℕ) : ℤ)) ≤ 1 / (9 * 10 ^ 15) := by norm_num
      have w4 : (2 : ℚ) ^ (-1074 - 1 : ℤ) ≤ 1 / 10 ^ 20 :=
        (zpow_le_zpow_right₀ (by norm_num) (by norm_num : (-1074 - 1 : ℤ) ≤ -150)).trans w2
      have : |b - a| * (2 : ℚ) ^ (-((53 : ℕ) : ℤ)) ≤ 6 * (1 / (9 * 10 ^ 15)) := by gcongr
      linarith
    set c := f64 (b - a)
    have r1'' := abs_le.mp r1'
    have r2 : |f32 c - c| ≤ 299 / 10 ^ 9 := by
      refine (ieee_rel 24 (-149) c).trans ?_
      have : |c| ≤ 5000001 / 1000000 := by rw [abs_le]; constructor <;> linarith
      have w3 : (2 : ℚ) ^ (-((24 : ℕ) : ℤ)) = 1 / 16777216 := by norm_num
      have w4 : (2 : ℚ) ^ (-149 - 1 : ℤ) ≤ 1 / 10 ^ 20 := by norm_num
      rw [w3]
      linarith
    have r2' := abs_le.mp r2
    have d2 : |h - f32 c| ≤ 898 / 10 ^ 9 := by rw [abs_le]; constructor <;> linarith
    have r3 : |f32 (h - f32 c) - (h - f32 c)| ≤ 1 / 10 ^ 9 := by
      refine (ieee_rel 24 (-149) _).trans ?_
      have w3 : (2 : ℚ) ^ (-((24 : ℕ) : ℤ)) = 1 / 16777216 := by norm_num
      have w4 : (2 : ℚ) ^ (-149 - 1 : ℤ) ≤ 1 / 10 ^ 20 := by norm_num
      rw [w3]
      linarith
    have r3' := abs_le.mp r3
    have d2' := abs_le.mp d2
    rw [abs_le]; constructor <;> linarith

/-- The step `0.1f`. -/
def tenth : ℚ := f32 (1 / 10)

/-- C44 fails in `float`: with step 0.1 (rounded to `float`) every trajectory of at least 164 segments (16.4 seconds) is
rejected by the default check. -/
theorem C44_counterexample (Z : List (KnotPt X U ℚ)) (N : ℕ) (hN : Z.length = N + 1) (h : 164 ≤ N) :
    checkTimes .ieee754 (1 / 1000000) (setUniformStep .ieee754 tenth Z) = false := by
  rw [Bool.eq_false_iff]
  intro hc
  have := (check_uniform _ _ _ _ _ hN).mp hc 163 (by omega)
  revert this
  show ¬ _
  decide +kernel

/-- An instance of the partial theorem: step 0.1, 49 segments. -/
example : checkTimes .ieee754 (1 / 1000000) (setUniformStep .ieee754 tenth (zero 49 : List (KnotPt ℚ ℚ ℚ))) = true := by
  have ht : tenth = 13421773 / 134217728 := by decide +kernel
  refine (C44_float_partial tenth ?_ _ 49 (by simp [zero]) (by norm_num) ?_).2
  · rw [ht]; norm_num
  · rw [ht]; norm_num

end float

/-! ## Construction from vectors -/

section vectors
variable {X U K : Type} [Field K] [LinearOrder K] [Zero U]

/-- With `N ≥ 1` controls, `N + 1` states and times, the constructor stores them, with steps the rounded time
differences, and a terminal knot point with zero control and step. -/
theorem C44_vectors (R : Rounding K) (X' : List X) (U' : List U) (times : List K) (hN : 0 < U'.length)
    (hX : X'.length = U'.length + 1) (hT : times.length = U'.length + 1) :
    ∃ Z, ofVectors R X' U' times = .ok Z ∧ Z.length = U'.length + 1 ∧
      (∀ k (hk : k < U'.length), Z[k]? = some ⟨X'[k], U'[k], times[k], R.r32 (times[k + 1] - times[k])⟩) ∧
      Z[U'.length]? = some ⟨X'[U'.length], 0, times[U'.length], 0⟩ := by
  have rd : ∀ {α : Type} (l : List α) (k : ℕ) (hk : k < l.length), vread l (k : ℤ) = .ok l[k] := by
    intro α l k hk
    simp [vread, hk]
  have e0 : vread U' ((U'.length : ℤ) - 1) = .ok U'[U'.length - 1] := by
    have : ((U'.length : ℤ) - 1) = ((U'.length - 1 : ℕ) : ℤ) := by omega
    rw [this]; exact rd _ _ _
  refine ⟨(List.zipWith (fun (xu : X × U) (tt : K × K) => (⟨xu.1, xu.2, tt.1, R.r32 (tt.2 - tt.1)⟩ : KnotPt X U K))
    (X'.zip U') (times.zip times.tail)) ++ [⟨X'[U'.length], 0, times[U'.length], 0⟩], ?_, ?_, ?_, ?_⟩
  · unfold ofVectors
    rw [e0, rd X' _ (by omega), rd times _ (by omega)]
    simp [assertThat, hX, hT, bind, Except.bind, pure, Except.pure]
  · simp [hX, hT]
  · intro k hk
    rw [List.getElem?_append_left (by simp [hX, hT, hk])]
    rw [List.getElem?_eq_getElem (by simp [hX, hT, hk])]
    simp
  · rw [List.getElem?_append_right (by simp [hX, hT])]
    simp [hX, hT]

/-- Any other lengths are rejected. -/
theorem C44_vectors_rejected (R : Rounding K) (X' : List X) (U' : List U) (times : List K)
    (h : ¬ (X'.length = U'.length + 1 ∧ times.length = U'.length + 1)) :
    ofVectors R X' U' times = .error .assertion := by
  unfold ofVectors assertThat
  by_cases h1 : X'.length = U'.length + 1
  · have h2 : ¬ U'.length + 1 = times.length := fun e => h ⟨h1, e.symm⟩
    simp [h1, h2, bind, Except.bind]
  · simp [h1, bind, Except.bind]

/-- A control too many; a time too many. -/
example : ofVectors .exact [1, 2] [3, 4] [(0 : ℚ), 1] = (.error .assertion : Except Err (List (KnotPt ℤ ℤ ℚ))) :=
  C44_vectors_rejected _ _ _ _ (by simp)

example : ofVectors .exact [1, 2] [3] [(0 : ℚ), 1, 2] = (.error .assertion : Except Err (List (KnotPt ℤ ℤ ℚ))) :=
  C44_vectors_rejected _ _ _ _ (by simp)

/-- With a single state and no control the constructor reads out of range. -/
theorem C44_vectors_empty (R : Rounding K) (x : X) (t : K) :
    ofVectors R [x] ([] : List U) [t] = .error .undefined := rfl

end vectors
end Altro.Props
