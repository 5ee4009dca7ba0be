import Verif.Proofs.DoubleOrder
import Verif.Model.Options
import Verif.Props.ILQRBackward
import Verif.Props.ALLimits

/-!
# C82: solving with `double`
-/

namespace Altro.Props
open Altro.Spec Altro.ILQR Altro.Dbl
variable {X U C D : Type} {P : Kernel X U Dbl C D} {o : Opts Dbl} {f lo hi : ℚ}

/-! ## The regularization -/

/-- What holds after the first change of the regularization. -/
def RegIn (lo hi : ℚ) (s : St X U Dbl C D) : Prop := (∃ r, lo ≤ r ∧ r ≤ hi ∧ s.rho = .num r) ∧ AtLeast 0 s.drho

/-- .. and what holds before it, too. -/
def RegInv (lo hi : ℚ) (s : St X U Dbl C D) : Prop := (Finite s.rho ∧ s.drho = .num 0) ∨ RegIn lo hi s

theorem increase_fst (h : RegOk o f lo hi) {s : St X U Dbl C D} (hs : RegInv lo hi s) :
    RegIn lo hi (increaseReg o s) ∧ AtLeast f (increaseReg o s).drho := by
  have hf : 0 < f := one_pos.trans h.one_lt
  have hd : AtLeast f (increaseReg o s).drho := by
    show AtLeast f (Arith.smax (s.drho * o.regFactor) o.regFactor)
    rw [h.factor]
    have h0 : AtLeast 0 s.drho := by
      rcases hs with ⟨-, e⟩ | hs
      · rw [e]; exact .inr ⟨0, le_rfl, rfl⟩
      · exact hs.2
    exact (smax_atLeast (h0.mul_num le_rfl hf)).mono (le_max_right _ _)
  refine ⟨⟨?_, hd.mono hf.le⟩, hd⟩
  show ∃ r, _ ∧ _ ∧ Arith.smin (Arith.smax (s.rho * (increaseReg o s).drho) o.regMin) o.regMax = .num r
  rw [h.min, h.max]
  refine clamp ?_ h.pos h.le
  rcases hs with ⟨e1, e2⟩ | ⟨⟨r, h1, h2, e⟩, -⟩
  · have : (increaseReg o s).drho = .num f := by
      show Arith.smax (s.drho * o.regFactor) o.regFactor = _
      rw [h.factor, e2, Dbl.mul_nonneg le_rfl hf.le, zero_mul]
      have : Dbl.round false 0 = .num 0 := by simp [Dbl.round, f64, ieee_zero]
      rw [this]
      unfold Arith.smax
      rw [lt_num, if_pos (decide_eq_true hf)]
    rw [this]
    exact finite_mul_num e1 _
  · rw [e]
    exact (AtLeast.num_mul h.pos h1 hd hf.le).ne_nan

theorem decrease_in (h : RegOk o f lo hi) {s : St X U Dbl C D} (hs : RegInv lo hi s) : RegIn lo hi (decreaseReg o s) := by
  have hf : 0 < f := one_pos.trans h.one_lt
  have h0 : AtLeast 0 s.drho := by
    rcases hs with ⟨-, e⟩ | hs
    · rw [e]; exact .inr ⟨0, le_rfl, rfl⟩
    · exact hs.2
  have h1 : ∃ q, 0 ≤ q ∧ (1 : Dbl) / .num f = .num q := by
    have : (1 : Dbl) / .num f = Dbl.round false (1 / f) := by
      show (if f = 0 then _ else Dbl.round (decide ((1 : ℚ) < 0) != decide (f < 0)) (1 / f)) = _
      rw [if_neg hf.ne', decide_eq_false (not_lt.mpr hf.le)]
      rfl
    rw [this]
    exact round_small (by positivity) (by rw [div_le_one hf]; exact h.one_lt.le)
  obtain ⟨q, hq, e1⟩ := h1
  have hd : ∃ t, 0 ≤ t ∧ (decreaseReg o s).drho = .num t := by
    show ∃ t, 0 ≤ t ∧ Arith.smin (s.drho / o.regFactor) (1 / o.regFactor) = .num t
    rw [h.factor, e1]
    obtain ⟨r, a1, _, a3⟩ := smin_atLeast (b := q) (h0.div_num hf)
    exact ⟨r, (le_min le_rfl hq).trans a1, a3⟩
  obtain ⟨t, ht, e2⟩ := hd
  refine ⟨?_, .inr ⟨t, ht, e2⟩⟩
  show ∃ r, _ ∧ _ ∧ Arith.smin (Arith.smax (s.rho * (decreaseReg o s).drho) o.regMin) o.regMax = .num r
  rw [h.min, h.max, e2]
  refine clamp (finite_mul_num ?_ _) h.pos h.le
  rcases hs with ⟨e, -⟩ | ⟨⟨r, _, _, e⟩, -⟩
  · exact e
  · rw [e]; exact .inr ⟨r, rfl⟩

/-- Lower bounds of the regularization and of its factor after `k + 1` failures in a row. -/
def growth (f lo hi : ℚ) : ℕ → ℚ × ℚ
  | 0 => (lo, f)
  | k + 1 =>
    let b := max (f64 ((growth f lo hi k).2 * f)) f
    (min (max (f64 ((growth f lo hi k).1 * b)) lo) hi, b)

theorem growth_lo (hl : lo ≤ hi) (k : ℕ) : lo ≤ (growth f lo hi k).1 := by
  cases k with
  | zero => exact le_rfl
  | succ k => exact le_min (le_max_right _ _) hl

theorem growth_f (k : ℕ) : f ≤ (growth f lo hi k).2 := by
  cases k with
  | zero => exact le_rfl
  | succ k => exact le_max_right _ _

theorem increase_growth (h : RegOk o f lo hi) {k : ℕ} {s : St X U Dbl C D}
    (h1 : ∃ r, (growth f lo hi k).1 ≤ r ∧ r ≤ hi ∧ s.rho = .num r) (h2 : AtLeast (growth f lo hi k).2 s.drho) :
    (∃ r, (growth f lo hi (k + 1)).1 ≤ r ∧ r ≤ hi ∧ (increaseReg o s).rho = .num r) ∧
    AtLeast (growth f lo hi (k + 1)).2 (increaseReg o s).drho := by
  have hf : 0 < f := one_pos.trans h.one_lt
  have hb : AtLeast (growth f lo hi (k + 1)).2 (increaseReg o s).drho := by
    show AtLeast _ (Arith.smax (s.drho * o.regFactor) o.regFactor)
    rw [h.factor]
    exact smax_atLeast (h2.mul_num (hf.le.trans (growth_f k)) hf)
  refine ⟨?_, hb⟩
  obtain ⟨r, a1, a2, e⟩ := h1
  have hpos : 0 < (growth f lo hi k).1 := h.pos.trans_le (growth_lo h.le k)
  have := AtLeast.num_mul hpos a1 hb (hf.le.trans (growth_f _))
  obtain ⟨r', b1, b2, b3⟩ := smin_atLeast (b := hi) (smax_atLeast (b := lo) this)
  refine ⟨r', b1, b2, ?_⟩
  show Arith.smin (Arith.smax (s.rho * (increaseReg o s).drho) o.regMin) o.regMax = _
  rw [h.min, h.max, e]
  exact b3

theorem increase_at_max (h : RegOk o f lo hi) {s : St X U Dbl C D} (h1 : s.rho = .num hi) (h2 : AtLeast 1 s.drho) :
    (increaseReg o s).rho = .num hi ∧ AtLeast 1 (increaseReg o s).drho := by
  have hf : 0 < f := one_pos.trans h.one_lt
  have hhi : 0 < hi := h.pos.trans_le h.le
  have hb : AtLeast 1 (increaseReg o s).drho := by
    show AtLeast _ (Arith.smax (s.drho * o.regFactor) o.regFactor)
    rw [h.factor]
    exact (smax_atLeast (h2.mul_num zero_le_one hf)).mono (le_max_of_le_right h.one_lt.le)
  refine ⟨?_, hb⟩
  have := AtLeast.num_mul hhi le_rfl hb zero_le_one
  rw [mul_one, h.maxOk] at this
  obtain ⟨r', b1, b2, b3⟩ := smin_atLeast (b := hi) (smax_atLeast (b := lo) this)
  show Arith.smin (Arith.smax (s.rho * (increaseReg o s).drho) o.regMin) o.regMax = _
  rw [h.min, h.max, h1, b3]
  rw [max_eq_left h.le, min_self] at b1
  rw [le_antisymm b2 b1]

/-! ## The backward pass -/

theorem dbl_at_max (h : RegOk o f lo hi) (hN : 0 < P.N) : ∀ (fuel count : ℕ) (s : St X U Dbl C D), s.rho = .num hi →
    AtLeast 1 s.drho → o.regFailThreshold - count ≤ fuel → 0 < fuel → bpLoop P o fuel count s ≠ none := by
  intro fuel
  induction fuel with
  | zero => intro _ _ _ _ _ h; omega
  | succ fuel ih =>
    intro count s h1 h2 hfuel _
    unfold bpLoop
    extract_lets r s1 s2 count'
    obtain ⟨e1, e2⟩ := increase_at_max h (s := s1) h1 h2
    have hc : count' = count + 1 := if_pos (by show Arith.le o.regMax s2.rho = true; rw [e1, h.max]; simp)
    split
    · rw [if_neg (by omega)]; simp
    · split
      · simp
      · rename_i hlt
        rw [hc] at hlt ⊢
        have : (count : ℤ) + 1 < o.regFailThreshold := by push_cast at hlt; omega
        refine ih _ _ e1 e2 ?_ ?_ <;> push_cast at * <;> omega

theorem dbl_below_max (h : RegOk o f lo hi) (hN : 0 < P.N) : ∀ (j k fuel count : ℕ) (s : St X U Dbl C D),
    (∃ r, (growth f lo hi k).1 ≤ r ∧ r ≤ hi ∧ s.rho = .num r) → AtLeast (growth f lo hi k).2 s.drho →
    hi ≤ (growth f lo hi (k + j + 1)).1 → j + o.regFailThreshold - count ≤ fuel → 0 < fuel →
    bpLoop P o fuel count s ≠ none := by
  intro j
  induction j with
  | zero =>
    intro k fuel count s h1 h2 hj hfuel hpos
    obtain ⟨fuel, rfl⟩ : ∃ n, fuel = n + 1 := ⟨fuel - 1, by omega⟩
    unfold bpLoop
    extract_lets r s1 s2 count'
    obtain ⟨⟨q, a1, a2, e1⟩, e2⟩ := increase_growth h (s := s1) h1 h2
    have hq : q = hi := le_antisymm a2 (hj.trans a1)
    subst hq
    have hc : count' = count + 1 := if_pos (by show Arith.le o.regMax s2.rho = true; rw [e1, h.max]; simp)
    split
    · rw [if_neg (by omega)]; simp
    · split
      · simp
      · rename_i hlt
        rw [hc] at hlt ⊢
        have : (count : ℤ) + 1 < o.regFailThreshold := by push_cast at hlt; omega
        refine dbl_at_max h hN _ _ _ e1 (e2.mono (h.one_lt.le.trans (growth_f _))) ?_ ?_ <;> push_cast at * <;> omega
  | succ j ih =>
    intro k fuel count s h1 h2 hj hfuel hpos
    obtain ⟨fuel, rfl⟩ : ∃ n, fuel = n + 1 := ⟨fuel - 1, by omega⟩
    unfold bpLoop
    extract_lets r s1 s2 count'
    obtain ⟨e1, e2⟩ := increase_growth h (s := s1) h1 h2
    have hc : count ≤ count' := by
      simp only [count']
      split <;> omega
    split
    · rw [if_neg (by omega)]; simp
    · split
      · simp
      · rename_i hlt
        clear_value count'
        refine ih (k + 1) _ _ _ e1 e2 (by rw [show k + 1 + j + 1 = k + (j + 1) + 1 by omega]; exact hj) ?_ ?_ <;>
          push_cast at * <;> omega

/-- The number of sweeps of one backward pass. -/
theorem dbl_backwardPass (h : RegOk o f lo hi) (hN : 0 < P.N) {j fuel : ℕ} (hj : hi ≤ (growth f lo hi (j + 1)).1)
    (hfuel : j + 1 + o.regFailThreshold ≤ fuel) (hpos : 0 < fuel) {s : St X U Dbl C D} (hs : RegInv lo hi s) :
    backwardPass P o fuel s ≠ none := by
  have key : ∀ s : St X U Dbl C D, RegInv lo hi s → bpLoop P o fuel 0 s ≠ none := by
    intro s hs
    obtain ⟨fuel, rfl⟩ : ∃ n, fuel = n + 1 := ⟨fuel - 1, by omega⟩
    unfold bpLoop
    extract_lets r s1 s2 count'
    obtain ⟨⟨e1, _⟩, e2⟩ := increase_fst h (s := s1) hs
    split
    · rw [if_neg (by omega)]; simp
    · split
      · simp
      · rename_i hlt
        refine dbl_below_max h hN j 0 _ _ s2 e1 e2 (by rwa [Nat.zero_add]) ?_ ?_ <;> push_cast at * <;> omega
  unfold backwardPass
  split
  · rename_i hn; exact absurd hn (key _ hs)
  · simp

/-- The bound exists for all usable settings. -/
theorem growth_reaches (h : RegOk o f lo hi) : ∃ j, hi ≤ (growth f lo hi (j + 1)).1 := by
  have hf := f64_above_one h.factorOk h.one_lt
  set c : ℚ := 1 + 1 / 2 ^ 54 with hc
  have hgrow : ∀ k, c ^ k ≤ (growth f lo hi k).2 := by
    intro k
    induction k with
    | zero => rw [pow_zero]; exact h.one_lt.le
    | succ k ih =>
      refine le_trans ?_ (le_max_left _ _)
      have h1 : (1 : ℚ) ≤ (growth f lo hi k).2 := h.one_lt.le.trans (growth_f k)
      have h2 : (1 : ℚ) ≤ (growth f lo hi k).2 * f := by nlinarith [h.one_lt]
      refine le_trans ?_ (f64_ge h2)
      have h3 : c ≤ f * (1 - 1 / 2 ^ 53 - 1 / 2 ^ 60) := by
        have : (1 + 1 / 2 ^ 52) * (1 - 1 / 2 ^ 53 - 1 / 2 ^ 60 : ℚ) ≤ f * (1 - 1 / 2 ^ 53 - 1 / 2 ^ 60) :=
          mul_le_mul_of_nonneg_right hf (by norm_num)
        refine le_trans ?_ this
        rw [hc]; norm_num
      calc c ^ (k + 1) = c ^ k * c := pow_succ _ _
        _ ≤ (growth f lo hi k).2 * (f * (1 - 1 / 2 ^ 53 - 1 / 2 ^ 60)) :=
            mul_le_mul ih h3 (by positivity) (by linarith)
        _ = _ := by ring
  obtain ⟨k, hk⟩ := pow_unbounded_of_one_lt (hi / lo) (show (1 : ℚ) < c by rw [hc]; norm_num)
  rw [div_lt_iff₀ h.pos] at hk
  refine ⟨k, le_min (le_max_of_le_left ?_) le_rfl⟩
  have h1 := hgrow (k + 1)
  have h2 : c ^ k ≤ c ^ (k + 1) := pow_le_pow_right₀ (by rw [hc]; norm_num) (by omega)
  have h3 : hi ≤ (growth f lo hi k).1 * (growth f lo hi (k + 1)).2 := by
    calc hi ≤ c ^ k * lo := hk.le
      _ = lo * c ^ k := mul_comm _ _
      _ ≤ _ := mul_le_mul (growth_lo h.le k) (h2.trans h1) (by positivity) (h.pos.le.trans (growth_lo h.le k))
  have := f64_mono (h.pos.le.trans h.le) h3
  rwa [h.maxOk] at this

/-! ## The iterations -/

theorem dbl_bpLoop_inv (h : RegOk o f lo hi) (fuel : ℕ) : ∀ (count : ℕ) (s s' : St X U Dbl C D), RegInv lo hi s →
    bpLoop P o fuel count s = some s' → RegInv lo hi s' := by
  induction fuel with
  | zero => intro _ _ _ _ h; cases h
  | succ fuel ih =>
    intro count s s' hs hl
    unfold bpLoop at hl
    extract_lets r s1 s2 count' at hl
    have h2 := increase_fst h (s := s1) hs
    split at hl
    · split at hl
      · exact ih _ s1 _ hs hl
      · rw [← Option.some.inj hl]; exact hs
    · split at hl
      · rw [← Option.some.inj hl]; exact .inr h2.1
      · exact ih _ s2 _ (.inr h2.1) hl

theorem dbl_iterate_in (h : RegOk o f lo hi) {fuel : ℕ} {s s' : St X U Dbl C D} (hs : RegInv lo hi s)
    (hi' : iterate P o fuel s = some s') : RegIn lo hi s' := by
  obtain ⟨b, hbk, rfl⟩ := iterate_some P o hi'
  have hb : RegIn lo hi b := by
    unfold backwardPass at hbk
    split at hbk
    · cases hbk
    · rename_i b0 hb0
      rw [← Option.some.inj hbk]
      have := dbl_bpLoop_inv h fuel 0 _ b0 (by
        show RegInv lo hi { updateExpansions P s with kd := _, dV0 := 0, dV1 := 0 }
        show (Finite (updateExpansions P s).rho ∧ (updateExpansions P s).drho = _) ∨
          ((∃ r, _ ∧ _ ∧ (updateExpansions P s).rho = _) ∧ AtLeast 0 (updateExpansions P s).drho)
        rw [updateExpansions_rho, updateExpansions_drho]
        exact hs) hb0
      exact decrease_in h (s := { b0 with stats := b0.stats.log (some .reg) b0.rho }) this
  have hl := lineSearch_LSFrame P o (costSum P b) o.lsMax.toNat 1 (costSum P b) b
  have hq : RegIn lo hi (lineSearch P o (costSum P b) o.lsMax.toNat 1 (costSum P b) b).1.1 := by
    unfold RegIn
    rw [hl.rho, hl.drho]
    exact hb
  show RegIn lo hi (forwardPass P o b)
  rw [forwardPass_eq P o Dbl.orderLaws]
  simp only
  split
  · exact hq
  · exact (increase_fst h (.inr hq)).1

theorem start_reg (h : RegOk o f lo hi) (s : St X U Dbl C D) : RegInv lo hi (start P o s) := by
  left
  refine ⟨?_, ?_⟩
  · rw [(start_facts P o s).2.2.2.2.2.2.2.2]; exact h.init
  · show (cost P _ _).2.drho = _
    rw [cost_drho]; rfl

theorem dbl_solveLoop (h : RegOk o f lo hi) (hN : 0 < P.N) {j fuel : ℕ} (hj : hi ≤ (growth f lo hi (j + 1)).1)
    (hfuel : j + 1 + o.regFailThreshold ≤ fuel) (hpos : 0 < fuel) (r : ℕ) :
    ∀ s : St X U Dbl C D, RegInv lo hi s → solveLoop P o fuel r s ≠ none := by
  induction r with
  | zero => intro s _; simp [solveLoop]
  | succ r ih =>
    intro s hs
    unfold solveLoop
    split
    · rename_i hn
      unfold iterate at hn
      split at hn
      · rename_i hb
        refine absurd hb (dbl_backwardPass h hN hj hfuel hpos ?_)
        unfold RegInv RegIn
        rw [updateExpansions_rho, updateExpansions_drho]
        exact hs
      · cases hn
    · rename_i s1 h1
      simp only
      split
      · simp
      · have := dbl_iterate_in h hs h1
        refine ih _ ?_
        rw [isDone_frame]
        exact .inr this

/-- **C82.**  In `double` arithmetic, for every problem with at least one segment, whatever its functions return, every solve
of the inner solver returns when the regularization settings are usable: there is a number of sweeps that no backward pass
exceeds. -/
theorem C82_inner_returns (h : RegOk o f lo hi) : ∃ fuel, ∀ {X U C D : Type} (P : Kernel X U Dbl C D), 0 < P.N →
    ∀ s : St X U Dbl C D, (solve P o fuel s).isSome := by
  obtain ⟨j, hj⟩ := growth_reaches h
  refine ⟨j + 1 + o.regFailThreshold.toNat, fun P hN s => ?_⟩
  rw [Option.isSome_iff_ne_none]
  exact dbl_solveLoop h hN hj (by omega) (by omega) _ _ (start_reg h s)

/-- **C82.**  .. and every solve of the augmented Lagrangian solver. -/
theorem C82_returns (h : RegOk o f lo hi) : ∃ fuel, ∀ {X U C D : Type} (P : Kernel X U Dbl C D) (A : CostOps C Dbl), 0 < P.N →
    ∀ s : ALSt X U Dbl C D, (AL.solve P A o (solve P o fuel) s).isSome := by
  obtain ⟨fuel, h⟩ := C82_inner_returns h
  exact ⟨fuel, fun P A hN s => C12_returns P A o (h P hN) s⟩

/-- **C82.**  The regularization after a solve is a number within its limits (not NaN, not infinite). -/
theorem C82_regularization (h : RegOk o f lo hi) (hmax : 1 ≤ o.maxInner) {fuel : ℕ} {s s' : St X U Dbl C D}
    (hs : solve P o fuel s = some s') : ∃ r, lo ≤ r ∧ r ≤ hi ∧ s'.rho = .num r := by
  obtain ⟨r, hr⟩ : ∃ r, o.maxInner.toNat = r + 1 := ⟨o.maxInner.toNat - 1, by omega⟩
  unfold solve at hs
  rw [hr] at hs
  unfold solveLoop at hs
  split at hs
  · cases hs
  · rename_i s1 h1
    have e1 : RegIn lo hi (isDone o s1).1 := by
      have := dbl_iterate_in h (start_reg h s) h1
      rw [isDone_frame]; exact this
    simp only at hs
    split at hs
    · rw [← Option.some.inj hs]; exact e1.1
    · exact (solveLoop_inv P o (RegIn lo hi) fuel (fun a a' ha h' => dbl_iterate_in h (.inr ha) h') (fun a st ha => ha) r _ _
        e1 hs).1

/-! ## The default options -/

/-- The defaults, in `double`. -/
abbrev dblDefaults : Opts Dbl := Opts.default Dbl.lit

theorem dblDefaults_ok : RegOk dblDefaults (3602879701896397 / 2 ^ 51) (3022314549036573 / 2 ^ 78) (10 ^ 8) where
  factor := by decide +kernel
  factorOk := by decide +kernel
  one_lt := by norm_num
  min := by decide +kernel
  pos := by norm_num
  max := by decide +kernel
  maxOk := by decide +kernel
  le := by norm_num
  init := .inr ⟨0, by decide +kernel⟩

/-- **C82.**  The arithmetic is that of IEEE 754: invalid operations give NaN, division of a nonzero number by zero is infinite with
the sign of the quotient, NaN is contagious and compares false with everything; operations on finite numbers whose exact result is
representable are exact. -/
theorem C82_ieee (x : Dbl) (s : Bool) :
    (0 : Dbl) / 0 = .nan ∧ Dbl.inf s / .inf s = .nan ∧ Dbl.inf s - .inf s = .nan ∧ Dbl.inf s + Dbl.inf (!s) = .nan ∧
    Dbl.inf s * 0 = .nan ∧ 0 * Dbl.inf s = .nan ∧
    (∀ q : ℚ, q ≠ 0 → Dbl.num q / 0 = .inf (decide (q < 0)) ∧ Dbl.num q / .nzero = .inf (!decide (q < 0)) ∧ Dbl.num q / .inf false = if q < 0 then .nzero else 0) ∧
    Dbl.inf s + .inf s = .inf s ∧ (∀ q : ℚ, Dbl.inf s + .num q = .inf s ∧ Dbl.num q - .inf s = Dbl.inf (!s)) ∧
    (Dbl.nan + x = .nan ∧ x + .nan = .nan ∧ Dbl.nan * x = .nan ∧ x * .nan = .nan ∧ Dbl.nan / x = .nan ∧ x / .nan = .nan) ∧
    (Arith.lt .nan x = false ∧ Arith.lt x .nan = false ∧ Arith.le .nan x = false ∧ Arith.le x .nan = false) ∧
    (∀ a b : ℚ, Dbl.Ok (.num (a + b)) → Dbl.num a + .num b = .num (a + b)) ∧
    (∀ a b : ℚ, b ≠ 0 → a / b ≠ 0 → Dbl.Ok (.num (a / b)) → Dbl.num a / .num b = .num (a / b)) ∧
    (∀ a b : ℚ, a * b ≠ 0 → Dbl.Ok (.num (a * b)) → Dbl.num a * .num b = .num (a * b)) := by
  have hround : ∀ (s : Bool) (q : ℚ), q ≠ 0 → Dbl.Ok (.num q) → Dbl.round s q = .num q := by
    intro s q hq h
    obtain ⟨h1, h2⟩ := h
    simp only [Dbl.round, h1]
    rw [if_neg hq, if_neg (not_le.mpr h2)]
  refine ⟨by decide +kernel, by cases s <;> rfl, by cases s <;> rfl, by cases s <;> rfl, by cases s <;> rfl, by cases s <;> rfl,
    fun q hq => ?_, by cases s <;> rfl, fun q => ⟨rfl, ?_⟩, ?_, ?_, fun a b h => ?_, fun a b hb hq h => ?_, fun a b hq h => ?_⟩
  · refine ⟨?_, ?_, ?_⟩
    · show Dbl.divFin q 0 (decide (q < 0) != decide ((0 : ℚ) < 0)) = _
      simp [Dbl.divFin, hq]
    · show Dbl.divFin q 0 (decide (q < 0) != true) = _
      simp [Dbl.divFin, hq]
    · show (if (decide (q < 0) != false) then Dbl.nzero else .num 0) = _
      by_cases h : q < 0 <;> simp [h] <;> rfl
  · rfl
  · cases x <;> exact ⟨rfl, rfl, rfl, rfl, rfl, rfl⟩
  · cases x <;> exact ⟨rfl, rfl, rfl, rfl⟩
  · show Dbl.round (if a + b = 0 then false else _) (a + b) = _
    by_cases h0 : a + b = 0
    · rw [if_pos h0, h0]
      simp [Dbl.round, f64, ieee_zero]
    · exact hround _ _ h0 h
  · show (if b = 0 then _ else Dbl.round _ (a / b)) = _
    rw [if_neg hb]
    exact hround _ _ hq h
  · exact hround _ _ hq h

/-- **C82.**  The two zeros: negation flips the sign bit of everything but NaN and undoes itself, a difference of equal finite numbers is
the positive zero, sums keep the negative zero only when both terms are negative zeros, and the zeros compare equal. -/
theorem C82_zeros : (∀ x : Dbl, x ≠ .nan → (-x).neg? = !x.neg?) ∧ (∀ x : Dbl, - -x = x) ∧ -(.nan : Dbl) = .nan ∧
    (∀ q : ℚ, Dbl.num q - .num q = 0) ∧ Dbl.nzero - .nzero = 0 ∧ Dbl.nzero - 0 = .nzero ∧ (0 : Dbl) - .nzero = 0 ∧
    Dbl.nzero + .nzero = .nzero ∧ Dbl.nzero + 0 = 0 ∧ (0 : Dbl) + .nzero = 0 ∧
    Dbl.nzero * 0 = .nzero ∧ Dbl.nzero * .nzero = 0 ∧ (∀ q : ℚ, 0 < q → Dbl.nzero / .num q = .nzero ∧ Dbl.nzero / .num (-q) = 0) ∧
    Arith.lt Dbl.nzero 0 = false ∧ Arith.lt 0 Dbl.nzero = false ∧ Arith.le Dbl.nzero 0 = true ∧ Arith.le 0 Dbl.nzero = true := by
  have h0 : f64 0 = 0 := by decide +kernel
  refine ⟨fun x hx => ?_, fun x => ?_, rfl, fun q => ?_, by decide +kernel, by decide +kernel, by decide +kernel, by decide +kernel,
    by decide +kernel, by decide +kernel, by decide +kernel, by decide +kernel, fun q hq => ⟨?_, ?_⟩, by decide +kernel, by decide +kernel,
    by decide +kernel, by decide +kernel⟩
  · cases x with
    | nan => exact absurd rfl hx
    | inf s => rfl
    | nzero => rfl
    | num q =>
      show (if q = 0 then Dbl.nzero else .num (-q)).neg? = !decide (q < 0)
      rcases lt_trichotomy q 0 with h | h | h
      · rw [if_neg h.ne]; simp [Dbl.neg?, h, h.le]
      · rw [if_pos h, h]; rfl
      · rw [if_neg h.ne']; simp [Dbl.neg?, h, h.le]
  · cases x with
    | nan => rfl
    | inf s => cases s <;> rfl
    | nzero => rfl
    | num q =>
      show Dbl.neg (if q = 0 then Dbl.nzero else .num (-q)) = _
      by_cases h : q = 0
      · rw [if_pos h, h]; rfl
      · rw [if_neg h]
        show (if -q = 0 then Dbl.nzero else .num (- -q)) = _
        rw [if_neg (neg_ne_zero.mpr h), neg_neg]
  · show Dbl.add (.num q) (if q = 0 then Dbl.nzero else .num (-q)) = .num 0
    by_cases h : q = 0
    · rw [if_pos h, h]; decide +kernel
    · rw [if_neg h]
      show Dbl.round (if q + -q = 0 then false else _) (q + -q) = _
      simp [Dbl.round, h0]
  · show Dbl.divFin 0 q (true != decide (q < 0)) = _
    simp [Dbl.divFin, hq.ne', Dbl.round, h0, hq.le]
  · show Dbl.divFin 0 (-q) (true != decide (-q < 0)) = .num 0
    simp [Dbl.divFin, hq.ne', Dbl.round, h0, hq]

/-- **C82.**  A literal with a minus sign is the negative of the literal without, also if it underflows or overflows. -/
theorem C82_literal_neg {x : ℚ} (hx : 0 < x) : Dbl.lit (-x) = (Dbl.lit x).neg := by
  have e : f64 (-x) = -f64 x := f64_neg x
  have h1 : decide (-x < 0) = true := by simpa using hx
  have h2 : decide (x < 0) = false := by simpa using hx.le
  unfold Dbl.lit
  rw [h1, h2]
  unfold Dbl.round
  rw [e]
  simp only [neg_eq_zero, abs_neg]
  split
  · simp [Dbl.neg]
  · split
    · rfl
    · rename_i h _
      simp [Dbl.neg, h]

/-- The same at the edges of the format. -/
example : Dbl.lit (-2 ^ 1024) = .inf true ∧ Dbl.lit (2 ^ 1024) = .inf false ∧ Dbl.lit (-1 / 2 ^ 1080) = .nzero := by decide +kernel

/-- **C82.**  The default options, as the `double`s the literals of the source stand for. -/
theorem C82_default_values : dblDefaults.maxTotal = 300 ∧ dblDefaults.maxOuter = 30 ∧ dblDefaults.maxInner = 100 ∧
    dblDefaults.regFailThreshold = 100 ∧ dblDefaults.lsMax = 20 ∧ dblDefaults.checkBounds = true ∧ dblDefaults.resetDuals = true ∧
    dblDefaults.regInitial = .num 0 ∧ dblDefaults.regMax = .num (10 ^ 8) ∧ dblDefaults.stateMax = .num (10 ^ 8) ∧
    dblDefaults.controlMax = .num (10 ^ 8) ∧ dblDefaults.maxPenalty = .num (10 ^ 8) ∧ dblDefaults.initialPenalty = .num 1 ∧
    dblDefaults.lsUpper = .num 10 ∧
    -- step lengths 1, 1/2, 1/4, ...; the last of the twenty is still positive
    (∀ i : ℕ, i < 20 → (stepLength dblDefaults.lsFactor i : Dbl) = .num (1 / 2 ^ i)) ∧
    dblDefaults.costTol = .num (7378697629483821 / 2 ^ 66) ∧ dblDefaults.conTol = .num (7378697629483821 / 2 ^ 66) ∧
    dblDefaults.gradTol = .num (5764607523034235 / 2 ^ 59) ∧ dblDefaults.lsLower = .num (3022314549036573 / 2 ^ 78) ∧
    dblDefaults.regMin = .num (3022314549036573 / 2 ^ 78) ∧ dblDefaults.regFactor = .num (3602879701896397 / 2 ^ 51) := by
  decide +kernel

/-- **C82.**  With the default options, in `double` arithmetic, for every problem with at least one segment and whatever its
functions return (NaN and infinities included): the solve returns; there are between 1 and 30 outer iterations and at most
300 iterations in all; no backward pass makes more than 112 sweeps; the status is not `kUnsolved`, and it is `kSolved` exactly
if the last inner solve was and the last violation is below the tolerance. -/
theorem C82_default (A : CostOps C Dbl) (hN : 0 < P.N) (s : ALSt X U Dbl C D) :
    ∃ s', AL.solve P A dblDefaults (solve P dblDefaults 112) s = some s' ∧
      1 ≤ s'.st.stats.outer ∧ s'.st.stats.outer ≤ 30 ∧ s'.st.stats.total ≤ 300 ∧ s'.status ≠ .kUnsolved ∧
      (s'.status = .kSolved ↔
        s'.st.status = .kSolved ∧ Arith.lt (Stats.back (s'.st.stats.col .viol)) (Dbl.lit (1 / 10 ^ 4)) = true) := by
  have hj : (10 ^ 8 : ℚ) ≤ (growth (3602879701896397 / 2 ^ 51) (3022314549036573 / 2 ^ 78) (10 ^ 8) (11 + 1)).1 := by
    decide +kernel
  have hin : ∀ a : St X U Dbl C D, (solve P dblDefaults 112 a).isSome := by
    intro a
    rw [Option.isSome_iff_ne_none]
    exact dbl_solveLoop dblDefaults_ok hN hj (by decide) (by decide) _ _ (start_reg dblDefaults_ok a)
  obtain ⟨s', hs'⟩ := Option.isSome_iff_exists.mp (C12_returns P A dblDefaults hin s)
  have hk := C11_inner_ok P dblDefaults 112
  have hmax : 1 ≤ dblDefaults.maxOuter := by decide
  obtain ⟨b1, b2, b3⟩ := C12_bounds hk hmax s s' hs'
  have b4 := C12_total 112 hmax (by decide) s s' hs'
  refine ⟨s', hs', b1, ?_, ?_, fun hu => ?_, C11_solved_iff hk hmax s s' hs'⟩
  · exact Int.ofNat_le.mp b2
  · exact Int.ofNat_le.mp b4
  · obtain ⟨a, t, ht, e, _⟩ := C11_last_inner hk hmax s s' hs'
    exact C19_never_unsolved P dblDefaults Dbl.orderLaws 112 a t (by decide) ht (e ▸ b3 hu)

/-- **C82.**  .. and the inner solver makes between 1 and 100 iterations, ends with a regularization between `1e-8` and `1e8`,
with a status that means what it says, and never returns a trajectory that costs more than the one it started from, as
compared in `double` arithmetic. -/
theorem C82_default_inner (hN : 0 < P.N) (L : CostLaw P) (s : St X U Dbl C D) (Z0 : Traj X U Dbl) (hZ0 : DynFeasible P Z0)
    (hu : ∀ k ≤ P.N, Z0.u k = s.Z.u k) (ht : SameTimes P Z0 s.Z) :
    ∃ s', solve P dblDefaults 112 s = some s' ∧ StatusMeaning dblDefaults s' ∧ 1 ≤ s'.stats.inner ∧ s'.stats.inner ≤ 100 ∧
      (∃ r, (3022314549036573 / 2 ^ 78 : ℚ) ≤ r ∧ r ≤ 10 ^ 8 ∧ s'.rho = .num r) ∧
      (L.total s.cs s'.Z = L.total s.cs Z0 ∨ Arith.lt (L.total s.cs s'.Z) (L.total s.cs Z0) = true) := by
  have hj : (10 ^ 8 : ℚ) ≤ (growth (3602879701896397 / 2 ^ 51) (3022314549036573 / 2 ^ 78) (10 ^ 8) (11 + 1)).1 := by
    decide +kernel
  have hin := dbl_solveLoop (P := P) dblDefaults_ok hN hj (fuel := 112) (by decide) (by decide) dblDefaults.maxInner.toNat (start P dblDefaults s)
    (start_reg dblDefaults_ok s)
  obtain ⟨s', hs'⟩ := Option.ne_none_iff_exists'.mp hin
  obtain ⟨c1, c2, c3, _⟩ := C19_status P dblDefaults Dbl.orderLaws 112 s s' (by decide) hs'
  exact ⟨s', hs', c1, c2, Int.ofNat_le.mp c3, C82_regularization dblDefaults_ok (by decide) hs',
    (C18_cost_never_increases dblDefaults L Dbl.orderLaws 112 s s' hs' Z0 hZ0 hu ht).2⟩

/-! ## Concrete problems -/

/-- Every function returns NaN and every factorization fails. -/
def brokenK : Kernel Dbl Dbl Dbl Unit Unit where
  N := 1
  x0 := .nan
  dyn _ _ _ _ _ := .nan
  cost _ c _ _ := (.nan, c)
  expand _ c _ _ _ _ d := (d, c)
  term d := d
  actionValue d _ := d
  regularize _ d := d
  gains d := (d, false)
  costToGo d := d
  delta _ := (.nan, .nan)
  policy _ _ _ _ _ := .nan
  gradTerm _ _ := .nan
  normX _ := .nan
  normU _ := .nan
  viol _ := .nan

def dblTraj (u : Dbl) : Traj Dbl Dbl Dbl where
  x _ := 0
  u k := if k = 0 then u else 0
  t k := Dbl.lit (k / 10)
  h _ := Dbl.lit (1 / 10)

def ieeeState {D : Type} (d : D) (u : Dbl) : St Dbl Dbl Dbl Unit D where
  Z := dblTraj u
  Zbar := dblTraj 0
  kd _ := d
  cs _ := ()
  costs _ := 0
  status := .kUnsolved
  rho := 0
  drho := 0
  dV0 := 0
  dV1 := 0
  stats := Stats.new

def dblOps : CostOps Unit Dbl where
  updateDuals c := c
  updatePenalties c := c
  resetDuals c := c
  setPenalty _ c := c
  maxPenalty _ := 0

/-- The bound of C82 is attained: this problem needs 112 sweeps of the backward pass. -/
theorem C82_sweeps_needed : backwardPass brokenK dblDefaults 111 (ieeeState () 0) = none ∧
    (backwardPass brokenK dblDefaults 112 (ieeeState () 0)).map (·.status) = some .kBackwardPassRegularizationFailed := by
  have h : (backwardPass brokenK dblDefaults 111 (ieeeState () 0)).isNone = true ∧
    (backwardPass brokenK dblDefaults 112 (ieeeState () 0)).map (·.status) = some .kBackwardPassRegularizationFailed := by
    decide +kernel
  exact ⟨Option.isNone_iff_eq_none.mp h.1, h.2⟩

example : ∃ s', AL.solve brokenK dblOps dblDefaults (solve brokenK dblDefaults 112) ⟨ieeeState () 0, .kSolved⟩ = some s' ∧
    s'.status ≠ .kUnsolved ∧ s'.st.stats.total ≤ 300 := by
  obtain ⟨s', h1, _, _, h2, h3, _⟩ := C82_default (P := brokenK) dblOps (by decide) ⟨ieeeState () 0, .kSolved⟩
  exact ⟨s', h1, h3, h2⟩

/-- Gradient, Hessian, gain. -/
structure DD where
  (lu luu d : Dbl)

/-- `|x|`. -/
def dblAbs (x : Dbl) : Dbl := if x.neg? then -x else x

/-- `x' = x + u`, cost `(u - 0.3)² / 2`. -/
def tenthK : Kernel Dbl Dbl Dbl Unit DD where
  N := 1
  x0 := 0
  dyn _ x u _ _ := x + u
  cost k c _ u := (if k = 0 then (u - Dbl.lit (3 / 10)) * (u - Dbl.lit (3 / 10)) / Dbl.lit 2 else 0, c)
  expand k c _ u _ _ d := (if k = 0 then { d with lu := u - Dbl.lit (3 / 10), luu := 1 } else { d with lu := 0, luu := 0 }, c)
  term d := d
  actionValue d _ := d
  regularize rho d := { d with luu := d.luu + rho }
  gains d := if Arith.le d.luu 0 then (d, false) else ({ d with d := -(d.lu / d.luu) }, true)
  costToGo d := d
  delta d := (d.d * d.lu, d.d * d.luu * d.d / Dbl.lit 2)
  policy d _ _ u alpha := u + d.d * alpha
  gradTerm d u := dblAbs d.d / (dblAbs u + 1)
  normX := dblAbs
  normU := dblAbs
  viol _ := 0

def tenthLaw : CostLaw tenthK where
  I := Unit
  inv c := c
  val k _ _ u := if k = 0 then (u - Dbl.lit (3 / 10)) * (u - Dbl.lit (3 / 10)) / Dbl.lit 2 else 0
  cost_val _ _ _ _ := rfl
  cost_inv _ _ _ _ := rfl
  expand_inv _ _ _ _ _ _ _ := rfl

/-- From `u = 0` the solver finds `0.3`, to the last bit, in two iterations. -/
example : ((AL.solve tenthK dblOps dblDefaults (solve tenthK dblDefaults 112) ⟨ieeeState ⟨0, 0, 0⟩ 0, .kUnsolved⟩).map
    fun s => (s.status, s.st.stats.total, s.st.Z.u 0)) = some (.kSolved, 2, Dbl.lit (3 / 10)) := by decide +kernel

/-- The hypotheses of the second theorem hold, here from a control that is NaN. -/
example (u : Dbl) : ∃ s', solve tenthK dblDefaults 112 (ieeeState ⟨0, 0, 0⟩ u) = some s' ∧ s'.stats.inner ≤ 100 := by
  obtain ⟨s', h1, _, _, h2, _⟩ := C82_default_inner (P := tenthK) (by decide) tenthLaw (ieeeState ⟨0, 0, 0⟩ u)
    { dblTraj u with x := fun k => if k = 0 then 0 else 0 + u }
    ⟨rfl, fun k hk => by
      have : k = 0 := by change k < 1 at hk; omega
      subst this; rfl⟩ (fun _ _ => rfl) ⟨fun _ _ => rfl, fun _ _ => rfl⟩
  exact ⟨s', h1, h2⟩

/-! ## Unusable settings -/

/-- Once the regularization is NaN, a backward pass whose factorizations fail never ends: `std::max(NaN, x)` is NaN. -/
theorem C82_nan_forever (hfail : ∀ d, (P.gains d).2 = false) (hN : 0 < P.N) (ho : 0 < o.regFailThreshold) :
    ∀ (fuel : ℕ) (s : St X U Dbl C D), s.rho = .nan → bpLoop P o fuel 0 s = none := by
  intro fuel
  induction fuel with
  | zero => intro _ _; rfl
  | succ fuel ih =>
    intro s hs
    have hsw : (bpSweep P s.rho P.N s.kd (s.dV0, s.dV1)).2 = false := by
      obtain ⟨n, hn⟩ : ∃ n, P.N = n + 1 := ⟨P.N - 1, by omega⟩
      rw [hn]
      unfold bpSweep
      simp [hfail]
    unfold bpLoop
    extract_lets r s1 s2 count'
    have hr : r.2 = false := hsw
    have h2 : s2.rho = .nan := by
      show Arith.smin (Arith.smax (s.rho * _) o.regMin) o.regMax = _
      rw [hs]
      have e1 : ∀ x : Dbl, (.nan : Dbl) * x = .nan := fun x => rfl
      have e2 : ∀ x : Dbl, Arith.smax .nan x = .nan := fun x => rfl
      have e3 : ∀ x : Dbl, Arith.smin .nan x = .nan := fun x => by cases x <;> rfl
      rw [e1, e2, e3]
    have hc : count' = 0 := if_neg (by
      show ¬ Arith.le o.regMax s2.rho = true
      rw [h2]
      have : ∀ x : Dbl, Arith.le x .nan = false := fun x => by cases x <;> rfl
      rw [this]; simp)
    rw [hr, if_neg (by simp), hc, if_neg (by push_cast; omega)]
    exact ih _ h2

/-- An infinite initial value becomes NaN after the first successful backward pass: the factor is zero then. -/
theorem C82_infinite_initial (hf : o.regFactor = .num f) (h1 : 1 < f) (s : St X U Dbl C D) (hr : s.rho = .inf false)
    (hd : s.drho = 0) : (decreaseReg o s).rho = .nan := by
  have hpos : 0 < f := one_pos.trans h1
  have e0 : (decreaseReg o s).drho = .num 0 := by
    show Arith.smin (s.drho / o.regFactor) (1 / o.regFactor) = _
    rw [hd, hf]
    have e1 : (0 : Dbl) / .num f = .num 0 := by
      show (if f = 0 then _ else Dbl.round (decide ((0 : ℚ) < 0) != decide (f < 0)) (0 / f)) = _
      rw [if_neg hpos.ne', decide_eq_false (not_lt.mpr hpos.le), zero_div]
      simp [Dbl.round, f64, ieee_zero]
    have e2 : ∃ q, 0 ≤ q ∧ (1 : Dbl) / .num f = .num q := by
      have : (1 : Dbl) / .num f = Dbl.round false (1 / f) := by
        show (if f = 0 then _ else Dbl.round (decide ((1 : ℚ) < 0) != decide (f < 0)) (1 / f)) = _
        rw [if_neg hpos.ne', decide_eq_false (not_lt.mpr hpos.le)]
        rfl
      rw [this]
      exact round_small (by positivity) (by rw [div_le_one hpos]; exact h1.le)
    obtain ⟨q, hq, e2⟩ := e2
    rw [e1, e2]
    unfold Arith.smin
    rw [lt_num, decide_eq_false (not_lt.mpr hq), if_neg (by simp)]
  show Arith.smin (Arith.smax (s.rho * (decreaseReg o s).drho) o.regMin) o.regMax = _
  rw [e0, hr]
  have e1 : (.inf false : Dbl) * .num 0 = .nan := rfl
  have e2 : ∀ x : Dbl, Arith.smax .nan x = .nan := fun x => rfl
  have e3 : ∀ x : Dbl, Arith.smin .nan x = .nan := fun x => by cases x <;> rfl
  rw [e1, e2, e3]

/-- Both happen: with a NaN, or after one iteration with an infinity. -/
example (fuel : ℕ) : bpLoop brokenK dblDefaults fuel 0 { ieeeState () 0 with rho := .nan } = none ∧
    (decreaseReg dblDefaults { ieeeState () 0 with rho := .inf false }).rho = .nan :=
  ⟨C82_nan_forever (fun _ => rfl) (by decide) (by decide) fuel _ rfl,
    C82_infinite_initial dblDefaults_ok.factor dblDefaults_ok.one_lt _ rfl rfl⟩

end Altro.Props
