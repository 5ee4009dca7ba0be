import Verif.Model.NaN
import Verif.Proofs.Constraints
import Verif.Props.ILQR
import Verif.Model.ALSolver

/-!
# C77: constraint values and costs that are not numbers
-/

namespace Altro.Props
open Altro Altro.NaN Altro.Spec Altro.ILQR

section numbers
variable {K : Type} [Field K] [LinearOrder K]

@[simp] theorem nx_zero : (0 : Nx K) = .num 0 := rfl
@[simp] theorem nx_one : (1 : Nx K) = .num 1 := rfl
@[simp] theorem nx_add (a b : K) : (.num a + .num b : Nx K) = .num (a + b) := rfl
@[simp] theorem nx_sub (a b : K) : (.num a - .num b : Nx K) = .num (a - b) := rfl
@[simp] theorem nx_mul (a b : K) : (.num a * .num b : Nx K) = .num (a * b) := rfl
@[simp] theorem nan_add (x : Nx K) : .nan + x = (.nan : Nx K) := rfl
@[simp] theorem nan_sub (x : Nx K) : .nan - x = (.nan : Nx K) := rfl
@[simp] theorem nan_mul (x : Nx K) : .nan * x = (.nan : Nx K) := rfl
@[simp] theorem nan_div (x : Nx K) : .nan / x = (.nan : Nx K) := rfl
@[simp] theorem add_nan (x : Nx K) : x + .nan = (.nan : Nx K) := by cases x <;> rfl
@[simp] theorem sub_nan (x : Nx K) : x - .nan = (.nan : Nx K) := by cases x <;> rfl
@[simp] theorem mul_nan (x : Nx K) : x * .nan = (.nan : Nx K) := by cases x <;> rfl
@[simp] theorem div_nan (x : Nx K) : x / .nan = (.nan : Nx K) := by cases x <;> rfl
theorem nx_div (a b : K) (h : b ≠ 0) : (.num a / .num b : Nx K) = .num (a / b) := by
  show Nx.div (.num a) (.num b) = _
  simp [Nx.div, h]
@[simp] theorem nx_lt (a b : K) : Arith.lt (Nx.num a) (Nx.num b) = decide (a < b) := rfl
@[simp] theorem nan_lt (x : Nx K) : Arith.lt (.nan) x = false := by cases x <;> rfl
@[simp] theorem lt_nan (x : Nx K) : Arith.lt x (.nan) = false := by cases x <;> rfl
@[simp] theorem nx_abs (a : K) : (Nx.num a).abs = .num |a| := rfl
@[simp] theorem nan_abs : (Nx.nan : Nx K).abs = .nan := rfl

@[simp] theorem smin0_num (a : K) : Arith.smin (Nx.num 0) (Nx.num a) = .num (min 0 a) := by
  unfold Arith.smin
  rcases lt_or_ge a 0 with h | h
  · simp [h, min_eq_right h.le]
  · simp [not_lt.mpr h, min_eq_left h]
@[simp] theorem smin0_nan : Arith.smin (Nx.num (0 : K)) .nan = .num 0 := rfl

@[simp] theorem smax_num (a b : K) : Arith.smax (Nx.num a) (Nx.num b) = .num (max a b) := by
  unfold Arith.smax
  rcases lt_or_ge a b with h | h
  · simp [h, max_eq_right h.le]
  · simp [not_lt.mpr h, max_eq_left h]
@[simp] theorem smax_num_nan (a : K) : Arith.smax (Nx.num a) .nan = .num a := rfl
@[simp] theorem smax_nan (x : Nx K) : Arith.smax (.nan) x = .nan := by cases x <;> rfl

/-! ## Norms -/

theorem foldl_smax_nan (l : List (Nx K)) : l.foldl (fun a y => Arith.smax a y.abs) .nan = .nan := by
  induction l with
  | nil => rfl
  | cons x l ih => simpa using ih

theorem foldl_smax_num (l : List (Nx K)) (a : K) : ∃ b, l.foldl (fun a y => Arith.smax a y.abs) (.num a) = .num b ∧
    ∀ t, b < t ↔ a < t ∧ ∀ y, .num y ∈ l → |y| < t := by
  induction l generalizing a with
  | nil => exact ⟨a, rfl, by simp⟩
  | cons x l ih =>
    cases x with
    | nan =>
      obtain ⟨b, h1, h2⟩ := ih a
      exact ⟨b, by simpa using h1, fun t => by rw [h2]; simp⟩
    | num y =>
      obtain ⟨b, h1, h2⟩ := ih (max a |y|)
      refine ⟨b, by simpa using h1, fun t => ?_⟩
      rw [h2, max_lt_iff]
      simp only [List.mem_cons, Nx.num.injEq]
      constructor
      · rintro ⟨⟨p, q⟩, r⟩
        exact ⟨p, fun z hz => hz.elim (fun e => e ▸ q) (r z)⟩
      · rintro ⟨p, q⟩
        exact ⟨⟨p, q y (.inl rfl)⟩, fun z hz => q z (.inr hz)⟩

/-- **C77, norms.**  The norm is NaN exactly when the first entry is; otherwise entries that are NaN are skipped. -/
theorem infNorm_nan (v : List (Nx K)) : infNorm v = .nan ↔ v.head? = some .nan := by
  cases v with
  | nil => simp [infNorm]
  | cons x l =>
    cases x with
    | nan => simp only [infNorm, nan_abs, foldl_smax_nan, List.head?_cons]
    | num a =>
      obtain ⟨b, h1, -⟩ := foldl_smax_num l |a|
      simp only [infNorm, nx_abs, h1, List.head?_cons, reduceCtorEq, Option.some.injEq]

theorem infNorm_lt (v : List (Nx K)) {t : K} (ht : 0 < t) :
    Arith.lt (infNorm v) (.num t) = true ↔ infNorm v ≠ .nan ∧ ∀ y, .num y ∈ v → |y| < t := by
  rw [ne_eq, infNorm_nan]
  cases v with
  | nil => simp [infNorm, ht]
  | cons x l =>
    cases x with
    | nan => simp only [infNorm, nan_abs, foldl_smax_nan, List.head?_cons, nan_lt]; simp
    | num a =>
      obtain ⟨b, h1, h2⟩ := foldl_smax_num l |a|
      simp only [infNorm, nx_abs, h1, List.head?_cons, nx_lt, decide_eq_true_eq, h2 t]
      simp

theorem infNorm_nonneg [IsStrictOrderedRing K] (v : List (Nx K)) {a : K} (h : infNorm v = .num a) : 0 ≤ a := by
  cases v with
  | nil => simp [infNorm] at h; rw [h]
  | cons x l =>
    cases x with
    | nan => simp [infNorm, foldl_smax_nan] at h
    | num y =>
      obtain ⟨b, e1, e2⟩ := foldl_smax_num l |y|
      simp only [infNorm, nx_abs, e1, Nx.num.injEq] at h
      subst h
      by_contra hc
      exact absurd ((e2 0).mp (not_le.mp hc)).1 (not_lt.mpr (abs_nonneg y))

/-- The form in which norms are nested. -/
theorem infNorm_num [IsStrictOrderedRing K] (v : List (Nx K)) {t : K} (ht : 0 < t) :
    (∃ a, infNorm v = .num a ∧ |a| < t) ↔ infNorm v ≠ .nan ∧ ∀ y, .num y ∈ v → |y| < t := by
  rw [← infNorm_lt v ht]
  cases h : infNorm v with
  | nan => simp
  | num a => simp [abs_of_nonneg (infNorm_nonneg v h)]

theorem infNorm_skip (a : K) (l l' : List (Nx K)) : infNorm (.num a :: (l ++ .nan :: l')) = infNorm (.num a :: (l ++ l')) := by
  simp only [infNorm, nx_abs, List.foldl_append, List.foldl_cons, nan_abs]
  obtain ⟨b, h1, -⟩ := foldl_smax_num l |a|
  rw [h1]; rfl

end numbers

section constraints
variable {K : Type} [Field K] [LinearOrder K] [IsStrictOrderedRing K]

/-! ## Specification -/

/-- The constraint value is a number and satisfies its constraint up to a tolerance. -/
def Holds (κ : ConKind) (t : K) (x : Nx K) : Prop :=
  ∃ y, x = .num y ∧ match κ with
    | .equality => |y| < t
    | .inequality => y < t

/-- Every constraint of every knot point holds up to a tolerance. -/
def AllHold (t : K) (l : List (NaN.Knot K)) : Prop :=
  ∀ s ∈ l, (∀ v ∈ s.eq, ∀ x ∈ v.c, Holds .equality t x) ∧ (∀ v ∈ s.ineq, ∀ x ∈ v.c, Holds .inequality t x)

/-- No constraint value is NaN. -/
def NoNaN (l : List (NaN.Knot K)) : Prop :=
  ∀ s ∈ l, (∀ v ∈ s.eq, ∀ x ∈ v.c, x.IsNum) ∧ (∀ v ∈ s.ineq, ∀ x ∈ v.c, x.IsNum)

/-! ## One constraint -/

theorem violation_eq (κ : ConKind) (c : List (Nx K)) : violation κ c =
    c.map fun x => x - match κ with
      | .equality => 0
      | .inequality => Arith.smin 0 x := by
  unfold violation
  cases κ <;> simp only [proj] <;> induction c with
    | nil => rfl
    | cons x l ih => simp only [List.map_cons, List.zipWith_cons_cons, ih]

theorem conMax_nan (κ : ConKind) (c : List (Nx K)) : conMax κ c = .nan ↔ c.head? = some .nan := by
  rw [conMax, infNorm_nan, violation_eq, List.head?_map]
  cases c with
  | nil => simp
  | cons x l =>
    cases x with
    | nan => simp
    | num a => cases κ <;> simp

theorem conMax_lt (κ : ConKind) (c : List (Nx K)) {t : K} (ht : 0 < t) :
    Arith.lt (conMax κ c) (.num t) = true ↔ c.head? ≠ some .nan ∧ ∀ x ∈ c, x ≠ .nan → Holds κ t x := by
  rw [conMax, infNorm_lt _ ht, ← conMax, ne_eq, conMax_nan]
  refine and_congr_right fun _ => ?_
  rw [violation_eq]
  simp only [List.mem_map]
  constructor
  · intro H x hx hn
    cases x with
    | nan => exact absurd rfl hn
    | num y =>
      cases κ with
      | equality => exact ⟨y, rfl, by simpa using H y ⟨.num y, hx, by simp⟩⟩
      | inequality =>
        refine ⟨y, rfl, ?_⟩
        have := H (y - min 0 y) ⟨.num y, hx, by simp⟩
        exact lt_of_le_of_lt (le_trans (by linarith [min_le_left 0 y]) (le_abs_self _)) this
  · rintro H z ⟨x, hx, hz⟩
    cases x with
    | nan => simp at hz
    | num y =>
      obtain ⟨y', e, h⟩ := H (.num y) hx (by simp)
      cases e
      cases κ with
      | equality => simp at hz; rw [← hz]; exact h
      | inequality =>
        simp at hz
        rw [← hz]
        rcases le_total 0 y with h0 | h0
        · rw [min_eq_left h0, sub_zero, abs_of_nonneg h0]; exact h
        · rw [min_eq_right h0, sub_self, abs_zero]; exact ht

/-! ## What the solver reports -/

/-- The first component of the first equality constraint of a knot point is NaN. -/
def FirstNaN (s : NaN.Knot K) : Prop := (s.eq.head?.bind fun v => v.c.head?) = some .nan

theorem knotMax_nan (s : NaN.Knot K) : knotMax s = .nan ↔ FirstNaN s := by
  rw [knotMax, infNorm_nan, List.head?_cons, Option.some.injEq, infNorm_nan, List.head?_map, FirstNaN]
  cases s.eq with
  | nil => simp
  | cons v l => simp [conMax_nan]

/-- **C77, what is reported (exact).**  The reported violation is NaN if and only if the first component of the first
equality constraint of the first knot point is NaN; a NaN anywhere else leaves it a number. -/
theorem C77_reported_nan (s : NaN.Knot K) (l : List (NaN.Knot K)) : solverMax (s :: l) = .nan ↔ FirstNaN s := by
  rw [solverMax, infNorm_nan, List.map_cons, List.head?_cons, Option.some.injEq, knotMax_nan]

theorem conMax_num (κ : ConKind) (c : List (Nx K)) {t : K} (ht : 0 < t) (hn : ∀ x ∈ c, x.IsNum) :
    (∃ a, conMax κ c = .num a ∧ |a| < t) ↔ ∀ x ∈ c, Holds κ t x := by
  have h : (∃ a, conMax κ c = .num a ∧ |a| < t) ↔ Arith.lt (conMax κ c) (.num t) = true := by
    rw [conMax, infNorm_num _ ht, infNorm_lt _ ht]
  rw [h, conMax_lt κ c ht]
  constructor
  · rintro ⟨-, h⟩ x hx
    refine h x hx ?_
    rintro rfl
    obtain ⟨_, e⟩ := hn _ hx
    cases e
  · intro H
    refine ⟨fun e => ?_, fun x hx _ => H x hx⟩
    obtain ⟨_, e⟩ := hn _ (List.mem_of_head? e)
    cases e

theorem norm_holds (κ : ConKind) {t : K} (ht : 0 < t) (l : List (CV K)) (hn : ∀ v ∈ l, ∀ x ∈ v.c, x.IsNum) :
    (∃ a, infNorm (l.map fun v => conMax κ v.c) = .num a ∧ |a| < t) ↔ ∀ v ∈ l, ∀ x ∈ v.c, Holds κ t x := by
  have nn : ∀ v ∈ l, conMax κ v.c ≠ .nan := by
    intro v hv e
    rw [conMax_nan] at e
    obtain ⟨_, h⟩ := hn v hv .nan (List.mem_of_head? e)
    cases h
  rw [infNorm_num _ ht]
  constructor
  · rintro ⟨-, h⟩ v hv
    rw [← conMax_num κ v.c ht (hn v hv)]
    cases hc : conMax κ v.c with
    | nan => exact absurd hc (nn v hv)
    | num a => exact ⟨a, rfl, h a (List.mem_map.mpr ⟨v, hv, hc⟩)⟩
  · intro H
    refine ⟨?_, fun y hy => ?_⟩
    · rw [ne_eq, infNorm_nan, List.head?_map]
      cases l with
      | nil => simp
      | cons v l => simpa using nn v (by simp)
    · obtain ⟨v, hv, e⟩ := List.mem_map.mp hy
      obtain ⟨a, e1, e2⟩ := (conMax_num κ v.c ht (hn v hv)).mpr (H v hv)
      rw [e1] at e; cases e
      exact e2

theorem norm_isNum (κ : ConKind) (l : List (CV K)) (hn : ∀ v ∈ l, ∀ x ∈ v.c, x.IsNum) :
    infNorm (l.map fun v => conMax κ v.c) ≠ .nan := by
  rw [ne_eq, infNorm_nan, List.head?_map]
  cases l with
  | nil => simp
  | cons v l =>
    simp only [List.head?_cons, Option.map_some, Option.some.injEq, conMax_nan]
    intro e
    obtain ⟨_, h⟩ := hn v (by simp) .nan (List.mem_of_head? e)
    cases h

theorem knotMax_num {t : K} (ht : 0 < t) (s : NaN.Knot K) (h1 : ∀ v ∈ s.eq, ∀ x ∈ v.c, x.IsNum)
    (h2 : ∀ v ∈ s.ineq, ∀ x ∈ v.c, x.IsNum) :
    (∃ a, knotMax s = .num a ∧ |a| < t) ↔
      (∀ v ∈ s.eq, ∀ x ∈ v.c, Holds .equality t x) ∧ (∀ v ∈ s.ineq, ∀ x ∈ v.c, Holds .inequality t x) := by
  rw [← norm_holds .equality ht s.eq h1, ← norm_holds .inequality ht s.ineq h2, knotMax, infNorm_num _ ht, ne_eq,
    infNorm_nan, List.head?_cons, Option.some.injEq]
  have e1 := norm_isNum .equality s.eq h1
  have e2 := norm_isNum .inequality s.ineq h2
  cases he : infNorm (s.eq.map fun v => conMax .equality v.c) with
  | nan => exact absurd he e1
  | num a =>
    cases hi : infNorm (s.ineq.map fun v => conMax .inequality v.c) with
    | nan => exact absurd hi e2
    | num b => simp

/-- **C77 (partial).**  If no constraint value is NaN, a violation below the tolerance is reported if and only if every
constraint holds up to the tolerance.  Missing: values that are NaN, for which a violation below the tolerance is reported
all the same (`C77_masked_knot_counterexample`, `C77_masked_inequalities_counterexample`, `C77_solved_counterexample`). -/
theorem C77_reported_partial {t : K} (ht : 0 < t) (l : List (NaN.Knot K)) (hn : NoNaN l) :
    Arith.lt (solverMax l) (.num t) = true ↔ AllHold t l := by
  have nn : ∀ s ∈ l, knotMax s ≠ .nan := by
    intro s hs e
    rw [knotMax_nan, FirstNaN] at e
    obtain ⟨v, hv, hx⟩ := Option.bind_eq_some_iff.mp e
    obtain ⟨_, h⟩ := (hn s hs).1 v (List.mem_of_head? hv) _ (List.mem_of_head? hx)
    cases h
  rw [solverMax, infNorm_lt _ ht]
  constructor
  · rintro ⟨-, h⟩ s hs
    rw [← knotMax_num ht s (hn s hs).1 (hn s hs).2]
    cases hc : knotMax s with
    | nan => exact absurd hc (nn s hs)
    | num a => exact ⟨a, rfl, h a (List.mem_map.mpr ⟨s, hs, hc⟩)⟩
  · intro H
    refine ⟨?_, fun y hy => ?_⟩
    · rw [ne_eq, infNorm_nan, List.head?_map]
      cases l with
      | nil => simp
      | cons v l => simpa using nn v (by simp)
    · obtain ⟨s, hs, e⟩ := List.mem_map.mp hy
      obtain ⟨a, e1, e2⟩ := (knotMax_num ht s (hn s hs).1 (hn s hs).2).mpr (H s hs)
      rw [e1] at e; cases e
      exact e2

/-- **C77 is false: a NaN hides a whole knot point.**  If the first component of the first equality constraint of a knot
point other than the first is NaN, what is reported is what would be reported without that knot point, however much its
other constraints are violated. -/
theorem C77_masked_knot_counterexample (s : NaN.Knot K) (l l' : List (NaN.Knot K)) (b : NaN.Knot K) (hs : ¬ FirstNaN s)
    (hb : FirstNaN b) : solverMax (s :: (l ++ b :: l')) = solverMax (s :: (l ++ l')) := by
  rw [← knotMax_nan] at hs hb
  simp only [solverMax, List.map_cons, List.map_append, hb]
  cases hc : knotMax s with
  | nan => exact absurd hc hs
  | num a => exact infNorm_skip a _ _

/-- **C77 is false: a NaN hides all inequality constraints of its knot point**, if it is the first component of the first
one. -/
theorem C77_masked_inequalities_counterexample (s : NaN.Knot K) (hs : ¬ FirstNaN s)
    (hi : (s.ineq.head?.bind fun v => v.c.head?) = some .nan) : knotMax s = knotMax { s with ineq := [] } := by
  rw [← knotMax_nan] at hs
  have h1 : infNorm (s.ineq.map fun v => conMax .inequality v.c) = .nan := by
    rw [infNorm_nan, List.head?_map]
    obtain ⟨v, hv, hx⟩ := Option.bind_eq_some_iff.mp hi
    rw [hv, Option.map_some, (conMax_nan _ _).mpr hx]
  unfold knotMax at hs ⊢
  rw [h1]
  cases hc : infNorm (s.eq.map fun v => conMax .equality v.c) with
  | nan => rw [hc] at hs; exact absurd rfl hs
  | num a =>
    have := infNorm_nonneg _ hc
    simp [infNorm, this]

/-! ## What the cost and the multipliers become -/

/-- An inequality constraint value that is NaN replaced by one that is satisfied by more than the multiplier. -/
def inactive (rho : K) (l : Nx K) (x : Nx K) : Nx K :=
  match x, l with
  | .nan, .num b => .num (b / rho)
  | x, _ => x

theorem smin_inactive {rho : K} (hr : 0 < rho) (l x : Nx K) :
    Arith.smin 0 (l - .num rho * inactive rho l x) = Arith.smin 0 (l - .num rho * x) := by
  cases x with
  | num a => cases l <;> rfl
  | nan =>
    cases l with
    | nan => rfl
    | num b =>
      simp only [inactive, nx_mul, nx_sub, mul_nan, sub_nan, nx_zero, smin0_num, smin0_nan]
      rw [mul_div_cancel₀ _ hr.ne', sub_self, min_self]

theorem zipWith_inactive {rho : K} (hr : 0 < rho) (l c : List (Nx K)) :
    (List.zipWith (fun l c => l - .num rho * c) l (List.zipWith (inactive rho) l c)).map (Arith.smin 0) =
      (List.zipWith (fun l c => l - .num rho * c) l c).map (Arith.smin 0) := by
  induction l generalizing c with
  | nil => rfl
  | cons a l ih =>
    cases c with
    | nil => rfl
    | cons b c => simp only [List.zipWith_cons_cons, List.map_cons, ih, smin_inactive hr]

/-- **C77, inequality constraints.**  A NaN value enters the cost like a value at which the constraint is inactive: the
cost stays a number and nothing pulls the trajectory back. -/
theorem C77_cost_inequality (s : CV K) {r : K} (hr : 0 < r) (hp : rho s = .num r) :
    augLag .inequality s = augLag .inequality { s with c := List.zipWith (inactive r) s.lam s.c } := by
  have hp' : rho { s with c := List.zipWith (inactive r) s.lam s.c } = .num r := hp
  simp only [augLag, hp, hp', dualProj]
  congr 2
  congr 1
  exact (zipWith_inactive hr s.lam s.c).symm

theorem duals_inactive {r : K} (hr : 0 < r) (l c p : List (Nx K)) (hp : ∀ x ∈ p, x = .num r) :
    (List.zipWith (fun l pc => l - pc) l (List.zipWith (· * ·) p (List.zipWith (inactive r) l c))).map (Arith.smin 0) =
      (List.zipWith (fun l pc => l - pc) l (List.zipWith (· * ·) p c)).map (Arith.smin 0) := by
  induction l generalizing c p with
  | nil => rfl
  | cons a l ih =>
    cases c with
    | nil => rfl
    | cons b c =>
      cases p with
      | nil => rfl
      | cons q p =>
        have hq : q = .num r := hp q (by simp)
        subst hq
        simp only [List.zipWith_cons_cons, List.map_cons, ih c p fun x hx => hp x (by simp [hx]), smin_inactive hr]

/-- **C77, inequality constraints.**  The multipliers are updated as if a constraint whose value is NaN were inactive. -/
theorem C77_duals_inequality (s : CV K) {r : K} (hr : 0 < r) (hp : ∀ x ∈ s.pen, x = .num r) :
    (updateDuals .inequality s).lam =
      (updateDuals .inequality { s with c := List.zipWith (inactive r) s.lam s.c }).lam := by
  simp only [updateDuals, dualProj]
  exact (duals_inactive hr s.lam s.c s.pen hp).symm

theorem sqNorm_nan_start (v : List (Nx K)) : v.foldl (fun a x => a + x * x) .nan = .nan := by
  induction v with
  | nil => rfl
  | cons x l ih => simpa using ih

theorem sqNorm_nan {v : List (Nx K)} (h : .nan ∈ v) : sqNorm v = .nan := by
  obtain ⟨a, b, rfl⟩ := List.append_of_mem h
  simp only [sqNorm, List.foldl_append, List.foldl_cons, mul_nan, add_nan, sqNorm_nan_start]

theorem zipWith_nan_right {f : Nx K → Nx K → Nx K} (hf : ∀ x, f x .nan = .nan) :
    ∀ (l c : List (Nx K)), l.length = c.length → .nan ∈ c → .nan ∈ List.zipWith f l c
  | [], [], _, h => absurd h (by simp)
  | a :: l, b :: c, e, h => by
    rw [List.zipWith_cons_cons]
    rcases List.mem_cons.mp h with h | h
    · rw [← h, hf]; simp
    · exact List.mem_cons_of_mem _ (zipWith_nan_right hf l c (by simpa using e) h)

/-- **C77, equality constraints.**  A NaN value makes the cost NaN, whatever the rest is. -/
theorem C77_cost_equality (J : Nx K) (s : NaN.Knot K) (v : CV K) (hv : v ∈ s.eq) (hl : v.lam.length = v.c.length)
    (hn : .nan ∈ v.c) : evaluate J s = .nan := by
  have h1 : augLag .equality v = .nan := by
    have : .nan ∈ List.zipWith (fun l c => l - rho v * c) v.lam v.c := zipWith_nan_right (by simp) _ _ hl hn
    simp [augLag, dualProj, sqNorm_nan this]
  obtain ⟨a, b, hab⟩ := List.append_of_mem hv
  have st : ∀ (κ : ConKind) (l : List (CV K)), l.foldl (fun a v => a + augLag κ v) .nan = .nan := by
    intro κ l
    induction l with
    | nil => rfl
    | cons x l ih => simpa using ih
  simp only [evaluate, hab, List.foldl_append, List.foldl_cons, h1, add_nan, st]

/-- **C77, equality constraints.**  The multiplier becomes NaN with the value. -/
theorem C77_duals_equality (v : CV K) (h1 : v.lam.length = v.c.length) (h2 : v.pen.length = v.c.length)
    (hn : .nan ∈ v.c) : .nan ∈ (updateDuals .equality v).lam := by
  simp only [updateDuals, dualProj]
  refine zipWith_nan_right (by simp) _ _ (by simp [h1, h2]) (zipWith_nan_right (by simp) _ _ h2 hn)

/-- **C77, equality constraints.**  .. and a multiplier that is NaN makes every later cost NaN. -/
theorem C77_cost_multiplier (κ : ConKind) (v : CV K) (hn : .nan ∈ v.lam) : augLag κ v = .nan := by
  simp [augLag, sqNorm_nan hn]

/-- **C77, penalties.**  A penalty of zero makes the cost of a constraint NaN, whatever its value and multiplier are: it is
the divisor (`0 / 0` in IEEE arithmetic if the multipliers are in the dual cone, as they are after every update). -/
theorem C77_cost_penalty (κ : ConKind) (v : CV K) (hp : rho v = .num 0) : augLag κ v = .nan := by
  have h : ((1 + 1) * rho v : Nx K) = .num 0 := by rw [hp]; simp
  unfold augLag
  rw [h]
  generalize sqNorm _ - sqNorm v.lam = x
  cases x with
  | nan => rfl
  | num a => show (if (0 : K) = 0 then Nx.nan else _) = _; simp

example : augLag .inequality (⟨[.num (-1)], [.num 0], [.num 0]⟩ : CV ℚ) = .nan := C77_cost_penalty _ _ rfl

/-! ## Without NaN this is the model of `ConstraintValues` -/

variable {n m : ℕ} {κ : ConKind}

/-- The numbers of a `ConstraintValues` object. -/
def toCV (s : ConVal κ n m K) : CV K where
  c := (List.ofFn s.c).map .num
  lam := (List.ofFn s.lam).map .num
  pen := (List.ofFn s.pen).map .num

theorem zipWith_num {p : ℕ} (f : Nx K → Nx K → Nx K) (g : K → K → K) (h : ∀ a b, f (.num a) (.num b) = .num (g a b))
    (a b : Fin p → K) : List.zipWith f ((List.ofFn a).map .num) ((List.ofFn b).map .num) =
      (List.ofFn fun i => g (a i) (b i)).map .num := by
  apply List.ext_getElem
  · simp
  · intro i h1 h2
    simp [h]

theorem sqNorm_num {p : ℕ} (v : Fin p → K) : sqNorm ((List.ofFn v).map .num) = .num (v ⬝ᵥ v) := by
  have key : ∀ (l : List K) (a : K), (l.map Nx.num).foldl (fun a x => a + x * x) (.num a) =
      .num (a + (l.map fun x => x * x).sum) := by
    intro l
    induction l with
    | nil => intro a; simp
    | cons x l ih => intro a; simp [ih, add_assoc]
  unfold sqNorm
  rw [nx_zero, key, zero_add, List.map_ofFn, List.sum_ofFn]
  rfl

theorem dualProj_num {p : ℕ} (v : Fin p → K) : dualProj κ ((List.ofFn v).map .num) =
    (List.ofFn (κ.dualProj v)).map .num := by
  cases κ
  · rfl
  · simp only [dualProj, List.map_map, List.map_ofFn]
    congr 1
    funext i
    simp [ConKind.dualProj, negProj]

theorem proj_num {p : ℕ} (v : Fin p → K) : proj κ ((List.ofFn v).map .num) = (List.ofFn (κ.proj v)).map .num := by
  cases κ
  · simp only [proj, List.map_map, List.map_ofFn]
    congr 1
  · simp only [proj, List.map_map, List.map_ofFn]
    congr 1
    funext i
    simp [ConKind.proj, negProj]

theorem infNorm_nums (l : List K) : infNorm (l.map .num) = .num ((l.map (|·|)).foldl max 0) := by
  have key : ∀ (l : List K) (a : K), (l.map Nx.num).foldl (fun a y => Arith.smax a y.abs) (.num a) =
      .num ((l.map (|·|)).foldl max a) := by
    intro l
    induction l with
    | nil => intro a; rfl
    | cons x l ih => intro a; simp [ih]
  cases l with
  | nil => rfl
  | cons x l => simp [infNorm, key]

/-- With numbers only, the operations here are those of the model of `ConstraintValues` used for all other properties. -/
theorem C77_refines (s : ConVal κ n m K) (hr : s.rho ≠ 0) :
    augLag κ (toCV s) = .num s.augLagVal ∧ updateDuals κ (toCV s) = toCV s.updateDuals ∧
    conMax κ (toCV s).c = .num s.maxViolation := by
  have hrho : rho (toCV s) = .num s.rho := by
    have hp : s.con.p = (s.con.p - 1) + 1 := by have := s.con.hp; omega
    have h0 : 0 < ((List.ofFn s.pen).map Nx.num).length := by simpa using s.con.hp
    rw [rho, toCV, List.headD_eq_head?_getD, List.head?_eq_getElem?, List.getElem?_eq_getElem h0]
    simp [ConVal.rho]
  refine ⟨?_, ?_, ?_⟩
  · unfold augLag
    rw [hrho]
    simp only [toCV]
    rw [zipWith_num (fun l c => l - Nx.num s.rho * c) (fun l c => l - s.rho * c) (by simp), dualProj_num, sqNorm_num,
      sqNorm_num, nx_one, nx_add, nx_mul, nx_sub, nx_div _ _ (by
        rw [one_add_one_eq_two]; exact mul_ne_zero two_ne_zero hr), one_add_one_eq_two]
    rfl
  · unfold updateDuals
    simp only [toCV]
    rw [zipWith_num (· * ·) (· * ·) (by simp), zipWith_num (fun l pc => l - pc) (fun l pc => l - pc) (by simp), dualProj_num]
    rfl
  · unfold conMax violation
    simp only [toCV]
    rw [proj_num, zipWith_num (· - ·) (· - ·) (by simp), infNorm_nums, List.map_ofFn]
    rfl

/-- The numbers of the constraint values at one knot point. -/
def toKnot (s : ALCost n m K) : NaN.Knot K := ⟨s.eq.map toCV, s.ineq.map toCV⟩

/-- .. and the same for whole knot points and for the violation the solver reports. -/
theorem C77_refines_cost (s : ALCost n m K) (x : Fin n → K) (u : Fin m → K) (h1 : ∀ v ∈ s.eq, v.rho ≠ 0) (h2 : ∀ v ∈ s.ineq, v.rho ≠ 0) :
    evaluate (.num (s.cost.eval x u)) (toKnot (s.evaluate x u).2) = .num (s.evaluate x u).1 ∧
    (∀ c : List (ALCost n m K), (∀ s ∈ c, (∀ v ∈ s.eq, v.rho ≠ 0) ∧ ∀ v ∈ s.ineq, v.rho ≠ 0) →
      solverMax (c.map toKnot) = .num (ALCosts.maxViolation c)) := by
  have key : ∀ {κ : ConKind} (l : List (ConVal κ n m K)) (J : K), (∀ v ∈ l, v.rho ≠ 0) →
      (((l.map (·.augLag x u)).map (·.2)).map toCV).foldl (fun a v => a + augLag κ v) (.num J) =
        .num ((l.map (·.augLag x u)).foldl (fun J r => J + r.1) J) := by
    intro κ l
    induction l with
    | nil => intro J _; rfl
    | cons v l ih =>
      intro J h
      have e : augLag κ (toCV (v.augLag x u).2) = .num (v.augLag x u).1 := (C77_refines (v.augLag x u).2 (h v (by simp))).1
      simp only [List.map_cons, List.foldl_cons, e, nx_add]
      exact ih _ fun w hw => h w (by simp [hw])
  have viol : ∀ {κ : ConKind} (l : List (ConVal κ n m K)), (∀ v ∈ l, v.rho ≠ 0) →
      (l.map toCV).map (fun v => conMax κ v.c) = (l.map (·.maxViolation)).map .num := by
    intro κ l h
    rw [List.map_map, List.map_map]
    exact List.map_congr_left fun v hv => (C77_refines v (h v hv)).2.2
  constructor
  · show ((s.ineq.map _).map _ |>.map toCV).foldl _ (((s.eq.map _).map _ |>.map toCV).foldl _ _) = _
    rw [key s.eq _ h1, key s.ineq _ h2]
    rfl
  · intro c h
    have e : (c.map toKnot).map knotMax = (c.map (·.maxViolation)).map .num := by
      rw [List.map_map, List.map_map]
      refine List.map_congr_left fun s hs => ?_
      simp only [Function.comp, knotMax, toKnot]
      rw [viol _ (h s hs).1, viol _ (h s hs).2, infNorm_nums, infNorm_nums]
      exact infNorm_nums [_, _]
    rw [solverMax, e, infNorm_nums]
    rfl

/-! ## Sorting the constraints -/

/-- `std::sort` requires that "neither comes before the other" is an equivalence. -/
def SortRequirement (l : List (Nx K)) : Prop :=
  ∀ a ∈ l, ∀ b ∈ l, ∀ c ∈ l, worse a b = false → worse b a = false → worse b c = false → worse c b = false →
    worse a c = false ∧ worse c a = false

/-- **C77 is false: sorting.**  The comparison used for sorting the constraints meets the requirement of `std::sort` if and
only if no violation is NaN or all numbers among the violations are equal; otherwise the behaviour is undefined. -/
theorem C77_sort_counterexample (l : List (Nx K)) :
    SortRequirement l ↔ .nan ∉ l ∨ ∀ a b : K, .num a ∈ l → .num b ∈ l → a = b := by
  constructor
  · intro h
    by_cases hn : .nan ∈ l
    · refine .inr fun a b ha hb => ?_
      have := h _ ha _ hn _ hb (by simp [worse, Arith.gt]) (by simp [worse, Arith.gt]) (by simp [worse, Arith.gt])
        (by simp [worse, Arith.gt])
      simp only [worse, Arith.gt, nx_lt, decide_eq_false_iff_not, not_lt] at this
      exact le_antisymm this.1 this.2
    · exact .inl hn
  · intro h a ha b hb c hc h1 h2 h3 h4
    cases a with
    | nan => simp [worse, Arith.gt]
    | num a => cases c with
      | nan => simp [worse, Arith.gt]
      | num c => cases b with
        | nan =>
          rcases h with h | h
          · exact absurd hb h
          · rw [h a c ha hc]; simp [worse, Arith.gt]
        | num b =>
          simp only [worse, Arith.gt, nx_lt, decide_eq_false_iff_not, not_lt] at h1 h2 h3 h4 ⊢
          exact ⟨h1.trans h3, h4.trans h2⟩

/-- Violations 1, NaN, 2. -/
example : ¬ SortRequirement [.num (1 : ℚ), .nan, .num 2] := by
  rw [C77_sort_counterexample]
  rintro (h | h)
  · exact h (by simp)
  · exact absurd (h 1 2 (by simp) (by simp)) (by norm_num)

end constraints

/-! ## The inner solver -/

section solver
variable {K : Type} [Field K] [LinearOrder K] {X U C D : Type}

/-- Comparisons with NaN are false, so the order laws hold. -/
theorem nx_orderLaws : OrderLaws (Nx K) where
  asymm a b h := by
    cases a with
    | nan => simp at h
    | num a => cases b with
      | nan => simp
      | num b => simp at h ⊢; exact h.le
  trans a b c h h' := by
    cases a with
    | nan => simp at h
    | num a => cases b with
      | nan => simp at h
      | num b => cases c with
        | nan => simp at h'
        | num c => simp at h h' ⊢; exact h.trans h'

theorem lt_isNum {a b : Nx K} (h : Arith.lt a b = true) : a.IsNum ∧ b.IsNum := by
  cases a with
  | nan => simp at h
  | num a => cases b with
    | nan => simp at h
    | num b => exact ⟨⟨a, rfl⟩, ⟨b, rfl⟩⟩

/-- **C77, the cost (exact).**  The cost of the trajectory that a solve returns is a number if and only if the cost of the
trajectory it started from was: a step to a trajectory whose cost is NaN is never taken, and from such a trajectory no
step is taken that leads away. -/
theorem C77_cost (P : Kernel X U (Nx K) C D) (o : Opts (Nx K)) (L : CostLaw P) (fuel : ℕ) (s s' : St X U (Nx K) C D)
    (h : solve P o fuel s = some s') (Z0 : Traj X U (Nx K)) (hZ0 : DynFeasible P Z0)
    (hu : ∀ k ≤ P.N, Z0.u k = s.Z.u k) (ht : SameTimes P Z0 s.Z) :
    (L.total s.cs s'.Z).IsNum ↔ (L.total s.cs Z0).IsNum := by
  rcases (C18_cost_never_increases o L nx_orderLaws fuel s s' h Z0 hZ0 hu ht).2 with e | e
  · rw [e]
  · exact ⟨fun _ => (lt_isNum e).2, fun _ => (lt_isNum e).1⟩

end solver

/-! ## Concrete cases -/

/-- Knot point 0 has an equality constraint that holds; at knot point 1 the first equality constraint is NaN and the second
one is violated by 100: the reported violation is 0. -/
example : solverMax [⟨[⟨[.num 0], [], []⟩], []⟩, ⟨[⟨[.nan], [], []⟩, ⟨[.num (100 : ℚ)], [], []⟩], []⟩] = .num 0 := by
  decide +kernel

/-- Without the NaN it is 100. -/
example : solverMax [⟨[⟨[.num 0], [], []⟩], []⟩, ⟨[⟨[.num 0], [], []⟩, ⟨[.num (100 : ℚ)], [], []⟩], []⟩] = .num 100 := by
  decide +kernel

/-- One state and one control: `x' = x + u`, cost `u² / 2` at knot point 0, and the constraint `h(u) ≤ 0` at knot point 0
where `h(u)` is NaN for `u < 1` and `u - 3` otherwise, with derivative 1.  `D` holds gradient, Hessian and gain. -/
structure ND where
  (lu luu d : Nx ℚ)

/-- The constraint. -/
def nanCon (u : Nx ℚ) : Nx ℚ := if Arith.lt u 1 then .nan else u - .num 3

/-- `con_->Evaluate(x, u, c_)` for each constraint of the knot point. -/
def nanEval (s : NaN.Knot ℚ) (u : Nx ℚ) : NaN.Knot ℚ := { s with ineq := s.ineq.map fun v => { v with c := [nanCon u] } }

/-- `λ - ρ c` for the one constraint. -/
def nanShift (v : CV ℚ) : Nx ℚ := v.lam.headD .nan - rho v * v.c.headD .nan

def nanKernel : Kernel (Nx ℚ) (Nx ℚ) (Nx ℚ) (NaN.Knot ℚ) ND where
  N := 1
  x0 := 0
  dyn _ x u _ _ := x + u
  cost k c _ u := if k = 0 then (evaluate (u * u / .num 2) (nanEval c u), nanEval c u) else (0, c)
  expand k c _ u _ _ d :=
    if k = 0 then
      let c := nanEval c u
      ({ d with
          lu := c.ineq.foldl (fun a v => a - (if Arith.gt (nanShift v) 0 then 0 else 1) * Arith.smin 0 (nanShift v)) u
          luu := c.ineq.foldl (fun a v => a + (if Arith.gt (nanShift v) 0 then 0 else rho v)) 1 }, c)
    else ({ d with lu := 0, luu := 0 }, c)
  term d := d
  actionValue d _ := d
  regularize rho d := { d with luu := d.luu + rho }
  gains d := if Arith.le d.luu 0 then (d, false) else ({ d with d := -(d.lu / d.luu) }, true)
  costToGo d := d
  delta d := (d.d * d.lu, d.d * d.luu * d.d / .num 2)
  policy d _ _ u alpha := u + d.d * alpha
  gradTerm d u := d.d.abs / (u.abs + 1)
  normX := Nx.abs
  normU := Nx.abs
  viol cs := solverMax [cs 0, cs 1]

def nanOps : CostOps (NaN.Knot ℚ) (Nx ℚ) where
  updateDuals s := { eq := s.eq.map (updateDuals .equality), ineq := s.ineq.map (updateDuals .inequality) }
  updatePenalties s := { s with ineq := s.ineq.map fun v => { v with pen := v.pen.map (· * .num 10) } }
  resetDuals s := { s with ineq := s.ineq.map fun v => { v with lam := v.lam.map fun _ => 0 } }
  setPenalty r s := { s with ineq := s.ineq.map fun v => { v with pen := v.pen.map fun _ => r } }
  maxPenalty s := s.ineq.foldl (fun a v => v.pen.foldl Arith.smax a) 0

def nanOpts : Opts (Nx ℚ) where
  maxTotal := 10
  maxOuter := 5
  maxInner := 3
  costTol := .num (1 / 100)
  gradTol := .num (1 / 100)
  regFactor := .num 2
  regInitial := 0
  regMax := .num 8
  regMin := 1
  regFailThreshold := 2
  checkBounds := true
  stateMax := .num 100
  controlMax := .num 100
  lsMax := 4
  lsLower := .num (1 / 1000)
  lsUpper := .num 10
  lsFactor := .num 2
  conTol := .num (1 / 100)
  maxPenalty := .num 1000
  initialPenalty := 1
  resetDuals := true

def nanState : St (Nx ℚ) (Nx ℚ) (Nx ℚ) (NaN.Knot ℚ) ND where
  Z := { x := fun _ => 0, u := fun _ => 0, t := fun k => .num (k / 10), h := fun _ => .num (1 / 10) }
  Zbar := { x := fun _ => 0, u := fun _ => 0, t := fun _ => 0, h := fun _ => 0 }
  kd := fun _ => ⟨0, 0, 0⟩
  cs := fun k => if k = 0 then ⟨[], [⟨[0], [0], [1]⟩]⟩ else ⟨[], []⟩
  costs := fun _ => 0
  status := .kUnsolved
  rho := 0
  drho := 0
  dV0 := 0
  dV1 := 0
  stats := Stats.new

def nanSolved : Option (ALSt (Nx ℚ) (Nx ℚ) (Nx ℚ) (NaN.Knot ℚ) ND) :=
  AL.solve nanKernel nanOps nanOpts (ILQR.solve nanKernel nanOpts 5) ⟨nanState, .kUnsolved⟩

theorem nanSolved_report : (nanSolved.map fun s => (s.status, Stats.back (s.st.stats.col .viol), s.st.Z.u 0,
    (s.st.cs 0).ineq.map (·.c))) = some (.kSolved, 0, 0, [[.nan]]) := by decide +kernel

/-- The failure of C77: the solver reports `kSolved` with violation zero, and the value of the one constraint is NaN, at
the returned trajectory and in the object that was last evaluated. -/
theorem C77_solved_counterexample :
    ∃ (P : Kernel (Nx ℚ) (Nx ℚ) (Nx ℚ) (NaN.Knot ℚ) ND) (O : CostOps (NaN.Knot ℚ) (Nx ℚ)) (o : Opts (Nx ℚ))
      (s s' : ALSt (Nx ℚ) (Nx ℚ) (Nx ℚ) (NaN.Knot ℚ) ND),
      AL.solve P O o (ILQR.solve P o 5) s = some s' ∧ s'.status = .kSolved ∧ Stats.back (s'.st.stats.col .viol) = 0 ∧
      nanCon (s'.st.Z.u 0) = .nan ∧ (s'.st.cs 0).ineq.map (·.c) = [[.nan]] := by
  have h := nanSolved_report
  cases hb : nanSolved with
  | none => rw [hb] at h; cases h
  | some s' =>
    rw [hb] at h
    simp only [Option.map_some, Option.some.injEq, Prod.mk.injEq] at h
    exact ⟨nanKernel, nanOps, nanOpts, _, s', hb, h.1, h.2.1, by rw [h.2.2.1]; decide +kernel, h.2.2.2⟩

/-! ### The inner solver -/

/-- One state and one control, `x' = x + u`; the cost `(u - 1)² / 2` is NaN for `u > 3/2`, where the derivative is zero.
The second derivative is given as `1/2`, so that full steps are too long. -/
def wallKernel : Kernel (Nx ℚ) (Nx ℚ) (Nx ℚ) Unit ND where
  N := 1
  x0 := 0
  dyn _ x u _ _ := x + u
  cost k c _ u := (if k = 0 then (if Arith.gt u (.num (3 / 2)) then .nan else (u - 1) * (u - 1) / .num 2) else 0, c)
  expand k c _ u _ _ d :=
    (if k = 0 then { d with lu := if Arith.gt u (.num (3 / 2)) then 0 else u - 1, luu := .num (1 / 2) }
      else { d with lu := 0, luu := 0 }, c)
  term d := d
  actionValue d _ := d
  regularize rho d := { d with luu := d.luu + rho }
  gains d := if Arith.le d.luu 0 then (d, false) else ({ d with d := -(d.lu / d.luu) }, true)
  costToGo d := d
  delta d := (d.d * d.lu, d.d * d.luu * d.d / .num 2)
  policy d _ _ u alpha := u + d.d * alpha
  gradTerm d u := d.d.abs / (u.abs + 1)
  normX := Nx.abs
  normU := Nx.abs
  viol _ := 0

def wallLaw : CostLaw wallKernel where
  I := Unit
  inv c := c
  val k _ _ u := if k = 0 then (if Arith.gt u (.num (3 / 2)) then .nan else (u - 1) * (u - 1) / .num 2) else 0
  cost_val _ _ _ _ := rfl
  cost_inv _ _ _ _ := rfl
  expand_inv _ _ _ _ _ _ _ := rfl

def wallState (u : Nx ℚ) : St (Nx ℚ) (Nx ℚ) (Nx ℚ) Unit ND where
  Z := { x := fun _ => 0, u := fun k => if k = 0 then u else 0, t := fun k => .num (k / 10), h := fun _ => .num (1 / 10) }
  Zbar := { x := fun _ => 0, u := fun _ => 0, t := fun _ => 0, h := fun _ => 0 }
  kd := fun _ => ⟨0, 0, 0⟩
  cs := fun _ => ()
  costs := fun _ => 0
  status := .kUnsolved
  rho := 0
  drho := 0
  dV0 := 0
  dV1 := 0
  stats := Stats.new

def wallRun (u : Nx ℚ) : Option (Status × Nx ℚ × Nx ℚ × ℕ × List (Nx ℚ)) :=
  (solve wallKernel nanOpts 5 (wallState u)).map fun s =>
    (s.status, s.Z.u 0, wallLaw.total (fun _ => ()) s.Z, s.stats.inner, s.stats.col .alpha)

/-- The full step from `u = 0` ends at a cost that is NaN and is rejected, half of it is taken. -/
example : (wallRun 0).map (fun r => (r.1, r.2.1, r.2.2.1, r.2.2.2.2.any (· = .num (1 / 2)))) =
    some (.kSolved, 1, 0, true) := by decide +kernel

/-- The failure of C77 for the inner solver: it reports `kSolved` at a trajectory whose cost is NaN (no step was taken in
the first iteration, so the second one sees no decrease of the cost, and the gradient is small). -/
theorem C77_cost_counterexample :
    ∃ (P : Kernel (Nx ℚ) (Nx ℚ) (Nx ℚ) Unit ND) (L : CostLaw P) (o : Opts (Nx ℚ))
      (s s' : St (Nx ℚ) (Nx ℚ) (Nx ℚ) Unit ND),
      solve P o 5 s = some s' ∧ s'.status = .kSolved ∧ L.total s.cs s'.Z = .nan := by
  have h : (wallRun (.num 3)).map (fun r => (r.1, r.2.2.1)) = some (.kSolved, .nan) := by decide +kernel
  unfold wallRun at h
  cases hb : solve wallKernel nanOpts 5 (wallState (.num 3)) with
  | none => rw [hb] at h; cases h
  | some s' =>
    rw [hb] at h
    simp only [Option.map_some, Option.some.injEq, Prod.mk.injEq] at h
    exact ⟨wallKernel, wallLaw, nanOpts, wallState (.num 3), s', hb, h.1, h.2⟩

/-- The hypotheses of `C77_cost` for both runs. -/
example (u : Nx ℚ) : DynFeasible wallKernel (rollout wallKernel (wallState u)).Z ∧
    SameTimes wallKernel (rollout wallKernel (wallState u)).Z (wallState u).Z := by
  obtain ⟨_, r2, r3, _, _⟩ := rolloutTo_spec wallKernel (wallState u).Z wallKernel.N
  exact ⟨rollout_feasible _ _, fun k _ => congrFun r2 k, fun k _ => congrFun r3 k⟩

/-- A NaN equality value: the cost and the multiplier become NaN. -/
example : augLag .equality (⟨[.num 1, .nan], [0, 0], [1, 1]⟩ : CV ℚ) = .nan ∧
    (updateDuals .equality (⟨[.num 1, .nan], [0, 0], [1, 1]⟩ : CV ℚ)).lam = [.num (-1), .nan] := by decide +kernel

/-- A NaN inequality value: the cost stays a number and the multiplier becomes zero. -/
example : augLag .inequality (⟨[.num 1, .nan], [0, .num (-2)], [1, 1]⟩ : CV ℚ) = .num (-3 / 2) ∧
    (updateDuals .inequality (⟨[.num 1, .nan], [0, .num (-2)], [1, 1]⟩ : CV ℚ)).lam = [.num (-1), 0] := by decide +kernel

/-- In the second position, NaN does not count: a violation of 5 after it is seen, one of 7 in front as well. -/
example : conMax .equality [.num (7 : ℚ), .nan, .num 5] = .num 7 ∧ conMax .equality [.num (2 : ℚ), .nan, .num 5] = .num 5 ∧
    conMax .equality [.nan, .num (5 : ℚ)] = .nan := by decide +kernel

end Altro.Props
