import Verif.Spec.DoubleCon
import Verif.Proofs.DoubleOrder

/-!
# C97: constraint values, multipliers and penalties in `double`
-/

namespace Altro.Props.DoubleCon
open Altro.Spec Altro.Dbl Altro.ConArith

/-! ## The same functions as in the model of NaN -/

section refines
variable {K : Type} [Field K] [LinearOrder K]

/-- The same constraint values. -/
def toNaN (s : CV (Nx K)) : NaN.CV K := ⟨s.c, s.lam, s.pen⟩

theorem infNorm_nx (v : List (Nx K)) : infNorm v = NaN.infNorm v := by cases v <;> rfl

/-- Over numbers with NaN these are the functions of C77. -/
theorem C97_refines (κ : ConKind) (s : CV (Nx K)) (v : List (Nx K)) :
    infNorm v = NaN.infNorm v ∧ proj κ v = NaN.proj κ v ∧ dualProj κ v = NaN.dualProj κ v ∧ sqNorm v = NaN.sqNorm v ∧
      augLag .nan κ s = NaN.augLag κ (toNaN s) ∧ toNaN (updateDuals κ s) = NaN.updateDuals κ (toNaN s) ∧
      conMax κ v = NaN.conMax κ v := by
  refine ⟨?_, ?_, ?_, rfl, ?_, ?_, ?_⟩
  · exact infNorm_nx v
  · cases κ <;> rfl
  · cases κ <;> rfl
  · cases κ <;> rfl
  · cases κ <;> rfl
  · unfold conMax NaN.conMax violation NaN.violation
    rw [infNorm_nx]
    cases κ <;> rfl

end refines

/-! ## Violations -/

theorem sub_zero_ok {x : Dbl} (h : x.Ok) : Dbl.abs (x - 0) = Dbl.abs x := by
  cases x with
  | nan => rfl
  | inf s => rfl
  | nzero => rfl
  | num q =>
    obtain ⟨h1, h2⟩ := h
    show Dbl.abs (addFin q 0 false) = num |q|
    unfold addFin
    rw [add_zero]
    unfold Dbl.round
    rw [h1]
    dsimp only
    by_cases h0 : q = 0
    · simp [h0, Dbl.abs]
    · rw [if_neg h0, if_neg (not_le.mpr h2)]; rfl

theorem sub_self' (q : ℚ) (h : q ≠ 0) : num q - num q = num 0 := by
  show add (num q) (if q = 0 then nzero else num (-q)) = _
  rw [if_neg h]
  show addFin q (-q) false = _
  simp [addFin, Dbl.round, f64_zero]

theorem excess_eq {κ : ConKind} {x : Dbl} (h : x.Ok) :
    Dbl.abs (x - (match κ with | .equality => 0 | .inequality => Arith.smin 0 x)) = excess κ x := by
  cases κ with
  | equality => exact sub_zero_ok h
  | inequality =>
    show Dbl.abs (x - Arith.smin 0 x) = _
    cases x with
    | nan => rfl
    | inf s => cases s <;> rfl
    | nzero => rfl
    | num q =>
      show Dbl.abs (num q - Arith.smin (num 0) (num q)) = num (max q 0)
      unfold Arith.smin
      rw [lt_num]
      by_cases hq : q < 0
      · rw [if_pos (decide_eq_true hq), sub_self' q hq.ne, max_eq_right hq.le]
        simp [Dbl.abs]
      · rw [if_neg (by simpa using hq)]
        have := sub_zero_ok h
        rw [max_eq_left (not_lt.mp hq), ← abs_of_nonneg (not_lt.mp hq)]
        rw [abs_of_nonneg (not_lt.mp hq)]
        refine this.trans ?_
        show num |q| = num q
        rw [abs_of_nonneg (not_lt.mp hq)]

/-- **C97, violations.**  The absolute values of `c - Π(c)` are computed without rounding error: they are `|c|` for equalities
and the positive part for inequalities. -/
theorem C97_violation (κ : ConKind) (c : List Dbl) (h : ∀ x ∈ c, x.Ok) : (violation κ c).map Dbl.abs = c.map (excess κ) := by
  induction c with
  | nil => cases κ <;> rfl
  | cons x c ih =>
    have e := excess_eq (κ := κ) (h x (by simp))
    have i := ih fun y hy => h y (by simp [hy])
    cases κ with
    | equality => exact congrArg₂ List.cons e i
    | inequality => exact congrArg₂ List.cons e i

/-! ## Norms -/

theorem smax_eq (a b : Dbl) : Arith.smax a b = if Arith.lt a b = true then b else a := rfl

theorem smax_lt {a b t : Dbl} (ha : a ≠ nan) (hb : b ≠ nan) :
    Arith.lt (Arith.smax a b) t = true ↔ Arith.lt a t = true ∧ Arith.lt b t = true := by
  rw [smax_eq]
  by_cases h : Arith.lt a b = true
  · rw [if_pos h]
    exact ⟨fun p => ⟨orderLaws.trans _ _ _ h p, p⟩, fun p => p.2⟩
  · rw [if_neg h]
    have h' := (not_lt_iff ha hb).mp (by simpa using h)
    exact ⟨fun p => ⟨p, lt_of_le_of_lt' h' p⟩, fun p => p.1⟩

theorem smax_ne_nan {a b : Dbl} (ha : a ≠ nan) (hb : b ≠ nan) : Arith.smax a b ≠ nan := by
  rw [smax_eq]; split <;> assumption

theorem le_smax_left {a b : Dbl} (ha : a ≠ nan) : Arith.le a (Arith.smax a b) = true := by
  rw [smax_eq]; split
  · rename_i h; exact le_of_lt' h
  · exact le_refl' ha

theorem le_smax_right {a b : Dbl} (ha : a ≠ nan) (hb : b ≠ nan) : Arith.le b (Arith.smax a b) = true := by
  rw [smax_eq]; split
  · exact le_refl' hb
  · rename_i h; exact (not_lt_iff ha hb).mp (by simpa using h)

theorem foldl_smax {l : List Dbl} (hl : ∀ y ∈ l, y ≠ nan) {a : Dbl} (ha : a ≠ nan) :
    l.foldl (fun a y => Arith.smax a (Dbl.abs y)) a ≠ nan ∧
      Arith.le a (l.foldl (fun a y => Arith.smax a (Dbl.abs y)) a) = true ∧
      ∀ t, Arith.lt (l.foldl (fun a y => Arith.smax a (Dbl.abs y)) a) t = true ↔
        Arith.lt a t = true ∧ ∀ y ∈ l, Arith.lt (Dbl.abs y) t = true := by
  induction l generalizing a with
  | nil => exact ⟨ha, le_refl' ha, fun t => by simp⟩
  | cons x l ih =>
    have hx := abs_ne_nan (hl x (by simp))
    obtain ⟨p, q, r⟩ := ih (fun y hy => hl y (by simp [hy])) (smax_ne_nan ha hx)
    refine ⟨p, le_trans' (le_smax_left ha) q, fun t => ?_⟩
    rw [List.foldl_cons, r t, smax_lt ha hx]
    simp only [List.mem_cons, forall_eq_or_imp, and_assoc]

theorem infNorm_nonneg {v : List Dbl} (h : ∀ y ∈ v, y ≠ nan) : Arith.le (0 : Dbl) (infNorm v) = true := by
  cases v with
  | nil => rfl
  | cons x l =>
    have hx := h x (by simp)
    exact le_trans' (abs_nonneg' hx) (foldl_smax (fun y hy => h y (by simp [hy])) (abs_ne_nan hx)).2.1

/-- The norm of a vector without NaN is below `t > 0` exactly if all entries are, in absolute value. -/
theorem infNorm_lt {v : List Dbl} (h : ∀ y ∈ v, y ≠ nan) {t : Dbl} (ht : Arith.lt (0 : Dbl) t = true) :
    Arith.lt (infNorm v) t = true ↔ ∀ y ∈ v, Arith.lt (Dbl.abs y) t = true := by
  cases v with
  | nil => simpa [infNorm] using ht
  | cons x l =>
    have hx := h x (by simp)
    refine ((foldl_smax (fun y hy => h y (by simp [hy])) (abs_ne_nan hx)).2.2 t).trans ?_
    simp only [List.mem_cons, forall_eq_or_imp]

theorem abs_lt_iff {x t : Dbl} (h : Arith.le (0 : Dbl) x = true) : Arith.lt (Dbl.abs x) t = Arith.lt x t := by
  rcases zero_le_cases h with rfl | ⟨rfl | ⟨q, rfl⟩, hq⟩
  · rfl
  · cases t <;> rfl
  · show Arith.lt (num |q|) t = _
    rw [abs_of_nonneg (show 0 ≤ q from hq)]

/-! ## The reported violation -/

theorem excess_clean {κ : ConKind} {x : Dbl} (h : Clean x) : excess κ x ≠ nan ∧ Arith.le (0 : Dbl) (excess κ x) = true := by
  obtain ⟨-, h1, h2⟩ := h
  cases κ with
  | equality => exact ⟨abs_ne_nan h1, abs_nonneg' h1⟩
  | inequality =>
    cases x with
    | nan => exact absurd rfl h1
    | inf s => cases s with
      | true => exact absurd rfl h2
      | false => exact ⟨by simp [excess], rfl⟩
    | nzero => exact ⟨by simp [excess], rfl⟩
    | num q => exact ⟨by simp [excess], zero_le_of_finite (finite_num _) (le_max_right q 0)⟩

theorem excess_lt {κ : ConKind} {x t : Dbl} (h : Clean x) (ht : Arith.lt (0 : Dbl) t = true) :
    Arith.lt (excess κ x) t = true ↔ Meets t κ x := by
  obtain ⟨-, h1, h2⟩ := h
  cases κ with
  | equality => exact Iff.rfl
  | inequality =>
    show _ ↔ Arith.lt x t = true
    cases x with
    | nan => exact absurd rfl h1
    | inf s => cases s with
      | true => exact absurd rfl h2
      | false => exact Iff.rfl
    | nzero => cases t <;> exact Iff.rfl
    | num q =>
      show Arith.lt (num (max q 0)) t = true ↔ _
      cases t with
      | nan => exact absurd ht (by decide)
      | inf s => cases s <;> exact Iff.rfl
      | nzero => exact absurd ht (by decide)
      | num r =>
        have ht : 0 < r := by simpa using (lt_num 0 r).symm.trans ht
        rw [lt_num, lt_num]
        simp [ht]

theorem map_abs_ne {v : List Dbl} (h : ∀ y ∈ v.map Dbl.abs, y ≠ nan) : ∀ y ∈ v, y ≠ nan := by
  intro y hy e
  subst e
  exact h nan (List.mem_map.mpr ⟨nan, hy, rfl⟩) rfl

theorem conMax_clean {κ : ConKind} {c : List Dbl} (h : ∀ x ∈ c, Clean x) : ∀ y ∈ violation κ c, y ≠ nan := by
  refine map_abs_ne ?_
  rw [C97_violation κ c fun x hx => (h x hx).1]
  intro y hy
  obtain ⟨x, hx, rfl⟩ := List.mem_map.mp hy
  exact (excess_clean (h x hx)).1

theorem conMax_lt {κ : ConKind} {c : List Dbl} (h : ∀ x ∈ c, Clean x) {t : Dbl} (ht : Arith.lt (0 : Dbl) t = true) :
    Arith.lt (conMax κ c) t = true ↔ ∀ x ∈ c, Meets t κ x := by
  unfold conMax
  rw [infNorm_lt (conMax_clean h) ht]
  have : (∀ y ∈ violation κ c, Arith.lt (Dbl.abs y) t = true) ↔ ∀ z ∈ (violation κ c).map Dbl.abs, Arith.lt z t = true := by
    simp
  rw [this, C97_violation κ c fun x hx => (h x hx).1]
  simp only [List.forall_mem_map]
  exact forall₂_congr fun x hx => excess_lt (h x hx) ht

theorem conMax_nonneg {κ : ConKind} {c : List Dbl} (h : ∀ x ∈ c, Clean x) : Arith.le (0 : Dbl) (conMax κ c) = true :=
  infNorm_nonneg (conMax_clean h)

theorem nested {α : Type} {f : α → Dbl} {l : List α} (h : ∀ a ∈ l, Arith.le (0 : Dbl) (f a) = true) {t : Dbl}
    (ht : Arith.lt (0 : Dbl) t = true) :
    Arith.le (0 : Dbl) (infNorm (l.map f)) = true ∧
      (Arith.lt (infNorm (l.map f)) t = true ↔ ∀ a ∈ l, Arith.lt (f a) t = true) := by
  have hn : ∀ y ∈ l.map f, y ≠ nan := by
    intro y hy
    obtain ⟨a, ha, rfl⟩ := List.mem_map.mp hy
    exact (le_iff.mp (h a ha)).2.1
  refine ⟨infNorm_nonneg hn, ?_⟩
  rw [infNorm_lt hn ht, List.forall_mem_map]
  exact forall₂_congr fun a ha => by rw [abs_lt_iff (h a ha)]

/-- **C97, the report.**  With finite (or `+inf`) constraint values the reported violation is below the tolerance exactly if every
constraint is met up to the tolerance: no rounding is involved anywhere. -/
theorem C97_reported {l : List (Knot Dbl)} (h : Each (fun _ => Clean) l) {t : Dbl} (ht : Arith.lt (0 : Dbl) t = true) :
    Arith.lt (solverMax l) t = true ↔ Each (Meets t) l := by
  have hk : ∀ s ∈ l, Arith.le (0 : Dbl) (knotMax s) = true ∧
      (Arith.lt (knotMax s) t = true ↔ (∀ v ∈ s.eq, ∀ x ∈ v.c, Meets t .equality x) ∧
        (∀ v ∈ s.ineq, ∀ x ∈ v.c, Meets t .inequality x)) := by
    intro s hs
    obtain ⟨h1, h2⟩ := h s hs
    obtain ⟨a1, b1⟩ := nested (f := fun v : CV Dbl => conMax .equality v.c) (fun v hv => conMax_nonneg (h1 v hv)) ht
    obtain ⟨a2, b2⟩ := nested (f := fun v : CV Dbl => conMax .inequality v.c) (fun v hv => conMax_nonneg (h2 v hv)) ht
    obtain ⟨a, b⟩ := nested (f := id) (l := [infNorm (s.eq.map fun v => conMax .equality v.c),
      infNorm (s.ineq.map fun v => conMax .inequality v.c)]) (by simp [a1, a2]) ht
    rw [List.map_id] at a b
    refine ⟨a, b.trans ?_⟩
    simp only [id, List.mem_cons, List.not_mem_nil, or_false, forall_eq_or_imp, forall_eq]
    rw [b1, b2]
    exact and_congr (forall₂_congr fun v hv => conMax_lt (h1 v hv) ht) (forall₂_congr fun v hv => conMax_lt (h2 v hv) ht)
  unfold solverMax Each
  rw [(nested (fun s hs => (hk s hs).1) ht).2]
  exact forall₂_congr fun s hs => (hk s hs).2

/-- A value `-inf` meets every inequality, but the violation it gives is NaN, so that the test for convergence fails. -/
theorem C97_minus_infinity (t : Dbl) : Arith.lt (inf true) (num 1) = true ∧ conMax .inequality [inf true] = nan ∧
    Arith.lt (conMax .inequality [inf true]) t = false := ⟨rfl, rfl, rfl⟩

/-! ## Multipliers -/

theorem smin0 (x : Dbl) : Arith.smin (0 : Dbl) x = if Arith.lt x 0 = true then x else 0 := rfl

theorem smin0_nonpos (x : Dbl) : Arith.le (Arith.smin (0 : Dbl) x) (0 : Dbl) = true := by
  rw [smin0]; split
  · rename_i h; exact le_of_lt' h
  · rfl

theorem le_smin0 {l x : Dbl} (hl : Arith.le l 0 = true) (h : x ≠ nan → Arith.le l x = true) :
    Arith.le l (Arith.smin (0 : Dbl) x) = true := by
  rw [smin0]; split
  · rename_i hx; exact h (lt_iff.mp hx).1
  · exact hl

theorem run_nonpos {s : CV Dbl} (h : ∀ x ∈ s.lam, Arith.le x 0 = true) (o : Step) :
    ∀ x ∈ (o.run .inequality s).lam, Arith.le x 0 = true := by
  cases o with
  | updateDuals =>
    intro x hx
    obtain ⟨y, -, rfl⟩ := List.mem_map.mp (show x ∈ List.map _ _ from hx)
    exact smin0_nonpos y
  | resetDuals =>
    intro x hx
    obtain ⟨y, -, rfl⟩ := List.mem_map.mp (show x ∈ List.map _ _ from hx)
    rfl
  | _ => exact h

/-- **C97, multipliers.**  Whatever `double` values constraints and penalties take, NaN and infinities included, the multipliers
of inequalities are never positive and never NaN. -/
theorem C97_duals {s : CV Dbl} (h : ∀ x ∈ s.lam, x = .num 0) (os : List Step) :
    ∀ x ∈ (os.foldl (Step.run .inequality) s).lam, Arith.le x 0 = true ∧ x ≠ nan := by
  have : ∀ (s : CV Dbl), (∀ x ∈ s.lam, Arith.le x 0 = true) →
      ∀ x ∈ (os.foldl (Step.run .inequality) s).lam, Arith.le x 0 = true := by
    induction os with
    | nil => exact fun s h => h
    | cons o os ih => exact fun s h => ih _ (run_nonpos h o)
  intro x hx
  have := this s (fun x hx => by rw [h x hx]; rfl) x hx
  exact ⟨this, (le_iff.mp this).1⟩

/-- **C97, the update at a knot point.**  Equality multipliers become `λ - ρ c`, inequality multipliers the smaller of that and zero. -/
theorem C97_knot_duals (s : Knot Dbl) :
    s.updateDuals.eq.map (·.lam) = s.eq.map (fun v => List.zipWith (· - ·) v.lam (List.zipWith (· * ·) v.pen v.c)) ∧
    s.updateDuals.ineq.map (·.lam) =
      s.ineq.map (fun v => (List.zipWith (· - ·) v.lam (List.zipWith (· * ·) v.pen v.c)).map fun x => if Arith.lt x 0 = true then x else 0) ∧
    s.updateDuals.eq.map (fun v => (v.c, v.pen)) = s.eq.map (fun v => (v.c, v.pen)) ∧
    s.updateDuals.ineq.map (fun v => (v.c, v.pen)) = s.ineq.map (fun v => (v.c, v.pen)) := by
  refine ⟨?_, ?_, ?_, ?_⟩ <;> (rw [Knot.updateDuals, List.map_map]; rfl)

theorem le_add_nonneg {l x : Dbl} (hl : l.Ok) (hx : Arith.le (0 : Dbl) x = true) (hn : l + x ≠ nan) :
    Arith.le l (l + x) = true := by
  have nl : l ≠ nan := fun e => hn (by rw [e, Dbl.nan_add])
  rcases cases_num nl with rfl | rfl | f
  · exact ninf_le hn
  · rw [inf_add hn]; rfl
  rcases zero_le_cases hx with rfl | ⟨fx, px⟩
  · rw [finite_add_inf _ f]; exact le_pinf nl
  obtain ⟨s, e, so⟩ := add_finite f fx
  have hv : f64 l.val = l.val ∧ |l.val| < lim := by
    rcases f with rfl | ⟨q, rfl⟩
    · exact ⟨f64_zero, by simpa [val] using lim_pos⟩
    · exact hl
  have hm : l.val ≤ f64 (l.val + x.val) := by
    have := f64_le (show l.val ≤ l.val + x.val by linarith)
    rwa [hv.1] at this
  rw [e]
  rcases round_cases so with ⟨e', a⟩ | ⟨e', a⟩ | ⟨e', a, b⟩
  · rw [e']; exact le_pinf nl
  · have := (abs_lt.mp hv.2).1; linarith
  · rw [le_finite f e', a]; exact hm

theorem add_nonpos_le {l x : Dbl} (hl : l.Ok) (hx : Arith.le x (0 : Dbl) = true) (hn : l + x ≠ nan) :
    Arith.le (l + x) l = true := by
  have nl : l ≠ nan := fun e => hn (by rw [e, Dbl.nan_add])
  rcases cases_num nl with rfl | rfl | f
  · rw [inf_add hn]; rfl
  · exact le_pinf hn
  rcases le_zero_cases hx with rfl | ⟨fx, px⟩
  · rw [finite_add_inf _ f]; exact ninf_le nl
  obtain ⟨s, e, so⟩ := add_finite f fx
  have hv : f64 l.val = l.val ∧ |l.val| < lim := by
    rcases f with rfl | ⟨q, rfl⟩
    · exact ⟨f64_zero, by simpa [val] using lim_pos⟩
    · exact hl
  have hm : f64 (l.val + x.val) ≤ l.val := by
    have := f64_le (show l.val + x.val ≤ l.val by linarith)
    rwa [hv.1] at this
  rw [e]
  rcases round_cases so with ⟨e', a⟩ | ⟨e', a⟩ | ⟨e', a, b⟩
  · have := (abs_lt.mp hv.2).2; linarith
  · rw [e']; exact ninf_le nl
  · rw [le_finite e' f, a]; exact hm

theorem mul_sign {r : ℚ} (hr : 0 < r) {c : Dbl} (hc : c ≠ nan) : num r * c ≠ nan ∧
    (Arith.le c 0 = true → Arith.le (num r * c) 0 = true) ∧ (Arith.le 0 c = true → Arith.le 0 (num r * c) = true) := by
  have hn : num r * c ≠ nan := by
    rcases cases_num hc with rfl | rfl | f
    · show (if r = 0 then nan else inf (decide (r < 0) != true)) ≠ nan
      rw [if_neg hr.ne']; simp
    · show (if r = 0 then nan else inf (decide (r < 0) != false)) ≠ nan
      rw [if_neg hr.ne']; simp
    · rw [(mul_finite (finite_num r) f).1]; exact round_ne_nan _ _
  have h0 : Arith.le (0 : Dbl) (num r) = true := zero_le_of_finite (finite_num r) hr.le
  refine ⟨hn, fun h => mul_nonpos' h0 h hn, fun h => ?_⟩
  rcases zero_le_cases h with rfl | ⟨f, p⟩
  · show Arith.le 0 (if r = 0 then nan else inf (decide (r < 0) != false)) = true
    rw [if_neg hr.ne', decide_eq_false (not_lt.mpr hr.le)]; rfl
  · obtain ⟨e, so⟩ := mul_finite (finite_num r) f
    rw [e]; exact round_nonneg so (_root_.mul_nonneg hr.le p)

/-- **C97, the direction of the dual update.**  With a finite positive penalty the multiplier of an inequality moves down where
the constraint is violated, and up, at most to zero, where it holds; rounding does not turn this around. -/
theorem C97_dual_direction {l c : Dbl} {r : ℚ} (hl : l.Ok) (hl0 : Arith.le l 0 = true) (hr : 0 < r) (hc : c ≠ nan) :
    (Arith.le 0 c = true → Arith.le (Arith.smin (0 : Dbl) (l - num r * c)) l = true) ∧
      (Arith.le c 0 = true → Arith.le l (Arith.smin (0 : Dbl) (l - num r * c)) = true ∧
        Arith.le (Arith.smin (0 : Dbl) (l - num r * c)) 0 = true) := by
  obtain ⟨hn, h1, h2⟩ := mul_sign hr hc
  have nl := (le_iff.mp hl0).1
  refine ⟨fun h => ?_, fun h => ⟨?_, smin0_nonpos _⟩⟩
  · have hm : Arith.le (neg (num r * c)) (0 : Dbl) = true := le_trans' (neg_le_neg' (h2 h)) rfl
    have hs : l + neg (num r * c) ≠ nan := by
      rcases le_zero_cases hl0 with rfl | ⟨f, -⟩
      · rcases le_zero_cases hm with e | ⟨f', -⟩
        · rw [e]; decide
        · rw [inf_add_finite _ f']; simp
      · rcases le_zero_cases hm with e | ⟨f', -⟩
        · rw [e, finite_add_inf _ f]; simp
        · obtain ⟨s, e, -⟩ := add_finite f f'
          rw [e]; exact round_ne_nan _ _
    have a := add_nonpos_le hl hm hs
    rw [sub_def, smin0]
    split
    · exact a
    · rename_i hf
      have := (not_lt_iff hs (show (0 : Dbl) ≠ nan by decide)).mp (by simpa using hf)
      exact le_trans' this a
  · refine le_smin0 hl0 fun hs => ?_
    rw [sub_def] at hs ⊢
    exact le_add_nonneg hl (le_trans' (by rfl) (neg_le_neg' (h1 h))) hs

/-! ## The augmented Lagrangian where the constraints hold -/

theorem sqNorm_from {v w : List Dbl} (h : List.Forall₂ (fun x y => Arith.le (Dbl.abs x) (Dbl.abs y) = true) v w) {a b : Dbl}
    (ha : Arith.le 0 a = true) (hab : Arith.le a b = true) :
    Arith.le (v.foldl (fun a x => a + x * x) a) (w.foldl (fun a x => a + x * x) b) = true ∧
      Arith.le 0 (v.foldl (fun a x => a + x * x) a) = true := by
  induction h generalizing a b with
  | nil => exact ⟨hab, ha⟩
  | @cons x y v w hxy _ ih =>
    have nx : x ≠ nan := fun e => by subst e; exact (le_iff.mp hxy).1 rfl
    have ny : y ≠ nan := fun e => by subst e; exact (le_iff.mp hxy).2.1 rfl
    have h1 := add_nonneg' ha (sq_nonneg' nx)
    have h2 := add_nonneg' (le_trans' ha hab) (sq_nonneg' ny)
    exact ih h1 (add_le hab (sq_le hxy) (le_iff.mp h1).2.1 (le_iff.mp h2).2.1)

theorem sqNorm_le {v w : List Dbl} (h : List.Forall₂ (fun x y => Arith.le (Dbl.abs x) (Dbl.abs y) = true) v w) :
    Arith.le (sqNorm v) (sqNorm w) = true := (sqNorm_from h rfl rfl).1

theorem two : (1 + 1 : Dbl) = num 2 := by decide +kernel

theorem double_pos {r : ℚ} (hr : 0 < r) (h1 : f64 r = r) : 0 < f64 (2 * r) := by
  have := f64_le (show r ≤ 2 * r by linarith)
  rw [h1] at this; linarith

theorem double_num {r : ℚ} (hr : 0 < r) (h1 : f64 r = r) (h2 : f64 (2 * r) < (2 : ℚ) ^ (1024 : ℕ)) :
    (1 + 1) * num r = num (f64 (2 * r)) := by
  have hp := double_pos hr h1
  rw [two, Dbl.mul_nonneg (by norm_num) hr.le]
  unfold Dbl.round
  dsimp only
  rw [if_neg hp.ne', if_neg (by rw [abs_of_pos hp]; exact not_le.mpr h2)]

theorem abs_le_of_proj {l c : Dbl} {r : ℚ} (hl : l.Ok) (hl0 : Arith.le l 0 = true) (hr : 0 < r) (hc : Arith.le c 0 = true) :
    Arith.le (Dbl.abs (Arith.smin (0 : Dbl) (l - num r * c))) (Dbl.abs l) = true := by
  obtain ⟨a, b⟩ := (C97_dual_direction hl hl0 hr (le_iff.mp hc).1).2 hc
  exact abs_le_abs' a b

theorem quiet_ineq {r : ℚ} (hr : 0 < r) : ∀ (lam c : List Dbl), c.length = lam.length →
    (∀ x ∈ lam, x.Ok ∧ Arith.le x 0 = true) → (∀ x ∈ c, Arith.le x 0 = true) →
    List.Forall₂ (fun x y => Arith.le (Dbl.abs x) (Dbl.abs y) = true)
      ((List.zipWith (fun l c => l - num r * c) lam c).map fun x => Arith.smin 0 x) lam := by
  intro lam
  induction lam with
  | nil => intro c h _ _; simp
  | cons l lam ih =>
    intro c h h1 h2
    cases c with
    | nil => simp at h
    | cons x c =>
      refine List.Forall₂.cons ?_ (ih c (by simpa using h) (fun y hy => h1 y (by simp [hy])) fun y hy => h2 y (by simp [hy]))
      obtain ⟨a, b⟩ := h1 l (by simp)
      exact abs_le_of_proj a b hr (h2 x (by simp))

theorem sub_zero_abs {l z : Dbl} (h : l.Ok) (hz : z = num 0 ∨ z = nzero) : Dbl.abs (l - z) = Dbl.abs l := by
  rcases hz with rfl | rfl
  · exact sub_zero_ok h
  · cases l with
    | nan => rfl
    | inf s => rfl
    | nzero => decide +kernel
    | num q =>
      obtain ⟨h1, h2⟩ := h
      show Dbl.abs (addFin q 0 false) = num |q|
      unfold addFin
      rw [add_zero]
      unfold Dbl.round
      rw [h1]
      dsimp only
      by_cases h0 : q = 0
      · simp [h0, Dbl.abs]
      · rw [if_neg h0, if_neg (not_le.mpr h2)]; rfl

theorem mul_zero' {r : ℚ} {x : Dbl} (hx : x = num 0 ∨ x = nzero) : num r * x = num 0 ∨ num r * x = nzero := by
  have hf : Finite x := by rcases hx with rfl | rfl; exacts [.inr ⟨0, rfl⟩, .inl rfl]
  have hv : x.val = 0 := by rcases hx with rfl | rfl <;> rfl
  rw [(mul_finite (finite_num r) hf).1, hv, mul_zero]
  unfold Dbl.round
  rw [f64_zero]
  dsimp only
  rw [if_pos rfl]
  split
  · exact .inr rfl
  · exact .inl rfl

theorem quiet_eq {r : ℚ} : ∀ (lam c : List Dbl), c.length = lam.length →
    (∀ x ∈ lam, x.Ok ∧ Finite x) → (∀ x ∈ c, x = num 0 ∨ x = nzero) →
    List.Forall₂ (fun x y => Arith.le (Dbl.abs x) (Dbl.abs y) = true)
      (List.zipWith (fun l c => l - num r * c) lam c) lam := by
  intro lam
  induction lam with
  | nil => intro c h _ _; simp
  | cons l lam ih =>
    intro c h h1 h2
    cases c with
    | nil => simp at h
    | cons x c =>
      refine List.Forall₂.cons ?_ (ih c (by simpa using h) (fun y hy => h1 y (by simp [hy])) fun y hy => h2 y (by simp [hy]))
      obtain ⟨a, b⟩ := h1 l (by simp)
      show Arith.le (Dbl.abs (l - num r * x)) (Dbl.abs l) = true
      rw [sub_zero_abs a (mul_zero' (h2 x (by simp)))]
      exact le_refl' (abs_ne_nan (finite_ne_nan b))

/-- **C97, the augmented Lagrangian.**  Where a constraint holds, the term it adds to the cost is not positive (and not NaN), with
rounding, as long as nothing overflows. -/
theorem C97_feasible {κ : ConKind} {s : CV Dbl} {r : ℚ} (h : Quiet κ s r) (d : Dbl) : Arith.le (augLag d κ s) 0 = true := by
  have hrho : rho d s = num r := by
    have := h.pen
    unfold rho
    cases hp : s.pen with
    | nil => rw [hp] at this; simp at this
    | cons x l => rw [hp] at this; simpa using this
  have hsq : Arith.le (sqNorm (dualProj κ (List.zipWith (fun l c => l - rho d s * c) s.lam s.c))) (sqNorm s.lam) = true := by
    rw [hrho]
    cases κ with
    | equality => exact sqNorm_le (quiet_eq _ _ h.len h.sign h.holds)
    | inequality => exact sqNorm_le (quiet_ineq h.pos _ _ h.len h.sign h.holds)
  unfold augLag
  have hn := sub_ne_nan h.square (le_iff.mp hsq).1
  have h0 := sub_nonpos' hsq hn
  rw [hrho] at h0 ⊢
  rw [double_num h.pos h.ok h.double]
  exact div_nonpos' h0 (double_pos h.pos h.ok)

theorem add_ok (x y : Dbl) : (x + y).Ok := by
  cases x <;> cases y <;> first | trivial | exact round_ok _ _ | skip
  rename_i s t
  show (if s = t then inf s else nan).Ok
  split <;> trivial

theorem foldl_nonpos {J : Dbl} (hJ : J.Ok) (hf : Finite J) (f : CV Dbl → Dbl) : ∀ (l : List (CV Dbl)) (a : Dbl), a.Ok →
    Arith.le a J = true → (∀ v ∈ l, Arith.le (f v) 0 = true) →
    (l.foldl (fun a v => a + f v) a).Ok ∧ Arith.le (l.foldl (fun a v => a + f v) a) J = true := by
  intro l
  induction l with
  | nil => intro a h1 h2 _; exact ⟨h1, h2⟩
  | cons v l ih =>
    intro a h1 h2 h3
    refine ih _ (add_ok _ _) ?_ fun w hw => h3 w (by simp [hw])
    have hv := h3 v (by simp)
    have hn : a + f v ≠ nan := by
      rcases cases_num (le_iff.mp h2).1 with rfl | rfl | fa
      · rcases le_zero_cases hv with e | ⟨f', -⟩
        · rw [e]; decide
        · rw [inf_add_finite _ f']; simp
      · rw [pinf_le h2] at hf
        rcases hf with e | ⟨q, e⟩ <;> simp at e
      · rcases le_zero_cases hv with e | ⟨f', -⟩
        · rw [e, finite_add_inf _ fa]; simp
        · obtain ⟨s, e, -⟩ := add_finite fa f'
          rw [e]; exact round_ne_nan _ _
    exact le_trans' (add_nonpos_le h1 hv hn) h2

/-- **C97, the cost.**  Where all constraints hold, the cost the solver works with is at most the user's cost; rounding cannot
make it larger. -/
theorem C97_cost {J : Dbl} (hJ : J.Ok) (hf : Finite J) {s : Knot Dbl} (h1 : ∀ v ∈ s.eq, ∃ r, Quiet .equality v r)
    (h2 : ∀ v ∈ s.ineq, ∃ r, Quiet .inequality v r) (d : Dbl) : Arith.le (evaluate d J s) J = true := by
  unfold evaluate
  obtain ⟨a, b⟩ := foldl_nonpos hJ hf (augLag d .equality) s.eq J hJ (le_refl' (finite_ne_nan hf)) fun v hv =>
    let ⟨_, h⟩ := h1 v hv
    C97_feasible h d
  exact (foldl_nonpos hJ hf (augLag d .inequality) s.ineq _ a b fun v hv =>
    let ⟨_, h⟩ := h2 v hv
    C97_feasible h d).2

/-! ## Penalties -/

/-- What is left of a factor after rounding. -/
def kept : ℚ := 1 - 1 / 2 ^ 53 - 1 / 2 ^ 60

theorem scaled {f q : ℚ} (hf : 1 < f) (hq : 1 ≤ q) {x : Dbl} (h : AtLeast q x) : AtLeast (q * (f * kept)) (x * num f) := by
  have hf0 : 0 < f := one_pos.trans hf
  refine (h.mul_num (zero_le_one.trans hq) hf0).mono ?_
  have h1 : 1 ≤ q * f := by nlinarith
  have := f64_ge h1
  rw [← mul_assoc]
  exact this

theorem factor_gt {f : ℚ} (h : f64 f = f) (hf : 1 < f) : 1 < f * kept := by
  have := f64_above_one h hf
  have hk : 0 < kept := by unfold kept; norm_num
  have : (1 + 1 / 2 ^ 52) * kept ≤ f * kept := mul_le_mul_of_nonneg_right this hk.le
  refine lt_of_lt_of_le ?_ this
  unfold kept; norm_num

theorem penalties_step {f q : ℚ} (hf : 1 < f) (hq : 1 ≤ q) {l : List (Knot Dbl)} (h : PenaltiesFrom q l) :
    PenaltiesFrom (q * (f * kept)) (l.map (Knot.updatePenalties (num f))) := by
  refine ⟨?_, ?_⟩
  · intro s hs v hv
    obtain ⟨s, hs', rfl⟩ := List.mem_map.mp hs
    have hv : v ∈ (s.eq ++ s.ineq).map (ConArith.updatePenalties (num f)) := by
      simpa [Knot.updatePenalties] using hv
    obtain ⟨v, hv', rfl⟩ := List.mem_map.mp hv
    obtain ⟨a, b⟩ := h.1 s hs' v hv'
    refine ⟨by simpa [ConArith.updatePenalties] using a, fun x hx => ?_⟩
    obtain ⟨x, hx', rfl⟩ := List.mem_map.mp (show x ∈ v.pen.map (· * num f) from hx)
    exact scaled hf hq (b x hx')
  · obtain ⟨s, hs, hne⟩ := h.2
    refine ⟨_, List.mem_map.mpr ⟨s, hs, rfl⟩, ?_⟩
    simpa [Knot.updatePenalties] using hne

theorem penalties_after {f q : ℚ} (hf : f64 f = f) (h1 : 1 < f) (hq : 1 ≤ q) {l : List (Knot Dbl)} (h : PenaltiesFrom q l) (k : ℕ) :
    PenaltiesFrom (q * (f * kept) ^ k) ((List.map (Knot.updatePenalties (num f)))^[k] l) := by
  induction k with
  | zero => simpa using h
  | succ k ih =>
    rw [Function.iterate_succ', pow_succ, ← mul_assoc]
    refine penalties_step h1 ?_ ih
    have := one_le_pow₀ (factor_gt hf h1).le (n := k)
    nlinarith

theorem lt_atLeast {m q : ℚ} {x : Dbl} (h : AtLeast q x) (hm : m < q) : Arith.lt (num m) x = true := by
  rcases h with rfl | ⟨r, h1, rfl⟩
  · rfl
  · rw [lt_num]; exact decide_eq_true (hm.trans_le h1)

theorem foldl_smax' {α : Type} {f : α → Dbl} : ∀ {l : List α}, (∀ y ∈ l, f y ≠ nan) → ∀ {a : Dbl}, a ≠ nan →
    l.foldl (fun a y => Arith.smax a (f y)) a ≠ nan ∧
      Arith.le a (l.foldl (fun a y => Arith.smax a (f y)) a) = true ∧
      ∀ y ∈ l, Arith.le (f y) (l.foldl (fun a y => Arith.smax a (f y)) a) = true := by
  intro l
  induction l with
  | nil => intro _ a ha; exact ⟨ha, le_refl' ha, by simp⟩
  | cons x l ih =>
    intro hl a ha
    have hx := hl x (by simp)
    obtain ⟨p, q, r⟩ := ih (fun y hy => hl y (by simp [hy])) (smax_ne_nan ha hx)
    refine ⟨p, le_trans' (le_smax_left ha) q, fun y hy => ?_⟩
    rcases List.mem_cons.mp hy with rfl | hy
    · exact le_trans' (le_smax_right ha hx) q
    · exact r y hy

/-- The largest penalty of the solver is not NaN, and above what all penalties are above. -/
theorem solverPenalty_gt {q m : ℚ} {l : List (Knot Dbl)} (h : PenaltiesFrom q l) (hm : m < q) (d : Dbl) :
    Arith.lt (num m) (solverPenalty d l) = true := by
  have hp : ∀ s ∈ l, ∀ v ∈ s.eq ++ s.ineq, Arith.lt (num m) (maxPenalty d v.pen) = true := by
    intro s hs v hv
    obtain ⟨a, b⟩ := h.1 s hs v hv
    cases hv : v.pen with
    | nil => exact absurd hv a
    | cons x p =>
      rw [hv] at b
      have hx := b x (by simp)
      exact lt_of_lt_of_le' (lt_atLeast hx hm)
        (foldl_smax' (f := id) (fun y hy => (b y (by simp [hy])).ne_nan) hx.ne_nan).2.1
  have hn : ∀ s ∈ l, ∀ v ∈ s.eq ++ s.ineq, maxPenalty d v.pen ≠ nan := fun s hs v hv => (lt_iff.mp (hp s hs v hv)).2.1
  have hk : ∀ s ∈ l, knotPenalty d s ≠ nan ∧ ∀ v ∈ s.eq ++ s.ineq, Arith.le (maxPenalty d v.pen) (knotPenalty d s) = true := by
    intro s hs
    have e : knotPenalty d s = (s.eq ++ s.ineq).foldl (fun a v => Arith.smax a (maxPenalty d v.pen)) 0 := by
      rw [List.foldl_append]; rfl
    rw [e]
    obtain ⟨a, -, b⟩ := foldl_smax' (f := fun v : CV Dbl => maxPenalty d v.pen) (hn s hs) (a := (0 : Dbl)) (by decide)
    exact ⟨a, b⟩
  obtain ⟨s, hs, hne⟩ := h.2
  obtain ⟨v, hv⟩ := List.exists_mem_of_ne_nil _ hne
  have hl := (foldl_smax' (f := knotPenalty d) (fun s hs => (hk s hs).1) (a := (0 : Dbl)) (by decide)).2.2 s hs
  exact lt_of_lt_of_le' (hp s hs v hv) (le_trans' ((hk s hs).2 v hv) hl)

/-- **C97, penalties.**  From penalties of at least one, a factor above one takes the largest penalty above any finite limit, and it
stays above: the test against `maximum_penalty` ends the solver after finitely many outer iterations.  Overflow does not hurt:
penalties become `+inf`, not NaN. -/
theorem C97_penalties {f q : ℚ} (hf : f64 f = f) (h1 : 1 < f) (hq : 1 ≤ q) {l : List (Knot Dbl)} (h : PenaltiesFrom q l) (m : ℚ)
    (d : Dbl) : ∃ k, ∀ j, k ≤ j →
      Arith.lt (num m) (solverPenalty d ((List.map (Knot.updatePenalties (num f)))^[j] l)) = true := by
  obtain ⟨k, hk⟩ := pow_unbounded_of_one_lt m (factor_gt hf h1)
  refine ⟨k, fun j hj => solverPenalty_gt (penalties_after hf h1 hq h j) ?_ d⟩
  have a : (f * kept) ^ k ≤ (f * kept) ^ j := pow_le_pow_right₀ (factor_gt hf h1).le hj
  have b : (0 : ℚ) ≤ (f * kept) ^ j := by
    have := (factor_gt hf h1).le
    positivity
  nlinarith

/-- Starting at the least positive `double`, a factor `1.25` never moves the penalty: products are rounded back. -/
theorem C97_penalty_stuck (k : ℕ) :
    (fun x : Dbl => x * num (5 / 4))^[k] (num (1 / 2 ^ 1074)) = num (1 / 2 ^ 1074) := by
  have e : num (1 / 2 ^ 1074) * num (5 / 4) = num (1 / 2 ^ 1074) := by decide +kernel
  induction k with
  | zero => rfl
  | succ k ih => rw [Function.iterate_succ', Function.comp, ih, e]

/-! ## Examples -/

/-- `0.1` and `0.3` as `double`s. -/
def tenth : Dbl := lit (1 / 10)
def threeTenths : Dbl := lit (3 / 10)

/-- An inequality with multipliers `-0.1` and `-0.3`, values `-0.3` and zero and the default penalty. -/
def cvExample : CV Dbl := ⟨[neg threeTenths, nzero], [neg tenth, neg threeTenths], [1, 1]⟩

/-- An equality that holds. -/
def cvEq : CV Dbl := ⟨[0], [threeTenths], [1]⟩

theorem neg_ok {x : Dbl} (h : x.Ok) : (neg x).Ok := by
  cases x with
  | num q =>
    show (if q = 0 then nzero else num (-q)).Ok
    split
    · trivial
    · exact ⟨by rw [f64_neg, h.1], by rw [abs_neg]; exact h.2⟩
  | nzero => exact ⟨f64_zero, by norm_num⟩
  | _ => trivial

theorem tenth_ok : tenth.Ok := round_ok _ _
theorem threeTenths_ok : threeTenths.Ok := round_ok _ _

theorem cvExample_quiet : Quiet .inequality cvExample 1 where
  len := rfl
  pen := rfl
  pos := one_pos
  ok := f64_one
  holds := by decide +kernel
  sign := by
    intro x hx
    have h : Arith.le x 0 = true := by revert x; decide +kernel
    refine ⟨?_, h⟩
    rcases List.mem_cons.mp hx with rfl | hx
    · exact neg_ok tenth_ok
    · rcases List.mem_cons.mp hx with rfl | hx
      · exact neg_ok threeTenths_ok
      · simp at hx
  square := .inr ⟨(ConArith.sqNorm cvExample.lam).val, by decide +kernel⟩
  double := by decide +kernel

theorem cvEq_quiet : Quiet .equality cvEq 1 where
  len := rfl
  pen := rfl
  pos := one_pos
  ok := f64_one
  holds := fun x hx => .inl (List.mem_singleton.mp hx)
  sign := by
    intro x hx
    rw [List.mem_singleton.mp hx]
    exact ⟨threeTenths_ok, .inr ⟨threeTenths.val, by decide +kernel⟩⟩
  square := .inr ⟨(ConArith.sqNorm cvEq.lam).val, by decide +kernel⟩
  double := by decide +kernel

/-- C97_feasible and C97_cost on the two constraints together; the cost is strictly smaller. -/
theorem C97_example : Arith.le (evaluate nan threeTenths ⟨[cvEq], [cvExample]⟩) threeTenths = true ∧
    Arith.lt (evaluate nan threeTenths ⟨[cvEq], [cvExample]⟩) threeTenths = true := by
  refine ⟨C97_cost threeTenths_ok (.inr ⟨threeTenths.val, by decide +kernel⟩) ?_ ?_ nan,
    by decide +kernel⟩
  · intro v hv
    rw [List.mem_singleton.mp hv]; exact ⟨1, cvEq_quiet⟩
  · intro v hv
    rw [List.mem_singleton.mp hv]; exact ⟨1, cvExample_quiet⟩

/-- The violation of an inequality by `0.3` is `0.3`, the constraints are met up to `0.1` except there. -/
theorem C97_reported_example : solverMax [⟨[cvEq], [cvExample]⟩, ⟨[], [⟨[threeTenths], [0], [1]⟩]⟩] = threeTenths ∧
    Arith.lt (solverMax [⟨[cvEq], [cvExample]⟩]) tenth = true := by
  constructor <;> decide +kernel

/-- The default settings: penalty one and factor ten. -/
theorem C97_penalties_example (m : ℚ) : ∃ k, ∀ j, k ≤ j →
    Arith.lt (num m) (solverPenalty nan ((List.map (Knot.updatePenalties (num 10)))^[j] [⟨[cvEq], [cvExample]⟩])) = true := by
  refine C97_penalties (q := 1) (by decide +kernel) (by norm_num) le_rfl ⟨?_, ⟨_, List.mem_singleton.mpr rfl, by simp⟩⟩ m nan
  intro s hs v hv
  rw [List.mem_singleton.mp hs] at hv
  have one : AtLeast 1 (1 : Dbl) := .inr ⟨1, le_rfl, rfl⟩
  rcases List.mem_cons.mp hv with rfl | hv
  · exact ⟨by simp [cvEq], fun x hx => by rw [List.mem_singleton.mp hx]; exact one⟩
  · rw [List.mem_singleton.mp hv]
    exact ⟨by simp [cvExample], fun x hx => by
      have : x = 1 := by simpa [cvExample] using hx
      rw [this]; exact one⟩

end Altro.Props.DoubleCon
