import Verif.Model.ConArith
import Verif.Proofs.Double

/-!
# `double` operations are monotone
-/

namespace Altro
open Spec

/-! ## Rounding is odd and monotone -/

theorem rhe_neg (q : ℚ) : rhe (-q) = -rhe q := by
  have h1 := Int.floor_le q
  have h2 := Int.lt_floor_add_one q
  rcases h1.eq_or_lt with h | h
  · rw [← h, ← Int.cast_neg, rhe_int, rhe_int]
  · have hf : ⌊-q⌋ = -⌊q⌋ - 1 := by
      rw [Int.floor_eq_iff]
      push_cast
      constructor <;> linarith
    unfold rhe
    dsimp only
    rw [hf]
    push_cast
    by_cases a : q - ⌊q⌋ < 1 / 2
    · rw [if_pos a, if_neg (by linarith), if_pos (by linarith)]; ring
    · by_cases b : 1 / 2 < q - ⌊q⌋
      · rw [if_neg a, if_pos b, if_pos (by linarith)]; ring
      · rw [if_neg a, if_neg b, if_neg (by linarith), if_neg (by linarith)]
        by_cases c : ⌊q⌋ % 2 = 0
        · rw [if_pos c, if_neg (by omega)]; ring
        · rw [if_neg c, if_pos (by omega)]; ring

theorem ilog2_neg (x : ℚ) : ilog2 (-x) = ilog2 x := by simp [ilog2]

theorem ieee_neg (p : ℕ) (emin : ℤ) (x : ℚ) : ieee p emin (-x) = -ieee p emin x := by
  unfold ieee
  by_cases h : x = 0
  · simp [h]
  · have hu : ulpExp p emin (-x) = ulpExp p emin x := by simp [ulpExp, ilog2_neg]
    rw [if_neg (by simpa using h), if_neg h, hu, neg_div, rhe_neg]
    push_cast; ring

theorem f64_neg (x : ℚ) : f64 (-x) = -f64 x := ieee_neg _ _ x
theorem f64_zero : f64 0 = 0 := ieee_zero _ _

theorem f64_nonpos {x : ℚ} (h : x ≤ 0) : f64 x ≤ 0 := by
  have := f64_nonneg (neg_nonneg.mpr h)
  rw [f64_neg] at this
  linarith

theorem f64_le {x y : ℚ} (h : x ≤ y) : f64 x ≤ f64 y := by
  rcases le_total 0 x with hx | hx
  · exact f64_mono hx h
  · rcases le_total 0 y with hy | hy
    · exact (f64_nonpos hx).trans (f64_nonneg hy)
    · have := f64_mono (neg_nonneg.mpr hy) (neg_le_neg h)
      rw [f64_neg, f64_neg] at this
      linarith

namespace Dbl

/-! ## The order -/

/-- The largest number, exclusive. -/
def lim : ℚ := (2 : ℚ) ^ (1024 : ℕ)

theorem lim_pos : 0 < lim := by unfold lim; positivity

theorem le_iff {a b : Dbl} : Arith.le a b = true ↔ a ≠ nan ∧ b ≠ nan ∧
    (a.level < b.level ∨ a.level = b.level ∧ a.val ≤ b.val) := by
  show le a b = true ↔ _
  cases a <;> cases b <;> simp [le]

theorem finite_level {x : Dbl} (h : Finite x) : x.level = 0 := by
  rcases h with rfl | ⟨q, rfl⟩ <;> rfl

theorem finite_ne_nan {x : Dbl} (h : Finite x) : x ≠ nan := by
  rcases h with rfl | ⟨q, rfl⟩ <;> simp

theorem finite_num (q : ℚ) : Finite (num q) := .inr ⟨q, rfl⟩

theorem cases_num {x : Dbl} (h : x ≠ nan) : x = inf true ∨ x = inf false ∨ Finite x := by
  cases x with
  | nan => exact absurd rfl h
  | inf s => cases s <;> simp
  | nzero => exact .inr (.inr (.inl rfl))
  | num q => exact .inr (.inr (.inr ⟨q, rfl⟩))

theorem le_finite {a b : Dbl} (ha : Finite a) (hb : Finite b) : Arith.le a b = true ↔ a.val ≤ b.val := by
  rw [le_iff]
  simp [finite_ne_nan ha, finite_ne_nan hb, finite_level ha, finite_level hb]

theorem lt_finite {a b : Dbl} (ha : Finite a) (hb : Finite b) : Arith.lt a b = true ↔ a.val < b.val := by
  rw [lt_iff]
  simp [finite_ne_nan ha, finite_ne_nan hb, finite_level ha, finite_level hb]

theorem level_le_one (a : Dbl) : a.level ≤ 1 := by
  cases a with
  | inf s => cases s <;> simp [level]
  | _ => simp [level]

theorem neg_one_le_level (a : Dbl) : -1 ≤ a.level := by
  cases a with
  | inf s => cases s <;> simp [level]
  | _ => simp [level]

theorem le_refl' {a : Dbl} (h : a ≠ nan) : Arith.le a a = true := by rw [le_iff]; exact ⟨h, h, .inr ⟨rfl, le_rfl⟩⟩

theorem le_trans' {a b c : Dbl} (h : Arith.le a b = true) (h' : Arith.le b c = true) : Arith.le a c = true := by
  rw [le_iff] at *
  refine ⟨h.1, h'.2.1, ?_⟩
  rcases h.2.2 with p | p <;> rcases h'.2.2 with q | q
  · left; omega
  · left; omega
  · left; omega
  · exact .inr ⟨by omega, p.2.trans q.2⟩

theorem le_of_lt' {a b : Dbl} (h : Arith.lt a b = true) : Arith.le a b = true := by
  rw [lt_iff] at h; rw [le_iff]
  exact ⟨h.1, h.2.1, h.2.2.imp_right fun x => ⟨x.1, x.2.le⟩⟩

theorem lt_of_le_of_lt' {a b c : Dbl} (h : Arith.le a b = true) (h' : Arith.lt b c = true) : Arith.lt a c = true := by
  rw [le_iff] at h; rw [lt_iff] at *
  refine ⟨h.1, h'.2.1, ?_⟩
  rcases h.2.2 with p | p <;> rcases h'.2.2 with q | q
  · left; omega
  · left; omega
  · left; omega
  · exact .inr ⟨by omega, p.2.trans_lt q.2⟩

theorem lt_of_lt_of_le' {a b c : Dbl} (h : Arith.lt a b = true) (h' : Arith.le b c = true) : Arith.lt a c = true := by
  rw [le_iff] at h'; rw [lt_iff] at *
  refine ⟨h.1, h'.2.1, ?_⟩
  rcases h.2.2 with p | p <;> rcases h'.2.2 with q | q
  · left; omega
  · left; omega
  · left; omega
  · exact .inr ⟨by omega, p.2.trans_le q.2⟩

/-- Without NaN, comparisons are total. -/
theorem not_lt_iff {a b : Dbl} (ha : a ≠ nan) (hb : b ≠ nan) : Arith.lt a b = false ↔ Arith.le b a = true := by
  rw [← Bool.not_eq_true, lt_iff, le_iff]
  simp only [ha, hb, ne_eq, not_false_eq_true, true_and, not_or, not_and, not_lt]
  constructor
  · rintro ⟨p, q⟩
    rcases p.lt_or_eq with p | p
    · exact .inl p
    · exact .inr ⟨p, q p.symm⟩
  · rintro (p | ⟨p, q⟩)
    · exact ⟨p.le, fun e => by omega⟩
    · exact ⟨p.le, fun _ => q⟩

theorem ninf_le {a : Dbl} (h : a ≠ nan) : Arith.le (inf true) a = true := by
  rcases cases_num h with rfl | rfl | h
  · rfl
  · rfl
  · rw [le_iff]; exact ⟨by simp, finite_ne_nan h, .inl (by rw [finite_level h]; decide)⟩

theorem le_pinf {a : Dbl} (h : a ≠ nan) : Arith.le a (inf false) = true := by
  rcases cases_num h with rfl | rfl | h
  · rfl
  · rfl
  · rw [le_iff]; exact ⟨finite_ne_nan h, by simp, .inl (by rw [finite_level h]; decide)⟩

theorem pinf_le {a : Dbl} (h : Arith.le (inf false) a = true) : a = inf false := by
  cases a with
  | inf s => cases s <;> simp_all [le_iff, level]
  | _ => simp_all [le_iff, level]

theorem le_ninf {a : Dbl} (h : Arith.le a (inf true) = true) : a = inf true := by
  cases a with
  | inf s => cases s <;> simp_all [le_iff, level]
  | _ => simp_all [le_iff, level]

/-! ## Rounding to a `double` -/

/-- The sign given to `round` fits the number. -/
def SignOk (s : Bool) (x : ℚ) : Prop := if s then x ≤ 0 else 0 ≤ x

theorem round_cases {s : Bool} {x : ℚ} (h : SignOk s x) :
    (round s x = inf false ∧ lim ≤ f64 x) ∨ (round s x = inf true ∧ f64 x ≤ -lim) ∨
      (Finite (round s x) ∧ (round s x).val = f64 x ∧ |f64 x| < lim) := by
  unfold round
  extract_lets r
  have hr : r = f64 x := rfl
  clear_value r
  subst hr
  by_cases h0 : f64 x = 0
  · rw [if_pos h0]
    right; right
    refine ⟨?_, ?_, by rw [h0, abs_zero]; exact lim_pos⟩
    · cases s
      · exact .inr ⟨0, rfl⟩
      · exact .inl rfl
    · rw [h0]; cases s <;> rfl
  · rw [if_neg h0]
    by_cases h1 : (2 : ℚ) ^ (1024 : ℕ) ≤ |f64 x|
    · rw [if_pos h1]
      cases s with
      | false =>
        have hx : 0 ≤ x := by simpa [SignOk] using h
        rw [abs_of_nonneg (f64_nonneg hx)] at h1
        exact .inl ⟨rfl, h1⟩
      | true =>
        have hx : x ≤ 0 := by simpa [SignOk] using h
        rw [abs_of_nonpos (f64_nonpos hx)] at h1
        exact .inr (.inl ⟨rfl, by unfold lim; linarith⟩)
    · rw [if_neg h1]
      exact .inr (.inr ⟨.inr ⟨_, rfl⟩, rfl, not_le.mp h1⟩)

theorem round_le {s t : Bool} {x y : ℚ} (hs : SignOk s x) (ht : SignOk t y) (h : x ≤ y) :
    Arith.le (round s x) (round t y) = true := by
  have hf := f64_le h
  have hl := lim_pos
  rcases round_cases hs with ⟨e, a⟩ | ⟨e, a⟩ | ⟨e, a, b⟩
  · rcases round_cases ht with ⟨e', a'⟩ | ⟨e', a'⟩ | ⟨e', a', b'⟩
    · rw [e, e']; rfl
    · linarith
    · have := (abs_lt.mp b').2; linarith
  · rw [e]; exact ninf_le (round_ne_nan _ _)
  · rcases round_cases ht with ⟨e', a'⟩ | ⟨e', a'⟩ | ⟨e', a', b'⟩
    · rw [e']; exact le_pinf (round_ne_nan _ _)
    · have := (abs_lt.mp b).1; linarith
    · rw [le_finite e e', a, a']; exact hf

/-! ## Sums -/

theorem add_def (x y : Dbl) : x + y = add x y := rfl
theorem sub_def (x y : Dbl) : x - y = x + neg y := rfl

theorem addFin_sign (a b : ℚ) (both : Bool) : SignOk (if a + b = 0 then both else decide (a + b < 0)) (a + b) := by
  unfold SignOk
  by_cases h : a + b = 0
  · rw [h]; cases both <;> simp
  · rw [if_neg h]
    by_cases h' : a + b < 0
    · simp [h', h'.le]
    · simp [h']; linarith

theorem add_finite {x y : Dbl} (hx : Finite x) (hy : Finite y) :
    ∃ s, x + y = round s (x.val + y.val) ∧ SignOk s (x.val + y.val) := by
  rcases hx with rfl | ⟨a, rfl⟩ <;> rcases hy with rfl | ⟨b, rfl⟩
  · refine ⟨true, ?_, by simp [SignOk, val]⟩
    show nzero = round true (0 + 0)
    simp [round, f64_zero]
  · exact ⟨_, rfl, addFin_sign 0 b false⟩
  · exact ⟨_, rfl, addFin_sign a 0 false⟩
  · exact ⟨_, rfl, addFin_sign a b false⟩

theorem nan_add (x : Dbl) : nan + x = nan := by cases x <;> rfl
theorem add_nan (x : Dbl) : x + nan = nan := by cases x <;> rfl

theorem inf_add_finite {x : Dbl} (s : Bool) (hx : Finite x) : inf s + x = inf s := by
  rcases hx with rfl | ⟨a, rfl⟩ <;> rfl
theorem finite_add_inf {x : Dbl} (s : Bool) (hx : Finite x) : x + inf s = inf s := by
  rcases hx with rfl | ⟨a, rfl⟩ <;> rfl
theorem inf_add_inf (s : Bool) : inf s + inf s = inf s := by cases s <;> rfl
theorem inf_sub_inf (s : Bool) : inf s + inf (!s) = nan := by cases s <;> rfl

/-- A sum with an infinity is that infinity or NaN. -/
theorem inf_add {x : Dbl} {s : Bool} (h : inf s + x ≠ nan) : inf s + x = inf s := by
  cases x with
  | nan => exact absurd (add_nan _) h
  | inf t => cases s <;> cases t <;> first | rfl | exact absurd rfl h
  | nzero => rfl
  | num q => rfl

theorem add_inf {x : Dbl} {s : Bool} (h : x + inf s ≠ nan) : x + inf s = inf s := by
  cases x with
  | nan => exact absurd (nan_add _) h
  | inf t => cases s <;> cases t <;> first | rfl | exact absurd rfl h
  | nzero => rfl
  | num q => rfl

/-- **Sums are monotone** (when they are not NaN). -/
theorem add_le {x y x' y' : Dbl} (hx : Arith.le x x' = true) (hy : Arith.le y y' = true) (h : x + y ≠ nan)
    (h' : x' + y' ≠ nan) : Arith.le (x + y) (x' + y') = true := by
  have nx := (le_iff.mp hx).1
  have ny := (le_iff.mp hy).1
  have nx' := (le_iff.mp hx).2.1
  have ny' := (le_iff.mp hy).2.1
  rcases cases_num nx with rfl | rfl | fx
  · rw [inf_add h]; exact ninf_le h'
  · rw [pinf_le hx] at h' ⊢
    rw [inf_add h']; exact le_pinf h
  rcases cases_num ny with rfl | rfl | fy
  · rw [add_inf h]; exact ninf_le h'
  · rw [pinf_le hy] at h' ⊢
    rw [add_inf h']; exact le_pinf h
  rcases cases_num nx' with rfl | rfl | fx'
  · rw [le_ninf hx] at fx
    rcases fx with e | ⟨q, e⟩ <;> simp at e
  · rw [inf_add h']; exact le_pinf h
  rcases cases_num ny' with rfl | rfl | fy'
  · rw [le_ninf hy] at fy
    rcases fy with e | ⟨q, e⟩ <;> simp at e
  · rw [add_inf h']; exact le_pinf h
  obtain ⟨s, e, so⟩ := add_finite fx fy
  obtain ⟨t, e', st⟩ := add_finite fx' fy'
  rw [e, e']
  exact round_le so st (add_le_add ((le_finite fx fx').mp hx) ((le_finite fy fy').mp hy))

/-! ## Signs -/

theorem neg_finite {x : Dbl} (h : Finite x) : Finite (neg x) ∧ (neg x).val = -x.val := by
  rcases h with rfl | ⟨q, rfl⟩
  · exact ⟨.inr ⟨0, rfl⟩, by simp [neg, val]⟩
  · show Finite (if q = 0 then nzero else num (-q)) ∧ (if q = 0 then nzero else num (-q)).val = -q
    by_cases h : q = 0
    · rw [if_pos h]; exact ⟨.inl rfl, by simp [val, h]⟩
    · rw [if_neg h]; exact ⟨.inr ⟨_, rfl⟩, rfl⟩

theorem neg_ne_nan {x : Dbl} (h : x ≠ nan) : neg x ≠ nan := by
  rcases cases_num h with rfl | rfl | h
  · simp [neg]
  · simp [neg]
  · exact finite_ne_nan (neg_finite h).1

theorem neg_le_neg' {x y : Dbl} (h : Arith.le x y = true) : Arith.le (neg y) (neg x) = true := by
  have nx := (le_iff.mp h).1
  have ny := (le_iff.mp h).2.1
  rcases cases_num nx with rfl | rfl | fx
  · exact le_pinf (neg_ne_nan ny)
  · rw [pinf_le h]; rfl
  rcases cases_num ny with rfl | rfl | fy
  · rw [le_ninf h]; rfl
  · exact ninf_le (neg_ne_nan nx)
  rw [le_finite (neg_finite fy).1 (neg_finite fx).1, (neg_finite fy).2, (neg_finite fx).2]
  exact neg_le_neg ((le_finite fx fy).mp h)

/-! ## Products and quotients -/

theorem neg?_finite {x : Dbl} (h : Finite x) : (x.neg? = true → x.val ≤ 0) ∧ (x.neg? = false → 0 ≤ x.val) := by
  rcases h with rfl | ⟨q, rfl⟩
  · simp [neg?, val]
  · simp only [neg?, val, decide_eq_true_eq, decide_eq_false_iff_not, not_lt]
    exact ⟨fun h => h.le, id⟩

theorem mul_finite {x y : Dbl} (hx : Finite x) (hy : Finite y) :
    x * y = round (x.neg? != y.neg?) (x.val * y.val) ∧ SignOk (x.neg? != y.neg?) (x.val * y.val) := by
  refine ⟨?_, ?_⟩
  · rcases hx with rfl | ⟨a, rfl⟩ <;> rcases hy with rfl | ⟨b, rfl⟩ <;> rfl
  · obtain ⟨a1, a2⟩ := neg?_finite hx
    obtain ⟨b1, b2⟩ := neg?_finite hy
    unfold SignOk
    cases h : x.neg? <;> cases h' : y.neg?
    · rw [if_neg (by decide)]; exact _root_.mul_nonneg (a2 h) (b2 h')
    · rw [if_pos (by decide)]; exact mul_nonpos_of_nonneg_of_nonpos (a2 h) (b1 h')
    · rw [if_pos (by decide)]; exact mul_nonpos_of_nonpos_of_nonneg (a1 h) (b2 h')
    · rw [if_neg (by decide)]; exact mul_nonneg_of_nonpos_of_nonpos (a1 h) (b1 h')

theorem nan_mul (x : Dbl) : nan * x = nan := by cases x <;> rfl
theorem mul_nan (x : Dbl) : x * nan = nan := by cases x <;> rfl

theorem zero_le_cases {x : Dbl} (h : Arith.le (0 : Dbl) x = true) : x = inf false ∨ Finite x ∧ 0 ≤ x.val := by
  rcases cases_num (le_iff.mp h).2.1 with rfl | rfl | f
  · exact absurd (le_ninf h) (by intro e; cases e)
  · exact .inl rfl
  · exact .inr ⟨f, (le_finite (finite_num 0) f).mp h⟩

theorem le_zero_cases {x : Dbl} (h : Arith.le x (0 : Dbl) = true) : x = inf true ∨ Finite x ∧ x.val ≤ 0 := by
  rcases cases_num (le_iff.mp h).1 with rfl | rfl | f
  · exact .inl rfl
  · exact absurd (pinf_le h) (by intro e; cases e)
  · exact .inr ⟨f, (le_finite f (finite_num 0)).mp h⟩

theorem zero_le_of_finite {x : Dbl} (f : Finite x) (h : 0 ≤ x.val) : Arith.le (0 : Dbl) x = true :=
  (le_finite (finite_num 0) f).mpr h

theorem le_zero_of_finite {x : Dbl} (f : Finite x) (h : x.val ≤ 0) : Arith.le x (0 : Dbl) = true :=
  (le_finite f (finite_num 0)).mpr h

/-- The product of an infinity and a number that is not negative is that infinity or NaN. -/
theorem pinf_mul {y : Dbl} (h : Arith.le (0 : Dbl) y = true) (hn : inf false * y ≠ nan) : inf false * y = inf false := by
  rcases zero_le_cases h with rfl | ⟨rfl | ⟨q, rfl⟩, hq⟩
  · rfl
  · exact absurd rfl hn
  · have hq : 0 ≤ q := hq
    show (if q = 0 then nan else inf (false != decide (q < 0))) = inf false
    by_cases e : q = 0
    · refine absurd ?_ hn
      show (if q = 0 then nan else inf (false != decide (q < 0))) = nan
      rw [if_pos e]
    · rw [if_neg e, decide_eq_false (not_lt.mpr hq)]; rfl

theorem mul_comm' (x y : Dbl) : x * y = y * x := by
  show mul x y = mul y x
  cases x <;> cases y <;> simp [mul, mulFin, mul_comm, Bool.xor_comm]

/-- **Products of numbers that are not negative are monotone** (when they are not NaN). -/
theorem mul_le {x y x' y' : Dbl} (h0 : Arith.le (0 : Dbl) x = true) (h1 : Arith.le (0 : Dbl) y = true)
    (hx : Arith.le x x' = true) (hy : Arith.le y y' = true) (h : x * y ≠ nan) (h' : x' * y' ≠ nan) :
    Arith.le (x * y) (x' * y') = true := by
  rcases zero_le_cases (le_trans' h0 hx) with rfl | ⟨fx', px'⟩
  · rw [pinf_mul (le_trans' h1 hy) h']; exact le_pinf h
  rcases zero_le_cases (le_trans' h1 hy) with rfl | ⟨fy', py'⟩
  · rw [mul_comm'] at h' ⊢
    rw [mul_comm' x' , pinf_mul (le_trans' h0 hx) h']
    exact le_pinf (by rwa [mul_comm'] at h)
  rcases zero_le_cases h0 with rfl | ⟨fx, px⟩
  · rw [pinf_le hx] at fx'
    rcases fx' with e | ⟨q, e⟩ <;> simp at e
  rcases zero_le_cases h1 with rfl | ⟨fy, py⟩
  · rw [pinf_le hy] at fy'
    rcases fy' with e | ⟨q, e⟩ <;> simp at e
  obtain ⟨e, so⟩ := mul_finite fx fy
  obtain ⟨e', so'⟩ := mul_finite fx' fy'
  rw [e, e']
  exact round_le so so' (mul_le_mul ((le_finite fx fx').mp hx) ((le_finite fy fy').mp hy) py px')

theorem round_nonneg {s : Bool} {x : ℚ} (h : SignOk s x) (hx : 0 ≤ x) : Arith.le (0 : Dbl) (round s x) = true := by
  have := round_le (s := false) (x := 0) (show (0 : ℚ) ≤ 0 from le_rfl) h hx
  have e : round false 0 = (0 : Dbl) := by simp [round, f64_zero]; rfl
  rwa [e] at this

theorem round_nonpos {s : Bool} {x : ℚ} (h : SignOk s x) (hx : x ≤ 0) : Arith.le (round s x) (0 : Dbl) = true := by
  have := round_le (t := false) (y := 0) h (show (0 : ℚ) ≤ 0 from le_rfl) hx
  have e : round false 0 = (0 : Dbl) := by simp [round, f64_zero]; rfl
  rwa [e] at this

/-- Squares are not negative, and not NaN. -/
theorem sq_nonneg' {x : Dbl} (h : x ≠ nan) : Arith.le (0 : Dbl) (x * x) = true := by
  rcases cases_num h with rfl | rfl | f
  · rfl
  · rfl
  · obtain ⟨e, so⟩ := mul_finite f f
    rw [e]
    exact round_nonneg so (mul_self_nonneg _)

theorem abs_ne_nan {x : Dbl} (h : x ≠ nan) : abs x ≠ nan := by
  cases x <;> simp_all [abs]

theorem abs_nonneg' {x : Dbl} (h : x ≠ nan) : Arith.le (0 : Dbl) (abs x) = true := by
  cases x with
  | nan => exact absurd rfl h
  | inf s => rfl
  | nzero => rfl
  | num q => exact zero_le_of_finite (finite_num _) (abs_nonneg q)

theorem abs_mul_abs (x : Dbl) : abs x * abs x = x * x := by
  cases x with
  | nan => rfl
  | inf s => cases s <;> rfl
  | nzero => rfl
  | num q =>
    obtain ⟨e, -⟩ := mul_finite (finite_num q) (finite_num q)
    obtain ⟨e', -⟩ := mul_finite (finite_num |q|) (finite_num |q|)
    show num |q| * num |q| = _
    rw [e, e', bne_self_eq_false, bne_self_eq_false]
    show round false (|q| * |q|) = _
    rw [abs_mul_abs_self]; rfl

/-- Squares are monotone in the absolute value. -/
theorem sq_le {x y : Dbl} (h : Arith.le (abs x) (abs y) = true) : Arith.le (x * x) (y * y) = true := by
  have nx : x ≠ nan := fun e => by subst e; exact (le_iff.mp h).1 rfl
  have ny : y ≠ nan := fun e => by subst e; exact (le_iff.mp h).2.1 rfl
  have a := (le_iff.mp (sq_nonneg' nx)).2.1
  have b := (le_iff.mp (sq_nonneg' ny)).2.1
  rw [← abs_mul_abs x] at a ⊢
  rw [← abs_mul_abs y] at b ⊢
  exact mul_le (abs_nonneg' nx) (abs_nonneg' nx) h h a b

theorem abs_of_nonpos' {x : Dbl} (h : Arith.le x (0 : Dbl) = true) : Arith.le (abs x) (neg x) = true := by
  rcases le_zero_cases h with rfl | ⟨rfl | ⟨q, rfl⟩, hq⟩
  · rfl
  · rfl
  · have hq : q ≤ 0 := hq
    obtain ⟨f, v⟩ := neg_finite (finite_num q)
    rw [show abs (num q) = num |q| from rfl, le_finite (finite_num _) f, v]
    show |q| ≤ -q
    rw [abs_of_nonpos hq]

theorem neg_le_abs {x : Dbl} (h : x ≠ nan) : Arith.le (neg x) (abs x) = true := by
  cases x with
  | nan => exact absurd rfl h
  | inf s => cases s <;> rfl
  | nzero => rfl
  | num q =>
    obtain ⟨f, v⟩ := neg_finite (finite_num q)
    rw [show abs (num q) = num |q| from rfl, le_finite f (finite_num _), v]
    exact _root_.neg_le_abs q

/-- Among numbers that are not positive, the larger has the smaller absolute value. -/
theorem abs_le_abs' {x y : Dbl} (h : Arith.le x y = true) (h0 : Arith.le y (0 : Dbl) = true) :
    Arith.le (abs y) (abs x) = true :=
  le_trans' (abs_of_nonpos' h0) (le_trans' (neg_le_neg' h) (neg_le_abs (le_iff.mp h).1))

/-- Sums of numbers that are not negative are not NaN and not negative. -/
theorem add_nonneg' {x y : Dbl} (hx : Arith.le (0 : Dbl) x = true) (hy : Arith.le (0 : Dbl) y = true) :
    Arith.le (0 : Dbl) (x + y) = true := by
  rcases zero_le_cases hx with rfl | ⟨fx, px⟩
  · rcases zero_le_cases hy with rfl | ⟨fy, -⟩
    · rfl
    · rw [inf_add_finite _ fy]; rfl
  rcases zero_le_cases hy with rfl | ⟨fy, py⟩
  · rw [finite_add_inf _ fx]; rfl
  obtain ⟨s, e, so⟩ := add_finite fx fy
  rw [e]
  exact round_nonneg so (add_nonneg px py)

/-- A number minus a larger one, if it is not NaN, is not positive. -/
theorem sub_nonpos' {x y : Dbl} (h : Arith.le x y = true) (hn : x - y ≠ nan) : Arith.le (x - y) (0 : Dbl) = true := by
  rw [sub_def] at *
  have ny := (le_iff.mp h).2.1
  rcases cases_num (le_iff.mp h).1 with rfl | rfl | fx
  · rw [inf_add hn]; rfl
  · rw [pinf_le h] at hn
    exact absurd rfl hn
  rcases cases_num ny with rfl | rfl | fy
  · rw [le_ninf h] at fx
    rcases fx with e | ⟨q, e⟩ <;> simp at e
  · rw [show neg (inf false) = inf true from rfl, finite_add_inf _ fx]; rfl
  obtain ⟨s, e, so⟩ := add_finite fx (neg_finite fy).1
  rw [e]
  rw [(neg_finite fy).2] at so ⊢
  exact round_nonpos so (by have := (le_finite fx fy).mp h; linarith)

/-- The difference of finite numbers is not NaN. -/
theorem sub_ne_nan {x y : Dbl} (fy : Finite y) (hx : x ≠ nan) : x - y ≠ nan := by
  rw [sub_def]
  obtain ⟨f, -⟩ := neg_finite fy
  rcases cases_num hx with rfl | rfl | fx
  · rw [inf_add_finite _ f]; simp
  · rw [inf_add_finite _ f]; simp
  · obtain ⟨s, e, -⟩ := add_finite fx f
    rw [e]; exact round_ne_nan _ _

/-- A product of a number that is not negative and one that is not positive, if it is not NaN, is not positive. -/
theorem mul_nonpos' {x y : Dbl} (hx : Arith.le (0 : Dbl) x = true) (hy : Arith.le y (0 : Dbl) = true) (hn : x * y ≠ nan) :
    Arith.le (x * y) (0 : Dbl) = true := by
  rcases zero_le_cases hx with rfl | ⟨fx, px⟩
  · rcases le_zero_cases hy with rfl | ⟨rfl | ⟨q, rfl⟩, hq⟩
    · rfl
    · exact absurd rfl hn
    · have hq : q ≤ 0 := hq
      have e : inf false * num q = if q = 0 then nan else inf (false != decide (q < 0)) := rfl
      by_cases h : q = 0
      · rw [e, if_pos h] at hn; exact absurd rfl hn
      · rw [e, if_neg h, decide_eq_true (lt_of_le_of_ne hq h)]; rfl
  rcases le_zero_cases hy with rfl | ⟨fy, py⟩
  · rcases fx with rfl | ⟨q, rfl⟩
    · exact absurd rfl hn
    · have px : 0 ≤ q := px
      have e : num q * inf true = if q = 0 then nan else inf (decide (q < 0) != true) := rfl
      by_cases h : q = 0
      · rw [e, if_pos h] at hn; exact absurd rfl hn
      · rw [e, if_neg h, decide_eq_false (not_lt.mpr px)]; rfl
  obtain ⟨e, so⟩ := mul_finite fx fy
  rw [e]
  exact round_nonpos so (mul_nonpos_of_nonneg_of_nonpos px py)

/-- A number that is not positive over a finite positive one is not positive. -/
theorem div_nonpos' {x : Dbl} {d : ℚ} (hx : Arith.le x (0 : Dbl) = true) (hd : 0 < d) :
    Arith.le (x / num d) (0 : Dbl) = true := by
  rcases le_zero_cases hx with rfl | ⟨rfl | ⟨q, rfl⟩, hq⟩
  · show Arith.le (inf (true != decide (d < 0))) (0 : Dbl) = true
    rw [decide_eq_false (not_lt.mpr hd.le)]; rfl
  · show Arith.le (if d = 0 then _ else round (true != decide (d < 0)) (0 / d)) (0 : Dbl) = true
    rw [if_neg hd.ne', decide_eq_false (not_lt.mpr hd.le), zero_div]
    exact round_nonpos (show (0 : ℚ) ≤ 0 from le_rfl) le_rfl
  · have hq : q ≤ 0 := hq
    show Arith.le (if d = 0 then _ else round (decide (q < 0) != decide (d < 0)) (q / d)) (0 : Dbl) = true
    have hn : q / d ≤ 0 := div_nonpos_of_nonpos_of_nonneg hq hd.le
    rw [if_neg hd.ne', decide_eq_false (not_lt.mpr hd.le)]
    refine round_nonpos ?_ hn
    by_cases h : q < 0
    · rw [decide_eq_true h]; exact hn
    · have : q = 0 := le_antisymm hq (not_lt.mp h)
      subst this
      rw [zero_div]
      exact (show (0 : ℚ) ≤ 0 from le_rfl)

end Dbl
end Altro
