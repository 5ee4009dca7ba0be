import Verif.Model.Tasks
import Verif.Spec.Tasks
import Verif.Proofs.Float
import Mathlib.Tactic.Linarith
import Mathlib.Tactic.Ring
import Mathlib.Tactic.LinearCombination
import Mathlib.Tactic.FinCases
import Mathlib.Tactic.FieldSimp
import Mathlib.Tactic.Positivity

namespace Altro.Tasks
open Spec

/-! ## Lists of indices -/

theorem blocks_cons (a b : ℤ) (l : List ℤ) : blocks (a :: b :: l) = (a, b) :: blocks (b :: l) := rfl

/-- A list that does not decrease covers everything between its ends once. -/
theorem covered_of_sorted : ∀ {l : List ℤ} {a c : ℤ}, l.Pairwise (· ≤ ·) → l.head? = some a → l.getLast? = some c →
    a ≤ c ∧ ∀ k, timesCovered (blocks l) k = if a ≤ k ∧ k < c then 1 else 0 := by
  intro l
  induction l with
  | nil => intro a c _ h; cases h
  | cons x l ih =>
    intro a c hp ha hc
    simp only [List.head?_cons, Option.some.injEq] at ha
    subst ha
    cases l with
    | nil =>
      simp at hc; subst hc
      refine ⟨le_rfl, fun k => ?_⟩
      rw [if_neg (by omega)]; rfl
    | cons y l =>
      rw [List.getLast?_cons_cons] at hc
      obtain ⟨h1, h2⟩ := ih (List.pairwise_cons.1 hp).2 rfl hc
      have hxy : x ≤ y := (List.pairwise_cons.1 hp).1 y (by simp)
      refine ⟨by omega, fun k => ?_⟩
      have h2 := h2 k
      unfold timesCovered at h2 ⊢
      rw [blocks_cons, List.countP_cons, h2]
      simp only [decide_eq_true_eq]
      split <;> split <;> split <;> omega

theorem incLast_head : ∀ (l : List ℤ), 2 ≤ l.length → (incLast l).head? = l.head?
  | [], h => by simp at h
  | [a], h => by simp at h
  | a :: b :: l, _ => rfl

theorem incLast_length : ∀ (l : List ℤ), (incLast l).length = l.length
  | [] => rfl
  | [a] => rfl
  | a :: b :: l => by simp [incLast, incLast_length (b :: l)]

theorem incLast_last : ∀ {l : List ℤ} {c : ℤ}, l.getLast? = some c → (incLast l).getLast? = some (c + 1)
  | [], c, h => by cases h
  | [a], c, h => by simp at h; simp [incLast, h]
  | a :: b :: l, c, h => by
    rw [List.getLast?_cons_cons] at h
    have := incLast_last h
    cases hl : incLast (b :: l) with
    | nil => rw [hl] at this; cases this
    | cons x y => rw [incLast, hl, List.getLast?_cons_cons, ← hl]; exact this

theorem incLast_ge : ∀ {l : List ℤ} {a : ℤ}, (∀ x ∈ l, a ≤ x) → ∀ x ∈ incLast l, a ≤ x
  | [], a, h => by simp [incLast]
  | [b], a, h => by simp [incLast] at h ⊢; omega
  | b :: c :: l, a, h => by
    intro x hx
    rw [incLast, List.mem_cons] at hx
    rcases hx with rfl | hx
    · exact h x (by simp)
    · exact incLast_ge (fun y hy => h y (List.mem_cons_of_mem _ hy)) x hx

theorem incLast_sorted : ∀ {l : List ℤ}, l.Pairwise (· ≤ ·) → (incLast l).Pairwise (· ≤ ·)
  | [], _ => List.Pairwise.nil
  | [a], _ => by simp [incLast]
  | a :: b :: l, h => by
    rw [incLast]
    obtain ⟨h1, h2⟩ := List.pairwise_cons.1 h
    exact List.pairwise_cons.2 ⟨incLast_ge h1, incLast_sorted h2⟩

theorem partition_of_sorted {N : ℕ} {l : List ℤ} (hp : l.Pairwise (· ≤ ·)) (h0 : l.head? = some 0)
    (hl : l.getLast? = some ((N : ℤ) + 1)) : Partition N (blocks l) := by
  intro k
  rw [(covered_of_sorted hp h0 hl).2 k]
  split <;> split <;> omega

theorem isSorted_iff : ∀ l : List ℤ, isSorted l = true ↔ l.Pairwise (· < ·)
  | [] => by simp [isSorted]
  | [a] => by simp [isSorted]
  | a :: b :: l => by
    rw [isSorted, Bool.and_eq_true, isSorted_iff (b :: l), List.pairwise_cons (a := a), decide_eq_true_eq]
    constructor
    · rintro ⟨h1, h2⟩
      refine ⟨fun x hx => ?_, h2⟩
      rcases List.mem_cons.1 hx with rfl | hx
      · exact h1
      · exact h1.trans ((List.pairwise_cons.1 h2).1 x hx)
    · rintro ⟨h1, h2⟩
      exact ⟨h1 b (by simp), h2⟩

/-! ## Rounding -/

/-- What is needed of a rounding. -/
structure IsRounding (r : ℚ → ℚ) : Prop where
  mono : ∀ {x y}, 0 ≤ x → x ≤ y → r x ≤ r y
  idem : ∀ x, r (r x) = r x
  zero : r 0 = 0
  nonpos : ∀ {x}, x ≤ 0 → r x ≤ 0

theorem isRounding_id : IsRounding id := ⟨fun _ h => h, fun _ => rfl, rfl, fun h => h⟩

theorem isRounding_f64 : IsRounding f64 :=
  ⟨ieee_mono 53 (-1074) (by norm_num), ieee_idem 53 (-1074) (by norm_num), ieee_zero 53 (-1074), ieee_nonpos 53 (-1074)⟩

theorem IsRounding.nonneg {r : ℚ → ℚ} (h : IsRounding r) {x : ℚ} (hx : 0 ≤ x) : 0 ≤ r x := by
  have := h.mono le_rfl hx; rwa [h.zero] at this

theorem cround_mono {a b : ℚ} (ha : 0 ≤ a) (h : a ≤ b) : cround a ≤ cround b := by
  unfold cround
  rw [if_pos ha, if_pos (ha.trans h)]
  exact Int.floor_le_floor (by linarith)

theorem cround_int (z : ℤ) (hz : 0 ≤ z) : cround z = z := by
  unfold cround
  rw [if_pos (by exact_mod_cast hz)]
  rw [Int.floor_eq_iff]
  constructor <;> linarith

theorem cround_zero : cround 0 = 0 := cround_int 0 le_rfl

/-! ## The loop -/

theorem loop_sorted {r : ℚ → ℚ} (hr : IsRounding r) {N : ℕ} {step : ℚ} (hs : 0 ≤ step) :
    ∀ {fuel : ℕ} {val : ℚ} {l : List ℤ}, 0 ≤ val → r val = val → assignLoop r N step fuel val = some l →
      l.Pairwise (· ≤ ·) ∧ (∀ x ∈ l, cround val ≤ x) ∧ (val ≤ N → l.head? = some (cround val)) := by
  intro fuel
  induction fuel with
  | zero => intro val l _ _ h; cases h
  | succ fuel ih =>
    intro val l h0 hv h
    rw [assignLoop] at h
    split at h
    next hle =>
      rw [Option.map_eq_some_iff] at h
      obtain ⟨l', hl', rfl⟩ := h
      have hge : val ≤ r (val + step) := by
        have := hr.mono h0 (by linarith : val ≤ val + step); rwa [hv] at this
      obtain ⟨h1, h2, -⟩ := ih (h0.trans hge) (hr.idem _) hl'
      have hc := cround_mono h0 hge
      refine ⟨List.pairwise_cons.2 ⟨fun x hx => hc.trans (h2 x hx), h1⟩, fun x hx => ?_, fun _ => rfl⟩
      rcases List.mem_cons.1 hx with rfl | hx
      · exact le_rfl
      · exact hc.trans (h2 x hx)
    next hgt =>
      cases h
      exact ⟨List.Pairwise.nil, by simp, fun h => absurd h hgt⟩

/-- If each round adds at least `δ`, the loop ends. -/
theorem loop_ends {r : ℚ → ℚ} {N : ℕ} {step δ : ℚ}
    (h : ∀ v : ℚ, 0 ≤ v → v ≤ N → v + δ ≤ r (v + step)) (hδ : 0 < δ) :
    ∀ (fuel : ℕ) (val : ℚ), 0 ≤ val → N < val + fuel * δ → (assignLoop r N step (fuel + 1) val).isSome := by
  intro fuel
  induction fuel with
  | zero =>
    intro val _ hf
    rw [assignLoop, if_neg (by push_cast at hf; linarith)]; rfl
  | succ fuel ih =>
    intro val h0 hf
    rw [assignLoop]
    split
    next hle =>
      have := h val h0 hle
      rw [Option.isSome_map]
      exact ih _ (by linarith) (by push_cast at hf; linarith)
    next => rfl

/-- If the values `step, 2 * step, ..` are exact, the loop makes `n + 1` rounds. -/
theorem loop_exact {r : ℚ → ℚ} {N n : ℕ} {step : ℚ} (hN : step * n = N) (hs : 0 < step)
    (he : ∀ i ≤ n, r (step * i + step) = step * (i + 1)) :
    ∀ (k i fuel : ℕ), i + k = n + 1 → k < fuel →
      assignLoop r N step fuel (step * i) = some ((List.range' i k).map fun j : ℕ => cround (step * j)) := by
  intro k
  induction k with
  | zero =>
    intro i fuel hi hf
    obtain ⟨fuel, rfl⟩ : ∃ f, fuel = f + 1 := ⟨fuel - 1, by omega⟩
    have : (i : ℚ) = n + 1 := by exact_mod_cast hi
    rw [assignLoop, if_neg (by rw [this, ← hN]; linarith)]; rfl
  | succ k ih =>
    intro i fuel hi hf
    obtain ⟨fuel, rfl⟩ : ∃ f, fuel = f + 1 := ⟨fuel - 1, by omega⟩
    have hin : (i : ℚ) ≤ n := by exact_mod_cast (by omega : i ≤ n)
    rw [assignLoop, if_pos (by rw [← hN]; gcongr), he i (by omega)]
    have := ih (i + 1) fuel (by omega) (by omega)
    push_cast at this
    rw [this, List.range'_succ]; rfl

end Altro.Tasks
