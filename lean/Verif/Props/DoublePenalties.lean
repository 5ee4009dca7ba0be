import Verif.Props.DoubleCon
import Verif.Props.Double

/-!
# C113, continued: the penalty limit in `double` arithmetic
-/

namespace Altro.Props
open Altro.Spec Altro.AL Altro.Dbl
variable {X U C D : Type} {P : Kernel X U Dbl C D} {A : CostOps C Dbl} {pens : C → List (List Dbl)}

/-- Cost objects whose constraints have the penalties `pens`, one list of rows for each constraint: the solver's operations act on
them as in `ConstraintValues` and `ALCost` (constraint_values.hpp:203-227, al_cost.hpp:189-195, 327-370), with the default scaling factor.
Nothing is assumed about the rest of the cost objects, the problem's functions or the backward pass. -/
structure PenOps (P : Kernel X U Dbl C D) (A : CostOps C Dbl) (pens : C → List (List Dbl)) : Prop where
  rows : ∀ c, ∀ v ∈ pens c, v ≠ []
  cost : ∀ k c x u, pens (P.cost k c x u).2 = pens c
  expand : ∀ k c x u t h d, pens (P.expand k c x u t h d).2 = pens c
  duals : ∀ c, pens (A.updateDuals c) = pens c
  reset : ∀ c, pens (A.resetDuals c) = pens c
  set : ∀ r c, pens (A.setPenalty r c) = (pens c).map (List.map fun _ => r)
  update : ∀ c, pens (A.updatePenalties c) = (pens c).map (List.map (· * .num 10))
  max : ∀ c, A.maxPenalty c = (pens c).foldl (fun a v => Arith.smax a (ConArith.maxPenalty 0 v)) 0
  none : ∀ cs : ℕ → C, (∀ k ≤ P.N, pens (cs k) = []) → P.viol cs = 0

theorem foldl_top {α : Type} {r : ℚ} (hr : 0 < r) (f : α → Dbl) : ∀ (l : List α) (a : Dbl), (a = .num 0 ∨ a = .num r) →
    (∀ y ∈ l, f y = .num 0 ∨ f y = .num r) →
    (l.foldl (fun a y => Arith.smax a (f y)) a = .num 0 ∨ l.foldl (fun a y => Arith.smax a (f y)) a = .num r) ∧
    ((a = .num r ∨ ∃ y ∈ l, f y = .num r) → l.foldl (fun a y => Arith.smax a (f y)) a = .num r) := by
  have e : ∀ a b : ℚ, Arith.smax (Dbl.num a) (.num b) = .num (max a b) := by
    intro a b
    unfold Arith.smax
    rw [lt_num]
    rcases lt_or_ge a b with h | h
    · rw [if_pos (decide_eq_true h), max_eq_right h.le]
    · rw [if_neg (by simpa using h), max_eq_left h]
  intro l
  induction l with
  | nil =>
    intro a ha _
    exact ⟨ha, fun h => by rcases h with h | ⟨_, h, _⟩ <;> [exact h; cases h]⟩
  | cons x l ih =>
    intro a ha hl
    have hx := hl x (by simp)
    have key : Arith.smax a (f x) = .num 0 ∨ Arith.smax a (f x) = .num r := by
      rcases ha with rfl | rfl <;> rcases hx with h | h <;> rw [h, e] <;> simp [hr.le]
    obtain ⟨h1, h2⟩ := ih (Arith.smax a (f x)) key fun y hy => hl y (by simp [hy])
    refine ⟨h1, fun h => h2 ?_⟩
    rcases h with rfl | ⟨y, hy, h⟩
    · left
      rcases hx with h | h <;> rw [h, e] <;> simp [hr.le]
    · rcases List.mem_cons.mp hy with rfl | hy
      · left
        rcases ha with rfl | rfl <;> rw [h, e] <;> simp [hr.le]
      · exact .inr ⟨y, hy, h⟩

theorem top_of_const {r : ℚ} (hr : 0 < r) (v : List Dbl) (hv : v ≠ []) : ConArith.maxPenalty 0 (v.map fun _ => Dbl.num r) = .num r := by
  cases v with
  | nil => exact absurd rfl hv
  | cons x l =>
    show (l.map fun _ => Dbl.num r).foldl Arith.smax (.num r) = _
    rw [List.foldl_map]
    exact (foldl_top hr (fun _ => Dbl.num r) l (.num r) (.inr rfl) fun _ _ => .inr rfl).2 (.inl rfl)

/-- The largest penalty if all penalties are `r`. -/
theorem maxPenalty_const (h : PenOps P A pens) {r : ℚ} (hr : 0 < r) (cs cs0 : ℕ → C)
    (hp : ∀ k ≤ P.N, pens (cs k) = (pens (cs0 k)).map (List.map fun _ => .num r)) (hex : ∃ k ≤ P.N, pens (cs0 k) ≠ []) :
    AL.maxPenalty P A cs = .num r := by
  have hk : ∀ k ≤ P.N, (A.maxPenalty (cs k) = .num 0 ∨ A.maxPenalty (cs k) = .num r) ∧
      (pens (cs0 k) ≠ [] → A.maxPenalty (cs k) = .num r) := by
    intro k hk
    rw [h.max, hp k hk, List.foldl_map]
    have := foldl_top hr (fun v : List Dbl => ConArith.maxPenalty 0 (v.map fun _ => Dbl.num r)) (pens (cs0 k)) (.num 0) (.inl rfl)
      fun v hv => .inr (top_of_const hr v (h.rows _ v hv))
    refine ⟨this.1, fun hne => this.2 (.inr ?_)⟩
    obtain ⟨v, hv⟩ := List.exists_mem_of_ne_nil _ hne
    exact ⟨v, hv, top_of_const hr v (h.rows _ v hv)⟩
  obtain ⟨k, hkN, hne⟩ := hex
  exact (foldl_top hr (fun k => A.maxPenalty (cs k)) (List.range (P.N + 1)) (.num 0) (.inl rfl) fun k hk' =>
    (hk k (Nat.lt_succ_iff.mp (List.mem_range.mp hk'))).1).2 (.inr ⟨k, List.mem_range.mpr (Nat.lt_succ_of_le hkN), (hk k hkN).2 hne⟩)

theorem ten_times (j : ℕ) (hj : j ≤ 9) : Dbl.num (10 ^ j) * .num 10 = .num (10 ^ (j + 1)) := by
  interval_cases j <;> decide +kernel

/-- **C113 in `double` arithmetic.**  With the default options and scaling factors, for any problem and any values (NaN and infinities
included), a solve takes at most ten outer iterations, the penalties have not been rounded, and `kMaxOuterIterations` is not reported. -/
theorem C113_double (h : PenOps P A pens) (fuel : ℕ) (s s' : ALSt X U Dbl C D)
    (hs : AL.solve P A dblDefaults (ILQR.solve P dblDefaults fuel) s = some s') :
    s'.st.stats.outer ≤ 10 ∧ s'.status ≠ .kMaxOuterIterations ∧
    ∀ k ≤ P.N, pens (s'.st.cs k) = (pens (s.st.cs k)).map (List.map fun _ => .num (10 ^ (s'.st.stats.outer - 1))) := by
  have hmax : 1 ≤ dblDefaults.maxOuter := by decide
  have hk := C11_inner_ok P dblDefaults fuel
  have h0 : ∀ k ≤ P.N, pens ((AL.init P A dblDefaults s).st.cs k) = (pens (s.st.cs k)).map (List.map fun _ => .num (10 ^ 0)) := by
    intro k hkN
    unfold AL.init
    extract_lets s1 s2 s3 s4 s5
    show pens (s4.cs k) = _
    rw [show s4.cs = (ILQR.cost P s3.Z s3).2.cs from rfl, ILQR.cost_obs _ pens h.cost]
    show pens (s2.cs k) = _
    have e1 : s1 = eachCost P A.resetDuals s.st := rfl
    have e2 : s2 = eachCost P (A.setPenalty (.num 1)) s1 := by
      simp only [s2]
      rw [if_pos (by decide +kernel), C82_default_values.2.2.2.2.2.2.2.2.2.2.2.2.1]
    rw [e2, e1]
    show pens (if k ≤ P.N then A.setPenalty _ (if k ≤ P.N then A.resetDuals (s.st.cs k) else _) else _) = _
    rw [if_pos hkN, if_pos hkN, h.set, h.reset, pow_zero]
  have hbody : ∀ (j : ℕ) (q : ALSt X U Dbl C D) t, (∀ k ≤ P.N, pens (q.st.cs k) = (pens (s.st.cs k)).map (List.map fun _ => .num (10 ^ j))) →
      ILQR.solve P dblDefaults fuel q.st = some t →
      ∀ k ≤ P.N, pens ((body P A q t).st.cs k) = (pens (s.st.cs k)).map (List.map fun _ => .num (10 ^ j)) := by
    intro j q t hJ ht k hkN
    rw [(body_facts P A q t).1]
    show pens (if k ≤ P.N then A.updateDuals (t.cs k) else _) = _
    rw [if_pos hkN, h.duals, ILQR.solve_keeps P dblDefaults pens h.cost h.expand fuel _ _ ht k, hJ k hkN]
  obtain ⟨j, s0, t, hj, ⟨hJ, hj9⟩, ht, _, hjt, hd, he⟩ :=
    solve_last P A dblDefaults _ hk
      (fun j q => (∀ k ≤ P.N, pens (q.st.cs k) = (pens (s.st.cs k)).map (List.map fun _ => .num (10 ^ j))) ∧ j ≤ 9) s s'
      ⟨h0, by omega⟩
      (by
        rintro j q t ⟨hJ, hj⟩ ht hd
        have hb := hbody j q t hJ ht
        have hc := isDone_continues dblDefaults _ hd
        obtain ⟨b1, -, -, -, -, -, b7, b8⟩ := body_facts P A q t
        have hex : ∃ k ≤ P.N, pens (s.st.cs k) ≠ [] := by
          by_contra hno
          push Not at hno
          have hv := hc.viol
          rw [b7, ← b1, h.none _ fun k hk => by rw [hb k hk, hno k hk]; rfl] at hv
          exact absurd hv (by decide +kernel)
        have hp := hc.pen
        rw [b8, ← b1, maxPenalty_const h (by positivity : (0 : ℚ) < 10 ^ j) _ s.st.cs hb hex,
          C82_default_values.2.2.2.2.2.2.2.2.2.2.2.1] at hp
        have hlt : j < 9 := by
          by_contra hge
          have : j = 9 := by omega
          subst this
          exact absurd hp (by decide +kernel)
        refine ⟨fun k hkN => ?_, by omega⟩
        show pens (if k ≤ P.N then A.updatePenalties ((body P A q t).st.cs k) else _) = _
        rw [if_pos hkN, h.update, hb k hkN, List.map_map]
        refine List.map_congr_left fun v _ => ?_
        show (v.map fun _ => Dbl.num (10 ^ j)).map (· * .num 10) = _
        rw [List.map_map]
        exact List.map_congr_left fun _ _ => ten_times j (by omega)) hmax hs
  obtain ⟨e1, e2⟩ := isDone_true dblDefaults _ hd
  obtain ⟨-, -, -, -, b5, -, -, -⟩ := body_facts P A s0 t
  have ho : s'.st.stats.outer = j + 1 := by rw [he, e2, b5, hjt]
  refine ⟨by omega, fun hst => ?_, fun k hkN => ?_⟩
  · obtain ⟨hout, -, -⟩ := C11_status hk hmax s s' hs
    obtain ⟨a, t, hat, e1, -⟩ := C11_last_inner hk hmax s s' hs
    have hin := (Props.C19_status P dblDefaults Dbl.orderLaws fuel a t (by decide) hat).1.cases
    rw [← e1] at hin
    rw [hst] at hout
    generalize s'.st.status = b at *
    cases hout with
    | innerFailed h => rcases hin with e | e | e | e | e | ⟨-, e⟩ <;> cases e
    | maxOuter _ _ _ ho' =>
      have : (30 : ℤ) ≤ s'.st.stats.outer := ho'
      omega
  · rw [ho, he, e2]
    exact hbody j s0 t hJ ht k hkN

/-! ## A problem in `double` arithmetic with a constraint that nothing satisfies -/

/-- The cost objects are the penalties of the constraints, first row and other rows. -/
def penK : Kernel Dbl Dbl Dbl (List (Dbl × List Dbl)) DD where
  N := tenthK.N
  x0 := tenthK.x0
  dyn := tenthK.dyn
  cost k c x u := ((tenthK.cost k () x u).1, c)
  expand k c x u t h d := ((tenthK.expand k () x u t h d).1, c)
  term := tenthK.term
  actionValue := tenthK.actionValue
  regularize := tenthK.regularize
  gains := tenthK.gains
  costToGo := tenthK.costToGo
  delta := tenthK.delta
  policy := tenthK.policy
  gradTerm := tenthK.gradTerm
  normX := tenthK.normX
  normU := tenthK.normU
  viol cs := if (cs 0).isEmpty && (cs 1).isEmpty then 0 else 1

def penRows (c : List (Dbl × List Dbl)) : List (List Dbl) := c.map fun v => v.1 :: v.2

def penA : CostOps (List (Dbl × List Dbl)) Dbl where
  updateDuals c := c
  updatePenalties c := c.map fun v => (v.1 * .num 10, v.2.map (· * .num 10))
  resetDuals c := c
  setPenalty r c := c.map fun v => (r, v.2.map fun _ => r)
  maxPenalty c := (penRows c).foldl (fun a v => Arith.smax a (ConArith.maxPenalty 0 v)) 0

theorem pen_ops : PenOps penK penA penRows where
  rows c v hv := by obtain ⟨w, -, rfl⟩ := List.mem_map.mp hv; exact List.cons_ne_nil _ _
  cost _ _ _ _ := rfl
  expand _ _ _ _ _ _ _ := rfl
  duals _ := rfl
  reset _ := rfl
  set r c := by simp [penRows, penA]
  update c := by simp [penRows, penA]
  max _ := rfl
  none cs h := by
    have h0 : cs 0 = [] := List.map_eq_nil_iff.mp (h 0 (by decide))
    have h1 : cs 1 = [] := List.map_eq_nil_iff.mp (h 1 (by decide))
    show (if (cs 0).isEmpty && (cs 1).isEmpty then (0 : Dbl) else 1) = 0
    rw [h0, h1]
    rfl

/-- One constraint with two rows at the last knot point; its penalties, here NaN and infinite, are set by the solver. -/
def penState : ALSt Dbl Dbl Dbl (List (Dbl × List Dbl)) DD where
  st :=
    { Z := dblTraj 0, Zbar := dblTraj 0, kd := fun _ => ⟨0, 0, 0⟩, cs := fun k => if k = 1 then [(.nan, [.inf false])] else [], costs := fun _ => 0,
      status := .kUnsolved, rho := 0, drho := 0, dV0 := 0, dV1 := 0, stats := Stats.new }
  status := .kUnsolved

def penRun := AL.solve penK penA dblDefaults (ILQR.solve penK dblDefaults 112) penState

/-- Ten outer iterations are needed. -/
theorem penRun_report : (penRun.map fun s => (s.status, s.st.stats.outer, s.st.cs 1)) =
    some (.kMaxPenalty, 10, [(.num (10 ^ 9), [.num (10 ^ 9)])]) := by decide +kernel

example : ∃ s', penRun = some s' ∧ s'.st.stats.outer = 10 ∧ s'.st.stats.outer ≤ 10 := by
  have h := penRun_report
  cases hb : penRun with
  | none => rw [hb] at h; cases h
  | some s' =>
    rw [hb] at h
    simp only [Option.map_some, Option.some.injEq, Prod.mk.injEq] at h
    exact ⟨s', rfl, h.2.1, (C113_double pen_ops 112 penState s' hb).1⟩

end Altro.Props
