import Verif.Props.ALConverge
import Verif.Props.LQConstrained
import Verif.Model.Options

/-!
# C113: the penalty limit bounds the number of outer iterations
-/

namespace Altro.Props
open Altro.Spec Altro.AL
variable {K : Type} [Field K] [LinearOrder K] {n m : ℕ} {κ : ConKind}

/-- Some constraint of the cost object has scaling factor `φ` and the penalty `r` in some row. -/
def HasPen (c : ALCost n m K) (φ r : K) : Prop :=
  (∃ v ∈ c.eq, v.scaling = φ ∧ ∃ i, v.pen i = r) ∨ (∃ v ∈ c.ineq, v.scaling = φ ∧ ∃ i, v.pen i = r)

theorem hasPen_penParts (c : ALCost n m K) (φ r : K) : HasPen (penParts c) φ r ↔ HasPen c φ r := by
  simp only [HasPen, penParts, List.mem_map, exists_exists_and_eq_and]
  rfl

theorem hasPen_congr {c c' : ALCost n m K} (h : penParts c = penParts c') {φ r : K} (hp : HasPen c φ r) : HasPen c' φ r := by
  rw [← hasPen_penParts, ← h, hasPen_penParts]; exact hp

theorem hasPen_update {c : ALCost n m K} {φ r : K} (h : HasPen c φ r) : HasPen c.updatePenalties φ (φ * r) := by
  rcases h with ⟨v, hv, hs, i, hi⟩ | ⟨v, hv, hs, i, hi⟩
  · exact .inl ⟨v.updatePenalties, List.mem_map_of_mem hv, hs, i, by simp only [ConVal.updatePenalties]; rw [hs, hi]; ring⟩
  · exact .inr ⟨v.updatePenalties, List.mem_map_of_mem hv, hs, i, by simp only [ConVal.updatePenalties]; rw [hs, hi]; ring⟩

theorem hasPen_set {c : ALCost n m K} {φ r : K} (h : HasPen c φ r) (ρ : K) : HasPen (c.setPenalty ρ) φ ρ := by
  rcases h with ⟨v, hv, hs, i, hi⟩ | ⟨v, hv, hs, i, hi⟩
  · exact .inl ⟨v.setPenalty ρ, List.mem_map_of_mem hv, hs, i, rfl⟩
  · exact .inr ⟨v.setPenalty ρ, List.mem_map_of_mem hv, hs, i, rfl⟩

theorem hasPen_le_max {c : ALCost n m K} {φ r : K} (h : HasPen c φ r) : r ≤ c.maxPenalty := by
  rcases h with ⟨v, hv, -, i, rfl⟩ | ⟨v, hv, -, i, rfl⟩
  · exact (ConVal.pen_le_maxPenalty v i).trans (ALCost.eq_maxPenalty_le c v hv)
  · exact (ConVal.pen_le_maxPenalty v i).trans (ALCost.ineq_maxPenalty_le c v hv)

theorem le_alMaxPenalty (p : DynProblem n m K) (cs : ℕ → ALCost n m K) (k : ℕ) (hk : k ≤ p.N) :
    (cs k).maxPenalty ≤ AL.maxPenalty (alKernel p) alOps cs := by
  have : ∀ (l : List ℕ) (a : K), a ≤ l.foldl (fun a k => Arith.smax a ((cs k).maxPenalty)) a ∧
      ∀ k ∈ l, (cs k).maxPenalty ≤ l.foldl (fun a k => Arith.smax a ((cs k).maxPenalty)) a := by
    intro l
    induction l with
    | nil => intro a; exact ⟨le_rfl, fun _ h => by cases h⟩
    | cons j l ih =>
      intro a
      obtain ⟨h1, h2⟩ := ih (Arith.smax a ((cs j).maxPenalty))
      rw [List.foldl_cons]
      rw [Arith.smax_eq] at h1 h2 ⊢
      refine ⟨(le_max_left _ _).trans h1, fun i hi => ?_⟩
      rcases List.mem_cons.mp hi with rfl | hi
      · exact (le_max_right _ _).trans h1
      · exact h2 i hi
  exact (this _ _).2 k (List.mem_range.mpr (Nat.lt_succ_of_le hk))

theorem penParts_cost (p : DynProblem n m K) (k : ℕ) (c : ALCost n m K) (x u) : penParts ((alKernel p).cost k c x u).2 = penParts c := by
  show penParts (c.evaluate x u).2 = penParts c
  simp only [penParts, ALCost.evaluate, List.map_map]; rfl

theorem penParts_expand (p : DynProblem n m K) (k : ℕ) (c : ALCost n m K) (x u t h d) :
    penParts ((alKernel p).expand k c x u t h d).2 = penParts c := by
  show penParts ((c.gradient x u).2.hessian x u).2 = penParts c
  simp only [penParts, ALCost.gradient, ALCost.hessian, List.map_map]; rfl

/-- The penalty a solve starts with: the option if it is positive, and what is stored otherwise. -/
def startPenalty (o : Opts K) (r : K) : K := if 0 < o.initialPenalty then o.initialPenalty else r

theorem init_hasPen (p : DynProblem n m K) (o : Opts K) (s : ALSt (Fin n → K) (Fin m → K) K (ALCost n m K) (KP n m K)) (k : ℕ)
    (hk : k ≤ p.N) {φ r : K} (h : HasPen (s.st.cs k) φ r) :
    HasPen ((AL.init (alKernel p) alOps o s).st.cs k) φ (startPenalty o r) := by
  unfold AL.init
  extract_lets s1 s2 s3 s4 s5
  have h1 : HasPen (s1.cs k) φ r := by
    simp only [s1]
    split
    · show HasPen (if k ≤ p.N then _ else _) _ _
      rw [if_pos hk]
      refine hasPen_congr ?_ h
      simp only [penParts, alOps, ALCost.resetDuals, List.map_map]; rfl
    · exact h
  have h2 : HasPen (s2.cs k) φ (startPenalty o r) := by
    simp only [s2, startPenalty, Arith.gt_iff]
    split
    · show HasPen (if k ≤ p.N then _ else _) _ _
      rw [if_pos hk]
      exact hasPen_set h1 _
    · exact h1
  refine hasPen_congr ?_ h2
  show _ = penParts (s4.cs k)
  rw [show s4.cs = (ILQR.cost (alKernel p) s3.Z s3).2.cs from rfl, ILQR.cost_obs _ penParts (penParts_cost p)]

/-- **C113.**  A solve that took `j ≥ 2` outer iterations: every penalty it started with, scaled `j - 2` times, is within the limit. -/
theorem C113_bound (p : DynProblem n m K) (o : Opts K) (fuel : ℕ) (hmax : 1 ≤ o.maxOuter)
    (s s' : ALSt (Fin n → K) (Fin m → K) K (ALCost n m K) (KP n m K))
    (h : AL.solve (alKernel p) alOps o (ILQR.solve (alKernel p) o fuel) s = some s') (k : ℕ) (hk : k ≤ p.N) {φ r : K}
    (hp : HasPen (s.st.cs k) φ r) (h2 : 2 ≤ s'.st.stats.outer) :
    startPenalty o r * φ ^ (s'.st.stats.outer - 2) ≤ o.maxPenalty := by
  obtain ⟨j, s0, t, hj, hJ, ht, _, hjt, hdn, he⟩ :=
    solve_last (alKernel p) alOps o _ (C11_inner_ok (alKernel p) o fuel)
      (fun j q => HasPen (q.st.cs k) φ (startPenalty o r * φ ^ j) ∧ (1 ≤ j → startPenalty o r * φ ^ (j - 1) ≤ o.maxPenalty)) s s'
      ⟨by rw [pow_zero, mul_one]; exact init_hasPen p o s k hk hp, fun h => absurd h (by omega)⟩
      (by
        rintro j q t ⟨hJ, -⟩ ht hd
        have hkeep := ILQR.solve_keeps (alKernel p) o penParts (penParts_cost p) (penParts_expand p) fuel _ _ ht k
        obtain ⟨b1, -, -, -, -, -, -, b8⟩ := body_facts (alKernel p) alOps q t
        have hb : HasPen ((body (alKernel p) alOps q t).st.cs k) φ (startPenalty o r * φ ^ j) := by
          rw [b1]
          show HasPen (if k ≤ p.N then _ else _) _ _
          rw [if_pos hk]
          refine hasPen_congr ?_ hJ
          rw [← hkeep]
          simp only [penParts, alOps, ALCost.updateDuals, List.map_map]; rfl
        constructor
        · show HasPen (if k ≤ p.N then ((body (alKernel p) alOps q t).st.cs k).updatePenalties else _) _ _
          rw [if_pos hk]
          have := hasPen_update hb
          rwa [show φ * (startPenalty o r * φ ^ j) = startPenalty o r * φ ^ (j + 1) by ring] at this
        · intro _
          have hc := (isDone_continues o _ hd).pen
          rw [b8, ← b1] at hc
          rw [← Bool.not_eq_true, Arith.gt_iff, not_lt] at hc
          exact (hasPen_le_max hb).trans ((le_alMaxPenalty p _ k hk).trans hc)) hmax h
  obtain ⟨-, e2⟩ := isDone_true o _ hdn
  obtain ⟨-, -, -, -, b5, -⟩ := body_facts (alKernel p) alOps s0 t
  have ho : s'.st.stats.outer = j + 1 := by rw [he, e2, b5, hjt]
  rw [ho]
  exact hJ.2 (by omega)

variable [IsStrictOrderedRing K]

/-- **C113.**  Without constraints there is one outer iteration. -/
theorem C113_unconstrained (p : DynProblem n m K) (o : Opts K) (fuel : ℕ) (hmax : 1 ≤ o.maxOuter) (htol : 0 < o.conTol)
    (s s' : ALSt (Fin n → K) (Fin m → K) K (ALCost n m K) (KP n m K))
    (h : AL.solve (alKernel p) alOps o (ILQR.solve (alKernel p) o fuel) s = some s')
    (hno : ∀ k ≤ p.N, (s.st.cs k).eq = [] ∧ (s.st.cs k).ineq = []) :
    s'.st.stats.outer = 1 ∧ s'.status = s'.st.status := by
  have hstat : ∀ c c' : ALCost n m K, c.static = c'.static → (c'.eq = [] ∧ c'.ineq = []) → c.eq = [] ∧ c.ineq = [] := by
    intro c c' e hc
    have e1 := congrArg ALCost.eq e
    have e2 := congrArg ALCost.ineq e
    simp only [ALCost.static, hc.1, hc.2, List.map_nil, List.map_eq_nil_iff] at e1 e2
    exact ⟨e1, e2⟩
  have hviol : ∀ cs : ℕ → ALCost n m K, (∀ k ≤ p.N, (cs k).eq = [] ∧ (cs k).ineq = []) → (alKernel p).viol cs < o.conTol := by
    intro cs hcs
    show ALCost.infNormL (((List.range (p.N + 1)).map cs).map ALCost.maxViolation) < _
    rw [infNormL_lt_iff _ _ htol]
    intro x hx
    simp only [List.mem_map, List.mem_range] at hx
    obtain ⟨_, ⟨k, hk, rfl⟩, rfl⟩ := hx
    obtain ⟨h1, h2⟩ := hcs k (by omega)
    have : (cs k).maxViolation = 0 := by
      unfold ALCost.maxViolation
      rw [h1, h2]
      simp [ALCost.infNormL]
    rw [this, abs_zero]
    exact htol
  obtain ⟨j, s0, t, hj, ⟨hJ, hj0⟩, ht, _, hjt, hdn, he⟩ :=
    solve_last (alKernel p) alOps o _ (C11_inner_ok (alKernel p) o fuel)
      (fun j q => (∀ k ≤ p.N, (q.st.cs k).static = (s.st.cs k).static) ∧ j = 0) s s'
      ⟨fun k hk => init_static p o s k hk, rfl⟩
      (by
        rintro j q t ⟨hJ, -⟩ ht hd
        have hc := (isDone_continues o _ hd).viol
        obtain ⟨b1, -, -, -, -, -, b7, -⟩ := body_facts (alKernel p) alOps q t
        rw [b7, ← Bool.not_eq_true, Arith.lt_iff] at hc
        refine absurd (hviol _ fun k hk => ?_) hc
        refine hstat _ _ ?_ (hno k hk)
        show (if k ≤ p.N then alOps.updateDuals (t.cs k) else _ : ALCost n m K).static = _
        rw [if_pos hk, ← hJ k hk]
        exact (ALCost.updateDuals_static _).trans
          (ILQR.solve_keeps _ o ALCost.static (alLaw p).cost_sig (alLaw p).expand_sig fuel _ _ ht k)) hmax h
  subst hj0
  obtain ⟨e1, e2⟩ := isDone_true o _ hdn
  obtain ⟨b1, -, -, -, b5, -, b7, -⟩ := body_facts (alKernel p) alOps s0 t
  have hv : Arith.lt (Stats.back ((body (alKernel p) alOps s0 t).st.stats.col .viol)) o.conTol = true := by
    rw [b7, Arith.lt_iff]
    refine hviol _ fun k hk => hstat _ _ ?_ (hno k hk)
    show (if k ≤ p.N then alOps.updateDuals (t.cs k) else _ : ALCost n m K).static = _
    rw [if_pos hk, ← hJ k hk]
    exact (ALCost.updateDuals_static _).trans
      (ILQR.solve_keeps _ o ALCost.static (alLaw p).cost_sig (alLaw p).expand_sig fuel _ _ ht k)
  refine ⟨by rw [he, e2, b5, hjt], ?_⟩
  rw [he, e2]
  generalize (isDone o (body (alKernel p) alOps s0 t)).1.status = a at *
  generalize hb : (body (alKernel p) alOps s0 t).st.status = b at *
  cases e1 with
  | innerFailed h => rfl
  | solved h _ => exact h.symm
  | maxPenalty _ h => simp [hv] at h
  | maxOuter _ h => simp [hv] at h
  | maxTotal _ h => simp [hv] at h

/-- What the constraints of a new problem look like at every knot point: all scaling factors are at least `φ`. -/
def ScalingFrom (cs : ℕ → ALCost n m K) (N : ℕ) (φ : K) : Prop :=
  ∀ k ≤ N, (∀ v ∈ (cs k).eq, φ ≤ v.scaling) ∧ ∀ v ∈ (cs k).ineq, φ ≤ v.scaling

/-- **C113.**  The number of outer iterations when the penalty limit is below the initial penalty times `φ ^ b`: at most `b + 1`, whatever
the limit on outer iterations, unless that is smaller. -/
theorem C113_outer (p : DynProblem n m K) (o : Opts K) (fuel : ℕ) (hmax : 1 ≤ o.maxOuter) (htol : 0 < o.conTol)
    (hpos : 0 < o.initialPenalty) {φ : K} (hφ : 1 ≤ φ) (b : ℕ) (hb : o.maxPenalty < o.initialPenalty * φ ^ b)
    (s s' : ALSt (Fin n → K) (Fin m → K) K (ALCost n m K) (KP n m K))
    (h : AL.solve (alKernel p) alOps o (ILQR.solve (alKernel p) o fuel) s = some s') (hs : ScalingFrom s.st.cs p.N φ) :
    s'.st.stats.outer ≤ b + 1 := by
  by_cases hno : ∀ k ≤ p.N, (s.st.cs k).eq = [] ∧ (s.st.cs k).ineq = []
  · have := (C113_unconstrained p o fuel hmax htol s s' h hno).1
    omega
  · push Not at hno
    obtain ⟨k, hk, hne⟩ := hno
    have hex : ∃ ψ r, φ ≤ ψ ∧ HasPen (s.st.cs k) ψ r := by
      by_cases he : (s.st.cs k).eq = []
      · obtain ⟨v, hv⟩ := List.exists_mem_of_ne_nil _ (hne he)
        exact ⟨v.scaling, v.pen ⟨0, v.con.hp⟩, (hs k hk).2 v hv, .inr ⟨v, hv, rfl, _, rfl⟩⟩
      · obtain ⟨v, hv⟩ := List.exists_mem_of_ne_nil _ he
        exact ⟨v.scaling, v.pen ⟨0, v.con.hp⟩, (hs k hk).1 v hv, .inl ⟨v, hv, rfl, _, rfl⟩⟩
    obtain ⟨ψ, r, hψ, hp⟩ := hex
    by_contra hlt
    push Not at hlt
    have key := C113_bound p o fuel hmax s s' h k hk hp (by omega)
    rw [startPenalty, if_pos hpos] at key
    have h1 : φ ^ b ≤ ψ ^ (s'.st.stats.outer - 2) :=
      (pow_le_pow_right₀ hφ (by omega)).trans (pow_le_pow_left₀ (by linarith) hψ _)
    exact absurd (lt_of_lt_of_le hb ((mul_le_mul_of_nonneg_left h1 hpos.le).trans key)) (lt_irrefl _)

/-- **C113, default options.**  With the default options and scaling factors of at least ten (the default), a solve takes at most ten outer
iterations, and it never ends with `kMaxOuterIterations`. -/
theorem C113_default (p : DynProblem n m K) (fuel : ℕ) (s s' : ALSt (Fin n → K) (Fin m → K) K (ALCost n m K) (KP n m K))
    (h : AL.solve (alKernel p) alOps (Opts.default ((↑) : ℚ → K)) (ILQR.solve (alKernel p) (Opts.default ((↑) : ℚ → K)) fuel) s = some s')
    (hs : ScalingFrom s.st.cs p.N 10) :
    s'.st.stats.outer ≤ 10 ∧ s'.status ≠ .kMaxOuterIterations := by
  have hmax : 1 ≤ (Opts.default ((↑) : ℚ → K)).maxOuter := by show (1 : ℤ) ≤ 30; decide
  have h10 := C113_outer p (Opts.default ((↑) : ℚ → K)) fuel hmax (by simp [Opts.default]) (by simp [Opts.default])
    (by norm_num) 9 (by simp only [Opts.default]; norm_num) s s' h hs
  refine ⟨h10, fun hst => ?_⟩
  obtain ⟨hout, -, -⟩ := C11_status (C11_inner_ok (alKernel p) _ fuel) hmax s s' h
  obtain ⟨a, t, hat, e1, -⟩ := C11_last_inner (C11_inner_ok (alKernel p) _ fuel) hmax s s' h
  have hin := (Props.C19_status (alKernel p) (Opts.default ((↑) : ℚ → K)) OrderLaws.ofField fuel a t (by show (1 : ℤ) ≤ 100; decide) hat).1.cases
  rw [← e1] at hin
  rw [hst] at hout
  generalize s'.st.status = b at *
  cases hout with
  | innerFailed h => rcases hin with e | e | e | e | e | ⟨-, e⟩ <;> cases e
  | maxOuter _ _ _ ho =>
    have : (30 : ℤ) ≤ s'.st.stats.outer := ho
    omega

/-- With one scaling factor, the largest penalty on return; it is at least as much if there is a constraint. -/
theorem C113_final (p : DynProblem n m K) (o : Opts K) (fuel : ℕ) (hmax : 1 ≤ o.maxOuter) (hpos : 0 < o.initialPenalty) {φ : K} (hφ : 0 ≤ φ)
    (s s' : ALSt (Fin n → K) (Fin m → K) K (ALCost n m K) (KP n m K))
    (h : AL.solve (alKernel p) alOps o (ILQR.solve (alKernel p) o fuel) s = some s') (hs : ∀ k ≤ p.N, ScaleU (s.st.cs k) φ) :
    AL.maxPenalty (alKernel p) alOps s'.st.cs ≤ o.initialPenalty * φ ^ (s'.st.stats.outer - 1) ∧
    ((∃ k ≤ p.N, (s.st.cs k).eq ≠ [] ∨ (s.st.cs k).ineq ≠ []) →
      o.initialPenalty * φ ^ (s'.st.stats.outer - 1) ≤ AL.maxPenalty (alKernel p) alOps s'.st.cs) := by
  have hu : ∀ k ≤ p.N, PenU (s'.st.cs k) (o.initialPenalty * φ ^ (s'.st.stats.outer - 1)) := fun k hk => by
    obtain ⟨⟨h1, h2⟩, hst⟩ := C13_alcost_penalties p o fuel hmax hpos s s' h k hk
    have e' : (∀ v ∈ (s'.st.cs k).static.eq, v.scaling = φ) ∧ ∀ v ∈ (s'.st.cs k).static.ineq, v.scaling = φ := by
      rw [hst]
      simp only [ALCost.static, List.forall_mem_map]
      exact hs k hk
    simp only [ALCost.static, List.forall_mem_map] at e'
    exact ⟨fun v hv i => by rw [h1 v hv i, show v.scaling = φ from e'.1 v hv], fun v hv i => by rw [h2 v hv i, show v.scaling = φ from e'.2 v hv]⟩
  refine ⟨maxPenalty_le p _ (mul_nonneg hpos.le (pow_nonneg hφ _)) hu, fun ⟨k, hk, hne⟩ => ?_⟩
  have hst := (C13_alcost_penalties p o fuel hmax hpos s s' h k hk).2
  refine le_trans (hasPen_le_max (φ := φ) ?_) (le_alMaxPenalty p _ k hk)
  have hsc : ScaleU (s'.st.cs k).static φ := by
    rw [hst]
    simp only [ScaleU, ALCost.static, List.forall_mem_map]
    exact hs k hk
  simp only [ScaleU, ALCost.static, List.forall_mem_map] at hsc
  rcases hne with hne | hne
  · have : (s'.st.cs k).eq ≠ [] := fun e => hne (by
      have := congrArg ALCost.eq hst
      simpa only [ALCost.static, e, List.map_nil, List.nil_eq, List.map_eq_nil_iff] using this)
    obtain ⟨v, hv⟩ := List.exists_mem_of_ne_nil _ this
    exact .inl ⟨v, hv, hsc.1 v hv, ⟨0, v.con.hp⟩, (hu k hk).1 v hv _⟩
  · have : (s'.st.cs k).ineq ≠ [] := fun e => hne (by
      have := congrArg ALCost.ineq hst
      simpa only [ALCost.static, e, List.map_nil, List.nil_eq, List.map_eq_nil_iff] using this)
    obtain ⟨v, hv⟩ := List.exists_mem_of_ne_nil _ this
    exact .inr ⟨v, hv, hsc.2 v hv, ⟨0, v.con.hp⟩, (hu k hk).2 v hv _⟩

/-- **C113, the outcomes with default options.**  Either the constraints are satisfied; or the inner solver failed and its status is
reported; or the penalties ran out in outer iteration ten and in no other; or the iterations ran out. -/
theorem C113_outcomes (p : DynProblem n m K) (fuel : ℕ) (s s' : ALSt (Fin n → K) (Fin m → K) K (ALCost n m K) (KP n m K))
    (h : AL.solve (alKernel p) alOps (Opts.default ((↑) : ℚ → K)) (ILQR.solve (alKernel p) (Opts.default ((↑) : ℚ → K)) fuel) s = some s')
    (hs : ∀ k ≤ p.N, ScaleU (s.st.cs k) 10) :
    (s'.status = .kSolved ∧ (alKernel p).viol s'.st.cs < ((1 / 10 ^ 4 : ℚ) : K)) ∨
    (s'.status = s'.st.status ∧ (s'.status = .kMaxInnerIterations ∨ s'.status = .kMaxIterations ∨ s'.status = .kStateLimit ∨
      s'.status = .kControlLimit)) ∨
    (s'.status = .kMaxPenalty ∧ s'.st.stats.outer = 10 ∧ ((1 / 10 ^ 4 : ℚ) : K) ≤ (alKernel p).viol s'.st.cs) ∨
    (s'.status = .kMaxIterations ∧ s'.st.stats.outer < 10 ∧ 300 ≤ s'.st.stats.total ∧
      ((1 / 10 ^ 4 : ℚ) : K) ≤ (alKernel p).viol s'.st.cs) := by
  have hmax : 1 ≤ (Opts.default ((↑) : ℚ → K)).maxOuter := by show (1 : ℤ) ≤ 30; decide
  have hpos : 0 < (Opts.default ((↑) : ℚ → K)).initialPenalty := by simp [Opts.default]
  have h10 := C113_default p fuel s s' h fun k hk => ⟨fun v hv => ((hs k hk).1 v hv).ge, fun v hv => ((hs k hk).2 v hv).ge⟩
  obtain ⟨hout, hv, hp⟩ := C11_status (C11_inner_ok (alKernel p) _ fuel) hmax s s' h
  obtain ⟨hfin, hfin'⟩ := C113_final p _ fuel hmax hpos (by norm_num : (0 : K) ≤ 10) s s' h hs
  have hlow := (C12_bounds (C11_inner_ok (alKernel p) _ fuel) hmax s s' h).1
  obtain ⟨a, t, hat, e1, -⟩ := C11_last_inner (C11_inner_ok (alKernel p) _ fuel) hmax s s' h
  have hin := (Props.C19_status (alKernel p) (Opts.default ((↑) : ℚ → K)) OrderLaws.ofField fuel a t (by show (1 : ℤ) ≤ 100; decide) hat).1.cases
  rw [← e1] at hin
  clear e1
  rw [hv, hp] at hout
  have htol : (Opts.default ((↑) : ℚ → K)).conTol = ((1 / 10 ^ 4 : ℚ) : K) := rfl
  have hlim : (Opts.default ((↑) : ℚ → K)).maxPenalty = 10 ^ 8 := by simp [Opts.default]
  have hini : (Opts.default ((↑) : ℚ → K)).initialPenalty = 1 := by simp [Opts.default]
  rw [hini, one_mul] at hfin hfin'
  have hun := C113_unconstrained p (Opts.default ((↑) : ℚ → K)) fuel hmax (by simp [Opts.default]) s s' h
  generalize s'.status = a at *
  generalize hb : s'.st.status = b at *
  cases hout with
  | innerFailed h =>
    refine .inr (.inl ⟨rfl, ?_⟩)
    rcases hin with e | e | e | e | e | ⟨e, -⟩
    · exact absurd e h
    · exact .inl e
    · exact .inr (.inl e)
    · exact .inr (.inr (.inl e))
    · exact .inr (.inr (.inr e))
    · exact absurd e (by show ¬ ((20 : ℤ) ≤ 0); decide)
  | solved _ hv => exact .inl ⟨rfl, by rwa [Arith.lt_iff, htol] at hv⟩
  | maxPenalty _ hv hp =>
    rw [← Bool.not_eq_true, Arith.lt_iff, htol, not_lt] at hv
    rw [Arith.gt_iff, hlim] at hp
    have := lt_of_lt_of_le hp hfin
    have := (pow_lt_pow_iff_right₀ (by norm_num : (1 : K) < 10)).mp this
    exact .inr (.inr (.inl ⟨rfl, by omega, hv⟩))
  | maxOuter => exact absurd rfl h10.2
  | maxTotal hsol hv hp _ ht =>
    rw [← Bool.not_eq_true, Arith.lt_iff, htol, not_lt] at hv
    have ht : (300 : ℤ) ≤ s'.st.stats.total := ht
    refine .inr (.inr (.inr ⟨rfl, ?_, by omega, hv⟩))
    rw [← Bool.not_eq_true, Arith.gt_iff, hlim, not_lt] at hp
    have hex : ∃ k ≤ p.N, (s.st.cs k).eq ≠ [] ∨ (s.st.cs k).ineq ≠ [] := by
      by_contra hno
      push Not at hno
      have := (hun hno).2
      rw [hsol] at this
      cases this
    have := (pow_le_pow_iff_right₀ (by norm_num : (1 : K) < 10)).mp ((hfin' hex).trans hp)
    omega

/-- **C113, problems without a solution.**  If no trajectory of the system, with whatever times, satisfies the constraints to the tolerance,
`kSolved` is not reported: with the default options the penalties run out in outer iteration ten, or iterations run out, or the inner solver
fails. -/
theorem C113_infeasible (p : DynProblem n m K) (fuel : ℕ) (s s' : ALSt (Fin n → K) (Fin m → K) K (ALCost n m K) (KP n m K))
    (h : AL.solve (alKernel p) alOps (Opts.default ((↑) : ℚ → K)) (ILQR.solve (alKernel p) (Opts.default ((↑) : ℚ → K)) fuel) s = some s')
    (hs : ∀ k ≤ p.N, ScaleU (s.st.cs k) 10)
    (hinf : ∀ Z, DynFeasible (alKernel p) Z → ((1 / 10 ^ 4 : ℚ) : K) ≤ (alLaw p).violation s.st.cs Z) :
    (s'.status = s'.st.status ∧ (s'.status = .kMaxInnerIterations ∨ s'.status = .kMaxIterations ∨ s'.status = .kStateLimit ∨
      s'.status = .kControlLimit)) ∨
    (s'.status = .kMaxPenalty ∧ s'.st.stats.outer = 10) ∨
    (s'.status = .kMaxIterations ∧ s'.st.stats.outer < 10 ∧ 300 ≤ s'.st.stats.total) := by
  have hmax : 1 ≤ (Opts.default ((↑) : ℚ → K)).maxOuter := by show (1 : ℤ) ≤ 30; decide
  have hpos : 0 < (Opts.default ((↑) : ℚ → K)).initialPenalty := by simp [Opts.default]
  rcases C113_outcomes p fuel s s' h hs with ⟨-, hv⟩ | h1 | ⟨h1, h2, -⟩ | ⟨h1, h2, h3, -⟩
  · exfalso
    obtain ⟨Zc, hf, hr, hZ⟩ := C15_reported_partial (alLaw p) fuel hmax s s' h
    rw [(C11_status (C11_inner_ok (alKernel p) _ fuel) hmax s s' h).2.1] at hr
    have e : (alLaw p).violation s'.st.cs Zc = (alLaw p).violation s.st.cs Zc := by
      refine (alLaw p).agg_congr _ _ fun k hk => ?_
      have : (alLaw p).sig (s'.st.cs k) = (alLaw p).sig (s.st.cs k) := (C13_alcost_penalties p _ fuel hmax hpos s s' h k hk).2
      rw [this]
    have hdyn : DynFeasible (alKernel p) Zc := by
      rcases hZ with rfl | ⟨s1, i, -, -, -, -, -, rfl⟩
      · exact (C17_outer fuel hmax s s' h).1
      · refine ⟨rfl, fun k hk => ?_⟩
        simp only [candidateTraj, if_pos hk]
        rfl
    exact absurd (lt_of_lt_of_le hv ((hinf Zc hdyn).trans (by rw [hr, e]))) (lt_irrefl _)
  · exact .inl h1
  · exact .inr (.inl ⟨h1, h2⟩)
  · exact .inr (.inr ⟨h1, h2, h3⟩)

/-- The goal constraint has the default scaling factor. -/
theorem eqGoal_scaling : ScalingFrom eqGoalState.st.cs dblProblem.N 10 := by
  intro k _
  show (∀ v ∈ (eqGoalCosts k).eq, (10 : ℚ) ≤ v.scaling) ∧ ∀ v ∈ (eqGoalCosts k).ineq, (10 : ℚ) ≤ v.scaling
  by_cases h2 : k = 2
  · have e : (eqGoalCosts k).eq = [ConVal.new .equality eqGoalCon] := by simp [eqGoalCosts, ALCost.new, h2]
    rw [e]
    refine ⟨fun v hv => ?_, fun v hv => by cases hv⟩
    rw [List.mem_singleton] at hv
    subst hv
    exact le_of_eq rfl
  · have e : (eqGoalCosts k).eq = [] := by simp [eqGoalCosts, ALCost.new, h2]
    rw [e]
    refine And.intro (fun v hv => ?_) (fun v hv => ?_) <;> cases hv

/-- The example with a goal constraint takes four outer iterations; two scalings of the initial penalty are within the limit, and seven
iterations would have been the most. -/
example : ∃ s', eqGoalRun = some s' ∧ s'.st.stats.outer = 4 ∧ s'.st.stats.outer ≤ 7 ∧ (1 : ℚ) * 10 ^ 2 ≤ eqGoalOpts.maxPenalty := by
  have h := eqGoalRun_report
  cases hb : eqGoalRun with
  | none => rw [hb] at h; cases h
  | some s' =>
    rw [hb] at h
    simp only [Option.map_some, Option.some.injEq, Prod.mk.injEq] at h
    refine ⟨s', rfl, h.2.1, ?_, ?_⟩
    · exact C113_outer dblProblem eqGoalOpts 1 (by decide) (by decide +kernel) (by decide +kernel) (φ := 10) (by norm_num) 6
        (by simp only [eqGoalOpts]; norm_num) eqGoalState s' hb eqGoal_scaling
    · have hp : HasPen (eqGoalState.st.cs 2) 10 1 := .inl ⟨ConVal.new .equality eqGoalCon, List.mem_singleton.mpr rfl, rfl, ⟨0, Nat.one_pos⟩, rfl⟩
      have := C113_bound dblProblem eqGoalOpts 1 (by decide) eqGoalState s' hb 2 le_rfl hp (by rw [h.2.1]; decide)
      rw [h.2.1] at this
      exact this

/-- The same problem with the default options. -/
def eqGoalDefault := AL.solve (alKernel dblProblem) alOps (Opts.default ((↑) : ℚ → ℚ))
  (ILQR.solve (alKernel dblProblem) (Opts.default ((↑) : ℚ → ℚ)) 1) eqGoalState

theorem eqGoalDefault_report : (eqGoalDefault.map fun s => (s.status, s.st.stats.outer, s.st.stats.total)) = some (.kSolved, 4, 8) := by
  decide +kernel

/-- It takes four outer iterations with the default options too. -/
example : ∃ s', eqGoalDefault = some s' ∧ s'.st.stats.outer ≤ 10 ∧ s'.status ≠ .kMaxOuterIterations := by
  have h := eqGoalDefault_report
  cases hb : eqGoalDefault with
  | none => rw [hb] at h; cases h
  | some s' => exact ⟨s', rfl, C113_default dblProblem 1 eqGoalState s' hb eqGoal_scaling⟩

/-- A constraint that nothing satisfies. -/
def neverCon : Con 2 1 ℚ := { eqGoalCon with eval := fun _ _ _ => 1, jac := fun _ _ _ _ => 0 }

def neverState : ALSt (Fin 2 → ℚ) (Fin 1 → ℚ) ℚ (ALCost 2 1 ℚ) (KP 2 1 ℚ) :=
  { eqGoalState with st := { eqGoalState.st with
    cs := fun k => ALCost.new (if k = 2 then dblTerm else dblStage) (if k = 2 then [neverCon] else []) [] } }

def neverRun := AL.solve (alKernel dblProblem) alOps (Opts.default ((↑) : ℚ → ℚ))
  (ILQR.solve (alKernel dblProblem) (Opts.default ((↑) : ℚ → ℚ)) 1) neverState

/-- With it the penalties run out, in outer iteration ten. -/
theorem neverRun_report : (neverRun.map fun s => (s.status, s.st.stats.outer, s.st.stats.total)) = some (.kMaxPenalty, 10, 20) := by
  decide +kernel

/-- Its scaling factor is the default. -/
theorem never_scaling : ∀ k ≤ dblProblem.N, ScaleU (neverState.st.cs k) 10 := by
  intro k _
  refine ⟨fun v hv => ?_, fun v hv => by cases hv⟩
  have hv : v ∈ ((if k = 2 then [neverCon] else []).map (ConVal.new .equality) : List (ConVal .equality 2 1 ℚ)) := hv
  obtain ⟨c, -, rfl⟩ := List.mem_map.mp hv
  rfl

example : ∃ s', neverRun = some s' ∧ s'.status = .kMaxPenalty ∧ s'.st.stats.outer = 10 := by
  have h := neverRun_report
  cases hb : neverRun with
  | none => rw [hb] at h; cases h
  | some s' =>
    rw [hb] at h
    simp only [Option.map_some, Option.some.injEq, Prod.mk.injEq] at h
    refine ⟨s', rfl, h.1, ?_⟩
    have key := C113_outcomes dblProblem 1 neverState s' hb never_scaling
    rw [h.1] at key
    rcases key with ⟨e, -⟩ | ⟨-, e | e | e | e⟩ | ⟨-, e, -⟩ | ⟨e, -⟩ <;> first | cases e | exact e

/-- Every trajectory violates it. -/
theorem never_violation (Z : Traj (Fin 2 → ℚ) (Fin 1 → ℚ) ℚ) : (alLaw dblProblem).violation neverState.st.cs Z = 1 := by
  have e : (alLaw dblProblem).violation neverState.st.cs Z = (alLaw dblProblem).violation neverState.st.cs dblState.Z := by
    refine (alLaw dblProblem).agg_congr _ _ fun k hk => ?_
    have hk : k ≤ 2 := hk
    interval_cases k <;> rfl
  rw [e]
  decide +kernel

/-- The hypotheses of the last theorem hold. -/
example : ∃ s', neverRun = some s' ∧ s'.status ≠ .kSolved := by
  have h := neverRun_report
  cases hb : neverRun with
  | none => rw [hb] at h; cases h
  | some s' =>
    refine ⟨s', rfl, fun hst => ?_⟩
    have key := C113_infeasible dblProblem 1 neverState s' hb never_scaling fun Z _ => by rw [never_violation]; norm_num
    rw [hst] at key
    rcases key with ⟨-, e | e | e | e⟩ | ⟨e, -⟩ | ⟨e, -⟩ <;> cases e

end Altro.Props
