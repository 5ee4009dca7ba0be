import Verif.Proofs.Parallel
import Verif.Props.Tasks
import Verif.Props.Pool
import Mathlib.Data.List.Perm.Basic
import Mathlib.Data.List.Flatten

/-!
# C53: expansions on several threads equal expansions on one

True when the knot points share no mutable object, no `Wait` times out and the assignment is a partition
(`C53_partial`, `C53_default_partial`).  The code checks none of the three: `C53_shared_counterexample` (two knot points
share a dynamics object), `C49_counterexample` (timeouts), `C52_accepts_counterexample` (assignments).
-/

namespace Altro.Pool
variable {M : Type}

/-- C53 for any tasks whose steps commute: when the call returns, all tasks are finished and the memory is the one of
running them one after the other. -/
theorem C53_batch {prog : ℕ → List (M → M)} {m : M} {n : ℕ} {s s' : St M} (hr : Reachable prog m s)
    (hf : ∀ t < s.next, s.finished t = true) (hn : 1 ≤ n) (h : BatchRun prog n s s')
    (hc : Commuting prog (List.range' s.next n)) :
    (∀ t < s'.next, s'.finished t = true) ∧ s'.mem = (List.range' s.next n).foldl (runTask prog) s.mem := by
  obtain ⟨ho, hrun, ho', hnx, hfu⟩ := h
  obtain ⟨hr', hi⟩ := invBatch_run hr ho hf hrun
  obtain ⟨hA', hB'⟩ := inv_reachable hr'
  obtain ⟨hA, hB⟩ := inv_reachable hr
  have hfin : ∀ t < s.next + n, s'.finished t = true := by
    rcases hi.mark with hm | ⟨-, hm⟩
    · have := hA'.futures
      rw [hfu, eq_comm, List.range'_eq_nil_iff] at this
      omega
    · exact hm
  refine ⟨by rw [hnx]; exact hfin, ?_⟩
  obtain ⟨evs, he⟩ := hi.trace
  have hmem : s'.mem = exec prog evs s.mem := by
    rw [hB'.mem, he, replay_append, ← hB.mem, replay, List.foldl_map]; rfl
  rw [hmem]
  have hst' : ∀ t, stepsOf t s'.trace = stepsOf t s.trace ++ stepsOf t (evs.map fun e => (.task e.1 e.2 : TraceEv M)) := by
    intro t; rw [he, stepsOf_append]
  have hlate : ∀ {x : St M}, Reachable prog m x → ∀ t, x.next ≤ t → stepsOf t x.trace = [] := by
    intro x hx t ht
    obtain ⟨p, hp, -, hst⟩ := C48_order_partial hx
    refine (inv_reachable hx).2.unstarted t fun hs => ?_
    have := hst t hs
    omega
  have hnone : ∀ t, ¬ (s.next ≤ t ∧ t < s.next + n) → stepsOf t (evs.map fun e => (.task e.1 e.2 : TraceEv M)) = [] := by
    intro t ht
    by_cases hlt : t < s.next
    · have h1 := (hB.fin t (hf t hlt)).2
      have h2 := (hB'.fin t (hi.old t hlt)).2
      rw [hst', h1] at h2
      simpa using h2
    · have := hst' t
      rw [hlate hr' t (by omega)] at this
      exact (List.append_eq_nil_iff.1 this.symm).2
  refine exec_serial _ evs s.mem List.nodup_range' hc (fun e hmem => ?_) fun t ht => ?_
  · rw [List.mem_range'_1]
    by_contra hcon
    have h0 := hnone e.1 hcon
    have := stepsOf_tasks (M := M) e.1 evs
    have h2 : e ∈ evs.filter fun x => x.1 = e.1 := by simp [hmem]
    rw [this, h0] at h2
    simp at h2
  · rw [List.mem_range'_1] at ht
    rw [stepsOf_tasks (M := M)]
    have := hst' t
    rw [(hB'.fin t (hfin t ht.2)).2, hlate hr t ht.1, List.nil_append] at this
    rw [← this]

end Altro.Pool

namespace Altro.ILQR
open Spec
variable {X U F C D : Type} [Arith F]
variable (P : Kernel X U F C D)

/-- Both steps of knot point `k`. -/
def stepAt (s : St X U F C D) (k : ℕ) : St X U F C D := costStep P k (expandStep P k s)

theorem upd_upd {α : Type} (f : ℕ → α) (k : ℕ) (a b : α) : upd (upd f k a) k b = upd f k b := by
  funext j; unfold upd; split <;> rfl

theorem upd_comm {α : Type} (f : ℕ → α) {k j : ℕ} (h : k ≠ j) (a b : α) :
    upd (upd f k a) j b = upd (upd f j b) k a := by
  funext i; unfold upd; split <;> split <;> simp_all

theorem stepAt_eq (s : St X U F C D) (k : ℕ) : stepAt P s k =
    let e := P.expand k (s.cs k) (s.Z.x k) (s.Z.u k) (s.Z.t k) (s.Z.h k) (s.kd k)
    let r := P.cost k e.2 (s.Z.x k) (s.Z.u k)
    { s with kd := upd s.kd k e.1, cs := upd s.cs k r.2, costs := upd s.costs k r.1 } := by
  simp only [stepAt, costStep, expandStep, upd_self, upd_upd]

/-- Steps of different knot points commute. -/
theorem step_comm {k j : ℕ} (h : k ≠ j) (f g : St X U F C D → St X U F C D) (hf : f = expandStep P k ∨ f = costStep P k)
    (hg : g = expandStep P j ∨ g = costStep P j) (s : St X U F C D) : f (g s) = g (f s) := by
  rcases hf with rfl | rfl <;> rcases hg with rfl | rfl <;>
    simp only [expandStep, costStep, upd_of_ne h, upd_of_ne h.symm] <;> congr 1 <;> exact upd_comm _ h.symm _ _

theorem stepAt_comm (s : St X U F C D) (k j : ℕ) : stepAt P (stepAt P s k) j = stepAt P (stepAt P s j) k := by
  by_cases h : k = j
  · rw [h]
  · simp only [stepAt_eq, upd_of_ne h, upd_of_ne (Ne.symm h)]
    congr 1 <;> exact upd_comm _ h _ _

instance : RightCommutative (stepAt P) := ⟨stepAt_comm P⟩

theorem expandBlock_eq (a : ℕ) (s : St X U F C D) (n : ℕ) :
    expandBlock P a s n = (List.range' a n).foldl (stepAt P) s := by
  induction n with
  | zero => rfl
  | succ n ih =>
    rw [List.range'_1_concat, List.foldl_append, ← ih, List.foldl_cons, List.foldl_nil, stepAt_eq]; rfl

/-- The knot points of a block. -/
def knots (b : ℤ × ℤ) : List ℕ := List.range' b.1.toNat (b.2.toNat - b.1.toNat)

theorem run_block (b : ℤ × ℤ) (s : St X U F C D) :
    (blockSteps P b).foldl (fun m f => f m) s = (knots b).foldl (stepAt P) s := by
  unfold blockSteps knots
  generalize List.range' b.1.toNat (b.2.toNat - b.1.toNat) = ks
  induction ks generalizing s with
  | nil => rfl
  | cons k ks ih => rw [List.flatMap_cons, List.foldl_append, ih]; rfl

theorem count_knots (bl : List (ℤ × ℤ)) (k : ℕ) : (bl.flatMap knots).count k = timesCovered bl k := by
  induction bl with
  | nil => rfl
  | cons b bl ih =>
    unfold timesCovered at ih ⊢
    rw [List.flatMap_cons, List.count_append, ih, List.countP_cons, add_comm]
    congr 1
    unfold knots
    by_cases h : b.1 ≤ k ∧ k < b.2
    · rw [if_pos (by simpa using h)]
      exact List.count_eq_one_of_mem List.nodup_range' (by rw [List.mem_range'_1]; omega)
    · rw [if_neg (by simpa using h), List.count_eq_zero]
      rw [List.mem_range'_1]; omega

/-- The knot points of a partition, in some order, are `0..N`. -/
theorem partition_perm {N : ℕ} {bl : List (ℤ × ℤ)} (h : Partition N bl) : (bl.flatMap knots).Perm (List.range' 0 (N + 1)) := by
  rw [List.perm_iff_count]
  intro k
  rw [count_knots, h k]
  by_cases hk : k ≤ N
  · rw [if_pos (by omega), List.count_eq_one_of_mem List.nodup_range' (by rw [List.mem_range'_1]; omega)]
  · rw [if_neg (by omega), eq_comm, List.count_eq_zero, List.mem_range'_1]; omega

/-- C53: `UpdateExpansions` on several threads.  In the state `s` all tasks added before are finished, the blocks are a
partition and task number `s.next + i` is block `i`.  Then for every schedule the state of the solver after the call is the
one that the call has on a single thread. -/
theorem C53_partial {prog : ℕ → List (St X U F C D → St X U F C D)} {m : St X U F C D} {bl : List (ℤ × ℤ)}
    {s s' : Pool.St (St X U F C D)} (hr : Pool.Reachable prog m s) (hf : ∀ t < s.next, s.finished t = true)
    (hp : Partition P.N bl) (hprog : ∀ i (h : i < bl.length), prog (s.next + i) = blockSteps P bl[i])
    (h : Pool.BatchRun prog bl.length s s') : s'.mem = updateExpansions P s.mem := by
  have hperm := partition_perm hp
  have hlen : 1 ≤ bl.length := by
    by_contra hc
    have : bl = [] := List.length_eq_zero_iff.1 (by omega)
    subst this
    have := hperm.length_eq
    simp at this
  have hnd : (bl.flatMap knots).Nodup := hperm.nodup_iff.2 List.nodup_range'
  rw [List.nodup_flatMap] at hnd
  have hc : Pool.Commuting prog (List.range' s.next bl.length) := by
    intro t ht t' ht' hne f hf g hg x
    rw [List.mem_range'_1] at ht ht'
    obtain ⟨i, rfl⟩ := Nat.exists_eq_add_of_le ht.1
    obtain ⟨j, rfl⟩ := Nat.exists_eq_add_of_le ht'.1
    rw [hprog i (by omega)] at hf
    rw [hprog j (by omega)] at hg
    simp only [blockSteps, List.mem_flatMap, List.mem_cons, List.not_mem_nil, or_false] at hf hg
    obtain ⟨k, hk, hf⟩ := hf
    obtain ⟨k', hk', hg⟩ := hg
    refine step_comm P ?_ f g hf hg x
    rintro rfl
    have hpw := List.pairwise_iff_getElem.1 hnd.2
    rcases Nat.lt_or_gt_of_ne (show i ≠ j by omega) with hij | hij
    · exact hpw i j (by omega) (by omega) hij hk hk'
    · exact hpw j i (by omega) (by omega) hij hk' hk
  rw [(Pool.C53_batch hr hf hlen h hc).2]
  have hrun : ∀ (l : List (ℤ × ℤ)) (b : ℕ) (x : St X U F C D),
      (∀ i (h : i < l.length), prog (b + i) = blockSteps P l[i]) →
      (List.range' b l.length).foldl (Pool.runTask prog) x = (l.flatMap knots).foldl (stepAt P) x := by
    intro l
    induction l with
    | nil => intro b x _; rfl
    | cons a l ih =>
      intro b x hb
      have h0 := hb 0 (by simp)
      rw [List.length_cons, List.range'_succ, List.foldl_cons, List.flatMap_cons, List.foldl_append,
        ih (b + 1) _ fun i hi => by
          have := hb (i + 1) (by simpa using hi)
          rw [show b + 1 + i = b + (i + 1) by omega, this]; rfl]
      congr 1
      unfold Pool.runTask
      rw [← run_block]
      simp only [add_zero, List.getElem_cons_zero] at h0
      rw [h0]
  rw [hrun bl s.next s.mem hprog, hperm.foldl_eq]
  unfold updateExpansions
  rw [expandBlock_eq]

/-- C53 with the default assignment, whenever that is returned (see C51). -/
theorem C53_default_partial {prog : ℕ → List (St X U F C D → St X U F C D)} {m : St X U F C D}
    {s s' : Pool.St (St X U F C D)} (hr : Pool.Reachable prog m s) (hf : ∀ t < s.next, s.finished t = true)
    {fuel : ℕ} {nthreads tasks : ℤ} (hN : 1 ≤ P.N) (hn : 1 ≤ nthreads * tasks) {l : List ℤ}
    (hl : Tasks.defaultAssignment f64 fuel P.N nthreads tasks = some (.ok l))
    (hprog : ∀ i (h : i < (Tasks.blocks l).length), prog (s.next + i) = blockSteps P (Tasks.blocks l)[i])
    (h : Pool.BatchRun prog (Tasks.blocks l).length s s') : s'.mem = updateExpansions P s.mem :=
  C53_partial P hr hf (Tasks.C51_returned_partial Tasks.isRounding_f64 hN hn hl).1 hprog h

end Altro.ILQR

namespace Altro.Pool
variable {M : Type}

/-- Run a schedule of `UpdateExpansions`; `none` if a step is not one of it. -/
def batchSched (prog : ℕ → List (M → M)) (b n : ℕ) : List (Option ℕ × Choice M) → St M → Option (St M)
  | [], s => some s
  | (i, c) :: l, s =>
    match i with
    | some w => match workerStep prog w s with
      | .next s' => batchSched prog b n l s'
      | _ => none
    | none =>
      if c.timeout then none else
      match s.opc, c.act with
      | .idle, .add => if s.next < b + n then
          (match ownerStep c s with | .next s' => batchSched prog b n l s' | _ => none) else none
      | .idle, .wait => if s.next = b + n then
          (match ownerStep c s with | .next s' => batchSched prog b n l s' | _ => none) else none
      | .idle, _ => none
      | _, _ => (match ownerStep c s with | .next s' => batchSched prog b n l s' | _ => none)

theorem batchSched_run {prog : ℕ → List (M → M)} {b n : ℕ} {l : List (Option ℕ × Choice M)} {s s' : St M}
    (h : batchSched prog b n l s = some s') : Relation.ReflTransGen (BatchStep prog b n) s s' := by
  induction l generalizing s with
  | nil => simp [batchSched] at h; rw [h]
  | cons x l ih =>
    obtain ⟨i, c⟩ := x
    cases i with
    | some w =>
      simp only [batchSched] at h
      split at h
      next s1 h1 => exact .head (.worker w h1) (ih h)
      next => cases h
    | none =>
      by_cases ht : c.timeout = true
      · cases ho : s.opc <;> cases ha : c.act <;> simp [batchSched, ht, ho, ha] at h
      · have hf : c.timeout = false := by simpa using ht
        have fin : (s.opc = .idle → (c.act = .add ∧ s.next < b + n) ∨ (c.act = .wait ∧ s.next = b + n)) →
            (match ownerStep c s with | .next s' => batchSched prog b n l s' | _ => none) = some s' →
            Relation.ReflTransGen (BatchStep prog b n) s s' := by
          intro hact h
          split at h
          next s1 h1 => exact .head (.owner c hf hact h1) (ih h)
          next => cases h
        cases ho : s.opc with
        | idle =>
          cases ha : c.act with
          | add =>
            simp only [batchSched, hf, ho, ha] at h
            by_cases hlt : s.next < b + n
            · exact fin (fun _ => Or.inl ⟨ha, hlt⟩) (by simpa [hlt] using h)
            · simp [hlt] at h
          | wait =>
            simp only [batchSched, hf, ho, ha] at h
            by_cases hlt : s.next = b + n
            · exact fin (fun _ => Or.inr ⟨ha, hlt⟩) (by simpa [hlt] using h)
            · simp [hlt] at h
          | _ => simp [batchSched, hf, ho, ha] at h
        | _ =>
          refine fin (fun e => by rw [ho] at e; cases e) ?_
          cases ha : c.act <;> simpa [batchSched, hf, ho, ha] using h

/-- Scratch memory of a shared `RungeKutta4` (`k1_`, integration.hpp:190) and the results of two knot points. -/
structure Scratch where
  k1 : ℕ
  out0 : ℕ
  out1 : ℕ

/-- Part of `RungeKutta4::Jacobian` (integration.hpp:137-138) for the scalar model `x' = x^2` with `h = 2`: write
`k1_ = x^2`, then use it: `A_[1] = 2 * (x + 0.5 * k1_ * h)`.  Knot point 0 is at `x = 1`, knot point 1 at `x = 2`. -/
def sharedProg : ℕ → List (Scratch → Scratch)
  | 0 => [fun m => { m with k1 := 1 }, fun m => { m with out0 := 2 * (1 + m.k1) }]
  | 1 => [fun m => { m with k1 := 4 }, fun m => { m with out1 := 2 * (2 + m.k1) }]
  | _ => []

def sharedStart : St Scratch := ((sched sharedProg (List.replicate 4 (none, ⟨.launch 2, 0, false⟩)) (init 0 ⟨0, 0, 0⟩)).getD
  (init 0 ⟨0, 0, 0⟩))

/-- Add both tasks; each worker takes one; worker 1 writes `k1_` between the two steps of worker 0. -/
def sharedSched : List (Option ℕ × Choice Scratch) :=
  List.replicate 9 (none, ⟨.add, 1, false⟩) ++ List.replicate 9 (none, ⟨.add, 2, false⟩) ++
  List.replicate 15 (some 0, ⟨.add, 0, false⟩) ++ List.replicate 15 (some 1, ⟨.add, 0, false⟩) ++
  List.replicate 2 (some 0, ⟨.add, 0, false⟩) ++ List.replicate 2 (some 1, ⟨.add, 0, false⟩) ++
  List.replicate 4 (none, ⟨.wait, 0, false⟩)

/-- C53 is false if two knot points share a dynamics object, which the problem class allows: the integrator inside has
scratch memory.  On one thread the Jacobian of knot point 0 is 4, on two threads it can be 10. -/
theorem C53_shared_counterexample : ∃ s s' : St Scratch, Reachable sharedProg ⟨0, 0, 0⟩ s ∧ s.next = 0 ∧
    BatchRun sharedProg 2 s s' ∧ s'.timedOut = false ∧ s'.mem.out0 = 10 ∧
    ((List.range' 0 2).foldl (runTask sharedProg) s.mem).out0 = 4 := by
  have h : (batchSched sharedProg 0 2 sharedSched sharedStart).map
      (fun s => (match s.opc with | .idle => true | _ => false, s.next, s.futures)) = some (true, 2, []) := by
    decide +kernel
  have h' : (batchSched sharedProg 0 2 sharedSched sharedStart).map (fun s => (s.timedOut, s.mem.out0)) = some (false, 10) := by
    decide +kernel
  have h0 : (sched sharedProg (List.replicate 4 (none, ⟨.launch 2, 0, false⟩)) (init 0 ⟨0, 0, 0⟩)).map
      (fun s => (match s.opc with | .idle => true | _ => false, s.next)) = some (true, 0) := by decide +kernel
  cases hs : sched sharedProg (List.replicate 4 (none, ⟨.launch 2, 0, false⟩)) (init 0 (⟨0, 0, 0⟩ : Scratch)) with
  | none => rw [hs] at h0; cases h0
  | some s =>
    have e : sharedStart = s := by unfold sharedStart; rw [hs]; rfl
    rw [hs] at h0
    rw [e] at h h'
    cases hb : batchSched sharedProg 0 2 sharedSched s with
    | none => rw [hb] at h; cases h
    | some s' =>
      rw [hb] at h h'
      simp only [Option.map_some, Option.some.injEq, Prod.mk.injEq] at h h' h0
      have idle : ∀ {x : St Scratch}, (match x.opc with | .idle => true | _ => false) = true → x.opc = .idle := by
        intro x hx; split at hx
        next e => exact e
        next => cases hx
      refine ⟨s, s', sched_reachable ⟨0, .refl⟩ hs, h0.2, ⟨idle h0.1, ?_, idle h.1, by rw [h.2.1, h0.2], h.2.2⟩, h'.1, h'.2,
        ?_⟩
      · rw [h0.2]; exact batchSched_run hb
      · rfl

/-- A problem with two knot points: cost `x^2`, whose evaluation counts itself, and expansion `2 x`. -/
def demoKernel : Kernel ℚ ℚ ℚ ℕ ℚ where
  N := 1
  x0 := 0
  dyn := fun _ x u _ _ => x + u
  cost := fun _ c x _ => (x * x, c + 1)
  expand := fun k c x _ _ _ _ => (2 * x + k, c + 10)
  term := id
  actionValue := fun d _ => d
  regularize := fun _ d => d
  gains := fun d => (d, true)
  costToGo := id
  delta := fun _ => (0, 0)
  policy := fun _ _ _ u _ => u
  gradTerm := fun _ _ => 0
  normX := id
  normU := id
  viol := fun _ => 0

def demoMem : Altro.St ℚ ℚ ℚ ℕ ℚ where
  Z := ⟨fun k => k + 3, fun _ => 0, fun _ => 0, fun _ => 0⟩
  Zbar := ⟨fun _ => 0, fun _ => 0, fun _ => 0, fun _ => 0⟩
  kd := fun _ => 0
  cs := fun _ => 0
  costs := fun _ => 0
  status := .kUnsolved
  rho := 0
  drho := 0
  dV0 := 0
  dV1 := 0
  stats := Stats.new

/-- `C53_partial` in a concrete case: two workers, one knot point each, steps interleaved. -/
example :
    let prog := fun t => [ILQR.blockSteps demoKernel (0, 1), ILQR.blockSteps demoKernel (1, 2)].getD t []
    let run := (sched prog (List.replicate 4 (none, ⟨.launch 2, 0, false⟩)) (init 0 demoMem)).bind (batchSched prog 0 2
      (List.replicate 9 (none, ⟨.add, 1, false⟩) ++ List.replicate 9 (none, ⟨.add, 2, false⟩) ++
       List.replicate 15 (some 0, ⟨.add, 0, false⟩) ++ List.replicate 15 (some 1, ⟨.add, 0, false⟩) ++
       List.replicate 2 (some 0, ⟨.add, 0, false⟩) ++ List.replicate 2 (some 1, ⟨.add, 0, false⟩) ++
       List.replicate 4 (none, ⟨.wait, 0, false⟩)))
    run.map (fun s => ([s.mem.kd 0, s.mem.kd 1, s.mem.costs 0, s.mem.costs 1], [s.mem.cs 0, s.mem.cs 1], s.futures))
      = some ([6, 9, 9, 16], [11, 11], []) ∧
    (let s := ILQR.updateExpansions demoKernel demoMem
     ([s.kd 0, s.kd 1, s.costs 0, s.costs 1], [s.cs 0, s.cs 1]) = ([6, 9, 9, 16], [11, 11])) := by
  decide +kernel

end Altro.Pool
