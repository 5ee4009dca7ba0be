import Verif.Model.ConInfo
import Mathlib.Algebra.Order.Field.Basic
import Mathlib.Tactic.Linarith

/-!
# C10: the constraint report
-/

namespace Altro.Props
variable {K : Type} [Field K] [LinearOrder K] [IsStrictOrderedRing K] {n m : ℕ}

/-- The record expected for an equality constraint at knot point `k`: its current value. -/
def eqRecord (k : ℕ) (v : ConVal .equality n m K) : ConInfo K :=
  ⟨v.con.label, k, List.ofFn v.c, "Equality Constraint"⟩

/-- The record expected for an inequality constraint at knot point `k`: the positive part of its current value. -/
def ineqRecord (k : ℕ) (v : ConVal .inequality n m K) : ConInfo K :=
  ⟨v.con.label, k, List.ofFn fun i => max (v.c i) 0, "Inequality Constraint"⟩

/-- One record per constraint, knot point by knot point. -/
def expectedRecords (costs : ℕ → ALCost n m K) (N : ℕ) : List (ConInfo K) :=
  (List.range (N + 1)).flatMap fun k => (costs k).eq.map (eqRecord k) ++ (costs k).ineq.map (ineqRecord k)

theorem foldl_snoc {α β : Type*} (f : α → β) (l : List α) (o : List β) :
    l.foldl (fun o v => o ++ [f v]) o = o ++ l.map f := by
  induction l generalizing o with
  | nil => simp
  | cons x l ih => simp [ih]

omit [IsStrictOrderedRing K] in
theorem stampFrom_append (a b : List (ConInfo K)) (k : ℤ) :
    stampFrom a.length k (a ++ b) = a ++ b.map fun c => { c with index := k } := by
  unfold stampFrom
  rw [List.mapIdx_append]
  congr 1
  · apply List.ext_getElem
    · simp
    · intro i h1 h2
      have : ¬ a.length ≤ i := by omega
      simp [this]
  · apply List.ext_getElem
    · simp
    · intro i h1 h2; simp

theorem info_records (s : ALCost n m K) (k : ℕ) :
    (s.eq.map ConVal.info ++ s.ineq.map ConVal.info).map (fun c => { c with index := (k : ℤ) })
      = s.eq.map (eqRecord k) ++ s.ineq.map (ineqRecord k) := by
  rw [List.map_append, List.map_map, List.map_map]
  congr 1
  · refine List.map_congr_left fun v _ => ?_
    simp [ConVal.info, eqRecord, ConVal.violation, ConKind.proj, ConKind.typeName]
    rfl
  · refine List.map_congr_left fun v _ => ?_
    simp only [Function.comp, ConVal.info, ineqRecord, ConVal.violation, ConKind.proj, ConKind.typeName]
    congr 2
    funext i
    simp only [Pi.sub_apply, negProj]
    rcases le_total (v.c i) 0 with h | h <;> simp [h]

theorem infoLoop_records (costs : ℕ → ALCost n m K) (r : ℕ) :
    (infoLoop costs r).1 = ((List.range r).flatMap fun k => (costs k).eq.map (eqRecord k) ++
      (costs k).ineq.map (ineqRecord k)) ∧ (infoLoop costs r).2 = (infoLoop costs r).1.length := by
  induction r with
  | zero => exact ⟨rfl, rfl⟩
  | succ r ih =>
    refine ⟨?_, rfl⟩
    rw [List.range_succ, List.flatMap_append, ← ih.1]
    simp only [infoLoop, ALCost.info, foldl_snoc, ih.2, List.append_assoc]
    rw [stampFrom_append, info_records]
    simp

/-- C10 unsorted: exactly one record per constraint, in order, with the right knot point, type and violation. -/
theorem C10_unsorted (costs : ℕ → ALCost n m K) (N : ℕ) (l : List (ConInfo K)) (h : ConInfoResult costs N false l) :
    l = expectedRecords costs N := by
  have : l = (infoLoop costs (N + 1)).1 := by simpa [ConInfoResult] using h
  rw [this]; exact (infoLoop_records costs (N + 1)).1

/-- C10 sorted: a permutation of the same records, in order of non-increasing infinity norm of the violation. -/
theorem C10_sorted (costs : ℕ → ALCost n m K) (N : ℕ) (l : List (ConInfo K)) (h : ConInfoResult costs N true l) :
    l.Perm (expectedRecords costs N) ∧ l.Pairwise fun a b => b.norm ≤ a.norm := by
  have : StdSort ConInfo.comp (infoLoop costs (N + 1)).1 l := by simpa [ConInfoResult] using h
  refine ⟨?_, this.2.imp fun h => ?_⟩
  · have h1 := this.1; rw [(infoLoop_records costs (N + 1)).1] at h1; exact h1
  · simpa [ConInfo.comp] using h

omit [IsStrictOrderedRing K] in
/-- The comparison is a strict weak order, as `std::sort` requires. -/
theorem C10_comparison : (∀ a : ConInfo K, ConInfo.comp a a = false) ∧
    (∀ a b : ConInfo K, ConInfo.comp a b = true → ConInfo.comp b a = false) ∧
    (∀ a b c : ConInfo K, ConInfo.comp a b = true → ConInfo.comp b c = true → ConInfo.comp a c = true) ∧
    (∀ a b c : ConInfo K, ConInfo.comp a b = false → ConInfo.comp b a = false → ConInfo.comp b c = false →
      ConInfo.comp c b = false → ConInfo.comp a c = false ∧ ConInfo.comp c a = false) := by
  unfold ConInfo.comp
  simp only [gt_iff_lt, decide_eq_false_iff_not, decide_eq_true_eq, not_lt]
  exact ⟨fun a => le_rfl, fun a b h => h.le, fun a b c h1 h2 => h2.trans h1,
    fun a b c h1 h2 h3 h4 => ⟨h1.trans h3, h4.trans h2⟩⟩

omit [IsStrictOrderedRing K] in
/-- A result exists whichever way the query is made. -/
theorem C10_exists (costs : ℕ → ALCost n m K) (N : ℕ) (b : Bool) : ∃ l, ConInfoResult costs N b l := by
  cases b
  · exact ⟨(infoLoop costs (N + 1)).1, by simp [ConInfoResult]⟩
  · refine ⟨(infoLoop costs (N + 1)).1.mergeSort fun a b => decide (b.norm ≤ a.norm), ?_⟩
    simp only [ConInfoResult, if_true]
    refine ⟨List.mergeSort_perm _ _, ?_⟩
    have := List.pairwise_mergeSort (le := fun a b : ConInfo K => decide (b.norm ≤ a.norm))
      (fun a b c h1 h2 => by simp at *; exact h2.trans h1) (fun a b => by simp; exact le_total _ _)
      (infoLoop costs (N + 1)).1
    refine this.imp fun h => ?_
    simpa [ConInfo.comp] using h

/-- The norm is the largest absolute value. -/
theorem C10_norm (c : ConInfo K) : (∀ v ∈ c.violation, |v| ≤ c.norm) ∧
    (c.violation ≠ [] → ∃ v ∈ c.violation, c.norm = |v|) := by
  have key : ∀ (l : List K) (a : K), (∀ v ∈ l, v ≤ l.foldl max a) ∧ a ≤ l.foldl max a ∧
      (l.foldl max a = a ∨ l.foldl max a ∈ l) := by
    intro l
    induction l with
    | nil => intro a; simp
    | cons x l ih =>
      intro a
      obtain ⟨h1, h2, h3⟩ := ih (max a x)
      refine ⟨?_, (le_max_left a x).trans h2, ?_⟩
      · intro v hv
        rcases List.mem_cons.mp hv with rfl | hv
        · exact (le_max_right a v).trans h2
        · exact h1 v hv
      · simp only [List.foldl_cons, List.mem_cons]
        rcases h3 with h3 | h3
        · rw [h3]
          rcases max_choice a x with h | h
          · exact Or.inl h
          · exact Or.inr (Or.inl h)
        · exact Or.inr (Or.inr h3)
  obtain ⟨h1, h2, h3⟩ := key (c.violation.map (|·|)) 0
  refine ⟨fun v hv => h1 _ (List.mem_map_of_mem hv), fun hne => ?_⟩
  unfold ConInfo.norm ALCost.infNormL
  rcases h3 with h3 | h3
  · obtain ⟨v, hv⟩ := List.exists_mem_of_ne_nil _ hne
    refine ⟨v, hv, le_antisymm ?_ (h1 _ (List.mem_map_of_mem hv))⟩
    rw [h3]; exact abs_nonneg v
  · obtain ⟨v, hv, e⟩ := List.mem_map.mp h3
    exact ⟨v, hv, e.symm⟩

/-- The records of one cost object, before the solver numbers them, are those of knot point 0 whatever knot point the object
belongs to. -/
theorem C10_cost (s : ALCost n m K) (out : List (ConInfo K)) :
    s.info out = out ++ (s.eq.map (eqRecord 0) ++ s.ineq.map (ineqRecord 0)) ∧
      ∀ c ∈ s.info [], c.index = 0 := by
  have h : ∀ out, s.info out = out ++ (s.eq.map (eqRecord 0) ++ s.ineq.map (ineqRecord 0)) := by
    intro out
    rw [← info_records s 0]
    simp only [ALCost.info, foldl_snoc, List.append_assoc, List.map_append, List.map_map]
    rfl
  refine ⟨h out, fun c hc => ?_⟩
  rw [h, List.nil_append, List.mem_append, List.mem_map, List.mem_map] at hc
  obtain ⟨v, -, rfl⟩ | ⟨v, -, rfl⟩ := hc <;> rfl

end Altro.Props
