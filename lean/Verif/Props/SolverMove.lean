import Verif.Model.SolverMove
import Verif.Proofs.Problem

/-!
# C75: a moved solver reports its own constraint violation
-/

namespace Altro.Props
open SolverMove
variable {A : Type}

theorem sm_run_append (h : Heap A) (l₁ l₂ : List (Op A)) :
    SolverMove.run h (l₁ ++ l₂) = SolverMove.run h l₁ >>= fun h => SolverMove.run h l₂ := by
  induction l₁ generalizing h with
  | nil => rfl
  | cons op l ih =>
    show (SolverMove.step h op >>= fun h => SolverMove.run h (l ++ l₂)) = _
    cases hs : SolverMove.step h op with
    | error e => simp [SolverMove.run, hs, bind, Except.bind]
    | ok h' =>
      have := ih h'
      simp only [bind, Except.bind] at this ⊢
      rw [this]
      simp [SolverMove.run, hs, bind, Except.bind]

/-- The operation does not end or replace object `i`. -/
def Keeps (i : ℕ) (op : Op A) : Prop := (∀ k, op ≠ .move i k) ∧ op ≠ .destroy i

theorem put_at (h : Heap A) (i : ℕ) (c : Cell A) : put h i c i = c := by simp [put]

theorem put_ne (h : Heap A) {i k : ℕ} (c : Cell A) (hk : k ≠ i) : put h i c k = h k := by simp [put, hk]

theorem init_cases {h h' : Heap A} {i : ℕ} {cs : List A} (hs : SolverMove.init h i cs = .ok h') :
    ∃ o, h i = .live o ∧ o.costs = [] ∧ (cs.length : ℤ) ≤ o.N + 1 ∧
      h' = put h i (.live { o with costs := cs, maxViol := cs.length, cb := .violationOf i }) := by
  unfold SolverMove.init at hs
  cases hi : h i with
  | free => rw [hi] at hs; cases hs
  | dead => rw [hi] at hs; cases hs
  | live o =>
    rw [hi] at hs
    obtain ⟨_, h1, hs⟩ := bind_ok.mp hs
    obtain ⟨_, h2, hs⟩ := bind_ok.mp hs
    have h1 := assertThat_ok.mp h1
    have h2 := assertThat_ok.mp h2
    rw [decide_eq_true_iff] at h1 h2
    have hc : o.costs = [] := by
      rw [List.length_append] at h1
      exact List.length_eq_zero_iff.mp (by omega)
    cases hs
    exact ⟨o, rfl, hc, h2, by rw [hc, List.nil_append]⟩

/-- An operation that keeps `j` leaves it alone, unless it initialises it, which fails if it has costs. -/
theorem move_step_keeps {h h' : Heap A} {j : ℕ} {o : Obj A} {op : Op A} (hj : h j = .live o) (hc : o.costs ≠ [])
    (hk : Keeps j op) (hs : SolverMove.step h op = .ok h') : h' j = .live o := by
  cases op with
  | construct i N =>
    unfold SolverMove.step at hs
    by_cases hij : j = i
    · subst hij; simp only [hj] at hs; cases hs
    · cases hi : h i <;> simp only [hi] at hs <;> cases hs
      rw [put_ne _ _ hij]; exact hj
  | init i cs =>
    obtain ⟨q, q1, q2, -, rfl⟩ := init_cases hs
    by_cases hij : j = i
    · subst hij; rw [hj] at q1; cases q1; exact absurd q2 hc
    · rw [put_ne _ _ hij]; exact hj
  | move i k =>
    unfold SolverMove.step at hs
    have hij : j ≠ i := by rintro rfl; exact hk.1 k rfl
    by_cases hjk : j = k
    · subst hjk
      cases hi : h i <;> simp only [hi, hj] at hs <;> cases hs
    · cases hi : h i <;> cases hkk : h k <;> simp only [hi, hkk] at hs <;> cases hs
      rw [put_ne _ _ hjk, put_ne _ _ hij]; exact hj
  | destroy i =>
    unfold SolverMove.step at hs
    have hij : j ≠ i := by rintro rfl; exact hk.2 rfl
    cases hi : h i <;> simp only [hi] at hs <;> cases hs
    rw [put_ne _ _ hij]; exact hj

theorem run_keeps {h h' : Heap A} {j : ℕ} {o : Obj A} {l : List (Op A)} (hj : h j = .live o) (hc : o.costs ≠ [])
    (hk : ∀ op ∈ l, Keeps j op) (hs : SolverMove.run h l = .ok h') : h' j = .live o := by
  induction l generalizing h with
  | nil => cases hs; exact hj
  | cons op l ih =>
    obtain ⟨h1, hs1, hs2⟩ := bind_ok.mp (show SolverMove.step h op >>= (fun h => SolverMove.run h l) = .ok h' from hs)
    exact ih (move_step_keeps hj hc (hk op List.mem_cons_self) hs1) (fun op ho => hk op (List.mem_cons_of_mem _ ho)) hs2

/-- C75 (partial: only solvers that are not moved).  From its initialisation on, whatever happens to other solvers, a
solver that is neither moved nor destroyed logs the violation of its own constraints. -/
theorem C75_unmoved_partial (pre post : List (Op A)) (i N : ℕ) (cs : List A) (hcs : cs.length = N + 1) (h : Heap A)
    (hk : ∀ op ∈ post, Keeps i op)
    (hr : SolverMove.run empty (pre ++ .construct i N :: .init i cs :: post) = .ok h) : logged h i = .ok cs := by
  rw [sm_run_append] at hr
  obtain ⟨h0, -, hr⟩ := bind_ok.mp hr
  obtain ⟨h1, hs1, hr⟩ := bind_ok.mp (show SolverMove.step h0 (.construct i N) >>= (fun h => SolverMove.run h (.init i cs :: post)) = .ok h from hr)
  obtain ⟨h2, hs2, hr⟩ := bind_ok.mp (show SolverMove.step h1 (.init i cs) >>= (fun h => SolverMove.run h post) = .ok h from hr)
  have hi1 : h1 i = .live (blank N) := by
    unfold SolverMove.step at hs1
    cases hi : h0 i <;> simp only [hi] at hs1 <;> cases hs1
    exact put_at _ _ _
  obtain ⟨o, q1, q2, q3, rfl⟩ := init_cases hs2
  rw [hi1] at q1
  cases q1
  have hne : cs ≠ [] := by rintro rfl; simp at hcs
  have := run_keeps (put_at _ _ _) hne hk hr
  unfold logged getMaxViolation
  rw [this]
  simp only [this]
  have e : ((blank N : Obj A).N + 1).toNat = N + 1 := by simp [blank]
  rw [e, if_pos ⟨by omega, by omega⟩, List.take_of_length_le (by omega)]

/-- **C75 is false, for every history.**  Solver `j` is made by moving an initialised solver `i`.  Whatever follows, as long
as `j` is kept, what `j` logs is `GetMaxViolation` of the *old* object `i`: -/
theorem C75_moved_counterexample {h0 h1 h : Heap A} {i j : ℕ} {o : Obj A} (ho : h0 i = .live o)
    (hcb : o.cb = .violationOf i) (hc : o.costs ≠ []) (hm : SolverMove.step h0 (.move i j) = .ok h1)
    (post : List (Op A)) (hk : ∀ op ∈ post, Keeps j op) (hr : SolverMove.run h1 post = .ok h) :
    logged h j = getMaxViolation h i := by
  unfold SolverMove.step at hm
  cases hj : h0 j <;> simp only [ho, hj] at hm <;> cases hm
  have := run_keeps (o := movedTo o) (put_at _ j _) hc hk hr
  unfold logged
  rw [this]
  simp only [movedTo, hcb]

/-- State of the moved-from object: it has no costs until it is initialised again. -/
def Bare (h : Heap A) (i : ℕ) : Prop := ∀ o, h i = .live o → o.costs = [] ∧ 0 ≤ o.N

theorem bare_undefined {h : Heap A} {i : ℕ} (hb : Bare h i) : getMaxViolation h i = .error .undefined := by
  unfold getMaxViolation
  cases hi : h i with
  | free => rfl
  | dead => rfl
  | live o =>
    obtain ⟨h1, h2⟩ := hb o hi
    dsimp only
    rw [if_neg]
    rintro ⟨h3, -⟩
    rw [h1] at h3
    simp only [List.length_nil] at h3
    omega

theorem step_bare {h h' : Heap A} {i : ℕ} {op : Op A} (hb : Bare h i) (hi : h i ≠ .free) (hk : ∀ cs, op ≠ .init i cs)
    (hs : SolverMove.step h op = .ok h') : Bare h' i ∧ h' i ≠ .free := by
  cases op with
  | construct a N =>
    unfold SolverMove.step at hs
    by_cases hia : i = a
    · subst hia
      cases hf : h i <;> simp only [hf] at hs <;> cases hs
      exact absurd hf hi
    · cases hf : h a <;> simp only [hf] at hs <;> cases hs
      unfold Bare
      rw [put_ne _ _ hia]; exact ⟨hb, hi⟩
  | init a cs =>
    have hia : i ≠ a := by rintro rfl; exact hk cs rfl
    obtain ⟨q, -, -, -, rfl⟩ := init_cases hs
    unfold Bare
    rw [put_ne _ _ hia]; exact ⟨hb, hi⟩
  | move a b =>
    unfold SolverMove.step at hs
    cases ha : h a with
    | free => simp only [ha] at hs; cases hs
    | dead => simp only [ha] at hs; cases hs
    | live o =>
      cases hb' : h b with
      | live _ => simp only [ha, hb'] at hs; cases hs
      | dead => simp only [ha, hb'] at hs; cases hs
      | free =>
        simp only [ha, hb'] at hs
        cases hs
        have hib : i ≠ b := by rintro rfl; exact hi hb'
        unfold Bare
        rw [put_ne _ _ hib]
        by_cases hia : i = a
        · subst hia
          rw [put_at]
          refine ⟨fun q hq => ?_, fun hq => by cases hq⟩
          cases hq
          exact ⟨rfl, (hb o ha).2⟩
        · rw [put_ne _ _ hia]; exact ⟨hb, hi⟩
  | destroy a =>
    unfold SolverMove.step at hs
    cases ha : h a <;> simp only [ha] at hs <;> cases hs
    by_cases hia : i = a
    · subst hia
      unfold Bare
      rw [put_at]
      exact ⟨fun q hq => (by cases hq), fun hq => by cases hq⟩
    · unfold Bare
      rw [put_ne _ _ hia]; exact ⟨hb, hi⟩

theorem run_bare {h h' : Heap A} {i : ℕ} {l : List (Op A)} (hb : Bare h i) (hi : h i ≠ .free)
    (hk : ∀ op ∈ l, ∀ cs, op ≠ .init i cs) (hs : SolverMove.run h l = .ok h') : Bare h' i := by
  induction l generalizing h with
  | nil => cases hs; exact hb
  | cons op l ih =>
    obtain ⟨h1, hs1, hs2⟩ := bind_ok.mp (show SolverMove.step h op >>= (fun h => SolverMove.run h l) = .ok h' from hs)
    obtain ⟨b1, b2⟩ := step_bare hb hi (hk op List.mem_cons_self) hs1
    exact ih b1 b2 (fun op ho => hk op (List.mem_cons_of_mem _ ho)) hs2

/-- .. which is undefined, whether the old object still exists or not, unless it is initialised again (then `j` logs the
violation of the problem given to `i`). -/
theorem C75_undefined_counterexample {h0 h1 h : Heap A} {i j : ℕ} {o : Obj A} (ho : h0 i = .live o) (hN : 0 ≤ o.N)
    (hcb : o.cb = .violationOf i) (hc : o.costs ≠ []) (hm : SolverMove.step h0 (.move i j) = .ok h1)
    (post : List (Op A)) (hk : ∀ op ∈ post, Keeps j op) (hi : ∀ op ∈ post, ∀ cs, op ≠ .init i cs)
    (hr : SolverMove.run h1 post = .ok h) : logged h j = .error .undefined := by
  rw [C75_moved_counterexample ho hcb hc hm post hk hr]
  unfold SolverMove.step at hm
  cases hj : h0 j <;> simp only [ho, hj] at hm <;> cases hm
  have hij : i ≠ j := by rintro rfl; rw [ho] at hj; cases hj
  refine bare_undefined (run_bare ?_ ?_ hi hr)
  · unfold Bare
    rw [put_ne _ _ hij, put_at]
    intro q hq
    cases hq
    exact ⟨rfl, hN⟩
  · rw [put_ne _ _ hij, put_at]
    intro hq
    cases hq

/-- C75: a solver returned by value, as from `MakeALSolver`, works exactly if the compiler omits the move, which it may but
need not do: its first iteration logs its own violation, or is undefined. -/
theorem C75_returned_counterexample (i j N : ℕ) (hij : i ≠ j) (cs : List A) (hcs : cs.length = N + 1) (elide : Bool) :
    ∃ h, SolverMove.run empty (returned i elide j N cs) = .ok h ∧
      logged h j = if elide then .ok cs else .error .undefined := by
  cases elide with
  | true =>
    refine ⟨put (put empty j (.live (blank N))) j (.live { (blank N : Obj A) with
      costs := cs, maxViol := cs.length, cb := .violationOf j }), ?_, ?_⟩
    · simp [returned, SolverMove.run, SolverMove.step, SolverMove.init, empty, put_at, bind, Except.bind, assertThat,
        blank, hcs, pure, Except.pure]
    · unfold logged getMaxViolation
      rw [put_at]
      simp only [put_at, if_true]
      have e : ((blank N : Obj A).N + 1).toNat = N + 1 := by simp [blank]
      rw [e, if_pos ⟨by omega, by omega⟩, List.take_of_length_le (by omega)]
  | false =>
    set h2 : Heap A := put (put empty i (.live (blank N))) i (.live { (blank N : Obj A) with
      costs := cs, maxViol := cs.length, cb := .violationOf i }) with hh2
    have r1 : SolverMove.run (empty : Heap A) [.construct i N, .init i cs] = .ok h2 := by
      simp [SolverMove.run, SolverMove.step, SolverMove.init, empty, put_at, bind, Except.bind, assertThat,
        blank, hcs, pure, Except.pure, hh2]
    have hi2 : h2 i = .live { (blank N : Obj A) with costs := cs, maxViol := cs.length, cb := .violationOf i } := put_at _ _ _
    have hj2 : h2 j = .free := by rw [hh2, put_ne _ _ hij.symm, put_ne _ _ hij.symm]; rfl
    obtain ⟨h3, hm⟩ : ∃ h3, SolverMove.step h2 (.move i j) = .ok h3 := by
      unfold SolverMove.step
      simp only [hi2, hj2]
      exact ⟨_, rfl⟩
    obtain ⟨h4, hd⟩ : ∃ h4, SolverMove.step h3 (.destroy i) = .ok h4 := by
      unfold SolverMove.step at hm
      simp only [hi2, hj2] at hm
      cases hm
      unfold SolverMove.step
      simp only [put_ne _ _ hij, put_at]
      exact ⟨_, rfl⟩
    have r2 : SolverMove.run h3 [.destroy i] = .ok h4 := by simp [SolverMove.run, hd, bind, Except.bind]
    refine ⟨h4, ?_, ?_⟩
    · have e : returned i false j N cs = [.construct i N, .init i cs] ++ [.move i j, .destroy i] := rfl
      rw [e, sm_run_append, r1]
      simp [SolverMove.run, hm, hd, bind, Except.bind]
    · refine C75_undefined_counterexample hi2 (by simp [blank]) rfl ?_ hm [.destroy i] ?_ ?_ r2
      · rintro rfl; simp at hcs
      · intro op hop
        rw [List.mem_singleton] at hop
        subst hop
        exact ⟨fun k hk => (by cases hk), fun hk => hij (by cases hk; rfl)⟩
      · intro op hop cs' he
        rw [List.mem_singleton] at hop
        subst hop
        cases he

/-- C75: the moved solver has lost its task assignment: the default one is computed again, and setting a custom one before
that is undefined, whatever the old solver had. -/
theorem C75_tasks_counterexample {h0 h1 : Heap A} {i j : ℕ} {o : Obj A} (ho : h0 i = .live o)
    (hm : SolverMove.step h0 (.move i j) = .ok h1) :
    ∃ o', h1 j = .live o' ∧ o'.N = o.N ∧ o'.costs = o.costs ∧ o'.tasks.custom = false ∧ o'.tasks.inds = [] ∧
      o'.tasks.tasks = [] ∧ o'.tasks.pool = 0 ∧
      ∀ inds, Tasks.setTaskAssignment inds o'.tasks = .error .undefined := by
  unfold SolverMove.step at hm
  cases hj : h0 j <;> simp only [ho, hj] at hm <;> cases hm
  exact ⟨movedTo o, put_at _ _ _, rfl, rfl, rfl, rfl, rfl, rfl, fun _ => rfl⟩

/-- C75: the old solver's callback is empty, so every iteration it makes throws, until it is initialised again: -/
theorem C75_source_counterexample {h0 h1 : Heap A} {i j : ℕ} {o : Obj A} (ho : h0 i = .live o)
    (hm : SolverMove.step h0 (.move i j) = .ok h1) :
    logged h1 i = .error .thrown ∧ ∀ cs : List A, (cs.length : ℤ) ≤ o.N + 1 → ∃ h2, SolverMove.step h1 (.init i cs) = .ok h2 ∧
      logged h2 i = getMaxViolation h2 i := by
  unfold SolverMove.step at hm
  cases hj : h0 j <;> simp only [ho, hj] at hm <;> cases hm
  have hij : i ≠ j := by rintro rfl; rw [ho] at hj; cases hj
  have hi : put (put h0 i (.live (movedFrom o))) j (.live (movedTo o)) i = .live (movedFrom o) := by
    rw [put_ne _ _ hij, put_at]
  refine ⟨by unfold logged; rw [hi]; rfl, fun cs hcs => ?_⟩
  have hs : SolverMove.step (put (put h0 i (.live (movedFrom o))) j (.live (movedTo o))) (.init i cs) =
      .ok (put (put (put h0 i (.live (movedFrom o))) j (.live (movedTo o))) i
        (.live { movedFrom o with costs := cs, maxViol := cs.length, cb := .violationOf i })) := by
    show SolverMove.init _ i cs = _
    unfold SolverMove.init
    rw [hi]
    simp only [movedFrom, List.nil_append, assertThat, decide_true, hcs, if_true]
    rfl
  refine ⟨_, hs, ?_⟩
  unfold logged
  rw [put_at]

/-- Two solvers, the first moved and initialised again with another problem: the moved one logs that problem's
violation. -/
example : ∃ h, SolverMove.run (empty : Heap String)
      [.construct 0 1, .init 0 ["a", "b"], .move 0 1, .init 0 ["x", "y"]] = .ok h ∧
    logged h 1 = .ok ["x", "y"] ∧ logged h 0 = .ok ["x", "y"] := ⟨_, rfl, rfl, rfl⟩

/-- Without a move all is well. -/
example : ∃ h, SolverMove.run (empty : Heap String) ([] ++ [.construct 0 1, .init 0 ["a", "b"], .construct 1 1,
      .init 1 ["x", "y"], .destroy 1]) = .ok h ∧ logged h 0 = .ok ["a", "b"] := by
  refine ⟨_, rfl, ?_⟩
  exact C75_unmoved_partial [] [.construct 1 1, .init 1 ["x", "y"], .destroy 1] 0 1 ["a", "b"] rfl _
    (by intro op hop; simp at hop; rcases hop with rfl | rfl | rfl <;> exact ⟨by simp, by simp⟩) rfl

/-- However solvers are made, initialised, moved and destroyed, asking one for its violation is defined exactly if it holds a cost
for every one of its knot points, and then combines all of them. -/
theorem C75_defined (ops : List (Op A)) (h : Heap A) (hr : SolverMove.run empty ops = .ok h) (i : ℕ) (o : Obj A)
    (ho : h i = .live o) (l : List A) :
    getMaxViolation h i = .ok l ↔ l = o.costs ∧ (o.costs.length : ℤ) = o.N + 1 := by
  have key : ∀ (ops : List (Op A)) (h0 h : Heap A),
      (∀ i o, h0 i = .live o → 0 ≤ o.N ∧ (o.costs.length : ℤ) ≤ o.N + 1 ∧ o.costs.length ≤ o.maxViol) →
      SolverMove.run h0 ops = .ok h →
      ∀ i o, h i = .live o → 0 ≤ o.N ∧ (o.costs.length : ℤ) ≤ o.N + 1 ∧ o.costs.length ≤ o.maxViol := by
    intro ops
    induction ops with
    | nil => intro h0 h hi hr; cases hr; exact hi
    | cons op ops ih =>
      intro h0 h hi hr
      obtain ⟨h1, hs1, hs2⟩ := bind_ok.mp (show SolverMove.step h0 op >>= (fun h => SolverMove.run h ops) = .ok h from hr)
      refine ih h1 h (fun k o hk => ?_) hs2
      cases op with
      | construct a N =>
        unfold SolverMove.step at hs1
        cases ha : h0 a <;> simp only [ha] at hs1 <;> cases hs1
        by_cases hka : k = a
        · subst hka; rw [put_at] at hk; cases hk
          refine ⟨?_, ?_, ?_⟩ <;> simp [blank] <;> omega
        · rw [put_ne _ _ hka] at hk; exact hi k o hk
      | init a cs =>
        obtain ⟨o', h1', -, h3, rfl⟩ := init_cases hs1
        by_cases hka : k = a
        · subst hka; rw [put_at] at hk; cases hk
          exact ⟨(hi k o' h1').1, h3, le_rfl⟩
        · rw [put_ne _ _ hka] at hk; exact hi k o hk
      | move a b =>
        unfold SolverMove.step at hs1
        cases ha : h0 a <;> cases hb : h0 b <;> simp only [ha, hb] at hs1 <;> cases hs1
        rename_i q
        have hq := hi a q ha
        by_cases hkb : k = b
        · subst hkb; rw [put_at] at hk; cases hk; exact hq
        · rw [put_ne _ _ hkb] at hk
          by_cases hka : k = a
          · subst hka; rw [put_at] at hk; cases hk
            refine ⟨hq.1, ?_, ?_⟩ <;> simp [movedFrom] <;> omega
          · rw [put_ne _ _ hka] at hk; exact hi k o hk
      | destroy a =>
        unfold SolverMove.step at hs1
        cases ha : h0 a <;> simp only [ha] at hs1 <;> cases hs1
        by_cases hka : k = a
        · subst hka; rw [put_at] at hk; cases hk
        · rw [put_ne _ _ hka] at hk; exact hi k o hk
  obtain ⟨h1, h2, h3⟩ := key ops empty h (fun i o h => by cases h) hr i o ho
  unfold getMaxViolation
  rw [ho]
  simp only
  split_ifs with hc
  · constructor
    · intro he
      cases he
      exact ⟨List.take_of_length_le (by omega), by omega⟩
    · rintro ⟨rfl, he⟩
      rw [List.take_of_length_le (by omega)]
  · constructor
    · intro he; cases he
    · rintro ⟨rfl, he⟩; exact absurd ⟨by omega, by omega⟩ hc

/-- A problem shorter than the solver, and a solver never initialised: undefined. -/
example : ∃ h, SolverMove.run (empty : Heap String) [.construct 0 2, .init 0 ["a", "b"], .construct 1 2, .construct 2 1,
      .init 2 ["a", "b"]] = .ok h ∧ getMaxViolation h 0 = .error .undefined ∧ getMaxViolation h 1 = .error .undefined ∧
      getMaxViolation h 2 = .ok ["a", "b"] := ⟨_, rfl, rfl, rfl, rfl⟩

end Altro.Props
