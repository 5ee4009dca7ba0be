import Verif.Proofs.Proximal
import Verif.Props.Constraints
import Verif.Props.LQSolve

/-!
# The constraints of a problem as a list of scalar rows
-/

namespace Altro.Spec
variable {K : Type} [Field K] [LinearOrder K] [IsStrictOrderedRing K] {n m : ℕ} {V : Type} {κ : ConKind}

/-! ## Rows up to multipliers and penalties -/

/-- Kind and function of a row. -/
def Row.sig (r : Row V K) : ConKind × (V → K) := (r.kind, r.fn)

theorem Row.sig_mem {rs rs' : List (Row V K)} (h : rs.map Row.sig = rs'.map Row.sig) {r : Row V K} (hr : r ∈ rs) :
    ∃ r' ∈ rs', r'.kind = r.kind ∧ r'.fn = r.fn := by
  have : r.sig ∈ rs'.map Row.sig := by rw [← h]; exact List.mem_map_of_mem hr
  obtain ⟨r', h1, h2⟩ := List.mem_map.mp this
  exact ⟨r', h1, congrArg Prod.fst h2, congrArg Prod.snd h2⟩

theorem zip_sig {β : Type} {rs : List (Row V K)} {star : List K} (g : ConKind × (V → K) → K → β) :
    ((rs.zip star).map fun q => g q.1.sig q.2) = ((rs.map Row.sig).zip star).map fun q => g q.1 q.2 := by
  rw [List.zip_map_left, List.map_map]
  rfl

theorem Convex.congr {S : V → Prop} {seg : K → V → V → V} {obj : V → K} {rs rs' : List (Row V K)}
    (h : rs.map Row.sig = rs'.map Row.sig) (hc : Convex S seg obj rs) : Convex S seg obj rs' where
  mem := hc.mem
  obj := hc.obj
  eq r hr e := by
    obtain ⟨r', h1, h2, h3⟩ := Row.sig_mem h.symm hr
    rw [← h3]; exact hc.eq r' h1 (h2.trans e)
  ineq r hr e := by
    obtain ⟨r', h1, h2, h3⟩ := Row.sig_mem h.symm hr
    rw [← h3]; exact hc.ineq r' h1 (h2.trans e)

theorem Saddle.congr {S : V → Prop} {obj : V → K} {rs rs' : List (Row V K)} {zs : V} {star : List K}
    (h : rs.map Row.sig = rs'.map Row.sig) (hs : Saddle S obj rs zs star) : Saddle S obj rs' zs star := by
  have e : ∀ y : V, ((rs'.zip star).map fun q => q.2 * q.1.fn y) = (rs.zip star).map fun q => q.2 * q.1.fn y := by
    intro y
    have h1 := zip_sig (rs := rs') (star := star) fun a b => b * a.2 y
    have h2 := zip_sig (rs := rs) (star := star) fun a b => b * a.2 y
    rw [h] at h2
    exact h1.trans h2.symm
  refine ⟨?_, hs.mem, ?_, ?_, ?_⟩
  · rw [hs.len, ← List.length_map (f := Row.sig), h, List.length_map]
  · intro r hr
    obtain ⟨r', h1, h2, h3⟩ := Row.sig_mem h.symm hr
    have := hs.holds r' h1
    unfold Row.Holds at *
    rw [h2, h3] at this
    exact this
  · intro q hq hk
    have hm : (q.1.sig, q.2) ∈ (rs'.map Row.sig).zip star := by
      rw [List.zip_map_left]
      exact List.mem_map.mpr ⟨q, hq, rfl⟩
    rw [← h, List.zip_map_left] at hm
    obtain ⟨q', h1, h2⟩ := List.mem_map.mp hm
    obtain ⟨e1, e2⟩ : q'.1.sig = q.1.sig ∧ q'.2 = q.2 := by
      simpa only [Prod.map, id, Prod.mk.injEq] using h2
    have := hs.sign q' h1 ((congrArg Prod.fst e1).trans hk)
    rw [← e2, ← show q'.1.fn = q.1.fn from congrArg Prod.snd e1]
    exact this
  · intro y hy
    rw [e, e]
    exact hs.lag y hy

/-! ## Rows of the model -/

theorem sum_flatMap_map {α β : Type} (l : List α) (g : α → List β) (f : β → K) :
    ((l.flatMap g).map f).sum = (l.map fun a => ((g a).map f).sum).sum := by
  induction l with
  | nil => simp
  | cons a l ih => simp [List.flatMap_cons, List.map_append, List.sum_append, ih]

theorem sum_range_map (N : ℕ) (f : ℕ → K) : ((List.range N).map f).sum = ∑ k ∈ Finset.range N, f k := by
  induction N with
  | zero => simp
  | succ N ih => rw [List.range_succ, List.map_append, List.sum_append, ih, Finset.sum_range_succ]; simp

theorem conRows_core (k : ℕ) (v : ConVal κ n m K) : conRows k v.core = conRows k v := rfl

theorem knotRows_core (k : ℕ) (c : ALCost n m K) : knotRows k c.core = knotRows k c := by
  simp only [knotRows, ALCost.core, List.flatMap_map]; rfl

theorem rows_core (p : DynProblem n m K) {cs cs' : ℕ → ALCost n m K} (h : ∀ k ≤ p.N, (cs k).core = (cs' k).core) :
    rows p cs = rows p cs' := by
  unfold rows
  simp only [List.flatMap_def]
  refine congrArg List.flatten (List.map_congr_left fun k hk => ?_)
  rw [← knotRows_core, h k (by simpa [Nat.lt_succ_iff] using hk), knotRows_core]

theorem knotRows_static (k : ℕ) (c : ALCost n m K) :
    (knotRows k c.static).map Row.sig = (knotRows k c).map Row.sig := by
  have e : ∀ {κ : ConKind} (l : List (ConVal κ n m K)),
      ((l.map ConVal.static).flatMap (conRows k)).map Row.sig = (l.flatMap (conRows k)).map Row.sig := by
    intro κ l
    rw [List.flatMap_map, List.map_flatMap, List.map_flatMap]
    simp only [List.flatMap_def]
    refine congrArg List.flatten (List.map_congr_left fun v _ => ?_)
    simp only [conRows, List.map_ofFn]
    rfl
  simp only [knotRows, ALCost.static, List.map_append]
  exact congrArg₂ _ (e _) (e _)

theorem rows_static (p : DynProblem n m K) {cs cs' : ℕ → ALCost n m K} (h : ∀ k ≤ p.N, (cs k).static = (cs' k).static) :
    (rows p cs).map Row.sig = (rows p cs').map Row.sig := by
  unfold rows
  rw [List.map_flatMap, List.map_flatMap]
  simp only [List.flatMap_def]
  refine congrArg List.flatten (List.map_congr_left fun k hk => ?_)
  rw [← knotRows_static, h k (by simpa [Nat.lt_succ_iff] using hk), knotRows_static]

theorem plainCost_static (p : DynProblem n m K) {cs cs' : ℕ → ALCost n m K}
    (h : ∀ k ≤ p.N, (cs k).static = (cs' k).static) (Z : Traj (Fin n → K) (Fin m → K) K) :
    plainCost p cs Z = plainCost p cs' Z := by
  refine Finset.sum_congr rfl fun k hk => ?_
  have := h k (by simpa [Nat.lt_succ_iff] using hk)
  have e : (cs k).static.cost = (cs' k).static.cost := by rw [this]
  have e : (cs k).cost = (cs' k).cost := e
  rw [e]

theorem mem_rows (p : DynProblem n m K) (cs : ℕ → ALCost n m K) (r : Row (Traj (Fin n → K) (Fin m → K) K) K) :
    r ∈ rows p cs ↔ ∃ k ≤ p.N, (∃ v ∈ (cs k).eq, ∃ i, r = ⟨.equality, fun Z => v.con.eval (Z.x k) (Z.u k) i, v.lam i, v.pen i⟩) ∨
      (∃ v ∈ (cs k).ineq, ∃ i, r = ⟨.inequality, fun Z => v.con.eval (Z.x k) (Z.u k) i, v.lam i, v.pen i⟩) := by
  simp only [rows, knotRows, conRows, List.mem_flatMap, List.mem_range, Nat.lt_succ_iff, List.mem_append, List.mem_ofFn]
  constructor
  · rintro ⟨k, hk, ⟨v, hv, i, rfl⟩ | ⟨v, hv, i, rfl⟩⟩
    · exact ⟨k, hk, .inl ⟨v, hv, i, rfl⟩⟩
    · exact ⟨k, hk, .inr ⟨v, hv, i, rfl⟩⟩
  · rintro ⟨k, hk, ⟨v, hv, i, rfl⟩ | ⟨v, hv, i, rfl⟩⟩
    · exact ⟨k, hk, .inl ⟨v, hv, i, rfl⟩⟩
    · exact ⟨k, hk, .inr ⟨v, hv, i, rfl⟩⟩

theorem rows_pen (p : DynProblem n m K) {cs : ℕ → ALCost n m K} {ρ : K} (h : ∀ k ≤ p.N, PenU (cs k) ρ) :
    ∀ r ∈ rows p cs, r.pen = ρ := by
  intro r hr
  obtain ⟨k, hk, ⟨v, hv, i, rfl⟩ | ⟨v, hv, i, rfl⟩⟩ := (mem_rows p cs r).mp hr
  · exact (h k hk).1 v hv i
  · exact (h k hk).2 v hv i

theorem conRows_sum (k : ℕ) (v : ConVal κ n m K) (f : Row (Traj (Fin n → K) (Fin m → K) K) K → K) :
    ((conRows k v).map f).sum = ∑ i, f ⟨κ, fun Z => v.con.eval (Z.x k) (Z.u k) i, v.lam i, v.pen i⟩ := by
  rw [conRows, List.map_ofFn, List.sum_ofFn]
  rfl

/-- The cost of a knot point is its objective plus the terms of its rows. -/
theorem evaluate_rows (k : ℕ) (c : ALCost n m K) {ρ : K} (hρ : 0 < ρ) (h : PenU c ρ)
    (Z : Traj (Fin n → K) (Fin m → K) K) :
    (c.evaluate (Z.x k) (Z.u k)).1 = c.cost.eval (Z.x k) (Z.u k) + ((knotRows k c).map fun r => r.term Z).sum := by
  rw [Props.C02_evaluate_eq, knotRows, List.map_append, List.sum_append, sum_flatMap_map, sum_flatMap_map, add_assoc]
  congr 2
  · refine congrArg List.sum (List.map_congr_left fun v hv => ?_)
    have hr : v.rho = ρ := h.1 v hv _
    rw [Props.C02_auglag_equality v _ _ (by rw [hr]; exact hρ), conRows_sum]
    refine Finset.sum_congr rfl fun i _ => ?_
    simp only [Row.term]
    rw [hr, h.1 v hv i]
  · refine congrArg List.sum (List.map_congr_left fun v hv => ?_)
    have hr : v.rho = ρ := h.2 v hv _
    rw [Props.C02_auglag_inequality v _ _ (by rw [hr]; exact hρ), conRows_sum]
    refine Finset.sum_congr rfl fun i _ => ?_
    simp only [Row.term]
    rw [hr, h.2 v hv i]

/-- The cost minimised by the inner solver is the objective plus the terms of all rows. -/
theorem trajCost_rows (p : DynProblem n m K) {cs : ℕ → ALCost n m K} {ρ : K} (hρ : 0 < ρ) (h : ∀ k ≤ p.N, PenU (cs k) ρ)
    (Z : Traj (Fin n → K) (Fin m → K) K) :
    trajCost p cs Z = plainCost p cs Z + ((rows p cs).map fun r => r.term Z).sum := by
  rw [rows, sum_flatMap_map, sum_range_map, plainCost, trajCost, ← Finset.sum_add_distrib]
  refine Finset.sum_congr rfl fun k hk => ?_
  exact evaluate_rows k _ hρ (h k (by simpa [Nat.lt_succ_iff] using hk)) Z

/-- The stored values of a cost object are the constraint values at `(x, u)`. -/
def Stored (c : ALCost n m K) (x : Fin n → K) (u : Fin m → K) : Prop :=
  (∀ v ∈ c.eq, v.c = v.con.eval x u) ∧ ∀ v ∈ c.ineq, v.c = v.con.eval x u

theorem stored_of_values (c : ALCost n m K) (x : Fin n → K) (u : Fin m → K) (h : c.values = c.static.valuesAt x u) :
    Stored c x u := by
  simp only [ALCost.values, ALCost.valuesAt, ALCost.static, List.map_map, Prod.mk.injEq] at h
  constructor
  · intro v hv
    have := List.map_inj_left.mp h.1 v hv
    simp only [ConVal.value, ConVal.static, Function.comp, Sigma.mk.injEq, heq_eq_eq, true_and] at this
    exact this
  · intro v hv
    have := List.map_inj_left.mp h.2 v hv
    simp only [ConVal.value, ConVal.static, Function.comp, Sigma.mk.injEq, heq_eq_eq, true_and] at this
    exact this

theorem conRows_dual (k : ℕ) (v : ConVal κ n m K) (Z : Traj (Fin n → K) (Fin m → K) K)
    (h : v.c = v.con.eval (Z.x k) (Z.u k)) :
    conRows k v.updateDuals = (conRows k v).map fun r => { r with lam := r.next Z } := by
  simp only [conRows, List.map_ofFn]
  refine congrArg List.ofFn (funext fun i => ?_)
  cases κ
  · simp only [ConVal.updateDuals, Function.comp, Row.next, ConKind.dualProj, idProj, h]
    rfl
  · simp only [ConVal.updateDuals, Function.comp, Row.next, ConKind.dualProj, negProj, h]
    rfl

theorem flatMap_map_of {α β : Type} (l : List α) (f : α → α) (g : α → List β) (t : β → β)
    (h : ∀ a ∈ l, g (f a) = (g a).map t) : (l.map f).flatMap g = (l.flatMap g).map t := by
  induction l with
  | nil => rfl
  | cons a l ih =>
    rw [List.map_cons, List.flatMap_cons, List.flatMap_cons, List.map_append, h a (by simp),
      ih fun a ha => h a (by simp [ha])]

/-- The dual update of the code is the multiplier update of the rows. -/
theorem knotRows_dual (k : ℕ) (c : ALCost n m K) (Z : Traj (Fin n → K) (Fin m → K) K) (h : Stored c (Z.x k) (Z.u k)) :
    knotRows k c.updateDuals = (knotRows k c).map fun r => { r with lam := r.next Z } := by
  simp only [knotRows, ALCost.updateDuals, List.map_append]
  rw [flatMap_map_of _ _ _ _ fun v hv => conRows_dual k v Z (h.1 v hv),
    flatMap_map_of _ _ _ _ fun v hv => conRows_dual k v Z (h.2 v hv)]

theorem scaleU_static {c c' : ALCost n m K} {φ : K} (h : c.static = c'.static) (hc : ScaleU c' φ) : ScaleU c φ := by
  simp only [ALCost.static, ALCost.mk.injEq] at h
  constructor
  · intro v hv
    have : v.static ∈ c'.eq.map ConVal.static := by rw [← h.2.1]; exact List.mem_map_of_mem hv
    obtain ⟨w, hw, e⟩ := List.mem_map.mp this
    have := congrArg ConVal.scaling e
    exact this.symm.trans (hc.1 w hw)
  · intro v hv
    have : v.static ∈ c'.ineq.map ConVal.static := by rw [← h.2.2]; exact List.mem_map_of_mem hv
    obtain ⟨w, hw, e⟩ := List.mem_map.mp this
    have := congrArg ConVal.scaling e
    exact this.symm.trans (hc.2 w hw)

theorem knotRows_pen (k : ℕ) (c : ALCost n m K) (φ : K) (h : ScaleU c φ) :
    knotRows k c.updatePenalties = (knotRows k c).map fun r => { r with pen := r.pen * φ } := by
  have e : ∀ {κ : ConKind} (v : ConVal κ n m K), v.scaling = φ →
      conRows k v.updatePenalties = (conRows k v).map fun r => { r with pen := r.pen * φ } := by
    intro κ v hv
    simp only [conRows, List.map_ofFn]
    refine congrArg List.ofFn (funext fun i => ?_)
    simp only [ConVal.updatePenalties, Function.comp, hv]
  simp only [knotRows, ALCost.updatePenalties, List.map_append]
  rw [flatMap_map_of _ _ _ _ fun v hv => e v (h.1 v hv), flatMap_map_of _ _ _ _ fun v hv => e v (h.2 v hv)]

theorem rows_map (p : DynProblem n m K) {cs cs' : ℕ → ALCost n m K}
    {f : Row (Traj (Fin n → K) (Fin m → K) K) K → Row (Traj (Fin n → K) (Fin m → K) K) K}
    (h : ∀ k ≤ p.N, knotRows k (cs' k) = (knotRows k (cs k)).map f) : rows p cs' = (rows p cs).map f := by
  unfold rows
  rw [List.map_flatMap]
  simp only [List.flatMap_def]
  refine congrArg List.flatten (List.map_congr_left fun k hk => ?_)
  exact h k (by simpa [Nat.lt_succ_iff] using hk)

/-! ## Convex trajectory problems -/

/-- A convex trajectory problem is a convex problem. -/
theorem ConvexProblem.convex {p : DynProblem n m K} {cs : ℕ → ALCost n m K} (h : ConvexProblem p cs)
    (Z : Traj (Fin n → K) (Fin m → K) K) : Convex (Alternative p Z) segTraj (plainCost p cs) (rows p cs) where
  mem x y t hx hy h0 h1 := by
    refine ⟨?_, fun k hk => ?_⟩
    · simp only [segTraj, hx.init, hy.init]; simp
    · simp only [segTraj, hx.step k hk, hy.step k hk]
      rw [h.dyn k hk _ _ _ _ _ _ t h0 h1]
  obj x y t _ _ h0 h1 := by
    simp only [plainCost, Finset.mul_sum, ← Finset.sum_add_distrib]
    refine Finset.sum_le_sum fun k hk => ?_
    exact h.cost k (by simpa [Nat.lt_succ_iff] using hk) _ _ _ _ t h0 h1
  eq r hr e x y t _ _ h0 h1 := by
    obtain ⟨k, hk, ⟨v, hv, i, rfl⟩ | ⟨v, hv, i, rfl⟩⟩ := (mem_rows p cs r).mp hr
    · exact h.eq k hk v hv i _ _ _ _ t h0 h1
    · cases e
  ineq r hr e x y t _ _ h0 h1 := by
    obtain ⟨k, hk, ⟨v, hv, i, rfl⟩ | ⟨v, hv, i, rfl⟩⟩ := (mem_rows p cs r).mp hr
    · cases e
    · exact h.ineq k hk v hv i _ _ _ _ t h0 h1

/-! ## The recorded violation -/

theorem foldl_max_le (l : List K) (a b : K) : l.foldl max a ≤ b ↔ a ≤ b ∧ ∀ x ∈ l, x ≤ b := by
  induction l generalizing a with
  | nil => simp
  | cons c l ih =>
    simp only [List.foldl_cons, ih, max_le_iff, List.mem_cons, forall_eq_or_imp]
    tauto

/-- The recorded violation is at most `b` exactly if no row is violated by more. -/
theorem viol_le_iff (p : DynProblem n m K) (cs : ℕ → ALCost n m K) (Z : Traj (Fin n → K) (Fin m → K) K)
    (h : ∀ k ≤ p.N, Stored (cs k) (Z.x k) (Z.u k)) {b : K} (hb : 0 ≤ b) :
    (alKernel p).viol cs ≤ b ↔ ∀ r ∈ rows p cs, r.viol Z ≤ b := by
  have hn : ∀ {q : ℕ} (v : Fin q → K), ConVal.infNorm v ≤ b ↔ ∀ i, |v i| ≤ b := by
    intro q v
    rw [ConVal.infNorm, foldl_max_le]
    simp [hb, List.mem_ofFn]
  have hl : ∀ l : List K, ALCost.infNormL l ≤ b ↔ ∀ x ∈ l, |x| ≤ b := by
    intro l
    rw [ALCost.infNormL, foldl_max_le]
    simp [hb]
  have h0 : ∀ {q : ℕ} (v : Fin q → K), 0 ≤ ConVal.infNorm v := by
    intro q v
    exact ((foldl_max_le (List.ofFn fun i => |v i|) 0 _).mp le_rfl).1
  have h0l : ∀ l : List K, 0 ≤ ALCost.infNormL l := by
    intro l
    exact ((foldl_max_le (l.map (|·|)) 0 _).mp le_rfl).1
  have hv : ∀ {κ : ConKind} (v : ConVal κ n m K) (x : Fin n → K) (u : Fin m → K), v.c = v.con.eval x u →
      ∀ i, |v.violation i| = compViolation κ (v.con.eval x u i) := by
    intro κ v x u hc i
    cases κ
    · rw [Props.C01_violation_equality, hc]; rfl
    · rw [Props.C01_violation_inequality, hc, abs_of_nonneg (le_max_left _ _)]; rfl
  show ALCosts.maxViolation _ ≤ b ↔ _
  rw [ALCosts.maxViolation, hl]
  simp only [List.forall_mem_map, List.mem_range, Nat.lt_succ_iff]
  constructor
  · intro H r hr
    obtain ⟨k, hk, ⟨v, hv', i, rfl⟩ | ⟨v, hv', i, rfl⟩⟩ := (mem_rows p cs r).mp hr
    · have := H k hk
      rw [ALCost.maxViolation, abs_of_nonneg (h0l _), hl] at this
      have := this _ (List.mem_cons_self ..)
      rw [abs_of_nonneg (h0l _), hl] at this
      have := this _ (List.mem_map_of_mem hv')
      rw [ConVal.maxViolation, abs_of_nonneg (h0 _), hn] at this
      have := this i
      rw [hv v _ _ ((h k hk).1 v hv')] at this
      exact this
    · have := H k hk
      rw [ALCost.maxViolation, abs_of_nonneg (h0l _), hl] at this
      have := this _ (List.mem_cons_of_mem _ (List.mem_cons_self ..))
      rw [abs_of_nonneg (h0l _), hl] at this
      have := this _ (List.mem_map_of_mem hv')
      rw [ConVal.maxViolation, abs_of_nonneg (h0 _), hn] at this
      have := this i
      rw [hv v _ _ ((h k hk).2 v hv')] at this
      exact this
  · intro H k hk
    rw [ALCost.maxViolation, abs_of_nonneg (h0l _), hl]
    simp only [List.mem_cons, List.not_mem_nil, or_false, forall_eq_or_imp, forall_eq]
    refine ⟨?_, ?_⟩
    · rw [abs_of_nonneg (h0l _), hl, List.forall_mem_map]
      intro v hv'
      rw [ConVal.maxViolation, abs_of_nonneg (h0 _), hn]
      intro i
      rw [hv v _ _ ((h k hk).1 v hv')]
      exact H _ ((mem_rows p cs _).mpr ⟨k, hk, .inl ⟨v, hv', i, rfl⟩⟩)
    · rw [abs_of_nonneg (h0l _), hl, List.forall_mem_map]
      intro v hv'
      rw [ConVal.maxViolation, abs_of_nonneg (h0 _), hn]
      intro i
      rw [hv v _ _ ((h k hk).2 v hv')]
      exact H _ ((mem_rows p cs _).mpr ⟨k, hk, .inr ⟨v, hv', i, rfl⟩⟩)

theorem viol_nonneg (p : DynProblem n m K) (cs : ℕ → ALCost n m K) : 0 ≤ (alKernel p).viol cs :=
  ((foldl_max_le _ 0 _).mp le_rfl).1

/-- Some row attains the recorded violation, unless it is zero. -/
theorem viol_attained (p : DynProblem n m K) (cs : ℕ → ALCost n m K) (Z : Traj (Fin n → K) (Fin m → K) K)
    (h : ∀ k ≤ p.N, Stored (cs k) (Z.x k) (Z.u k)) :
    (alKernel p).viol cs = 0 ∨ ∃ r ∈ rows p cs, r.viol Z = (alKernel p).viol cs := by
  by_contra hc
  push Not at hc
  obtain ⟨h0, h1⟩ := hc
  have hle := (viol_le_iff p cs Z h (viol_nonneg p cs)).mp le_rfl
  have hpos : 0 < (alKernel p).viol cs := lt_of_le_of_ne (viol_nonneg p cs) (Ne.symm h0)
  have hlt : ∀ r ∈ rows p cs, r.viol Z < (alKernel p).viol cs := fun r hr => lt_of_le_of_ne (hle r hr) (h1 r hr)
  -- a bound below the recorded violation that no row exceeds
  obtain ⟨b, hb0, hb1, hb2⟩ : ∃ b : K, 0 ≤ b ∧ b < (alKernel p).viol cs ∧ ∀ r ∈ rows p cs, r.viol Z ≤ b := by
    refine ⟨((rows p cs).map fun r => r.viol Z).foldl max 0, ((foldl_max_le _ 0 _).mp le_rfl).1, ?_, ?_⟩
    · have : ∀ (l : List K) (a : K), a < (alKernel p).viol cs → (∀ x ∈ l, x < (alKernel p).viol cs) →
          l.foldl max a < (alKernel p).viol cs := by
        intro l
        induction l with
        | nil => intro a ha _; exact ha
        | cons c l ih =>
          intro a ha hl
          exact ih _ (max_lt ha (hl c (by simp))) fun x hx => hl x (by simp [hx])
      exact this _ _ hpos (by simpa using hlt)
    · intro r hr
      exact ((foldl_max_le _ 0 _).mp le_rfl).2 _ (List.mem_map_of_mem hr)
  exact absurd ((viol_le_iff p cs Z h hb0).mpr hb2) (not_le.mpr hb1)

end Altro.Spec
