import Verif.Proofs.LQMultipliers
import Verif.Proofs.LQStrong

/-!
# Multipliers of linear-quadratic problems with inequality constraints
-/

namespace Altro.Spec
variable {K : Type} [Field K] [LinearOrder K] [IsStrictOrderedRing K] {V : Type}

/-- Multipliers of an inequality are such that the Lagrangian is at most the objective where the constraints hold. -/
theorem Saddle.sum_nonneg {S : V → Prop} {obj : V → K} {rows : List (Row V K)} {zs : V} {star : List K}
    (hs : Saddle S obj rows zs star) {y : V} (hy : ∀ r ∈ rows, r.Holds y) :
    0 ≤ ((rows.zip star).map fun q => q.2 * q.1.fn y).sum := by
  refine List.sum_nonneg fun a ha => ?_
  obtain ⟨q, hq, rfl⟩ := List.mem_map.mp ha
  have h1 := hy q.1 (List.of_mem_zip hq).1
  have h2 := hs.sign q hq
  unfold Row.Holds at h1
  cases hk : q.1.kind
  · rw [hk] at h1
    have : q.1.fn y = 0 := h1
    rw [this, mul_zero]
  · rw [hk] at h1
    exact mul_nonneg_of_nonpos_of_nonpos (h2 hk).1 h1

theorem Saddle.sum_zero {S : V → Prop} {obj : V → K} {rows : List (Row V K)} {zs : V} {star : List K}
    (hs : Saddle S obj rows zs star) : ((rows.zip star).map fun q => q.2 * q.1.fn zs).sum = 0 := by
  refine List.sum_eq_zero fun a ha => ?_
  obtain ⟨q, hq, rfl⟩ := List.mem_map.mp ha
  have h1 := hs.holds q.1 (List.of_mem_zip hq).1
  unfold Row.Holds at h1
  cases hk : q.1.kind
  · rw [hk] at h1
    have : q.1.fn zs = 0 := h1
    rw [this, mul_zero]
  · exact (hs.sign q hq hk).2

/-- The solution of a saddle point is best among the points that satisfy the constraints. -/
theorem Saddle.optimal {S : V → Prop} {obj : V → K} {rows : List (Row V K)} {zs : V} {star : List K}
    (hs : Saddle S obj rows zs star) {y : V} (hS : S y) (hy : ∀ r ∈ rows, r.Holds y) : obj zs ≤ obj y := by
  have h1 := hs.lag y hS
  have h2 := hs.sum_nonneg hy
  rw [hs.sum_zero] at h1
  linarith

/-- Constraints that are affine along segments: if problems with equality constraints have saddle points as soon as their constraints can
be met, so have problems with inequality constraints. -/
theorem saddle_of_equality {S : V → Prop} {seg : K → V → V → V} {obj : V → K} (A : (V → K) → Prop)
    (hmem : ∀ x y t, S x → S y → 0 ≤ t → t ≤ 1 → S (seg t x y))
    (haff : ∀ f, A f → ∀ x y t, S x → S y → 0 ≤ t → t ≤ 1 → f (seg t x y) = (1 - t) * f x + t * f y)
    (hE : ∀ rows : List (Row V K), (∀ r ∈ rows, r.kind = .equality ∧ A r.fn) → (∃ y, S y ∧ ∀ r ∈ rows, r.Holds y) →
      ∃ zs star, Saddle S obj rows zs star) (rows : List (Row V K)) :
    ∀ E : List (Row V K), (∀ r ∈ E, r.kind = .equality ∧ A r.fn) → (∀ r ∈ rows, A r.fn) →
      (∃ y, S y ∧ ∀ r ∈ E ++ rows, r.Holds y) → ∃ zs star, Saddle S obj (E ++ rows) zs star := by
  induction rows with
  | nil =>
    intro E hEq _ hf
    rw [List.append_nil] at hf ⊢
    exact hE E hEq hf
  | cons r rows ih =>
    intro E hEq hA hf
    have hAr := hA r (List.mem_cons_self ..)
    have hA' : ∀ r ∈ rows, A r.fn := fun q hq => hA q (List.mem_cons_of_mem _ hq)
    cases hk : r.kind
    · have := ih (E ++ [r]) (fun q hq => by
        rcases List.mem_append.mp hq with hq | hq
        · exact hEq q hq
        · rw [List.mem_singleton.mp hq]; exact ⟨hk, hAr⟩) hA' (by rw [List.append_assoc]; exact hf)
      rw [List.append_assoc] at this
      exact this
    · obtain ⟨y, hy, hyr⟩ := hf
      have hyr' : ∀ q ∈ E ++ rows, q.Holds y := fun q hq => hyr q (by
        rcases List.mem_append.mp hq with hq | hq
        · exact List.mem_append_left _ hq
        · exact List.mem_append_right _ (List.mem_cons_of_mem _ hq))
      obtain ⟨z, st, hs⟩ := ih E hEq hA' ⟨y, hy, hyr'⟩
      obtain ⟨sa, sb, rfl, ha⟩ : ∃ sa sb, st = sa ++ sb ∧ sa.length = E.length :=
        ⟨st.take E.length, st.drop E.length, (List.take_append_drop ..).symm, by
          rw [List.length_take, hs.len, List.length_append]; omega⟩
      by_cases hz : r.fn z ≤ 0
      · refine ⟨z, sa ++ 0 :: sb, ?_, hs.mem, ?_, ?_, ?_⟩
        · have := hs.len
          simp only [List.length_append, List.length_cons] at this ⊢
          omega
        · intro q hq
          rcases List.mem_append.mp hq with hq | hq
          · exact hs.holds q (List.mem_append_left _ hq)
          · rcases List.mem_cons.mp hq with rfl | hq
            · unfold Row.Holds; rw [hk]; exact hz
            · exact hs.holds q (List.mem_append_right _ hq)
        · have h1 := hs.sign
          rw [List.zip_append ha.symm] at h1 ⊢
          intro q hq hqk
          rcases List.mem_append.mp hq with hq | hq
          · exact h1 q (List.mem_append_left _ hq) hqk
          · rw [List.zip_cons_cons] at hq
            rcases List.mem_cons.mp hq with rfl | hq
            · exact ⟨le_rfl, zero_mul _⟩
            · exact h1 q (List.mem_append_right _ hq) hqk
        · have h1 := hs.lag
          rw [List.zip_append ha.symm] at h1 ⊢
          intro w hw
          have := h1 w hw
          simp only [List.zip_cons_cons, List.map_append, List.map_cons, List.sum_append, List.sum_cons, zero_mul, zero_add] at this ⊢
          exact this
      · have hz := not_le.mp hz
        have hyr0 : r.fn y ≤ 0 := by
          have := hyr r (List.mem_append_right _ (List.mem_cons_self ..))
          unfold Row.Holds at this
          rw [hk] at this
          exact this
        -- where the segment crosses
        set t := r.fn z / (r.fn z - r.fn y) with ht
        have hd : 0 < r.fn z - r.fn y := by linarith
        have ht0 : 0 ≤ t := div_nonneg hz.le hd.le
        have ht1 : t ≤ 1 := (div_le_one hd).mpr (by linarith)
        have hcross : r.fn (seg t z y) = 0 := by
          rw [haff _ hAr z y t hs.mem hy ht0 ht1, ht]
          field_simp
          ring
        have hkeep : ∀ q ∈ E ++ rows, q.Holds (seg t z y) := by
          intro q hq
          have hqA : A q.fn := by
            rcases List.mem_append.mp hq with hq | hq
            · exact (hEq q hq).2
            · exact hA' q hq
          have h1 := hs.holds q hq
          have h2 := hyr' q hq
          have h3 := haff _ hqA z y t hs.mem hy ht0 ht1
          unfold Row.Holds at h1 h2 ⊢
          cases hqk : q.kind
          · rw [hqk] at h1 h2
            have h1 : q.fn z = 0 := h1
            have h2 : q.fn y = 0 := h2
            show q.fn _ = 0
            rw [h3, h1, h2]; ring
          · rw [hqk] at h1 h2
            have h1 : q.fn z ≤ 0 := h1
            have h2 : q.fn y ≤ 0 := h2
            show q.fn _ ≤ 0
            rw [h3]
            nlinarith
        obtain ⟨w, sw, hw⟩ := ih (E ++ [{ r with kind := .equality }]) (fun q hq => by
            rcases List.mem_append.mp hq with hq | hq
            · exact hEq q hq
            · rw [List.mem_singleton.mp hq]; exact ⟨rfl, hAr⟩) hA' ⟨seg t z y, hmem _ _ _ hs.mem hy ht0 ht1, fun q hq => by
            rw [List.append_assoc, List.mem_append, List.singleton_append, List.mem_cons] at hq
            rcases hq with hq | rfl | hq
            · exact hkeep q (List.mem_append_left _ hq)
            · exact hcross
            · exact hkeep q (List.mem_append_right _ hq)⟩
        rw [List.append_assoc, List.singleton_append] at hw
        obtain ⟨ta, ν, tb, rfl, hta⟩ : ∃ ta ν tb, sw = ta ++ ν :: tb ∧ ta.length = E.length := by
          have hl := hw.len
          simp only [List.length_append, List.length_cons] at hl
          have hlt : E.length < sw.length := by omega
          exact ⟨sw.take E.length, sw[E.length], sw.drop (E.length + 1),
            by rw [← List.drop_eq_getElem_cons hlt, List.take_append_drop], by rw [List.length_take]; omega⟩
        have hholds : ∀ q ∈ E ++ rows, q.Holds w := fun q hq => hw.holds q (by
          rcases List.mem_append.mp hq with hq | hq
          · exact List.mem_append_left _ hq
          · exact List.mem_append_right _ (List.mem_cons_of_mem _ hq))
        have hrw : r.fn w = 0 := hw.holds { r with kind := .equality } (List.mem_append_right _ (List.mem_cons_self ..))
        have hopt := hs.optimal hw.mem hholds
        have hν : ν ≤ 0 := by
          have h1 := hw.lag z hs.mem
          rw [hw.sum_zero] at h1
          have h2 : ν * r.fn z ≤ (((E ++ { r with kind := .equality } :: rows).zip (ta ++ ν :: tb)).map fun q => q.2 * q.1.fn z).sum := by
            have h3 : ∀ q ∈ E.zip ta ++ rows.zip tb, 0 ≤ q.2 * q.1.fn z := by
              intro q hq
              have hqm : q.1 ∈ E ++ rows := by
                rcases List.mem_append.mp hq with hq | hq
                · exact List.mem_append_left _ (List.of_mem_zip hq).1
                · exact List.mem_append_right _ (List.of_mem_zip hq).1
              have h4 := hs.holds q.1 hqm
              have h5 := hw.sign q (by
                rw [List.zip_append hta.symm, List.zip_cons_cons]
                rcases List.mem_append.mp hq with hq | hq
                · exact List.mem_append_left _ hq
                · exact List.mem_append_right _ (List.mem_cons_of_mem _ hq))
              unfold Row.Holds at h4
              cases hqk : q.1.kind
              · rw [hqk] at h4
                have h4 : q.1.fn z = 0 := h4
                rw [h4, mul_zero]
              · rw [hqk] at h4
                exact mul_nonneg_of_nonpos_of_nonpos (h5 hqk).1 h4
            rw [List.zip_append hta.symm, List.zip_cons_cons]
            simp only [List.map_append, List.map_cons, List.sum_append, List.sum_cons]
            have h6 : 0 ≤ ((E.zip ta).map fun q => q.2 * q.1.fn z).sum := List.sum_nonneg fun a ha => by
              obtain ⟨q, hq, rfl⟩ := List.mem_map.mp ha
              exact h3 q (List.mem_append_left _ hq)
            have h7 : 0 ≤ ((rows.zip tb).map fun q => q.2 * q.1.fn z).sum := List.sum_nonneg fun a ha => by
              obtain ⟨q, hq, rfl⟩ := List.mem_map.mp ha
              exact h3 q (List.mem_append_right _ hq)
            linarith
          by_contra hc
          have := mul_pos (not_le.mp hc) hz
          linarith
        refine ⟨w, ta ++ ν :: tb, ?_, hw.mem, ?_, ?_, ?_⟩
        · have := hw.len
          simp only [List.length_append, List.length_cons] at this ⊢
          omega
        · intro q hq
          rcases List.mem_append.mp hq with hq | hq
          · exact hholds q (List.mem_append_left _ hq)
          · rcases List.mem_cons.mp hq with rfl | hq
            · unfold Row.Holds; rw [hk]; exact hrw.le
            · exact hholds q (List.mem_append_right _ hq)
        · have h1 := hw.sign
          rw [List.zip_append hta.symm] at h1 ⊢
          intro q hq hqk
          rcases List.mem_append.mp hq with hq | hq
          · exact h1 q (List.mem_append_left _ hq) hqk
          · rw [List.zip_cons_cons] at hq
            rcases List.mem_cons.mp hq with rfl | hq
            · exact ⟨hν, by rw [hrw, mul_zero]⟩
            · exact h1 q (List.mem_append_right _ (by rw [List.zip_cons_cons]; exact List.mem_cons_of_mem _ hq)) hqk
        · have h1 := hw.lag
          rw [List.zip_append hta.symm] at h1 ⊢
          simp only [List.zip_cons_cons, List.map_append, List.map_cons, List.sum_append, List.sum_cons] at h1 ⊢
          exact h1

end Altro.Spec

namespace Altro.Props
open Altro.Spec Matrix
variable {K : Type} [Field K] [LinearOrder K] [IsStrictOrderedRing K] {n m : ℕ} {p : DynProblem n m K} {cs : ℕ → ALCost n m K} {μ : K}

/-- The objective of such a problem alone is a linear-quadratic problem. -/
theorem _root_.Altro.Spec.LQInequality.objective (h : LQInequality p cs μ) (hμ : 0 < μ) :
    LQEquality p fun k => { cs k with eq := [], ineq := [] } where
  dyn := h.dyn
  knot k hk := { quad := (h.knot k hk).quad, conv := (h.knot k hk).conv, con := fun _ hv => (List.not_mem_nil hv).elim, free := rfl }
  pos k hk x u z hz := by
    have h1 := h.strong k hk x u 0 z
    have h2 : 0 < z ⬝ᵥ z := by
      obtain ⟨i, hi⟩ := Function.ne_iff.mp hz
      exact Finset.sum_pos' (fun i _ => mul_self_nonneg _) ⟨i, Finset.mem_univ _, mul_self_pos.mpr hi⟩
    have h3 := mul_pos hμ h2
    simp only [quadForm, mulVec_zero, zero_dotProduct, zero_add, mul_zero] at h1
    exact lt_of_lt_of_le h3 h1
  term := h.term
  termCon _ hv := (List.not_mem_nil hv).elim

theorem con_pt {con : Con n m K} (h : AffineCon con) (Z : Traj (Fin n → K) (Fin m → K) K) (k : ℕ) (i : Fin con.p) :
    ∃ L : Module.Dual K (Fin p.N → Fin m → K), ∀ d, con.eval ((LQDual.pt p Z d).x k) ((LQDual.pt p Z d).u k) i
      = con.eval ((LQDual.pt p Z 0).x k) ((LQDual.pt p Z 0).u k) i + L d := by
  refine ⟨LinearMap.proj i ∘ₗ ((con.jac (LQDual.base p Z k) 0).toCols₁.mulVecLin ∘ₗ LQDual.dev p Z k
      + (con.jac (LQDual.base p Z k) 0).toCols₂.mulVecLin ∘ₗ LQDual.ctrl p k), fun d => ?_⟩
  have := congrFun (h (LQDual.base p Z k) 0 (LQDual.dev p Z k d) (LQDual.ctrl p k d)) i
  rw [zero_add] at this
  show con.eval (LQDual.base p Z k + LQDual.dev p Z k d) (LQDual.ctrl p k d) i
    = con.eval (LQDual.base p Z k + LQDual.dev p Z k 0) (LQDual.ctrl p k 0) i + _
  rw [this, map_zero, map_zero, add_zero, Pi.add_apply, Pi.add_apply, add_assoc]
  rfl

/-- A linear-quadratic problem with affine constraints that can be met has a solution and multipliers. -/
theorem _root_.Altro.Spec.LQInequality.saddle (h : LQInequality p cs μ) (hμ : 0 < μ)
    (Z : Traj (Fin n → K) (Fin m → K) K) (hf : ∃ Y, Alternative p Z Y ∧ ∀ r ∈ rows p cs, r.Holds Y) :
    ∃ zs star, Saddle (Alternative p Z) (plainCost p cs) (rows p cs) zs star := by
  have h' := h.objective hμ
  have hc := h.convexProblem.convex Z
  set cs' : ℕ → ALCost n m K := fun k => { cs k with eq := [], ineq := [] }
  have hrow : ∀ r ∈ rows p cs, ∃ L : Module.Dual K (Fin p.N → Fin m → K), ∀ d,
      r.fn (LQDual.pt p Z d) = r.fn (LQDual.pt p Z 0) + L d := by
    intro r hr
    obtain ⟨k, hk, ⟨v, hv, i, rfl⟩ | ⟨v, hv, i, rfl⟩⟩ := (mem_rows p _ r).mp hr
    · exact con_pt ((h.knot k hk).eq v hv) Z k i
    · exact con_pt ((h.knot k hk).ineq v hv) Z k i
  have hall : ∀ y, Alternative p Z y → ∀ r ∈ rows p cs, r.fn (LQDual.pt p Z fun k => y.u k) = r.fn y := by
    intro y hy r hr
    have := LQDual.pt_all h' hy
    obtain ⟨k, hk, ⟨v, hv, i, rfl⟩ | ⟨v, hv, i, rfl⟩⟩ := (mem_rows p _ r).mp hr
    · show v.con.eval ((LQDual.pt p Z fun k => y.u k).x k) ((LQDual.pt p Z fun k => y.u k).u k) i = v.con.eval (y.x k) (y.u k) i
      rw [(this k hk).1]
      rcases Nat.lt_or_eq_of_le hk with hk | rfl
      · rw [(this k hk.le).2 hk]
      · rw [h.termEq v hv _ _ (y.u p.N)]
    · show v.con.eval ((LQDual.pt p Z fun k => y.u k).x k) ((LQDual.pt p Z fun k => y.u k).u k) i = v.con.eval (y.x k) (y.u k) i
      rw [(this k hk).1]
      rcases Nat.lt_or_eq_of_le hk with hk | rfl
      · rw [(this k hk.le).2 hk]
      · rw [h.termIneq v hv _ _ (y.u p.N)]
  refine saddle_of_equality (seg := segTraj) (fun f => ∃ r ∈ rows p cs, r.fn = f) hc.mem ?_ ?_ (rows p cs) [] (by simp)
    (fun r hr => ⟨r, hr, rfl⟩) hf
  · rintro f ⟨r, hr, rfl⟩ x y t hx hy h0 h1
    cases hk : r.kind
    · exact hc.eq r hr hk x y t hx hy h0 h1
    · obtain ⟨k, hk', ⟨v, hv, i, rfl⟩ | ⟨v, hv, i, rfl⟩⟩ := (mem_rows p _ r).mp hr
      · cases hk
      · have e1 := congrFun ((h.knot k hk').ineq v hv (x.x k) (x.u k) (t • (y.x k - x.x k)) (t • (y.u k - x.u k))) i
        have e2 := congrFun ((h.knot k hk').ineq v hv (x.x k) (x.u k) (y.x k - x.x k) (y.u k - x.u k)) i
        rw [add_sub_cancel, add_sub_cancel] at e2
        show v.con.eval (x.x k + t • (y.x k - x.x k)) (x.u k + t • (y.u k - x.u k)) i
          = (1 - t) * v.con.eval (x.x k) (x.u k) i + t * v.con.eval (y.x k) (y.u k) i
        rw [e1, e2]
        simp only [Pi.add_apply, mulVec_smul, Pi.smul_apply, smul_eq_mul]
        ring
  · intro rs hrs hfe
    have hget : ∀ i : Fin rs.length, ∃ L : Module.Dual K (Fin p.N → Fin m → K), ∀ d,
        (rs.get i).fn (LQDual.pt p Z d) = (rs.get i).fn (LQDual.pt p Z 0) + L d := fun i => by
      obtain ⟨r, hr, e⟩ := (hrs _ (List.get_mem rs i)).2
      rw [← e]; exact hrow r hr
    choose L hL using hget
    refine saddle_exists (LQDual.pt p Z) (LQDual.pt_alternative h') (fun y hy => ⟨fun k => y.u k, ?_, fun r hr => ?_⟩)
      (LQDual.hess p Z cs') (fun a b => ?_) (LQDual.hess_pos h') (LQDual.lin p Z cs') (fun d => LQDual.cost_pt (cs := cs') h' d) L hL
      (fun r hr => (hrs r hr).1) hfe
    · have := LQDual.pt_all h' hy
      unfold plainCost
      refine Finset.sum_congr rfl fun k hk => ?_
      have hk := Nat.lt_succ_iff.mp (Finset.mem_range.mp hk)
      rw [(this k hk).1]
      rcases Nat.lt_or_eq_of_le hk with hk | rfl
      · rw [(this k hk.le).2 hk]
      · exact h.term _ _ _
    · obtain ⟨q, hq, e⟩ := (hrs r hr).2
      rw [← e]; exact hall y hy q hq
    · rw [LQDual.hess_apply, LQDual.hess_apply]
      refine Finset.sum_congr rfl fun k hk => ?_
      exact LQDual.bil_comm ((h.knot k (Nat.lt_succ_iff.mp (Finset.mem_range.mp hk))).conv _ _) _ _ _ _

end Altro.Props
