import Verif.Model.ProblemRanges
import Verif.Props.Problem

/-!
# C91: setting costs and dynamics of consecutive knot points
-/

namespace Altro.Props
open Prob Spec
variable {C M E K : Type}

/-- The scalar calls that a range call stands for. -/
def costCalls : List (Option C) → ℤ → List (Call C M E K)
  | [], _ => []
  | c :: cs, k => .cost c k :: costCalls cs (k + 1)

def modelCalls : List (Option M) → ℤ → List (Call C M E K)
  | [], _ => []
  | m :: ms, k => .dynamics m k :: modelCalls ms (k + 1)

/-- A range call is the sequence of single calls, so C41 and C42 hold for histories with range calls. -/
theorem C91_cost_calls (I : ProbIface M E) (h : Heap K) : ∀ (cs : List (Option C)) (k : ℤ) (p : Prob C M E),
    run I (costCalls cs k) (h, p) = (setCosts p cs k).map fun q => (h, q)
  | [], _, _ => rfl
  | c :: cs, k, p => by
    have ih := fun q => C91_cost_calls I h cs (k + 1) q
    rw [costCalls, run, setCosts]
    show (setCost p c k).map _ >>= _ = _
    cases setCost p c k with
    | error e => rfl
    | ok q => exact ih q

theorem C91_model_calls (I : ProbIface M E) (h : Heap K) : ∀ (ms : List (Option M)) (k : ℤ) (p : Prob C M E),
    run I (modelCalls ms k) (h, p) = (setDynamicsRange I p ms k).map fun q => (h, q)
  | [], _, _ => rfl
  | m :: ms, k, p => by
    have ih := fun q => C91_model_calls I h ms (k + 1) q
    rw [modelCalls, run, setDynamicsRange]
    show (setDynamics I p m k).map _ >>= _ = _
    cases setDynamics I p m k with
    | error e => rfl
    | ok q => exact ih q

theorem setCost_eq {N : ℕ} {p : Prob C M E} (hN : p.N = N) (hl : p.costs.length = N + 1) (c : Option C) (k : ℤ) :
    setCost p c k = if 0 ≤ k ∧ k ≤ N then .ok { p with costs := p.costs.set k.toNat c } else .error .assertion := by
  unfold setCost assertThat vwrite
  rw [hN]
  by_cases h : 0 ≤ k ∧ k ≤ N
  · have : 0 ≤ k ∧ k.toNat < p.costs.length := by omega
    simp [h, this, bind, Except.bind, pure, Except.pure]
  · simp [h, bind, Except.bind]

/-- What a list becomes when a block is written into it. -/
def overwrite {α : Type*} (l : List α) (k : ℕ) (b : List α) : List α := l.take k ++ b ++ l.drop (k + b.length)

theorem overwrite_get {α : Type*} (l b : List α) (k : ℕ) (h : k + b.length ≤ l.length) (j : ℕ) :
    (overwrite l k b)[j]? = if k ≤ j ∧ j < k + b.length then b[j - k]? else l[j]? := by
  unfold overwrite
  have hk : k ≤ l.length := by omega
  by_cases h1 : j < k
  · rw [if_neg (by omega), List.append_assoc, List.getElem?_append_left (by simp; omega), List.getElem?_take, if_pos h1]
  · by_cases h2 : j < k + b.length
    · rw [if_pos ⟨by omega, h2⟩, List.append_assoc, List.getElem?_append_right (by simp; omega),
        List.getElem?_append_left (by simp; omega)]
      simp [Nat.min_eq_left hk]
    · rw [if_neg (by omega), List.getElem?_append_right (by simp; omega), List.getElem?_drop]
      congr 1
      simp [Nat.min_eq_left hk]
      omega

theorem overwrite_cons {α : Type*} (l b : List α) (k : ℕ) (a : α) (h : k + b.length + 1 ≤ l.length) :
    overwrite (l.set k a) (k + 1) b = overwrite l k (a :: b) := by
  refine List.ext_getElem? fun j => ?_
  rw [overwrite_get _ _ _ (by simp; omega), overwrite_get _ _ _ (by simp; omega)]
  simp only [List.length_cons]
  by_cases h1 : j = k
  · subst h1
    rw [if_neg (by omega), if_pos (by omega), List.getElem?_set_self (by omega), Nat.sub_self]
    rfl
  · by_cases h2 : k + 1 ≤ j ∧ j < k + 1 + b.length
    · rw [if_pos h2, if_pos (by omega), show j - k = j - (k + 1) + 1 by omega, List.getElem?_cons_succ]
    · rw [if_neg h2, if_neg (by omega), List.getElem?_set_ne (by omega)]

/-- Range of costs: accepted exactly when all indices are knot points, and then exactly these costs are replaced. -/
theorem C91_costs {N : ℕ} : ∀ (cs : List (Option C)) (k : ℤ) (p : Prob C M E), p.N = N → p.costs.length = N + 1 →
    setCosts p cs k = if cs = [] ∨ (0 ≤ k ∧ k + cs.length ≤ N + 1) then .ok { p with costs := overwrite p.costs k.toNat cs }
      else .error .assertion
  | [], k, p, hN, hl => by
    rw [if_pos (.inl rfl)]
    simp [setCosts, overwrite]
  | c :: cs, k, p, hN, hl => by
    have ih := C91_costs cs (k + 1) { p with costs := p.costs.set k.toNat c } hN (by simp [hl])
    rw [setCosts, setCost_eq hN hl]
    simp only [List.length_cons, Nat.cast_add, Nat.cast_one, reduceCtorEq, false_or]
    by_cases h1 : 0 ≤ k ∧ k ≤ N
    · rw [if_pos h1]
      show setCosts { p with costs := p.costs.set k.toNat c } cs (k + 1) = _
      rw [ih]
      by_cases h2 : k + (cs.length + 1) ≤ N + 1
      · have hover := overwrite_cons p.costs cs k.toNat c (by omega)
        have ht : (k + 1).toNat = k.toNat + 1 := by omega
        rw [if_pos (.inr (by omega)), if_pos ⟨h1.1, h2⟩]
        show Except.ok { p with costs := overwrite (p.costs.set k.toNat c) (k + 1).toNat cs } = _
        rw [ht, hover]
      · have : cs ≠ [] := by rintro rfl; simp at h2; omega
        rw [if_neg (by simp [this]; omega), if_neg (by omega)]
    · rw [if_neg h1, if_neg (by omega)]
      rfl

/-- The last model of a range, when the range ends with the last segment. -/
def endModel (I : ProbIface M E) (N : ℕ) (k : ℤ) (ms : List (Option M)) (old : List (Option M)) : List (Option M) :=
  if k + ms.length = N then (ms.getLast?.join).elim old fun m => old.set N (some (I.ident (I.sdim m) (I.cdim m))) else old

theorem setDynamics_eq (I : ProbIface M E) {N : ℕ} {p : Prob C M E} (hN : p.N = N) (hl : p.models.length = N + 1) (m : M) (k : ℤ) :
    setDynamics I p (some m) k = if 0 ≤ k ∧ k < N ∧ (k + 1 = N → 0 < I.sdim m ∧ 0 < I.cdim m) then
      .ok { p with models := (if k + 1 = N then p.models.set N (some (I.ident (I.sdim m) (I.cdim m))) else p.models).set k.toNat (some m) }
      else .error .assertion := by
  by_cases h : 0 ≤ k ∧ k < N
  · obtain ⟨h0, h1⟩ := h
    have hk : k.toNat < p.models.length := by omega
    have ha : assertThat (decide (0 ≤ k ∧ k < p.N)) = .ok () := by rw [hN]; simp [assertThat, h0, h1]
    by_cases he : k + 1 = N
    · have he' : k = p.N - 1 := by omega
      have hget : vat p.models p.N = .ok p.models[N] := by
        rw [hN]; simp [vat, List.getElem?_eq_getElem (show N < p.models.length by omega)]
      have hw : ∀ a, vwrite p.models p.N a = .ok (p.models.set N a) := by
        intro a; rw [hN]; simp [vwrite, hl]
      have hw2 : ∀ a b, vwrite (p.models.set N a) k b = .ok ((p.models.set N a).set k.toNat b) := by
        intro a b; simp [vwrite, h0]; omega
      by_cases hd : 0 < I.sdim m
      · by_cases hc : 0 < I.cdim m
        · rw [if_pos ⟨h0, h1, fun _ => ⟨hd, hc⟩⟩, if_pos he]
          have hid : (mkIdent I (I.sdim m) (I.cdim m) : Except Err M) = .ok (I.ident (I.sdim m) (I.cdim m)) := by
            simp [mkIdent, assertThat, hd, hc, bind, Except.bind, pure, Except.pure]
          simp only [setDynamics, ha, bind, Except.bind, if_pos he', hid, hget, hw, hw2, pure, Except.pure]
        · rw [if_neg fun h => hc (h.2.2 he).2]
          have hid : (mkIdent I (I.sdim m) (I.cdim m) : Except Err M) = .error .assertion := by
            simp [mkIdent, assertThat, hd, hc, bind, Except.bind]
          simp only [setDynamics, ha, bind, Except.bind, if_pos he', hid]
      · rw [if_neg fun h => hd (h.2.2 he).1]
        have hid : (mkIdent I (I.sdim m) (I.cdim m) : Except Err M) = .error .assertion := by
          simp [mkIdent, assertThat, hd, bind, Except.bind]
        simp only [setDynamics, ha, bind, Except.bind, if_pos he', hid]
    · have he' : ¬ k = p.N - 1 := by omega
      have hw2 : ∀ b, vwrite p.models k b = .ok (p.models.set k.toNat b) := by
        intro b; simp [vwrite, h0, hk]
      rw [if_pos ⟨h0, h1, fun h => absurd h he⟩, if_neg he]
      simp only [setDynamics, ha, bind, Except.bind, if_neg he', pure, Except.pure, hw2]
  · have ha : assertThat (decide (0 ≤ k ∧ k < p.N)) = .error .assertion := by rw [hN]; simp [assertThat, h]
    rw [if_neg fun h' => h ⟨h'.1, h'.2.1⟩]
    simp only [setDynamics, ha, bind, Except.bind]

/-- Range of dynamics: accepted exactly when no pointer is null, all indices are segments and, if the range ends with the last segment, its
last model has positive dimensions (it provides those of the model at the last knot point); then exactly these models are replaced. -/
theorem C91_dynamics (I : ProbIface M E) {N : ℕ} : ∀ (ms : List M) (k : ℤ) (p : Prob C M E), p.N = N → p.models.length = N + 1 →
    setDynamicsRange I p (ms.map some) k =
      if ms = [] ∨ (0 ≤ k ∧ k + ms.length ≤ N ∧ (k + ms.length = N → ∀ m ∈ ms.getLast?, 0 < I.sdim m ∧ 0 < I.cdim m)) then
        .ok { p with models := endModel I N k (ms.map some) (overwrite p.models k.toNat (ms.map some)) }
      else .error .assertion
  | [], k, p, hN, hl => by
    rw [if_pos (.inl rfl)]
    simp [setDynamicsRange, overwrite, endModel]
  | m :: ms, k, p, hN, hl => by
    rw [List.map_cons, setDynamicsRange, setDynamics_eq I hN hl]
    simp only [List.length_cons, Nat.cast_add, Nat.cast_one, reduceCtorEq, false_or]
    by_cases hms : ms = []
    · subst hms
      have hc : (0 ≤ k ∧ k + ((([] : List M).length : ℤ) + 1) ≤ N ∧
          (k + ((([] : List M).length : ℤ) + 1) = N → ∀ m' ∈ [m].getLast?, 0 < I.sdim m' ∧ 0 < I.cdim m')) ↔
          (0 ≤ k ∧ k < N ∧ (k + 1 = N → 0 < I.sdim m ∧ 0 < I.cdim m)) := by
        have e : k + ((([] : List M).length : ℤ) + 1) = k + 1 := by simp
        rw [e]
        constructor
        · rintro ⟨a, b, c⟩
          exact ⟨a, by omega, fun h => c h m rfl⟩
        · rintro ⟨a, b, c⟩
          refine ⟨a, by omega, fun h m' hm' => ?_⟩
          cases hm'
          exact c h
      simp only [hc]
      by_cases h1 : 0 ≤ k ∧ k < N ∧ (k + 1 = N → 0 < I.sdim m ∧ 0 < I.cdim m)
      · rw [if_pos h1, if_pos h1]
        show Except.ok _ = Except.ok _
        have hlen : k.toNat + 1 ≤ p.models.length := by omega
        have e0 : overwrite p.models k.toNat [some m] = p.models.set k.toNat (some m) := by
          rw [← overwrite_cons p.models [] k.toNat (some m) (by simpa using hlen)]
          simp [overwrite]
        have e1 : endModel I N k [some m] (p.models.set k.toNat (some m)) =
            (if k + 1 = N then p.models.set N (some (I.ident (I.sdim m) (I.cdim m))) else p.models).set k.toNat (some m) := by
          unfold endModel
          by_cases he : k + 1 = N
          · have : k.toNat ≠ N := by omega
            rw [if_pos (by simpa using he), if_pos he]
            show (p.models.set k.toNat (some m)).set N _ = _
            rw [List.set_comm _ _ this]
          · rw [if_neg (by simpa using he), if_neg he]
        rw [List.map_nil, e0, e1]
      · rw [if_neg h1, if_neg h1]
        rfl
    · have hne : ms.getLast? = some (ms.getLast hms) := List.getLast?_eq_some_getLast hms
      have hpos : 0 < ms.length := List.length_pos_iff.mpr hms
      have hl2 : (m :: ms).getLast? = ms.getLast? := by rw [List.getLast?_cons, hne]; rfl
      rw [hl2]
      by_cases h2 : 0 ≤ k ∧ k + (ms.length + 1) ≤ N
      · rw [if_pos ⟨h2.1, by omega, fun h => by omega⟩]
        have hk1 : ¬ k + 1 = N := by omega
        rw [if_neg hk1]
        show setDynamicsRange I { p with models := p.models.set k.toNat (some m) } (ms.map some) (k + 1) = _
        rw [C91_dynamics I ms (k + 1) { p with models := p.models.set k.toNat (some m) } hN (by simp [hl])]
        have hover := overwrite_cons p.models (ms.map some) k.toNat (some m) (by simp; omega)
        have ht : (k + 1).toNat = k.toNat + 1 := by omega
        have hadd : k + 1 + (ms.length : ℤ) = k + (ms.length + 1) := by ring
        have hend : endModel I N (k + 1) (ms.map some) = endModel I N k (some m :: ms.map some) := by
          funext old
          unfold endModel
          rw [List.getLast?_cons, List.getLast?_map, hne]
          simp [hadd]
        simp only [hms, false_or, hadd]
        by_cases h3 : k + (ms.length + 1) = N → ∀ m ∈ ms.getLast?, 0 < I.sdim m ∧ 0 < I.cdim m
        · rw [if_pos ⟨by omega, h2.2, h3⟩, if_pos ⟨h2.1, h2.2, h3⟩]
          rw [ht, hover, hend]
        · rw [if_neg (fun h => h3 h.2.2), if_neg (fun h => h3 h.2.2)]
      · rw [if_neg (c := 0 ≤ k ∧ k + (ms.length + 1) ≤ N ∧ _) (fun h => h2 ⟨h.1, h.2.1⟩)]
        by_cases h1 : 0 ≤ k ∧ k < N ∧ (k + 1 = N → 0 < I.sdim m ∧ 0 < I.cdim m)
        · rw [if_pos h1]
          show setDynamicsRange I { p with models := _ } (ms.map some) (k + 1) = _
          rw [C91_dynamics I ms (k + 1) 
            { p with models := (if k + 1 = N then p.models.set N (some (I.ident (I.sdim m) (I.cdim m))) else p.models).set k.toNat (some m) } hN
            (by show List.length (List.set _ _ _) = _; split <;> simp [hl])]
          rw [if_neg]
          rintro (h | h)
          · exact hms h
          · exact h2 ⟨h1.1, by omega⟩
        · rw [if_neg h1]
          rfl

/-- A null pointer anywhere in the range of dynamics is rejected, whatever comes before it. -/
theorem C91_null (I : ProbIface M E) {N : ℕ} : ∀ (ms : List (Option M)) (k : ℤ) (p : Prob C M E), p.N = N → p.models.length = N + 1 →
    none ∈ ms → setDynamicsRange I p ms k = .error .assertion
  | m :: ms, k, p, hN, hl, hm => by
    rw [setDynamicsRange]
    cases m with
    | none => rfl
    | some m =>
      have hm : none ∈ ms := by simpa using hm
      rw [setDynamics_eq I hN hl]
      split
      · exact C91_null I ms (k + 1) 
            { p with models := (if k + 1 = N then p.models.set N (some (I.ident (I.sdim m) (I.cdim m))) else p.models).set k.toNat (some m) } hN
            (by show List.length (List.set _ _ _) = _; split <;> simp [hl]) hm
      · rfl

/-- Read back: after an accepted range of costs, `GetCostFunction` finds them there, and elsewhere what was there before. -/
theorem C91_read {N : ℕ} (cs : List (Option C)) (k : ℕ) (p : Prob C M E) (hN : p.N = N) (hl : p.costs.length = N + 1) (hk : k + cs.length ≤ N + 1) :
    ∃ q, setCosts p cs k = .ok q ∧ q.models = p.models ∧ q.eq = p.eq ∧ q.ineq = p.ineq ∧ q.x0 = p.x0 ∧ q.N = p.N ∧
      (∀ i : ℕ, i < cs.length → q.costs[k + i]? = cs[i]?) ∧ ∀ j : ℕ, j < k ∨ k + cs.length ≤ j → q.costs[j]? = p.costs[j]? := by
  refine ⟨_, (C91_costs cs k p hN hl).trans (if_pos (.inr ⟨by omega, by omega⟩)), rfl, rfl, rfl, rfl, rfl, fun i hi => ?_, fun j hj => ?_⟩
  · show (overwrite p.costs (k : ℤ).toNat cs)[k + i]? = _
    rw [Int.toNat_natCast, overwrite_get _ _ _ (by omega), if_pos (by omega), Nat.add_sub_cancel_left]
  · show (overwrite p.costs (k : ℤ).toNat cs)[j]? = _
    rw [Int.toNat_natCast, overwrite_get _ _ _ (by omega), if_neg (by omega)]

/-- A small interface: models and constraints are pairs of dimensions and dimensions. -/
def rangeIface : ProbIface (ℕ × ℕ) ℕ := ⟨Prod.fst, Prod.snd, Prod.mk, id⟩

/-- A problem with three segments: two models from index 1, which end with the last segment. -/
example : setDynamicsRange rangeIface (Prob.new 3 0 : Prob ℕ (ℕ × ℕ) ℕ) [some (4, 2), some (5, 1)] 1 =
    .ok { (Prob.new 3 0 : Prob ℕ (ℕ × ℕ) ℕ) with models := [none, some (4, 2), some (5, 1), some (5, 1)] } := rfl

/-- Costs for all knot points but the first; one more is too many. -/
example : setCosts (Prob.new 2 0 : Prob ℕ (ℕ × ℕ) ℕ) [some 7, some 8] 1 =
    .ok { (Prob.new 2 0 : Prob ℕ (ℕ × ℕ) ℕ) with costs := [none, some 7, some 8] } := rfl
example : setCosts (Prob.new 2 0 : Prob ℕ (ℕ × ℕ) ℕ) [some 7, some 8, some 9] 1 = .error .assertion := rfl

end Altro.Props
