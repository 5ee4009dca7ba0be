import Verif.Proofs.Problem

/-!
# Which definition calls are accepted
-/

namespace Altro.Proofs
open Altro.Spec Prob
variable {C M E K : Type}

/-- The call is accepted by a problem with `N` segments. -/
def Acceptable (I : ProbIface M E) (N : ℕ) : Call C M E K → Prop
  | .initialState _ => True
  | .cost _ k => 0 ≤ k ∧ k ≤ N
  | .dynamics m k => ∃ md, m = some md ∧ 0 ≤ k ∧ k < N ∧ (k = (N : ℤ) - 1 → 0 < I.sdim md ∧ 0 < I.cdim md)
  | .equality e k => ∃ c, e = some c ∧ 0 < I.dim c ∧ 0 ≤ k ∧ k ≤ N
  | .inequality e k => ∃ c, e = some c ∧ 0 < I.dim c ∧ 0 ≤ k ∧ k ≤ N

theorem step_accepts (I : ProbIface M E) {N addr : ℕ} {h₀ : Heap K} {calls : List (Call C M E K)}
    {s : Heap K × Prob C M E} (ha : Agrees I N addr h₀ calls s) (c : Call C M E K) :
    (∃ s', step I s c = .ok s') ↔ Acceptable I N c := by
  obtain ⟨h, p⟩ := s
  obtain ⟨aN, ax, ac, am, ae, ai, ah, ap, ar⟩ := ha
  dsimp only at aN ax ac am ae ai ah
  cases c with
  | initialState v => exact ⟨fun _ => trivial, fun _ => ⟨_, rfl⟩⟩
  | cost c j =>
    simp only [step, map_ok, setCost, bind_ok, assertThat_ok, pure_ok, ac, aN, vwrite_tab_ok, decide_eq_true_eq,
      Acceptable]
    constructor
    · rintro ⟨_, _, ⟨_, h, _⟩, _⟩; exact h
    · intro h; exact ⟨_, _, ⟨(), h, _, ⟨h.1, by omega, rfl⟩, rfl⟩, rfl⟩
  | dynamics m j =>
    cases m with
    | none => simp [step, setDynamics, Except.map, Acceptable]
    | some md =>
      by_cases hj : j = (N : ℤ) - 1
      · simp only [step, map_ok, setDynamics, bind_ok, assertThat_ok, decide_eq_true_eq, aN, if_pos hj, mkIdent,
          pure_ok, am, Acceptable]
        constructor
        · rintro ⟨_, _, ⟨_, h0, _, ⟨_, p1, _, p2, _⟩, _⟩, _⟩
          exact ⟨md, rfl, h0.1, h0.2, fun _ => ⟨p1, p2⟩⟩
        · rintro ⟨md', e, h0, h1, h2⟩
          obtain rfl := Option.some.inj e
          obtain ⟨p1, p2⟩ := h2 hj
          exact ⟨_, _, ⟨(), ⟨h0, h1⟩, _, ⟨(), p1, (), p2, rfl⟩, _, vat_tab _ (by omega) (by omega), _,
            vwrite_tab _ _ (by omega) (by omega), _, vwrite_tab _ _ (by omega) (by omega), rfl⟩, rfl⟩
      · simp only [step, map_ok, setDynamics, bind_ok, assertThat_ok, decide_eq_true_eq, aN, if_neg hj, pure_ok, am,
          Acceptable]
        constructor
        · rintro ⟨_, _, ⟨_, h0, _⟩, _⟩
          exact ⟨md, rfl, h0.1, h0.2, fun h => absurd h hj⟩
        · rintro ⟨md', e, h0, h1, _⟩
          obtain rfl := Option.some.inj e
          exact ⟨_, _, ⟨(), ⟨h0, h1⟩, _, rfl, _, vwrite_tab _ _ (by omega) (by omega), rfl⟩, rfl⟩
  | equality e j =>
    cases e with
    | none => simp [step, setEq, Except.map, Acceptable]
    | some e =>
      simp only [step, map_ok, setEq, bind_ok, assertThat_ok, pure_ok, ae, vread_tab_ok, vwrite_tab_ok,
        decide_eq_true_eq, Acceptable]
      constructor
      · rintro ⟨_, _, ⟨_, h, _, ⟨h0, h1, _⟩, _⟩, _⟩; exact ⟨e, rfl, h, h0, by omega⟩
      · rintro ⟨c, rfl', h, h0, h1⟩
        obtain rfl := Option.some.inj rfl'
        exact ⟨_, _, ⟨(), h, _, ⟨h0, by omega, rfl⟩, _, ⟨h0, by omega, rfl⟩, rfl⟩, rfl⟩
  | inequality e j =>
    cases e with
    | none => simp [step, setIneq, Except.map, Acceptable]
    | some e =>
      simp only [step, map_ok, setIneq, bind_ok, assertThat_ok, pure_ok, ai, vread_tab_ok, vwrite_tab_ok,
        decide_eq_true_eq, Acceptable]
      constructor
      · rintro ⟨_, _, ⟨_, h, _, ⟨h0, h1, _⟩, _⟩, _⟩; exact ⟨e, rfl, h, h0, by omega⟩
      · rintro ⟨c, rfl', h, h0, h1⟩
        obtain rfl := Option.some.inj rfl'
        exact ⟨_, _, ⟨(), h, _, ⟨h0, by omega, rfl⟩, _, ⟨h0, by omega, rfl⟩, rfl⟩, rfl⟩

theorem run_accepts_from (I : ProbIface M E) {N addr : ℕ} {h₀ : Heap K} (calls : List (Call C M E K)) :
    ∀ (done : List (Call C M E K)) (s : Heap K × Prob C M E), Agrees I N addr h₀ done s →
      ((∃ s', run I calls s = .ok s') ↔ ∀ c ∈ calls, Acceptable I N c) := by
  induction calls with
  | nil => intro done s _; exact ⟨fun _ c hc => (List.not_mem_nil hc).elim, fun _ => ⟨s, rfl⟩⟩
  | cons c cs ih =>
    intro done s ha
    have h1 := step_accepts I ha c
    constructor
    · rintro ⟨s', hs⟩
      obtain ⟨t, ht, ht'⟩ := bind_ok.mp (show step I s c >>= run I cs = .ok s' from hs)
      have := (ih _ t (agrees_step I ha c ht)).mp ⟨s', ht'⟩
      intro d hd
      rcases List.mem_cons.mp hd with rfl | hd
      · exact h1.mp ⟨t, ht⟩
      · exact this d hd
    · intro h
      obtain ⟨t, ht⟩ := h1.mpr (h c (List.mem_cons_self ..))
      obtain ⟨s', hs'⟩ := (ih _ t (agrees_step I ha c ht)).mpr fun d hd => h d (List.mem_cons_of_mem _ hd)
      exact ⟨s', bind_ok.mpr ⟨t, ht, hs'⟩⟩

/-- A sequence of calls on a new problem succeeds exactly when every call is acceptable on its own. -/
theorem run_accepts (I : ProbIface M E) (N addr : ℕ) (h₀ : Heap K) (calls : List (Call C M E K)) :
    (∃ s', run I calls (h₀, Prob.new N addr) = .ok s') ↔ ∀ c ∈ calls, Acceptable I N c :=
  run_accepts_from I calls [] _ (agrees_new I N addr h₀)

end Altro.Proofs
