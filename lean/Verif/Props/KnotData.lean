import Verif.Model.KnotData
import Verif.Proofs.Problem
import Mathlib.Algebra.Order.Field.Rat
import Mathlib.Tactic.Positivity
import Mathlib.Algebra.Order.Field.Basic

/-!
# C76: the dimensions of a knot point are those of its vectors
-/

namespace Altro.Props
open Altro Altro.Knot
variable {T : Type} [Zero T] [DecidableEq T]

/-! ## Specification -/

/-- A vector type with `c` rows (`none`: any number) can have `d` entries. -/
def Fits (c : Option ℕ) (d : ℕ) : Prop := c = none ∨ c = some d

/-- The stored dimensions are the lengths of the vectors, and the vectors fit their types. -/
structure Consistent (z : Kp T) : Prop where
  n : z.n = z.x.length
  m : z.m = z.u.length
  fitN : Fits z.ty.n z.x.length
  fitM : Fits z.ty.m z.u.length

def AllConsistent (h : Knot.Heap T) : Prop := ∀ i z, h i = some z → Consistent z

/-- The operations that do not spoil a knot point: vectors are only overwritten by vectors of the same length, and a
vector of dynamic size is only moved away if it is empty or is exchanged for one of the same length. -/
def Careful (h : Knot.Heap T) : Knot.Op T → Prop
  | .setState i v => ∀ z, h i = some z → (v.length : ℤ) = z.n
  | .setControl i v => ∀ z, h i = some z → (v.length : ℤ) = z.m
  | .moveCtor _ j => ∀ z, h j = some z → (z.ty.n = none → z.n = 0) ∧ (z.ty.m = none → z.m = 0)
  | .moveAssign i j => i ≠ j → ∀ d z, h i = some d → h j = some z → d.ty = z.ty →
      (z.ty.n = none → d.n = z.n) ∧ (z.ty.m = none → d.m = z.m)
  | _ => True

/-- Every operation of a history is careful. -/
def CarefulRun (sw : Bool) (h : Knot.Heap T) : List (Knot.Op T) → Prop
  | [] => True
  | op :: l => Careful h op ∧ ∀ h', Knot.step sw h op = .ok h' → CarefulRun sw h' l

/-! ## Lemmas -/

theorem knot_get_ok {h : Knot.Heap T} {i : ℕ} {z : Kp T} : Knot.get h i = .ok z ↔ h i = some z := by
  unfold Knot.get
  cases h i <;> simp

theorem knot_fresh_ok {h : Knot.Heap T} {i : ℕ} {u : Unit} : Knot.fresh h i = .ok u ↔ h i = none := by
  unfold Knot.fresh
  cases h i <;> simp

omit [DecidableEq T] in
theorem knot_vec_ok {c : Option ℕ} {v w : List T} : Knot.vec c v = .ok w ↔ w = v ∧ Fits c v.length := by
  unfold Knot.vec Fits
  cases c with
  | none => simp only [pure_ok, true_or, and_true]; exact eq_comm
  | some k =>
    simp only [bind_ok, assertThat_ok, pure_ok, decide_eq_true_eq, exists_and_left, reduceCtorEq, false_or,
      Option.some.injEq]
    constructor
    · rintro ⟨h1, _, h2⟩; exact ⟨h2.symm, h1.symm⟩
    · rintro ⟨h1, h2⟩; exact ⟨h2.symm, (), h1.symm⟩

theorem knot_put_self (h : Knot.Heap T) (i : ℕ) (z : Kp T) : Knot.put h i z i = some z := by simp [Knot.put]

theorem knot_put_ne (h : Knot.Heap T) (z : Kp T) {i k : ℕ} (hk : k ≠ i) : Knot.put h i z k = h k := by
  simp [Knot.put, hk]

theorem allConsistent_put {h : Knot.Heap T} (ha : AllConsistent h) (i : ℕ) (z : Kp T) :
    AllConsistent (Knot.put h i z) ↔ Consistent z := by
  constructor
  · intro H; exact H i z (knot_put_self h i z)
  · intro hz k w hw
    by_cases hk : k = i
    · subst hk; rw [knot_put_self] at hw; cases hw; exact hz
    · rw [knot_put_ne h z hk] at hw; exact ha k w hw

theorem ofVectors_ok {ty : Ty} {x u : List T} {t s : T} {z : Kp T} (h : Knot.ofVectors ty x u t s = .ok z) :
    z = ⟨ty, x.length, u.length, x, u, t, s⟩ ∧ Consistent z := by
  simp only [Knot.ofVectors, bind_ok, pure_ok, knot_vec_ok] at h
  obtain ⟨_, _, x', ⟨rfl, f1⟩, u', ⟨rfl, f2⟩, rfl⟩ := h
  exact ⟨rfl, rfl, rfl, f1, f2⟩

theorem ofSizes_ok {ty : Ty} {a b : ℤ} {z : Kp T} (h : Knot.ofSizes ty a b = .ok z) :
    z = ⟨ty, a, b, List.replicate a.toNat 0, List.replicate b.toNat 0, 0, 0⟩ ∧ Consistent z := by
  simp only [Knot.ofSizes, Knot.zeros, bind_ok, pure_ok, knot_vec_ok, assertThat_ok, decide_eq_true_eq] at h
  obtain ⟨_, _, x', ⟨_, h0, rfl, f1⟩, u', ⟨_, h1, rfl, f2⟩, rfl⟩ := h
  refine ⟨rfl, ?_, ?_, f1, f2⟩
  · simp only [List.length_replicate]; omega
  · simp only [List.length_replicate]; omega

theorem convert_ok {ty : Ty} {z w : Kp T} (hz : Consistent z) (h : Knot.convert ty z = .ok w) :
    w = { z with ty := ty } ∧ Consistent w := by
  simp only [Knot.convert, bind_ok, pure_ok, knot_vec_ok] at h
  obtain ⟨_, _, x', ⟨rfl, f1⟩, u', ⟨rfl, f2⟩, rfl⟩ := h
  exact ⟨rfl, hz.n, hz.m, f1, f2⟩

theorem assign_ok {sw : Bool} {d z w : Kp T} (hz : Consistent z) (h : Knot.assign sw d z = .ok w) :
    w = { z with ty := d.ty } ∧ Consistent w := by
  unfold Knot.assign at h
  by_cases ht : d.ty = z.ty
  · rw [if_pos ht] at h
    simp only [Knot.copyAssign, bind_ok, pure_ok, knot_vec_ok] at h
    obtain ⟨x', ⟨rfl, f1⟩, u', ⟨rfl, f2⟩, rfl⟩ := h
    exact ⟨rfl, hz.n, hz.m, f1, f2⟩
  · rw [if_neg ht] at h
    simp only [bind_ok, pure_ok] at h
    obtain ⟨tmp, h1, rfl⟩ := h
    obtain ⟨rfl, hc⟩ := convert_ok hz h1
    exact ⟨rfl, hc⟩

/-! ## The property -/

/-- **C76, one operation (exact).**  If every knot point has the dimensions of its vectors, then after a successful
operation they all do if and only if the operation is careful. -/
theorem C76_step (sw : Bool) {h h' : Knot.Heap T} (ha : AllConsistent h) (op : Knot.Op T)
    (hs : Knot.step sw h op = .ok h') : AllConsistent h' ↔ Careful h op := by
  cases op with
  | ofVectors i ty x u t s =>
    simp only [Knot.step, bind_ok, pure_ok] at hs
    obtain ⟨_, _, z, hz, rfl⟩ := hs
    simp only [Careful, iff_true]
    exact (allConsistent_put ha _ _).mpr (ofVectors_ok hz).2
  | ofSizes i ty a b =>
    simp only [Knot.step, bind_ok, pure_ok] at hs
    obtain ⟨_, _, z, hz, rfl⟩ := hs
    simp only [Careful, iff_true]
    exact (allConsistent_put ha _ _).mpr (ofSizes_ok hz).2
  | convert i ty j =>
    simp only [Knot.step, bind_ok, pure_ok, knot_get_ok] at hs
    obtain ⟨_, _, z, hz, w, hw, rfl⟩ := hs
    simp only [Careful, iff_true]
    exact (allConsistent_put ha _ _).mpr (convert_ok (ha _ _ hz) hw).2
  | copyAssign i j =>
    simp only [Knot.step, bind_ok, pure_ok, knot_get_ok] at hs
    obtain ⟨d, _, z, hz, w, hw, rfl⟩ := hs
    simp only [Careful, iff_true]
    exact (allConsistent_put ha _ _).mpr (assign_ok (ha _ _ hz) hw).2
  | moveCtor i j =>
    simp only [Knot.step, bind_ok, pure_ok, knot_get_ok, knot_fresh_ok, Knot.moveCtor] at hs
    obtain ⟨_, hi, z, hz, r, ⟨_, _, rfl⟩, rfl⟩ := hs
    have cz := ha _ _ hz
    have hij : j ≠ i := by rintro rfl; rw [hi] at hz; cases hz
    simp only [Careful]
    have key : AllConsistent (Knot.put (Knot.put h j
          { z with x := leftByCtor z.ty.n z.x, u := leftByCtor z.ty.m z.u }) i z) ↔
        Consistent { z with x := leftByCtor z.ty.n z.x, u := leftByCtor z.ty.m z.u } := by
      constructor
      · intro H
        exact H j _ (by rw [knot_put_ne _ _ hij, knot_put_self])
      · intro H
        exact (allConsistent_put ((allConsistent_put ha _ _).mpr H) _ _).mpr cz
    rw [key]
    constructor
    · intro H w hw
      rw [hz] at hw; cases hw
      constructor
      · intro hd; have := H.n; simpa [hd, leftByCtor] using this
      · intro hd; have := H.m; simpa [hd, leftByCtor] using this
    · intro H
      obtain ⟨h1, h2⟩ := H z hz
      have e1 : leftByCtor z.ty.n z.x = z.x := by
        cases hd : z.ty.n with
        | none =>
          have h3 := h1 hd
          rw [cz.n] at h3
          have : z.x = [] := List.length_eq_zero_iff.mp (by exact_mod_cast h3)
          rw [this]; rfl
        | some k => rfl
      have e2 : leftByCtor z.ty.m z.u = z.u := by
        cases hd : z.ty.m with
        | none =>
          have h3 := h2 hd
          rw [cz.m] at h3
          have : z.u = [] := List.length_eq_zero_iff.mp (by exact_mod_cast h3)
          rw [this]; rfl
        | some k => rfl
      rw [e1, e2]; exact cz
  | moveAssign i j =>
    simp only [Knot.step, bind_ok, knot_get_ok] at hs
    obtain ⟨d, hd, z, hz, hs⟩ := hs
    have cz := ha _ _ hz
    have cd := ha _ _ hd
    by_cases hij : i = j
    · rw [if_pos hij] at hs
      rw [pure_ok] at hs; subst hs
      simp only [Careful, hij, ne_eq, not_true_eq_false, false_imp_iff, iff_true]
      exact ha
    · rw [if_neg hij] at hs
      by_cases ht : d.ty = z.ty
      · rw [if_pos ht, pure_ok] at hs
        subst hs
        have key : AllConsistent (Knot.put (Knot.put h j (Knot.moveAssign sw d z).2) i (Knot.moveAssign sw d z).1) ↔
            Consistent (Knot.moveAssign sw d z).2 := by
          constructor
          · intro H
            exact H j _ (by rw [knot_put_ne _ _ (Ne.symm hij), knot_put_self])
          · intro H
            refine (allConsistent_put ((allConsistent_put ha _ _).mpr H) _ _).mpr ?_
            exact ⟨cz.n, cz.m, ht ▸ cz.fitN, ht ▸ cz.fitM⟩
        rw [key]
        simp only [Careful]
        constructor
        · intro H _ d' z' hd' hz' _
          rw [hd] at hd'; cases hd'
          rw [hz] at hz'; cases hz'
          constructor
          · intro e
            have h1 : z.n = _ := H.n
            simp only [Knot.moveAssign, leftByAssign, e] at h1
            rw [h1, cd.n]
          · intro e
            have h1 : z.m = _ := H.m
            simp only [Knot.moveAssign, leftByAssign, e] at h1
            rw [h1, cd.m]
        · intro H
          obtain ⟨h1, h2⟩ := H hij d z hd hz ht
          have l1 : (leftByAssign sw z.ty.n d.x z.x).length = z.x.length := by
            cases e : z.ty.n with
            | none =>
              have := h1 e
              rw [cd.n, cz.n] at this
              simp only [leftByAssign]; exact_mod_cast this
            | some k =>
              have f1 := cz.fitN
              have f2 := cd.fitN
              rw [ht] at f2
              rw [e] at f1 f2
              simp only [Fits, reduceCtorEq, false_or, Option.some.injEq] at f1 f2
              unfold leftByAssign
              cases sw
              · rfl
              · exact f2.symm.trans f1
          have l2 : (leftByAssign sw z.ty.m d.u z.u).length = z.u.length := by
            cases e : z.ty.m with
            | none =>
              have := h2 e
              rw [cd.m, cz.m] at this
              simp only [leftByAssign]; exact_mod_cast this
            | some k =>
              have f1 := cz.fitM
              have f2 := cd.fitM
              rw [ht] at f2
              rw [e] at f1 f2
              simp only [Fits, reduceCtorEq, false_or, Option.some.injEq] at f1 f2
              unfold leftByAssign
              cases sw
              · rfl
              · exact f2.symm.trans f1
          refine ⟨?_, ?_, ?_, ?_⟩
          · show z.n = ((leftByAssign sw z.ty.n d.x z.x).length : ℤ); rw [l1]; exact cz.n
          · show z.m = ((leftByAssign sw z.ty.m d.u z.u).length : ℤ); rw [l2]; exact cz.m
          · show Fits z.ty.n (leftByAssign sw z.ty.n d.x z.x).length; rw [l1]; exact cz.fitN
          · show Fits z.ty.m (leftByAssign sw z.ty.m d.u z.u).length; rw [l2]; exact cz.fitM
      · rw [if_neg ht] at hs
        simp only [bind_ok, pure_ok] at hs
        obtain ⟨w, hw, rfl⟩ := hs
        constructor
        · intro _
          simp only [Careful]
          intro _ d' z' hd' hz' ht'
          rw [hd] at hd'; cases hd'
          rw [hz] at hz'; cases hz'
          exact absurd ht' ht
        · intro _
          exact (allConsistent_put ha _ _).mpr (assign_ok cz hw).2
  | setState i v =>
    simp only [Knot.step, bind_ok, pure_ok, knot_get_ok, knot_vec_ok] at hs
    obtain ⟨z, hz, _, ⟨rfl, f⟩, rfl⟩ := hs
    have cz := ha _ _ hz
    rw [allConsistent_put ha]
    simp only [Careful]
    constructor
    · intro H w hw
      rw [hz] at hw; cases hw
      exact H.n.symm
    · intro H
      exact ⟨(H z hz).symm, cz.m, f, cz.fitM⟩
  | setControl i v =>
    simp only [Knot.step, bind_ok, pure_ok, knot_get_ok, knot_vec_ok] at hs
    obtain ⟨z, hz, _, ⟨rfl, f⟩, rfl⟩ := hs
    have cz := ha _ _ hz
    rw [allConsistent_put ha]
    simp only [Careful]
    constructor
    · intro H w hw
      rw [hz] at hw; cases hw
      exact H.m.symm
    · intro H
      exact ⟨cz.n, (H z hz).symm, cz.fitN, f⟩
  | setTime i t =>
    simp only [Knot.step, bind_ok, pure_ok, knot_get_ok] at hs
    obtain ⟨z, hz, rfl⟩ := hs
    simp only [Careful, iff_true]
    obtain ⟨c1, c2, c3, c4⟩ := ha _ _ hz
    exact (allConsistent_put ha _ _).mpr ⟨c1, c2, c3, c4⟩
  | setStep i t =>
    simp only [Knot.step, bind_ok, pure_ok, knot_get_ok] at hs
    obtain ⟨z, hz, rfl⟩ := hs
    simp only [Careful, iff_true]
    obtain ⟨c1, c2, c3, c4⟩ := ha _ _ hz
    exact (allConsistent_put ha _ _).mpr ⟨c1, c2, c3, c4⟩
  | setTerminal i =>
    simp only [Knot.step, bind_ok, pure_ok, knot_get_ok] at hs
    obtain ⟨z, hz, rfl⟩ := hs
    simp only [Careful, iff_true]
    obtain ⟨c1, c2, c3, c4⟩ := ha _ _ hz
    refine (allConsistent_put ha _ _).mpr ⟨c1, ?_, c3, ?_⟩
    · simpa [Knot.setTerminal] using c2
    · simpa [Knot.setTerminal] using c4

/-- **C76 (partial), every history.**  After a history of careful operations all knot points have the dimensions of
their vectors.  Missing for the full claim: operations that are not careful, which `C76_step` shows to break it
(`C76_moved_counterexample`, `C76_resized_counterexample`). -/
theorem C76_history_partial (sw : Bool) (l : List (Knot.Op T)) (h h' : Knot.Heap T) (ha : AllConsistent h)
    (hc : CarefulRun sw h l) (hr : Knot.run sw h l = .ok h') : AllConsistent h' := by
  induction l generalizing h with
  | nil => simp only [Knot.run, Except.ok.injEq] at hr; exact hr ▸ ha
  | cons op l ih =>
    simp only [Knot.run, bind_ok] at hr
    obtain ⟨h1, hs, hr⟩ := hr
    exact ih h1 ((C76_step sw ha op hs).mpr hc.1) (hc.2 h1 hs) hr

/-- Both sizes are fixed at compile time. -/
def FixedTy (ty : Ty) : Prop := ty.n ≠ none ∧ ty.m ≠ none

/-- The operation makes no object with a dynamic size. -/
def OnlyFixed : Knot.Op T → Prop
  | .ofVectors _ ty _ _ _ _ => FixedTy ty
  | .ofSizes _ ty _ _ => FixedTy ty
  | .convert _ ty _ => FixedTy ty
  | _ => True

theorem fixed_put {h : Knot.Heap T} (ha : ∀ i z, h i = some z → FixedTy z.ty) (i : ℕ) {z : Kp T} {ty : Ty} (hz : FixedTy ty)
    (e : z.ty = ty) : ∀ k w, Knot.put h i z k = some w → FixedTy w.ty := by
  intro k w hw
  by_cases hk : k = i
  · subst hk; rw [knot_put_self] at hw; cases hw; exact e ▸ hz
  · rw [knot_put_ne h z hk] at hw; exact ha k w hw

theorem fixed_step (sw : Bool) {h h' : Knot.Heap T} (hc : AllConsistent h) (ha : ∀ i z, h i = some z → FixedTy z.ty)
    (op : Knot.Op T) (ho : OnlyFixed op) (hs : Knot.step sw h op = .ok h') : ∀ i z, h' i = some z → FixedTy z.ty := by
  cases op with
  | ofVectors i ty x u t s =>
    simp only [Knot.step, bind_ok, pure_ok] at hs
    obtain ⟨_, _, z, hz, rfl⟩ := hs
    exact fixed_put ha i ho (by rw [(ofVectors_ok hz).1])
  | ofSizes i ty a b =>
    simp only [Knot.step, bind_ok, pure_ok] at hs
    obtain ⟨_, _, z, hz, rfl⟩ := hs
    exact fixed_put ha i ho (by rw [(ofSizes_ok hz).1])
  | convert i ty j =>
    simp only [Knot.step, bind_ok, pure_ok, knot_get_ok] at hs
    obtain ⟨_, _, z, hz, w, hw, rfl⟩ := hs
    exact fixed_put ha i ho (by rw [(convert_ok (hc _ _ hz) hw).1])
  | copyAssign i j =>
    simp only [Knot.step, bind_ok, pure_ok, knot_get_ok] at hs
    obtain ⟨d, hd, z, hz, w, hw, rfl⟩ := hs
    exact fixed_put ha i (ha _ _ hd) (by rw [(assign_ok (hc _ _ hz) hw).1])
  | moveCtor i j =>
    simp only [Knot.step, bind_ok, pure_ok, knot_get_ok, knot_fresh_ok, Knot.moveCtor] at hs
    obtain ⟨_, hi, z, hz, r, ⟨_, _, rfl⟩, rfl⟩ := hs
    exact fixed_put (fixed_put ha j (z := { z with x := leftByCtor z.ty.n z.x, u := leftByCtor z.ty.m z.u })
      (ha _ _ hz) rfl) i (ha _ _ hz) rfl
  | moveAssign i j =>
    simp only [Knot.step, bind_ok, knot_get_ok] at hs
    obtain ⟨d, hd, z, hz, hs⟩ := hs
    by_cases hij : i = j
    · rw [if_pos hij, pure_ok] at hs
      subst hs; exact ha
    · rw [if_neg hij] at hs
      by_cases ht : d.ty = z.ty
      · rw [if_pos ht, pure_ok] at hs
        subst hs
        exact fixed_put (fixed_put ha j (z := (Knot.moveAssign sw d z).2) (ha _ _ hz) rfl) i
          (z := (Knot.moveAssign sw d z).1) (ha _ _ hd) rfl
      · rw [if_neg ht] at hs
        simp only [bind_ok, pure_ok] at hs
        obtain ⟨w, hw, rfl⟩ := hs
        exact fixed_put ha i (ha _ _ hd) (by rw [(assign_ok (hc _ _ hz) hw).1])
  | setState i v =>
    simp only [Knot.step, bind_ok, pure_ok, knot_get_ok] at hs
    obtain ⟨z, hz, _, _, rfl⟩ := hs
    exact fixed_put ha i (ha _ _ hz) rfl
  | setControl i v =>
    simp only [Knot.step, bind_ok, pure_ok, knot_get_ok] at hs
    obtain ⟨z, hz, _, _, rfl⟩ := hs
    exact fixed_put ha i (ha _ _ hz) rfl
  | setTime i t =>
    simp only [Knot.step, bind_ok, pure_ok, knot_get_ok] at hs
    obtain ⟨z, hz, rfl⟩ := hs
    exact fixed_put ha i (ha _ _ hz) rfl
  | setStep i t =>
    simp only [Knot.step, bind_ok, pure_ok, knot_get_ok] at hs
    obtain ⟨z, hz, rfl⟩ := hs
    exact fixed_put ha i (ha _ _ hz) rfl
  | setTerminal i =>
    simp only [Knot.step, bind_ok, pure_ok, knot_get_ok] at hs
    obtain ⟨z, hz, rfl⟩ := hs
    exact fixed_put ha i (ha _ _ hz) rfl

theorem careful_of_fixed (sw : Bool) {h h' : Knot.Heap T} (hc : AllConsistent h)
    (ha : ∀ i z, h i = some z → FixedTy z.ty) (op : Knot.Op T) (hs : Knot.step sw h op = .ok h') : Careful h op := by
  cases op with
  | setState i v =>
    simp only [Knot.step, bind_ok, pure_ok, knot_get_ok, knot_vec_ok] at hs
    obtain ⟨z, hz, _, ⟨rfl, f⟩, rfl⟩ := hs
    intro w hw
    rw [hz] at hw; cases hw
    have f1 := (hc _ _ hz).fitN
    obtain ⟨k, hk⟩ := Option.ne_none_iff_exists'.mp (ha _ _ hz).1
    rw [hk] at f f1
    simp only [Fits, reduceCtorEq, false_or, Option.some.injEq] at f f1
    rw [(hc _ _ hz).n, ← f1, ← f]
  | setControl i v =>
    simp only [Knot.step, bind_ok, pure_ok, knot_get_ok, knot_vec_ok] at hs
    obtain ⟨z, hz, _, ⟨rfl, f⟩, rfl⟩ := hs
    intro w hw
    rw [hz] at hw; cases hw
    have f1 := (hc _ _ hz).fitM
    obtain ⟨k, hk⟩ := Option.ne_none_iff_exists'.mp (ha _ _ hz).2
    rw [hk] at f f1
    simp only [Fits, reduceCtorEq, false_or, Option.some.injEq] at f f1
    rw [(hc _ _ hz).m, ← f1, ← f]
  | moveCtor i j =>
    intro z hz
    exact ⟨fun e => absurd e (ha _ _ hz).1, fun e => absurd e (ha _ _ hz).2⟩
  | moveAssign i j =>
    intro _ d z _ hz _
    exact ⟨fun e => absurd e (ha _ _ hz).1, fun e => absurd e (ha _ _ hz).2⟩
  | _ => trivial

/-- **C76 for sizes fixed at compile time.**  If all sizes are template constants the dimensions are right after every
history that raises no assertion, whatever is assigned or moved. -/
theorem C76_fixed (sw : Bool) (l : List (Knot.Op T)) (h h' : Knot.Heap T) (hc : AllConsistent h)
    (ha : ∀ i z, h i = some z → FixedTy z.ty) (ho : ∀ op ∈ l, OnlyFixed op) (hr : Knot.run sw h l = .ok h') :
    AllConsistent h' := by
  induction l generalizing h with
  | nil => simp only [Knot.run, Except.ok.injEq] at hr; exact hr ▸ hc
  | cons op l ih =>
    simp only [Knot.run, bind_ok] at hr
    obtain ⟨h1, hs, hr⟩ := hr
    exact ih h1 ((C76_step sw hc op hs).mpr (careful_of_fixed sw hc ha op hs))
      (fixed_step sw hc ha op (ho op (by simp)) hs) (fun o h2 => ho o (by simp [h2])) hr

/-- The dimensions a template parameter accepts. -/
def Accepts (c : Option ℕ) (d : ℤ) : Prop := ∀ k, c = some k → (k : ℤ) = d

/-- **C76, conversion.**  Making a knot point of another type from a knot point that has the dimensions of its vectors
succeeds if and only if the new type accepts the dimensions; the new object then has the same contents. -/
theorem C76_convert (ty : Ty) {z : Kp T} (hz : Consistent z) :
    (Knot.convert ty z = .ok { z with ty := ty } ↔ Accepts ty.n z.n ∧ Accepts ty.m z.m) ∧
    (¬ (Accepts ty.n z.n ∧ Accepts ty.m z.m) → Knot.convert ty z = .error .assertion) := by
  obtain ⟨⟨tn, tm⟩, n, m, x, u, t, s⟩ := z
  obtain ⟨hn, hm, -, -⟩ := hz
  simp only at hn hm
  subst hn hm
  obtain ⟨a, b⟩ := ty
  have A : ∀ (c : Option ℕ) (v : List T), (Accepts c v.length ∧ Knot.checkSize c v.length = .ok () ∧ Knot.vec c v = .ok v) ∨
      (¬ Accepts c v.length ∧ (Knot.checkSize c v.length = .error .assertion ∨
        (Knot.checkSize c v.length = .ok () ∧ Knot.vec c v = .error .assertion))) := by
    intro c v
    cases c with
    | none => left; exact ⟨fun k h => (by cases h), rfl, rfl⟩
    | some k =>
      by_cases hk : v.length = k
      · left
        refine ⟨fun j hj => (by cases hj; rw [hk]), ?_, ?_⟩
        · unfold Knot.checkSize; simp [hk, assertThat, pure, Except.pure]
        · unfold Knot.vec; simp [hk, assertThat, bind, Except.bind, pure, Except.pure]
      · right
        refine ⟨fun H => hk (by exact_mod_cast (H k rfl).symm), ?_⟩
        have hk' : ¬ (k : ℤ) = v.length := fun e => hk (by exact_mod_cast e.symm)
        by_cases h0 : 0 < k
        · left; unfold Knot.checkSize; simp [h0, hk', assertThat]
        · right
          constructor
          · unfold Knot.checkSize; simp [h0, pure, Except.pure]
          · unfold Knot.vec; simp [hk, assertThat, bind, Except.bind]
  rcases A a x with ⟨p1, p2, p3⟩ | ⟨p1, p2⟩ <;> rcases A b u with ⟨q1, q2, q3⟩ | ⟨q1, q2⟩
  · refine ⟨⟨fun _ => ⟨p1, q1⟩, fun _ => ?_⟩, fun H => absurd ⟨p1, q1⟩ H⟩
    simp [Knot.convert, Knot.sized, p2, p3, q2, q3, bind, Except.bind, pure, Except.pure]
  · have E : Knot.convert ⟨a, b⟩ (⟨⟨tn, tm⟩, x.length, u.length, x, u, t, s⟩ : Kp T) = .error .assertion := by
      rcases q2 with q2 | ⟨q2, q3⟩
      · simp [Knot.convert, Knot.sized, p2, q2, bind, Except.bind]
      · simp [Knot.convert, Knot.sized, p2, p3, q2, q3, bind, Except.bind]
    exact ⟨⟨fun H => (by rw [E] at H; cases H), fun H => absurd H.2 q1⟩, fun _ => E⟩
  · have E : Knot.convert ⟨a, b⟩ (⟨⟨tn, tm⟩, x.length, u.length, x, u, t, s⟩ : Kp T) = .error .assertion := by
      rcases p2 with p2 | ⟨p2, p3⟩
      · simp [Knot.convert, Knot.sized, p2, bind, Except.bind]
      · simp [Knot.convert, Knot.sized, p2, p3, q2, bind, Except.bind]
    exact ⟨⟨fun H => (by rw [E] at H; cases H), fun H => absurd H.1 p1⟩, fun _ => E⟩
  · have E : Knot.convert ⟨a, b⟩ (⟨⟨tn, tm⟩, x.length, u.length, x, u, t, s⟩ : Kp T) = .error .assertion := by
      rcases p2 with p2 | ⟨p2, p3⟩
      · simp [Knot.convert, Knot.sized, p2, bind, Except.bind]
      · rcases q2 with q2 | ⟨q2, q3⟩
        · simp [Knot.convert, Knot.sized, p2, q2, bind, Except.bind]
        · simp [Knot.convert, Knot.sized, p2, p3, q2, bind, Except.bind]
    exact ⟨⟨fun H => (by rw [E] at H; cases H), fun H => absurd H.1 p1⟩, fun _ => E⟩

/-- The contents of a knot point, without its type. -/
def contents (z : Kp T) : ℤ × ℤ × List T × List T × T × T := (z.n, z.m, z.x, z.u, z.t, z.h)

/-- **C76, copies and moves.**  The object that receives a copy or a moved knot point has the contents the source had;
objects that are neither the source nor the target keep theirs, and a copy does not touch the source. -/
theorem C76_receives (sw : Bool) {h h' : Knot.Heap T} (ha : AllConsistent h) (i j : ℕ) (op : Knot.Op T)
    (hop : (∃ ty, op = .convert i ty j) ∨ op = .copyAssign i j ∨ op = .moveCtor i j ∨ op = .moveAssign i j)
    (hs : Knot.step sw h op = .ok h') :
    (∃ z w, h j = some z ∧ h' i = some w ∧ contents w = contents z) ∧
    (∀ k, k ≠ i → k ≠ j → h' k = h k) ∧
    (i ≠ j → (∃ ty, op = .convert i ty j) ∨ op = .copyAssign i j → h' j = h j) := by
  rcases hop with ⟨ty, rfl⟩ | rfl | rfl | rfl
  · simp only [Knot.step, bind_ok, pure_ok, knot_get_ok] at hs
    obtain ⟨_, _, z, hz, w, hw, rfl⟩ := hs
    refine ⟨⟨z, w, hz, knot_put_self _ _ _, ?_⟩, fun k h1 _ => knot_put_ne _ _ h1, fun h1 _ => knot_put_ne _ _ h1.symm⟩
    rw [(convert_ok (ha _ _ hz) hw).1]; rfl
  · simp only [Knot.step, bind_ok, pure_ok, knot_get_ok] at hs
    obtain ⟨d, _, z, hz, w, hw, rfl⟩ := hs
    refine ⟨⟨z, w, hz, knot_put_self _ _ _, ?_⟩, fun k h1 _ => knot_put_ne _ _ h1, fun h1 _ => knot_put_ne _ _ h1.symm⟩
    rw [(assign_ok (ha _ _ hz) hw).1]; rfl
  · simp only [Knot.step, bind_ok, pure_ok, knot_get_ok, knot_fresh_ok, Knot.moveCtor] at hs
    obtain ⟨_, hi, z, hz, r, ⟨_, _, rfl⟩, rfl⟩ := hs
    refine ⟨⟨z, z, hz, knot_put_self _ _ _, rfl⟩, fun k h1 h2 => ?_, fun _ H => ?_⟩
    · rw [knot_put_ne _ _ h1, knot_put_ne _ _ h2]
    · rcases H with ⟨_, H⟩ | H <;> cases H
  · simp only [Knot.step, bind_ok, knot_get_ok] at hs
    obtain ⟨d, hd, z, hz, hs⟩ := hs
    have no : i ≠ j → ((∃ ty, Knot.Op.moveAssign (T := T) i j = .convert i ty j) ∨
        Knot.Op.moveAssign (T := T) i j = .copyAssign i j) → h' j = h j := by
      rintro _ (⟨_, H⟩ | H) <;> cases H
    by_cases hij : i = j
    · rw [if_pos hij, pure_ok] at hs
      subst hs hij
      exact ⟨⟨z, z, hz, hz, rfl⟩, fun k _ _ => rfl, no⟩
    · rw [if_neg hij] at hs
      by_cases ht : d.ty = z.ty
      · rw [if_pos ht, pure_ok] at hs
        subst hs
        refine ⟨⟨z, _, hz, knot_put_self _ _ _, rfl⟩, fun k h1 h2 => ?_, no⟩
        rw [knot_put_ne _ _ h1, knot_put_ne _ _ h2]
      · rw [if_neg ht] at hs
        simp only [bind_ok, pure_ok] at hs
        obtain ⟨w, hw, rfl⟩ := hs
        refine ⟨⟨z, w, hz, knot_put_self _ _ _, ?_⟩, fun k h1 _ => knot_put_ne _ _ h1, no⟩
        rw [(assign_ok (ha _ _ hz) hw).1]; rfl

/-- **C76, setters.**  Each setter changes its own field of one object to the value it is given, and nothing else. -/
theorem C76_set (sw : Bool) (h : Knot.Heap T) {i : ℕ} {z : Kp T} (hz : h i = some z) :
    (∀ t, Knot.step sw h (.setTime i t) = .ok (Function.update h i (some { z with t := t }))) ∧
    (∀ s, Knot.step sw h (.setStep i s) = .ok (Function.update h i (some { z with h := s }))) ∧
    (∀ v, Fits z.ty.n v.length → Knot.step sw h (.setState i v) = .ok (Function.update h i (some { z with x := v }))) ∧
    (∀ v, Fits z.ty.m v.length → Knot.step sw h (.setControl i v) = .ok (Function.update h i (some { z with u := v }))) := by
  have hp : ∀ w : Kp T, Knot.put h i w = Function.update h i (some w) := fun w => by
    funext k; by_cases hk : k = i <;> simp [Knot.put, Function.update, hk]
  have hg : Knot.get h i = .ok z := knot_get_ok.mpr hz
  refine ⟨fun t => ?_, fun s => ?_, fun v hv => ?_, fun v hv => ?_⟩
  · simp only [Knot.step, hg, bind, Except.bind, pure, Except.pure, hp]
  · simp only [Knot.step, hg, bind, Except.bind, pure, Except.pure, hp]
  · have e : Knot.vec z.ty.n v = .ok v := knot_vec_ok.mpr ⟨rfl, hv⟩
    simp only [Knot.step, hg, bind, Except.bind, pure, Except.pure, hp, e]
  · have e : Knot.vec z.ty.m v = .ok v := knot_vec_ok.mpr ⟨rfl, hv⟩
    simp only [Knot.step, hg, bind, Except.bind, pure, Except.pure, hp, e]

/-- **C76, terminal knot points.**  `SetTerminal` makes a knot point terminal, sets every control to zero and changes
neither the dimensions nor the state nor the time; a knot point is terminal exactly when its step is zero. -/
theorem C76_terminal (z : Kp T) :
    Knot.isTerminal (Knot.setTerminal z) = true ∧ (∀ v ∈ (Knot.setTerminal z).u, v = 0) ∧
    (Knot.setTerminal z).u.length = z.u.length ∧ (Knot.setTerminal z).x = z.x ∧ (Knot.setTerminal z).t = z.t ∧
    (Knot.setTerminal z).n = z.n ∧ (Knot.setTerminal z).m = z.m ∧ (Knot.isTerminal z = true ↔ z.h = 0) := by
  refine ⟨by simp [Knot.isTerminal, Knot.setTerminal], ?_, by simp [Knot.setTerminal], rfl, rfl, rfl, rfl,
    by simp [Knot.isTerminal]⟩
  intro v hv
  simp only [Knot.setTerminal, List.mem_map] at hv
  obtain ⟨_, _, rfl⟩ := hv
  rfl

omit [Zero T] [DecidableEq T] in
/-- **C76, printing.**  Printing a knot point that has the dimensions of its vectors succeeds and shows all states, all
controls, the time and the step. -/
theorem C76_printed {z : Kp T} (hz : Consistent z) : Knot.printed z = .ok (z.x, z.u, z.t, z.h) := by
  simp [Knot.printed, Knot.entries, hz.n, hz.m, assertThat, bind, Except.bind, pure, Except.pure]

omit [Zero T] [DecidableEq T] in
/-- **C76, the combined vector.**  For sizes fixed at compile time `GetStateControl` is the state followed by the
control; if a size is dynamic it fails for every knot point that is not empty. -/
theorem C76_state_control {z : Kp T} (hz : Consistent z) :
    (FixedTy z.ty → Knot.getStateControl z = .ok (z.x ++ z.u)) ∧
    (¬ FixedTy z.ty → z.x ++ z.u ≠ [] → Knot.getStateControl z = .error .assertion) := by
  obtain ⟨⟨tn, tm⟩, n, m, x, u, t, s⟩ := z
  obtain ⟨-, -, f1, f2⟩ := hz
  simp only [Fits] at f1 f2
  constructor
  · rintro ⟨h1, h2⟩
    simp only at h1 h2
    obtain h3 := f1.resolve_left h1
    obtain h4 := f2.resolve_left h2
    subst h3 h4
    simp [Knot.getStateControl, assertThat, bind, Except.bind, pure, Except.pure]
  · intro h1 h2
    have h3 : ¬ (x.length = 0 ∧ u.length = 0) := by
      rintro ⟨a, b⟩
      exact h2 (by simp [List.length_eq_zero_iff.mp a, List.length_eq_zero_iff.mp b])
    cases tn with
    | none => simp [Knot.getStateControl, assertThat, bind, Except.bind, ← List.length_eq_zero_iff, h3]
    | some a =>
      cases tm with
      | none => simp [Knot.getStateControl, assertThat, bind, Except.bind, ← List.length_eq_zero_iff, h3]
      | some b => exact absurd ⟨by simp, by simp⟩ h1

/-! ## Concrete cases -/

def dyn : Ty := ⟨none, none⟩
def fix21 : Ty := ⟨some 2, some 1⟩

/-- Two knot points are made, one of each kind; the fixed one is assigned to the dynamic one; its control is set. -/
def knotOps : List (Knot.Op ℤ) :=
  [.ofVectors 0 fix21 [3, 4] [5] 7 1, .ofSizes 1 dyn 3 2, .copyAssign 1 0, .setControl 1 [9], .setTerminal 0]

/-- The run succeeds, so `C76_history_partial` is about something. -/
example : (Knot.run false Knot.empty knotOps).map (fun h => (h 0, h 1)) =
    .ok (some ⟨fix21, 2, 1, [3, 4], [0], 7, 0⟩, some ⟨dyn, 2, 1, [3, 4], [9], 7, 1⟩) := by decide +kernel

/-- `C76_set` in a run. -/
example : (Knot.run false Knot.empty (knotOps ++ [.setTime 1 8, .setStep 1 2, .setState 0 [6, 6]])).map (fun h => (h 0, h 1)) =
    .ok (some ⟨fix21, 2, 1, [6, 6], [0], 7, 0⟩, some ⟨dyn, 2, 1, [3, 4], [9], 8, 2⟩) := by decide +kernel

example : CarefulRun false Knot.empty knotOps := by
  refine ⟨trivial, fun h1 e1 => ⟨trivial, fun h2 e2 => ⟨trivial, fun h3 e3 => ⟨?_, fun h4 _ => ⟨trivial, fun _ _ => trivial⟩⟩⟩⟩⟩
  have e : Knot.run false Knot.empty [.ofVectors 0 fix21 [3, 4] [5] 7 1, .ofSizes 1 dyn 3 2, .copyAssign 1 0] =
      (.ok h3 : Except Err (Knot.Heap ℤ)) := by
    simp only [Knot.run, e1, e2, e3, bind, Except.bind]
  have e' : (Knot.run false Knot.empty
      [.ofVectors 0 fix21 [3, 4] [5] 7 1, .ofSizes 1 dyn 3 2, .copyAssign 1 (0 : ℕ)]).map (fun h => h 1) =
      .ok (some (⟨dyn, 2, 1, [3, 4], [5], 7, 1⟩ : Kp ℤ)) := by decide +kernel
  rw [e] at e'
  simp only [Except.map, Except.ok.injEq] at e'
  intro z hz
  rw [e'] at hz
  cases hz
  rfl

/-- A knot point of type `<2,1>` cannot be made from one with three states. -/
example : Knot.convert fix21 (⟨dyn, 3, 1, [1, 2, 3], [4], 0, 0⟩ : Kp ℤ) = .error .assertion := by decide +kernel

example : Knot.convert fix21 (⟨dyn, 2, 1, [1, 2], [4], 0, 0⟩ : Kp ℤ) = .ok ⟨fix21, 2, 1, [1, 2], [4], 0, 0⟩ := by
  decide +kernel

/-- **Counterexample to C76: a moved-from knot point.**  The source of a move still says it has two states and one
control, has none, and cannot be printed. -/
theorem C76_moved_counterexample (sw : Bool) :
    ∃ z, (Knot.run sw Knot.empty [.ofVectors 0 dyn [3, 4] [5] 7 1, .moveCtor 1 (0 : ℕ)]).map (fun h => h 0) =
      .ok (some (z : Kp ℤ)) ∧ z.n = 2 ∧ z.m = 1 ∧ z.x = [] ∧ z.u = [] ∧ ¬ Consistent z ∧
      Knot.printed z = .error .assertion := by
  refine ⟨⟨dyn, 2, 1, [], [], 7, 1⟩, by cases sw <;> decide +kernel, rfl, rfl, rfl, rfl, fun h => ?_, by decide +kernel⟩
  exact absurd h.n (by decide)

/-- **Counterexample to C76: move assignment.**  Move-assigning between knot points of different dimensions leaves the
source with the old vectors of the target and its own dimensions. -/
theorem C76_exchanged_counterexample (sw : Bool) :
    ∃ z, (Knot.run sw Knot.empty [.ofVectors 0 dyn [3, 4] [5] 7 1, .ofSizes 1 dyn 3 0, .moveAssign 1 (0 : ℕ)]).map
      (fun h => h 0) = .ok (some (z : Kp ℤ)) ∧ z.n = 2 ∧ z.m = 1 ∧ z.x.length = 3 ∧ z.u.length = 0 ∧
      ¬ Consistent z := by
  refine ⟨⟨dyn, 2, 1, [0, 0, 0], [], 7, 1⟩, by cases sw <;> decide +kernel, rfl, rfl, rfl, rfl, fun h => ?_⟩
  exact absurd h.n (by decide)

/-- **Counterexample to C76: assigning to `State()`.**  The vector changes its length, the dimension does not; printing
shows only some of the states. -/
theorem C76_resized_counterexample (sw : Bool) :
    ∃ z, (Knot.run sw Knot.empty [.ofVectors 0 dyn [3, 4] [5] 7 1, .setState 0 [1, 2, 3]]).map (fun h => h 0) =
      .ok (some (z : Kp ℤ)) ∧ z.n = 2 ∧ z.x.length = 3 ∧ ¬ Consistent z ∧
      Knot.printed z = .ok ([1, 2], [5], 7, 1) := by
  refine ⟨⟨dyn, 2, 1, [1, 2, 3], [5], 7, 1⟩, by cases sw <;> decide +kernel, rfl, rfl, fun h => ?_, by decide +kernel⟩
  exact absurd h.n (by decide)

/-- `GetStateControl` of an ordinary knot point of dynamic size fails. -/
theorem C76_state_control_counterexample :
    Consistent (⟨dyn, 2, 1, [3, 4], [5], 7, 1⟩ : Kp ℤ) ∧
    Knot.getStateControl (⟨dyn, 2, 1, [3, 4], [5], 7, 1⟩ : Kp ℤ) = .error .assertion :=
  ⟨⟨rfl, rfl, Or.inl rfl, Or.inl rfl⟩, by decide +kernel⟩

example : Knot.getStateControl (⟨fix21, 2, 1, [3, 4], [5], 7, 1⟩ : Kp ℤ) = .ok [3, 4, 5] := by decide +kernel

/-! ## Random knot points -/

theorem uniformRandom_bounds (upper : ℚ) (hu : 0 < upper) (resolution r : ℕ) (hr : 0 < resolution) :
    0 ≤ Knot.uniformRandom upper resolution r ∧ Knot.uniformRandom upper resolution r < upper ∧
    (Knot.uniformRandom upper resolution r = 0 ↔ resolution ∣ r) := by
  unfold Knot.uniformRandom
  have h0 : (0 : ℚ) < resolution := by exact_mod_cast hr
  have h1 : ((r % resolution : ℕ) : ℚ) < resolution := by exact_mod_cast Nat.mod_lt r hr
  refine ⟨by positivity, ?_, ?_⟩
  · rw [div_lt_iff₀ h0]; exact mul_lt_mul_of_pos_left h1 hu
  · rw [div_eq_zero_iff, mul_eq_zero]
    simp only [hu.ne', h0.ne', false_or, or_false, Nat.cast_eq_zero]
    exact (Nat.dvd_iff_mod_eq_zero).symm

/-- **C76, random knot points.**  `Random(state_dim, control_dim)` succeeds exactly for dimensions that are not negative
and agree with those fixed at compile time; the knot point has these dimensions, the random entries in order, a time in
`[0, 10)` and a step in `[0, 1)`.  The step is zero, and the knot point a terminal one, if the random number is a multiple
of 100.  `Random()` is the same with the template parameters, which must be positive. -/
theorem C76_random (ty : Ty) (a b : ℤ) (fx fu : ℕ → ℚ) (r1 r2 : ℕ) :
    ((∃ z, Knot.random ty a b fx fu r1 r2 = .ok z) ↔
      0 ≤ a ∧ 0 ≤ b ∧ (ty.n = none ∨ ty.n = some a.toNat) ∧ (ty.m = none ∨ ty.m = some b.toNat)) ∧
    (∀ z, Knot.random ty a b fx fu r1 r2 = .ok z → Consistent z ∧ z.n = a ∧ z.m = b ∧
      (∀ i < a.toNat, z.x[i]? = some (fx i)) ∧ (∀ i < b.toNat, z.u[i]? = some (fu i)) ∧
      0 ≤ z.t ∧ z.t < 10 ∧ 0 ≤ z.h ∧ z.h < 1 ∧ (Knot.isTerminal z = true ↔ 100 ∣ r2)) ∧
    (∀ z, Knot.randomFixed ty fx fu r1 r2 = .ok z ↔ ∃ n m : ℕ, ty = ⟨some n, some m⟩ ∧ 0 < n ∧ 0 < m ∧
      Knot.random ty n m fx fu r1 r2 = .ok z) := by
  have hok : ∀ z, Knot.random ty a b fx fu r1 r2 = .ok z ↔
      (0 ≤ a ∧ 0 ≤ b ∧ Fits ty.n a.toNat ∧ Fits ty.m b.toNat) ∧
      z = ⟨ty, a.toNat, b.toNat, (List.range a.toNat).map fx, (List.range b.toNat).map fu,
        Knot.uniformRandom 10 100 r1, Knot.uniformRandom 1 100 r2⟩ := by
    intro z
    have hsize : ∀ (c : Option ℕ) (k : ℕ) (u : Unit), Fits c k → Knot.checkSize c (k : ℤ) = .ok u := by
      intro c k u hc
      rcases hc with rfl | rfl
      · rfl
      · by_cases hk : 0 < k <;> simp [Knot.checkSize, assertThat, hk, pure, Except.pure]
    constructor
    · intro h
      simp only [Knot.random, Knot.randoms, Knot.ofVectors, Knot.sized, bind_ok, pure_ok, assertThat_ok, knot_vec_ok,
        decide_eq_true_eq, List.length_map, List.length_range] at h
      obtain ⟨x, ⟨_, ha, rfl, h1⟩, u, ⟨_, hb, rfl, h2⟩, _, _, x', ⟨rfl, -⟩, u', ⟨rfl, -⟩, rfl⟩ := h
      simp [ha, hb, h1, h2]
    · rintro ⟨⟨ha, hb, h1, h2⟩, rfl⟩
      simp only [Knot.random, Knot.randoms, Knot.ofVectors, Knot.sized, bind_ok, pure_ok, assertThat_ok, knot_vec_ok,
        decide_eq_true_eq, List.length_map, List.length_range]
      refine ⟨_, ⟨(), ha, rfl, by simpa using h1⟩, _, ⟨(), hb, rfl, by simpa using h2⟩, (), ⟨(), ?_, ?_⟩, _, ⟨rfl, by simpa using h1⟩, _, ⟨rfl, by simpa using h2⟩, ?_⟩
      · simpa using hsize ty.n a.toNat () h1
      · simpa using hsize ty.m b.toNat () h2
      · simp
  refine ⟨⟨fun ⟨z, hz⟩ => ((hok z).mp hz).1, fun h => ⟨_, (hok _).mpr ⟨h, rfl⟩⟩⟩, fun z hz => ?_, fun z => ?_⟩
  · obtain ⟨⟨ha, hb, h1, h2⟩, rfl⟩ := (hok z).mp hz
    have t := uniformRandom_bounds 10 (by norm_num) 100 r1 (by norm_num)
    have s := uniformRandom_bounds 1 (by norm_num) 100 r2 (by norm_num)
    refine ⟨⟨by simp, by simp, by simpa using h1, by simpa using h2⟩, by simpa using ha, by simpa using hb, fun i hi => ?_,
      fun i hi => ?_, t.1, t.2.1, s.1, s.2.1, ?_⟩
    · simp [hi]
    · simp [hi]
    · simp only [Knot.isTerminal, decide_eq_true_eq]; exact s.2.2
  · obtain ⟨tn, tm⟩ := ty
    cases tn with
    | none => simp [Knot.randomFixed]
    | some n =>
      cases tm with
      | none => simp [Knot.randomFixed]
      | some m =>
        simp only [Knot.randomFixed, bind_ok, assertThat_ok, Bool.and_eq_true, decide_eq_true_eq, Ty.mk.injEq,
          Option.some.injEq]
        constructor
        · rintro ⟨_, ⟨h1, h2⟩, h3⟩; exact ⟨n, m, ⟨rfl, rfl⟩, h1, h2, h3⟩
        · rintro ⟨n', m', ⟨rfl, rfl⟩, h1, h2, h3⟩; exact ⟨(), ⟨h1, h2⟩, h3⟩

example : Knot.random ⟨some 2, none⟩ 2 1 (fun i => i / 2) (fun _ => -1) 325 217 =
    .ok ⟨⟨some 2, none⟩, 2, 1, [0, 1 / 2], [-1], 5 / 2, 17 / 100⟩ := by decide +kernel

/-- A random knot point may be a terminal one. -/
example : (Knot.random ⟨some 2, none⟩ 2 1 (fun i => i / 2) (fun _ => -1) 325 300).map Knot.isTerminal = .ok true := by
  decide +kernel

end Altro.Props
