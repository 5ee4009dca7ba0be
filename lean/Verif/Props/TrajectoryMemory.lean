import Verif.Proofs.TrajectoryMemory

/-!
# C95: trajectory objects behave like values
-/

namespace Altro.Props
open Altro.TrajMem Altro.Spec.TrajVal

variable {X U K : Type} [Zero X] [Zero U] [Field K] [LinearOrder K] (R : Rounding K)

omit [Zero X] [Zero U] in
theorem atIndex_spec (k : ℤ) (f : KnotPt X U K → KnotPt X U K) (l : List (KnotPt X U K)) :
    atIndex k f l = changeAt k f l := by
  unfold atIndex changeAt
  rcases vread_ok l k with ⟨z, h1, h2, h3⟩ | ⟨h1, h2⟩
  · rw [h1, if_pos h3]
    show Except.ok (l.set k.toNat (f z)) = _
    rw [modify_set l _ f z h2]
  · rw [h1, if_neg h2]; rfl

omit [Zero X] [Zero U] in
theorem atIndex_nil (k : ℤ) (f : KnotPt X U K → KnotPt X U K) (l : List (KnotPt X U K)) (h : atIndex k f [] = .ok l) :
    l = [] := by
  rw [atIndex_spec] at h
  unfold changeAt at h
  split at h
  · next h' => simp at h'; omega
  · simp at h

omit [Zero X] [Zero U] in
theorem uniform_spec (h : K) (l : List (KnotPt X U K)) :
    uniform R h l = if l = [] then .error .undefined else .ok (Traj.setUniformStep R h l) := by
  unfold uniform
  rcases vread_ok l ((l.length : ℤ) - 1) with ⟨z, h1, -, h3⟩ | ⟨h1, h2⟩
  · rw [h1, if_neg (by rintro rfl; simp at h3)]; rfl
  · rw [h1, if_pos (by rcases l with _ | ⟨a, l⟩ <;> [rfl; exact absurd (by simp) h2])]; rfl

theorem both_step {s : Mem (KnotPt X U K)} {v : Vals (KnotPt X U K)} (h : Rel s v) (op : Op X U K) :
    Both (TrajMem.step R s op) (Spec.TrajVal.step R v op) := by
  cases op with
  | ofCount i N z =>
    simp only [TrajMem.step, Spec.TrajVal.step]
    have e : s.ofCount i N z = s.ofElems i (if N < -1 then .error .thrown else .ok (List.replicate (N + 1).toNat z)) := by
      unfold Mem.ofCount Mem.ofElems
      cases s.fresh i with
      | error e => rfl
      | ok u =>
        simp only [bind, Except.bind]
        by_cases h1 : N < -1
        · rw [if_pos h1, if_neg (by omega)]
        · rw [if_neg h1, if_pos (by omega)]
    rw [e]
    exact both_new h i _
  | ofKnotPoints i zs => exact both_new h i _
  | ofVectors i xs us times => exact both_new h i _
  | copyCtor i j =>
    simp only [TrajMem.step, Spec.TrajVal.step, Mem.copyCtor]
    cases hi : s.objs i with
    | some p =>
      cases hv : v.list i with
      | none => rw [(h.alive i).mpr hv] at hi; simp at hi
      | some l => simp only [fresh_some hi, bind, Except.bind]; exact rfl
    | none =>
      rw [(h.alive i).mp hi]
      cases hj : s.objs j with
      | none => rw [(h.alive j).mp hj]; simp only [fresh_none hi, obj_none hj, bind, Except.bind]; exact rfl
      | some q =>
        obtain ⟨l, h1, h2⟩ := h.elems hj
        rw [h2]
        simp only [fresh_none hi, obj_some hj, h1, bind, Except.bind]
        exact h.alloc (by simp [hi]) l
  | copyAssign i j fits =>
    simp only [TrajMem.step, Spec.TrajVal.step, Mem.copyAssign]
    cases hi : s.objs i with
    | none => rw [(h.alive i).mp hi]; simp only [obj_none hi, bind, Except.bind]; exact rfl
    | some p =>
      obtain ⟨l0, h3, h4⟩ := h.elems hi
      rw [h4]
      cases hj : s.objs j with
      | none => rw [(h.alive j).mp hj]; simp only [obj_some hi, obj_none hj, bind, Except.bind]; exact rfl
      | some q =>
        obtain ⟨l, h1, h2⟩ := h.elems hj
        rw [h2]
        simp only [obj_some hi, obj_some hj, bind, Except.bind]
        by_cases e : i = j
        · subst e
          rw [if_pos rfl]
          simp only [or_true, if_true]
          show Rel s _
          rw [upd_self _ _ _ h2]
          exact h
        · rw [if_neg e]
          simp only [h1, e, or_false]
          have general : Both ((s.free p).bind fun s => pure (s.alloc i l)) (.ok ⟨upd v.list i (some l), invalidate i v.target⟩) := by
            obtain ⟨s', hf, ho, hr⟩ := h.giveup hi
            rw [hf]
            show Rel (s'.alloc i l) _
            have := hr.alloc (i := i) (by simp [upd]) l
            rw [alloc_upd] at this
            simpa only [upd_upd] using this
          cases p with
          | some b =>
            cases fits with
            | true =>
              simp only [h3, if_true]
              exact h.setBuf hi l
            | false => simp only [Bool.false_eq_true, if_false]; exact general
          | none =>
            cases fits with
            | true =>
              simp only [if_true]
              exact h.alloc (by simp [hi]) l
            | false => simp only [Bool.false_eq_true, if_false]; exact general
  | moveCtor i j =>
    simp only [TrajMem.step, Spec.TrajVal.step, Mem.moveCtor]
    cases hi : s.objs i with
    | some p =>
      cases hv : v.list i with
      | none => rw [(h.alive i).mpr hv] at hi; simp at hi
      | some l => simp only [fresh_some hi, bind, Except.bind]; exact rfl
    | none =>
      rw [(h.alive i).mp hi]
      cases hj : s.objs j with
      | none => rw [(h.alive j).mp hj]; simp only [fresh_none hi, obj_none hj, bind, Except.bind]; exact rfl
      | some q =>
        obtain ⟨l, h1, h2⟩ := h.elems hj
        rw [h2]
        simp only [fresh_none hi, obj_some hj, bind, Except.bind]
        exact h.move (by rintro rfl; rw [hi] at hj; simp at hj) (by simp [hi]) hj h2
  | moveAssign i j keep =>
    simp only [TrajMem.step, Spec.TrajVal.step, Mem.moveAssign]
    cases hi : s.objs i with
    | none => rw [(h.alive i).mp hi]; simp only [obj_none hi, bind, Except.bind]; exact rfl
    | some p =>
      obtain ⟨l0, h3, h4⟩ := h.elems hi
      rw [h4]
      cases hj : s.objs j with
      | none => rw [(h.alive j).mp hj]; simp only [obj_some hi, obj_none hj, bind, Except.bind]; exact rfl
      | some q =>
        obtain ⟨l, h1, h2⟩ := h.elems hj
        rw [h2]
        obtain ⟨s', hf, ho, hr⟩ := h.giveup hi
        simp only [obj_some hi, obj_some hj, bind, Except.bind, hf]
        by_cases e : i = j
        · subst e
          simp only [if_true]
          cases keep with
          | true => simp only [if_true]; exact h
          | false => simp only [Bool.false_eq_true, if_false]; exact hr
        · simp only [e, if_false]
          have hj' : upd s'.objs i (some none) j = some q := by rw [upd_other _ _ (Ne.symm e), ho, hj]
          have hl' : upd v.list i (some []) j = some l := by rw [upd_other _ _ (Ne.symm e), h2]
          have := hr.move e (i := i) (by simp [upd]) hj' hl'
          have e1 : ∀ {β : Type} (f : ℕ → β) (a b c : β), upd (upd (upd f i a) j b) i c = upd (upd f j b) i c := by
            intro β f a b c
            funext k
            simp only [upd]
            split <;> [rfl; (split <;> rfl)]
          simp only [e1] at this
          exact this
  | destroy i =>
    simp only [TrajMem.step, Spec.TrajVal.step, Mem.destroy]
    cases hi : s.objs i with
    | none => rw [(h.alive i).mp hi]; simp only [obj_none hi, bind, Except.bind]; exact rfl
    | some p =>
      obtain ⟨l0, h3, h4⟩ := h.elems hi
      rw [h4]
      obtain ⟨s', hf, ho, hr⟩ := h.giveup hi
      simp only [obj_some hi, bind, Except.bind, hf]
      have := hr.remove (i := i) (upd_same _ _ _)
      simp only [upd_upd] at this
      exact this
  | setZero i => exact both_modify h i _ _ (fun l => rfl) (fun l hl => by simpa [Traj.setZero] using hl.symm)
  | setUniformStep i t =>
    exact both_modify h i _ _ (uniform_spec R t) (fun l hl => by rw [uniform_spec] at hl; simp at hl)
  | setTime i k t => exact both_modify h i _ _ (atIndex_spec k _) (atIndex_nil k _)
  | setStep i k t => exact both_modify h i _ _ (atIndex_spec k _) (atIndex_nil k _)
  | setState i k t => exact both_modify h i _ _ (atIndex_spec k _) (atIndex_nil k _)
  | setControl i k t => exact both_modify h i _ _ (atIndex_spec k _) (atIndex_nil k _)
  | take r i k =>
    simp only [TrajMem.step, Spec.TrajVal.step, Mem.take]
    cases hi : s.objs i with
    | none => rw [(h.alive i).mp hi]; simp only [obj_none hi, bind, Except.bind]; exact rfl
    | some p =>
      obtain ⟨l, h1, h2⟩ := h.elems hi
      rw [h2]
      simp only [obj_some hi, h1, bind, Except.bind]
      rcases vread_ok l k with ⟨z, h3, h4, h5⟩ | ⟨h3, h4⟩
      · rw [h3]
        simp only [h5, and_self, if_true]
        cases p with
        | none => simp only [Mem.elems, Except.ok.injEq] at h1; subst h1; simp at h4
        | some b =>
          show Rel _ _
          refine ⟨h.alive, h.null, h.block, h.one, h.owned, h.below, fun r' => ?_, fun r' c k' hr => ?_⟩
          · by_cases e : r' = r
            · subst e; simp [upd]
            · simp only [upd, e, if_false]; exact h.unnamed r'
          · by_cases e : r' = r
            · subst e
              simp only [upd_same, Option.some.injEq, Prod.mk.injEq] at hr ⊢
              obtain ⟨rfl, rfl⟩ := hr
              refine ⟨h.used hi, _, rfl, fun j k' => ?_⟩
              simp only [Option.some.injEq, Prod.mk.injEq]
              constructor
              · rintro ⟨rfl, rfl⟩; exact ⟨hi, rfl⟩
              · rintro ⟨h6, rfl⟩; exact ⟨h.one _ _ _ hi h6, rfl⟩
            · simp only [upd, e, if_false] at hr ⊢
              exact h.named r' c k' hr
      · rw [h3, if_neg h4]; exact rfl
  | write r f =>
    simp only [TrajMem.step, Spec.TrajVal.step, Mem.write]
    cases hr : s.refs r with
    | none => rw [(h.unnamed r).mp hr]; exact rfl
    | some bk =>
      obtain ⟨b, k⟩ := bk
      obtain ⟨h1, a, ha, hh⟩ := h.named r b k hr
      rw [ha]
      cases a with
      | none =>
        have : s.bufs b = none := by
          by_contra hc
          obtain ⟨i, hi⟩ := h.owned b hc
          exact absurd ((hh i k).mpr ⟨hi, rfl⟩) (by simp)
        simp only [Mem.elems, this, bind, Except.bind]
        exact rfl
      | some q =>
        obtain ⟨i, k'⟩ := q
        obtain ⟨hi, rfl⟩ := (hh i k').mp rfl
        obtain ⟨l, h2, h3⟩ := h.elems hi
        simp only [h2, bind, Except.bind, change, h3, changeAt]
        rcases vread_ok l (k' : ℤ) with ⟨z, h4, h5, h6⟩ | ⟨h4, h5⟩
        · rw [h4, if_pos h6]
          simp only [Int.toNat_natCast] at h5
          show Rel { s with bufs := upd s.bufs b (some (l.set k' (f z))) } _
          rw [modify_set l k' f z h5]
          exact h.setBuf hi _
        · rw [h4, if_neg h5]; exact rfl

/-- **C95.**  For every history of operations on trajectories, the objects in memory do what the values do: the history
fails for one exactly if it fails for the other, and then in the same way; otherwise at the end every trajectory has the
knot points its value has, no block is shared by two trajectories, and none is left without one. -/
theorem C95_history (l : List (Op X U K)) {s : Mem (KnotPt X U K)} {v : Vals (KnotPt X U K)} (h : Rel s v) :
    Both (TrajMem.run R s l) (Spec.TrajVal.run R v l) := by
  induction l generalizing s v with
  | nil => exact h
  | cons op l ih =>
    have hb := both_step R h op
    simp only [TrajMem.run, Spec.TrajVal.run, bind]
    generalize TrajMem.step R s op = a at hb
    generalize Spec.TrajVal.step R v op = b at hb
    cases a <;> cases b <;> simp only [Both] at hb
    · exact hb
    · exact ih hb

/-- The knot points of trajectory `i` (`none`: there is no such trajectory). -/
def knotsOf {α : Type} (s : Mem α) (i : ℕ) : Option (List α) :=
  (s.objs i).bind fun p => match p with
    | none => some []
    | some b => s.bufs b

omit [Zero X] [Zero U] [LinearOrder K] [Field K] in
theorem knotsOf_eq {s : Mem (KnotPt X U K)} {v : Vals (KnotPt X U K)} (h : Rel s v) (i : ℕ) : knotsOf s i = v.list i := by
  unfold knotsOf
  cases hi : s.objs i with
  | none => rw [(h.alive i).mp hi]; rfl
  | some p =>
    cases p with
    | none => rw [h.null i hi]; rfl
    | some b =>
      obtain ⟨l, h1, h2⟩ := h.block i b hi
      simp only [Option.bind_some]
      rw [h1, h2]

/-- Whether an operation is about trajectory `i`. -/
def about (i : ℕ) : Op X U K → Prop
  | .ofCount j _ _ => j = i
  | .ofKnotPoints j _ => j = i
  | .ofVectors j _ _ _ => j = i
  | .copyCtor j _ => j = i
  | .copyAssign j _ _ => j = i
  | .moveCtor j k => j = i ∨ k = i
  | .moveAssign j k _ => j = i ∨ k = i
  | .destroy j => j = i
  | .setZero j => j = i
  | .setUniformStep j _ => j = i
  | .setTime j _ _ => j = i
  | .setStep j _ _ => j = i
  | .setState j _ _ => j = i
  | .setControl j _ _ => j = i
  | .take _ j _ => j = i
  | .write _ _ => False

/-- No pointer points at trajectory `i`. -/
def Unpointed (v : Vals (KnotPt X U K)) (i : ℕ) : Prop := ∀ r k, v.target r ≠ some (some (i, k))

theorem unpointed_redirect {t : ℕ → Option (Option (ℕ × ℕ))} {i : ℕ} (h : ∀ r k, t r ≠ some (some (i, k)))
    (j : ℕ) (n : ℕ → Option (ℕ × ℕ)) (hn : ∀ k k', n k ≠ some (i, k')) (r k : ℕ) :
    redirect j n t r ≠ some (some (i, k)) := by
  unfold redirect
  cases hr : t r with
  | none => simp
  | some a =>
    cases a with
    | none => simp
    | some p =>
      obtain ⟨p1, p2⟩ := p
      simp only [Option.map_some, Option.bind_some, ne_eq, Option.some.injEq]
      split
      · exact hn p2 k
      · intro e
        exact h r k (by rw [hr, e])

theorem unpointed_invalidate {t : ℕ → Option (Option (ℕ × ℕ))} {i : ℕ} (h : ∀ r k, t r ≠ some (some (i, k))) (j r k : ℕ) :
    invalidate j t r ≠ some (some (i, k)) := unpointed_redirect h j _ (by simp) r k

theorem unpointed_follow {t : ℕ → Option (Option (ℕ × ℕ))} {i : ℕ} (h : ∀ r k, t r ≠ some (some (i, k))) (j' j : ℕ)
    (hj : j' ≠ i) (r k : ℕ) : follow j' j t r ≠ some (some (i, k)) :=
  unpointed_redirect h j _ (by intro a b e; simp only [Option.some.injEq, Prod.mk.injEq] at e; exact hj e.1) r k

/-- An operation that is not about `i`, when no pointer points at `i`, leaves `i` alone and makes no pointer to it. -/
theorem not_about {v v' : Vals (KnotPt X U K)} {i : ℕ} {op : Op X U K} (ha : ¬ about i op) (hu : Unpointed v i)
    (hs : Spec.TrajVal.step R v op = .ok v') : v'.list i = v.list i ∧ Unpointed v' i := by
  have hnew : ∀ {j l}, ¬ j = i → new v j l = .ok v' → v'.list i = v.list i ∧ Unpointed v' i := by
    intro j l hj hs
    unfold new at hs
    split at hs
    · cases l with
      | error e => simp [Except.map] at hs
      | ok l =>
        simp only [Except.map, Except.ok.injEq] at hs
        subst hs
        exact ⟨upd_other _ _ (Ne.symm hj), hu⟩
    · simp at hs
  have hchange : ∀ {j f}, ¬ j = i → change v j f = .ok v' → v'.list i = v.list i ∧ Unpointed v' i := by
    intro j f hj hs
    unfold change at hs
    split at hs
    · simp at hs
    · next l _ =>
      cases hf : f l with
      | error e => simp [Except.map, hf] at hs
      | ok l =>
        simp only [Except.map, hf, Except.ok.injEq] at hs
        subst hs
        exact ⟨upd_other _ _ (Ne.symm hj), hu⟩
  cases op with
  | ofCount j N z => exact hnew ha hs
  | ofKnotPoints j zs => exact hnew ha hs
  | ofVectors j xs us times => exact hnew ha hs
  | copyCtor j k =>
    simp only [Spec.TrajVal.step] at hs
    split at hs
    · simp only [Except.ok.injEq] at hs; subst hs; exact ⟨upd_other _ _ (Ne.symm ha), hu⟩
    · simp at hs
  | copyAssign j k fits =>
    simp only [Spec.TrajVal.step] at hs
    split at hs
    · simp only [Except.ok.injEq] at hs
      subst hs
      refine ⟨upd_other _ _ (Ne.symm ha), fun r q => ?_⟩
      dsimp only
      split
      · exact hu r q
      · exact unpointed_invalidate hu _ r q
    · simp at hs
  | moveCtor j k =>
    simp only [about, not_or] at ha
    simp only [Spec.TrajVal.step] at hs
    split at hs
    · simp only [Except.ok.injEq] at hs
      subst hs
      refine ⟨by simp only [upd, Ne.symm ha.1, Ne.symm ha.2, if_false], fun r q => ?_⟩
      exact unpointed_follow hu _ _ ha.1 r q
    · simp at hs
  | moveAssign j k keep =>
    simp only [about, not_or] at ha
    simp only [Spec.TrajVal.step] at hs
    split at hs
    · simp only [Except.ok.injEq] at hs
      subst hs
      split
      · split
        · exact ⟨rfl, hu⟩
        · exact ⟨upd_other _ _ (Ne.symm ha.1), fun r q => unpointed_invalidate hu _ r q⟩
      · refine ⟨by simp only [upd, Ne.symm ha.1, Ne.symm ha.2, if_false], fun r q => ?_⟩
        exact unpointed_follow (unpointed_invalidate hu _) _ _ ha.1 r q
    · simp at hs
  | destroy j =>
    simp only [Spec.TrajVal.step] at hs
    split at hs
    · simp only [Except.ok.injEq] at hs
      subst hs
      exact ⟨upd_other _ _ (Ne.symm ha), fun r q => unpointed_invalidate hu _ r q⟩
    · simp at hs
  | setZero j => exact hchange ha hs
  | setUniformStep j h => exact hchange ha hs
  | setTime j k t => exact hchange ha hs
  | setStep j k t => exact hchange ha hs
  | setState j k t => exact hchange ha hs
  | setControl j k t => exact hchange ha hs
  | take r j k =>
    simp only [Spec.TrajVal.step] at hs
    split at hs
    · split at hs
      · simp only [Except.ok.injEq] at hs
        subst hs
        refine ⟨rfl, fun r' q => ?_⟩
        by_cases e : r' = r
        · subst e; simp [upd_same, show ¬ j = i from ha]
        · simp only [upd, e, if_false]; exact hu r' q
      · simp at hs
    · simp at hs
  | write r f =>
    simp only [Spec.TrajVal.step] at hs
    split at hs
    · next j k hr =>
      by_cases e : j = i
      · subst e; exact absurd hr (hu r k)
      · exact hchange e hs
    · simp at hs

theorem run_not_about {i : ℕ} (l : List (Op X U K)) (ha : ∀ op ∈ l, ¬ about i op) {v v' : Vals (KnotPt X U K)}
    (hu : Unpointed v i) (hs : Spec.TrajVal.run R v l = .ok v') : v'.list i = v.list i := by
  induction l generalizing v with
  | nil => simp only [Spec.TrajVal.run, Except.ok.injEq] at hs; rw [hs]
  | cons op l ih =>
    simp only [Spec.TrajVal.run] at hs
    cases h1 : Spec.TrajVal.step R v op with
    | error e => rw [h1] at hs; simp [Except.bind] at hs
    | ok w =>
      rw [h1] at hs
      obtain ⟨h2, h3⟩ := not_about R (ha op (by simp)) hu h1
      rw [ih (fun o ho => ha o (by simp [ho])) h3 hs, h2]

/-- **C95, copies are independent.**  A copy made by the copy constructor has the knot points of the original at that time,
whatever is done afterwards to the original and to other trajectories, also through pointers, as long as the copy itself is
not used. -/
theorem C95_copy (l0 l : List (Op X U K)) (i j : ℕ) {s s' : Mem (KnotPt X U K)}
    (h0 : TrajMem.run R Mem.empty l0 = .ok s) (ha : ∀ op ∈ l, ¬ about i op)
    (h1 : TrajMem.run R s (.copyCtor i j :: l) = .ok s') : knotsOf s' i = knotsOf s j ∧ knotsOf s j ≠ none := by
  have b0 := C95_history R l0 (rel_empty (α := KnotPt X U K))
  rw [h0] at b0
  generalize hv : Spec.TrajVal.run R Vals.empty l0 = ev at b0
  cases ev with
  | error e => exact b0.elim
  | ok v =>
    have hr : Rel s v := b0
    have b1 := C95_history R (.copyCtor i j :: l) hr
    rw [h1] at b1
    generalize hw : Spec.TrajVal.run R v (.copyCtor i j :: l) = ew at b1
    cases ew with
    | error e => exact b1.elim
    | ok w =>
      have hr' : Rel s' w := b1
      simp only [Spec.TrajVal.run] at hw
      rw [knotsOf_eq hr', knotsOf_eq hr]
      cases hi : v.list i with
      | some q => simp [Spec.TrajVal.step, hi, Except.bind] at hw
      | none =>
        cases hj : v.list j with
        | none => simp [Spec.TrajVal.step, hi, hj, Except.bind] at hw
        | some q =>
          simp only [Spec.TrajVal.step, hi, hj, Except.bind] at hw
          have hu : Unpointed (⟨upd v.list i (some q), v.target⟩ : Vals (KnotPt X U K)) i := fun r k =>
            hr.no_target (i := i) (by rw [(hr.alive i).mpr hi]; simp) r k
          have := run_not_about R l ha hu hw
          rw [this]
          exact ⟨upd_same _ _ _, by simp⟩

/-- **C95, moved-from trajectories.**  After a move, the target has exactly the knot points the source had; the source has
none, `NumSegments()` is −1 for it, and setting a uniform step, a state, a control, a time or a step of it is an access
outside of the vector. -/
theorem C95_moved {s s' : Mem (KnotPt X U K)} {v : Vals (KnotPt X U K)} (h : Rel s v) (i j : ℕ) (hij : i ≠ j)
    {op : Op X U K} (ho : op = .moveCtor i j ∨ ∃ keep, op = .moveAssign i j keep) (hs : TrajMem.step R s op = .ok s') :
    knotsOf s' i = knotsOf s j ∧ knotsOf s' j = some [] ∧ s'.numSegments j = .ok (-1) ∧
    ∀ bad : Op X U K, (∃ t, bad = .setUniformStep j t) ∨ (∃ k t, bad = .setTime j k t) ∨ (∃ k t, bad = .setStep j k t) ∨
      (∃ k x, bad = .setState j k x) ∨ (∃ k u, bad = .setControl j k u) →
      TrajMem.step R s' bad = .error .undefined := by
  have hb := both_step R h op
  rw [hs] at hb
  generalize hw : Spec.TrajVal.step R v op = ew at hb
  cases ew with
  | error e => exact hb.elim
  | ok w =>
    have hr : Rel s' w := hb
    have key : ∃ l, v.list j = some l ∧ w.list i = some l ∧ w.list j = some [] := by
      rcases ho with rfl | ⟨keep, rfl⟩
      · simp only [Spec.TrajVal.step] at hw
        split at hw
        · next l h1 h2 =>
          simp only [Except.ok.injEq] at hw
          subst hw
          exact ⟨l, h2, upd_same _ _ _, by simp only [upd, Ne.symm hij, if_false, if_true]⟩
        · simp at hw
      · simp only [Spec.TrajVal.step] at hw
        split at hw
        · next l h1 h2 =>
          simp only [hij, if_false, Except.ok.injEq] at hw
          subst hw
          exact ⟨l, h2, upd_same _ _ _, by simp only [upd, Ne.symm hij, if_false, if_true]⟩
        · simp at hw
    obtain ⟨l, k1, k2, k3⟩ := key
    refine ⟨by rw [knotsOf_eq hr, knotsOf_eq h, k1, k2], by rw [knotsOf_eq hr, k3], ?_, fun bad hbad => ?_⟩
    · cases hj : s'.objs j with
      | none => rw [(hr.alive j).mp hj] at k3; simp at k3
      | some p =>
        obtain ⟨l', h1, h2⟩ := hr.elems hj
        rw [k3] at h2
        simp only [Option.some.injEq] at h2
        subst h2
        simp [Mem.numSegments, obj_some hj, h1, bind, Except.bind, pure, Except.pure]
    · have hb := both_step R hr bad
      have : Spec.TrajVal.step R w bad = .error .undefined := by
        have hc : ∀ k f, change w j (changeAt k f) = .error .undefined := by
          intro k f
          have : ¬ (0 ≤ k ∧ k < 0) := by omega
          simp [change, k3, changeAt, Except.map, this]
        rcases hbad with ⟨t, rfl⟩ | ⟨k, t, rfl⟩ | ⟨k, t, rfl⟩ | ⟨k, t, rfl⟩ | ⟨k, t, rfl⟩
        · simp [Spec.TrajVal.step, change, k3, Except.map]
        all_goals exact hc _ _
      rw [this] at hb
      generalize TrajMem.step R s' bad = a at hb
      cases a with
      | error e => exact congrArg Except.error hb
      | ok s'' => exact hb.elim

/-- **C95, pointers.**  A pointer to knot point `k` of trajectory `j`, taken before `j` is moved into a new trajectory `i`,
points to knot point `k` of `i` afterwards: writing through it changes that knot point of `i`, and nothing else. -/
theorem C95_pointer_follows {s s' : Mem (KnotPt X U K)} {v : Vals (KnotPt X U K)} (h : Rel s v) (i j r : ℕ) (k : ℕ)
    (f : KnotPt X U K → KnotPt X U K)
    (hs : TrajMem.run R s [.take r j k, .moveCtor i j, .write r f] = .ok s') :
    ∃ l, knotsOf s j = some l ∧ k < l.length ∧ knotsOf s' i = some (l.modify k f) ∧ knotsOf s' j = some [] ∧
      ∀ q, q ≠ i → q ≠ j → knotsOf s' q = knotsOf s q := by
  have hb := C95_history R [.take r j (k : ℤ), .moveCtor i j, .write r f] h
  rw [hs] at hb
  generalize hw : Spec.TrajVal.run R v [.take r j (k : ℤ), .moveCtor i j, .write r f] = ew at hb
  cases ew with
  | error e => exact hb.elim
  | ok w =>
    have hr : Rel s' w := hb
    simp only [Spec.TrajVal.run, Spec.TrajVal.step] at hw
    cases hj : v.list j with
    | none => simp [hj, Except.bind] at hw
    | some l =>
      simp only [hj] at hw
      by_cases hk : k < l.length
      · have hk' : (0 : ℤ) ≤ k ∧ (k : ℤ) < l.length := by omega
        simp only [hk', and_self, if_true, Except.bind, Int.toNat_natCast] at hw
        cases hi : v.list i with
        | some q => simp [hi] at hw
        | none =>
          have hij : j ≠ i := by rintro rfl; rw [hi] at hj; simp at hj
          simp only [hi, hj, follow, redirect, upd_same, Option.map_some, Option.bind_some, if_true, change, changeAt,
            hk', and_self, Int.toNat_natCast, Except.map, Except.ok.injEq] at hw
          subst hw
          refine ⟨l, by rw [knotsOf_eq h, hj], hk, by rw [knotsOf_eq hr]; exact upd_same _ _ _, ?_, fun q h1 h2 => ?_⟩
          · rw [knotsOf_eq hr]; simp only [upd, hij, if_false, if_true]
          · rw [knotsOf_eq hr, knotsOf_eq h]; simp only [upd, h1, h2, if_false]
      · have : ¬ ((0 : ℤ) ≤ k ∧ (k : ℤ) < l.length) := by omega
        rw [if_neg this] at hw
        simp [Except.bind] at hw

/-- **C95, no leak.**  When every trajectory of a history has been destroyed, every block has been given back. -/
theorem C95_no_leak (l : List (Op X U K)) {s : Mem (KnotPt X U K)} (hs : TrajMem.run R Mem.empty l = .ok s)
    (hd : ∀ i, s.objs i = none) (b : ℕ) : s.bufs b = none := by
  have hb := C95_history R l (rel_empty (α := KnotPt X U K))
  rw [hs] at hb
  generalize Spec.TrajVal.run R Vals.empty l = ev at hb
  cases ev with
  | error e => exact hb.elim
  | ok v =>
    have hr : Rel s v := hb
    by_contra hc
    obtain ⟨i, hi⟩ := hr.owned b hc
    rw [hd i] at hi
    simp at hi

/-! ## Cases -/

private abbrev kp (x u t h : ℚ) : KnotPt ℚ ℚ ℚ := ⟨x, u, t, h⟩

/-- A trajectory is copied and changed, also through a pointer; the copy is as before. -/
example : (TrajMem.run Rounding.exact Mem.empty [.ofKnotPoints 0 [kp 1 2 0 1, kp 3 0 1 0], .take 0 0 1, .copyCtor 1 0,
      .setState 0 0 9, .write 0 fun z => { z with x := 8 }]).map
    (fun s => ((knotsOf s 0).map fun l => l.map (·.x), (knotsOf s 1).map fun l => l.map (·.x))) =
    .ok (some [9, 8], some [1, 3]) := by
  decide +kernel

/-- A trajectory is moved; a pointer into it follows; the old object has no knot points, and setting a uniform step of it
is an access outside of the vector. -/
example : (TrajMem.run Rounding.exact Mem.empty [.ofKnotPoints 0 [kp 1 2 0 1, kp 3 0 1 0], .take 0 0 1, .moveCtor 1 0,
      .write 0 fun z => { z with x := 8 }]).map
    (fun s => ((knotsOf s 0).map fun l => l.map (·.x), (knotsOf s 1).map fun l => l.map (·.x), (s.numSegments 0).toOption)) =
    .ok (some [], some [1, 8], some (-1)) := by
  decide +kernel

example : (TrajMem.run Rounding.exact Mem.empty [.ofKnotPoints 0 [kp 1 2 0 1, kp 3 0 1 0], .moveCtor 1 0,
      .setUniformStep 0 (1 / 2)]).map (fun _ => ()) = .error .undefined := by
  decide +kernel

/-- A pointer into a trajectory that was assigned to with more knot points than fit is not valid any more. -/
example : (TrajMem.run Rounding.exact Mem.empty [.ofKnotPoints 0 [kp 1 2 0 0], .ofKnotPoints 1 [kp 1 2 0 1, kp 3 0 1 0],
      .take 0 0 0, .copyAssign 0 1 false, .write 0 fun z => { z with x := 8 }]).map (fun _ => ()) = .error .undefined := by
  decide +kernel

/-- `Trajectory(-1)` has no knot points, `Trajectory(-2)` throws. -/
example : (TrajMem.run Rounding.exact Mem.empty [.ofCount 0 (-1) (kp 0 0 0 0)]).map (fun s => (s.numSegments 0).toOption) =
    .ok (some (-1)) := by decide +kernel
example : (TrajMem.run Rounding.exact Mem.empty [.ofCount 0 (-2) (kp 0 0 0 0)]).map (fun _ => ()) = .error .thrown := by
  decide +kernel

end Altro.Props
