import Verif.Props.Constraints

/-!
# C07, continued: the penalties of constraints that nobody configured
-/

namespace Altro.Props
open Altro.Spec
variable {K : Type*} [Field K] [LinearOrder K] [IsStrictOrderedRing K] {n m : ℕ} {κ : ConKind}

/-- **C07, the defaults.**  After construction and any calls that set neither penalties nor scaling, every penalty is ten to the number
of penalty updates. -/
theorem C07_defaults (con : Con n m K) (ops : List (ConOp n m K)) (hops : ∀ op ∈ ops, ¬ op.SetsPenalty) :
    ∀ i, (ConVal.history κ con ops).pen i = 10 ^ ops.countP ConOp.isUpdatePenalties := by
  intro i
  have h := C07_penalty_geometric (ConVal.new κ con) ops hops (Fin.cast (by unfold ConVal.history; rw [foldl_apply_con]) i)
  refine h.trans ?_
  show (1 : K) * 10 ^ _ = _
  rw [one_mul]

/-- **C07, the default scaling.**  Whatever calls but those that set penalties came before: after setting the penalty to `ρ` the penalties
are `ρ` times ten to the number of penalty updates since. -/
theorem C07_default_scaling (con : Con n m K) (ops ops' : List (ConOp n m K)) (ρ : K) (hops : ∀ op ∈ ops, ¬ op.SetsPenalty)
    (hops' : ∀ op ∈ ops', ¬ op.SetsPenalty) :
    ∀ i, (ConVal.history κ con (ops ++ .setPenalty ρ :: ops')).pen i = ρ * 10 ^ ops'.countP ConOp.isUpdatePenalties := by
  intro i
  have hs : ∀ s : ConVal κ n m K, (ops.foldl ConOp.apply s).scaling = s.scaling := by
    clear i hops'
    induction ops with
    | nil => intro s; rfl
    | cons op ops ih =>
      intro s
      rw [List.foldl_cons, ih fun o ho => hops o (by simp [ho])]
      have := hops op (by simp)
      cases op <;> first | rfl | exact absurd trivial this
  have e : ConVal.history κ con (ops ++ .setPenalty ρ :: ops')
      = ops'.foldl ConOp.apply ((ops.foldl ConOp.apply (ConVal.new κ con)).setPenalty ρ) := by
    unfold ConVal.history
    rw [List.foldl_append, List.foldl_cons]
    rfl
  have h := C07_penalty_geometric ((ops.foldl ConOp.apply (ConVal.new κ con)).setPenalty ρ) ops' hops'
  have h10 : ((ops.foldl ConOp.apply (ConVal.new κ con)).setPenalty ρ).scaling = 10 := (hs _).trans rfl
  revert i
  rw [e]
  intro i
  refine (h (Fin.cast (by rw [foldl_apply_con]) i)).trans ?_
  rw [h10]
  rfl

/-- Three updates among other calls. -/
example (con : Con 2 1 ℚ) (i) : (ConVal.history .inequality con [.updateDuals, .updatePenalties, .augLag 0 0, .updatePenalties, .updateDuals,
    .updatePenalties]).pen i = 1000 := by
  rw [C07_defaults con _ (by simp [ConOp.SetsPenalty])]
  norm_num [List.countP, List.countP.go, ConOp.isUpdatePenalties]

/-- The penalty the solver sets in `Init`, and two updates. -/
example (con : Con 2 1 ℚ) (i) : (ConVal.history .equality con ([.updatePenalties] ++ .setPenalty 5 :: [.updatePenalties, .updateDuals,
    .updatePenalties])).pen i = 500 := by
  rw [C07_default_scaling con _ _ 5 (by simp [ConOp.SetsPenalty]) (by simp [ConOp.SetsPenalty])]
  norm_num [List.countP, List.countP.go, ConOp.isUpdatePenalties]

end Altro.Props
