import Verif.Model.Problem

/-!
# What a sequence of definition calls means

Everything is read off the history of calls; no problem state is used.
-/

namespace Altro.Spec
open Altro.Prob
variable {C M E K : Type}

/-- The last value `f` extracts from the history. -/
def lastOf {A B : Type} (f : A → Option B) (calls : List A) : Option B := (calls.filterMap f).getLast?

/-- The last cost pointer set at knot point `k` (`none` if it was never set or is null). -/
def costAt (calls : List (Call C M E K)) (k : ℤ) : Option C :=
  (lastOf (fun | .cost c j => if j = k then some c else none | _ => none) calls).join

/-- The last model set at time step `k`. -/
def modelAt (calls : List (Call C M E K)) (k : ℤ) : Option M :=
  (lastOf (fun | .dynamics m j => if j = k then some m else none | _ => none) calls).join

/-- The last initial state set, `x` before the first. -/
def initialState (x : List K) (calls : List (Call C M E K)) : List K :=
  (lastOf (fun | .initialState v => some v | _ => none) calls).getD x

/-- The equality constraints added at `k`, in order. -/
def eqsAt (calls : List (Call C M E K)) (k : ℤ) : List E :=
  calls.filterMap fun | .equality (some e) j => if j = k then some e else none | _ => none

/-- The inequality constraints added at `k`, in order. -/
def ineqsAt (calls : List (Call C M E K)) (k : ℤ) : List E :=
  calls.filterMap fun | .inequality (some e) j => if j = k then some e else none | _ => none

/-- The problem described by the calls is complete: every knot point has a cost, every segment has dynamics, and the
initial state has the positive dimension of the first model. -/
structure FullyDefined (I : ProbIface M E) (N : ℕ) (x : List K) (calls : List (Call C M E K)) : Prop where
  cost : ∀ k : ℕ, k ≤ N → (costAt calls k).isSome
  dyn : ∀ k : ℕ, k < N → (modelAt calls k).isSome
  state : ∃ m, modelAt calls 0 = some m ∧ I.sdim m = (initialState x calls).length ∧ 0 < (initialState x calls).length

end Altro.Spec
