import Verif.Model.ArithKP

/-!
# What is known about NaN
-/

namespace Altro.Spec

/-- A value that every operation passes on and that every comparison rejects. -/
structure IsNaN {F : Type} [Arith F] (nan : F) : Prop where
  add_left : ∀ a, nan + a = nan
  add_right : ∀ a, a + nan = nan
  sub_left : ∀ a, nan - a = nan
  sub_right : ∀ a, a - nan = nan
  mul_left : ∀ a, nan * a = nan
  mul_right : ∀ a, a * nan = nan
  div_left : ∀ a, nan / a = nan
  div_right : ∀ a, a / nan = nan
  lt_left : ∀ a, Arith.lt nan a = false
  lt_right : ∀ a, Arith.lt a nan = false
  le_left : ∀ a, Arith.le nan a = false
  le_right : ∀ a, Arith.le a nan = false

/-- The functions pass it on; nothing is said about the maximum of a list in which only some entries are NaN. -/
structure KeepNaN {F : Type} (fn : Fns F) (nan : F) : Prop where
  sqrt : fn.sqrt nan = nan
  abs : fn.abs nan = nan
  maxCoeff : ∀ k, fn.maxCoeff (List.replicate (k + 1) nan) = nan

/-- Everything that a knot point got from the backward pass is NaN. -/
structure AllNaN {n m : ℕ} {F : Type} (nan : F) (d : KP n m F) : Prop where
  gain : ∀ i j, d.gain i j = nan
  ff : ∀ i, d.ff i = nan
  Sx : ∀ i, d.Sx i = nan
  Sxx : ∀ i j, d.Sxx i j = nan
  delta : d.delta = (nan, nan)

/-- A NaN among the derivatives with respect to the controls. -/
def ControlNaN {n m : ℕ} {F : Type} (nan : F) (d : KP n m F) : Prop :=
  (∃ i, d.cost.du i = nan) ∨ (∃ i j, d.cost.dudu i j = nan) ∨ ∃ i j, d.B i j = nan

/-- A NaN among the other derivatives. -/
def StateNaN {n m : ℕ} {F : Type} (nan : F) (d : KP n m F) : Prop :=
  (∃ i, d.cost.dx i = nan) ∨ (∃ i j, d.cost.dxdx i j = nan) ∨ (∃ i j, d.cost.dxdu i j = nan) ∨ ∃ i j, d.A i j = nan

/-- A NaN in the cost-to-go. -/
def CtgNaN {n m : ℕ} {F : Type} (nan : F) (d : KP n m F) : Prop := (∃ i, d.Sx i = nan) ∨ ∃ i j, d.Sxx i j = nan

end Altro.Spec
