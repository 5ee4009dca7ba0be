import Verif.Model.TrajectoryMemory

/-!
# Trajectories as values

What the operations of `Model/TrajectoryMemory.lean` should mean to a user who thinks of a trajectory as a list of knot
points and of a pointer as "knot point `k` of trajectory `i`".  There is no memory here.
-/

namespace Altro.Spec.TrajVal
open Altro.TrajMem

/-- The lists, and what each pointer points at: `some none` is a pointer to something that is gone. -/
structure Vals (α : Type) where
  list : ℕ → Option (List α)
  target : ℕ → Option (Option (ℕ × ℕ))

variable {α : Type}

def Vals.empty : Vals α := ⟨fun _ => none, fun _ => none⟩

/-- Change the targets of all pointers into trajectory `j`. -/
def redirect (j : ℕ) (new : ℕ → Option (ℕ × ℕ)) (t : ℕ → Option (Option (ℕ × ℕ))) : ℕ → Option (Option (ℕ × ℕ)) :=
  fun r => (t r).map fun a => a.bind fun p => if p.1 = j then new p.2 else some p

/-- Pointers into trajectory `j` now point nowhere. -/
def invalidate (j : ℕ) (t : ℕ → Option (Option (ℕ × ℕ))) : ℕ → Option (Option (ℕ × ℕ)) := redirect j (fun _ => none) t

/-- Pointers into trajectory `j` now point into trajectory `i`, same knot point. -/
def follow (i j : ℕ) (t : ℕ → Option (Option (ℕ × ℕ))) : ℕ → Option (Option (ℕ × ℕ)) :=
  redirect j (fun k => some (i, k)) t

def new (v : Vals α) (i : ℕ) (l : Except Err (List α)) : Except Err (Vals α) :=
  if v.list i = none then l.map fun l => { v with list := upd v.list i (some l) } else .error .undefined

def change (v : Vals α) (i : ℕ) (f : List α → Except Err (List α)) : Except Err (Vals α) :=
  match v.list i with
  | none => .error .undefined
  | some l => (f l).map fun l => { v with list := upd v.list i (some l) }

/-- Change knot point `k`, which must exist. -/
def changeAt (k : ℤ) (f : α → α) (l : List α) : Except Err (List α) :=
  if 0 ≤ k ∧ k < l.length then .ok (l.modify k.toNat f) else .error .undefined

section
variable {X U K : Type} [Zero X] [Zero U] [Field K] [LinearOrder K] (R : Rounding K)

def step (v : Vals (KnotPt X U K)) : Op X U K → Except Err (Vals (KnotPt X U K))
  | .ofCount i N z => new v i (if N < -1 then .error .thrown else .ok (List.replicate (N + 1).toNat z))
  | .ofKnotPoints i zs => new v i (.ok zs)
  | .ofVectors i xs us times => new v i (Traj.ofVectors R xs us times)
  | .copyCtor i j =>
    match v.list i, v.list j with
    | none, some l => .ok { v with list := upd v.list i (some l) }
    | _, _ => .error .undefined
  | .copyAssign i j fits =>
    match v.list i, v.list j with
    | some _, some l =>
      .ok ⟨upd v.list i (some l), if fits ∨ i = j then v.target else invalidate i v.target⟩
    | _, _ => .error .undefined
  | .moveCtor i j =>
    match v.list i, v.list j with
    | none, some l => .ok ⟨upd (upd v.list j (some [])) i (some l), follow i j v.target⟩
    | _, _ => .error .undefined
  | .moveAssign i j keep =>
    match v.list i, v.list j with
    | some _, some l =>
      .ok (if i = j then if keep then v else ⟨upd v.list i (some []), invalidate i v.target⟩
           else ⟨upd (upd v.list j (some [])) i (some l), follow i j (invalidate i v.target)⟩)
    | _, _ => .error .undefined
  | .destroy i =>
    match v.list i with
    | some _ => .ok ⟨upd v.list i none, invalidate i v.target⟩
    | none => .error .undefined
  | .setZero i => change v i fun l => .ok (l.map fun z => ⟨0, 0, z.t, z.h⟩)
  | .setUniformStep i h => change v i fun l => if l = [] then .error .undefined else .ok (Traj.setUniformStep R h l)
  | .setTime i k t => change v i (changeAt k fun z => ⟨z.x, z.u, t, z.h⟩)
  | .setStep i k h => change v i (changeAt k fun z => ⟨z.x, z.u, z.t, h⟩)
  | .setState i k x => change v i (changeAt k fun z => ⟨x, z.u, z.t, z.h⟩)
  | .setControl i k u => change v i (changeAt k fun z => ⟨z.x, u, z.t, z.h⟩)
  | .take r i k =>
    match v.list i with
    | some l =>
      if 0 ≤ k ∧ k < l.length then .ok { v with target := upd v.target r (some (some (i, k.toNat))) }
      else .error .undefined
    | none => .error .undefined
  | .write r f =>
    match v.target r with
    | some (some (i, k)) => change v i (changeAt k f)
    | _ => .error .undefined

def run (v : Vals (KnotPt X U K)) : List (Op X U K) → Except Err (Vals (KnotPt X U K))
  | [] => .ok v
  | op :: l => (step R v op).bind fun v => run v l

end
end Altro.Spec.TrajVal
