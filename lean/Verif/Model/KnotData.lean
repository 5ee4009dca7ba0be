import Verif.Model.Problem

/-!
# Knot points   (`altro/common/knotpoint.hpp`, `altro/common/state_control_sized.hpp`)

Objects of type `KnotPoint<n, m>` for any template parameters, in a heap; an identifier stands for one object.  `none` is
the template parameter `Eigen::Dynamic`.  Assertions are on; a failed size check of Eigen (`eigen_assert`) counts as a
failed assertion.  `T` is the type of the entries, of times and of steps; conversions between `double` and `float` are
not modelled.  Moving a vector with `Eigen::Dynamic` rows leaves an empty vector behind when a new one is made
and exchanges the two vectors in an assignment; for vectors of fixed size construction copies, and assignment copies or
exchanges, depending on the version of Eigen (`sw`).
-/

namespace Altro
namespace Knot
variable {T : Type} [Zero T] [DecidableEq T]

/-- The template parameters `n` and `m`. -/
structure Ty where
  n : Option ℕ
  m : Option ℕ
  deriving DecidableEq

/-- The members (knotpoint.hpp:177-180, state_control_sized.hpp:73-74), with the type. -/
structure Kp (T : Type) where
  ty : Ty
  n : ℤ
  m : ℤ
  x : List T
  u : List T
  t : T
  h : T
  deriving DecidableEq

/-- The size check for one template parameter in `StateControlSized(state_dim, control_dim)`
(state_control_sized.hpp:55-60): only if the parameter is positive. -/
def checkSize (c : Option ℕ) (d : ℤ) : Except Err Unit :=
  match c with
  | none => pure ()
  | some k => if 0 < k then assertThat (decide ((k : ℤ) = d)) else pure ()

/-- `StateControlSized(state_dim, control_dim)` (state_control_sized.hpp:53-61). -/
def sized (ty : Ty) (a b : ℤ) : Except Err Unit := do
  checkSize ty.n a
  checkSize ty.m b

/-- Initialise or assign an Eigen vector from another vector: one of fixed size must have that size. -/
def vec (c : Option ℕ) (v : List T) : Except Err (List T) :=
  match c with
  | none => pure v
  | some k => do
    assertThat (decide (v.length = k))
    pure v

/-- `Vector::Zero(size)`. -/
def zeros (c : Option ℕ) (d : ℤ) : Except Err (List T) := do
  assertThat (decide (0 ≤ d))
  vec c (List.replicate d.toNat 0)

/-- `KnotPoint(x, u, t, h)` (knotpoint.hpp:41-47). -/
def ofVectors (ty : Ty) (x u : List T) (t h : T) : Except Err (Kp T) := do
  sized ty x.length u.length
  let x' ← vec ty.n x
  let u' ← vec ty.m u
  pure ⟨ty, x.length, u.length, x', u', t, h⟩

/-- `KnotPoint(_n, _m)` (knotpoint.hpp:48-51); with the template parameters as arguments it is also `KnotPoint()`
(knotpoint.hpp:37-40), which does not compile if one of them is `Eigen::Dynamic`. -/
def ofSizes (ty : Ty) (a b : ℤ) : Except Err (Kp T) := do
  sized ty a b
  let x ← zeros ty.n a
  let u ← zeros ty.m b
  pure ⟨ty, a, b, x, u, 0, 0⟩

/-- `KnotPoint(const KnotPoint<n2, m2>&)` (knotpoint.hpp:54-60) and, for the same type, the copy constructor
(knotpoint.hpp:63-68). -/
def convert (ty : Ty) (z : Kp T) : Except Err (Kp T) := do
  sized ty z.n z.m
  let x ← vec ty.n z.x
  let u ← vec ty.m z.u
  pure ⟨ty, z.n, z.m, x, u, z.t, z.h⟩

/-- What a moved-from vector holds after a construction. -/
def leftByCtor (c : Option ℕ) (v : List T) : List T :=
  match c with
  | none => []
  | some _ => v

/-- What a moved-from vector holds after an assignment to a vector that held `old`. -/
def leftByAssign (sw : Bool) (c : Option ℕ) (old v : List T) : List T :=
  match c with
  | none => old
  | some _ => if sw then old else v

/-- The move constructor (knotpoint.hpp:80-85): the new object and the old one afterwards. -/
def moveCtor (z : Kp T) : Except Err (Kp T × Kp T) := do
  sized z.ty z.n z.m
  pure (z, { z with x := leftByCtor z.ty.n z.x, u := leftByCtor z.ty.m z.u })

/-- `operator=(const KnotPoint&)` (knotpoint.hpp:69-77), `dst = src`. -/
def copyAssign (dst src : Kp T) : Except Err (Kp T) := do
  let x ← vec dst.ty.n src.x
  let u ← vec dst.ty.m src.u
  pure ⟨dst.ty, src.n, src.m, x, u, src.t, src.h⟩

/-- `operator=(KnotPoint&&)` (knotpoint.hpp:86-94) for two different objects of the same type, `dst = std::move(src)`:
both afterwards. -/
def moveAssign (sw : Bool) (dst src : Kp T) : Kp T × Kp T :=
  ({ src with ty := dst.ty },
   { src with x := leftByAssign sw src.ty.n dst.x src.x, u := leftByAssign sw src.ty.m dst.u src.u })

/-- `SetTerminal` (knotpoint.hpp:141-144). -/
def setTerminal (z : Kp T) : Kp T := { z with h := 0, u := z.u.map fun _ => 0 }

/-- `IsTerminal` (knotpoint.hpp:134). -/
def isTerminal (z : Kp T) : Bool := decide (z.h = 0)

/-- `GetStateControl` (knotpoint.hpp:118-122): `z` has the size `AddSizes(n, m)` (state_control_sized.hpp:24-29), that is,
none at all if one of the sizes is dynamic, and the comma initializer asserts that the entries fit. -/
def getStateControl (z : Kp T) : Except Err (List T) :=
  match z.ty.n, z.ty.m with
  | some a, some b => do
    assertThat (decide (z.x.length + z.u.length = a + b))
    pure (z.x ++ z.u)
  | _, _ => do
    assertThat (decide (z.x.length + z.u.length = 0))
    pure []

/-- Reading entries `0..d-1` of a vector; Eigen asserts that the index is in range. -/
def entries (v : List T) (d : ℤ) : Except Err (List T) := do
  assertThat (decide (d.toNat ≤ v.length))
  pure (v.take d.toNat)

/-- The numbers in `ToString` (knotpoint.hpp:158-170): states, controls, time, step. -/
def printed (z : Kp T) : Except Err (List T × List T × T × T) := do
  let x ← entries z.x z.n
  let u ← entries z.u z.m
  pure (x, u, z.t, z.h)

/-- `UniformRandom(upper, resolution)` (knotpoint.hpp:173-175), `r` being what `rand()` returned. -/
def uniformRandom (upper : ℚ) (resolution r : ℕ) : ℚ := upper * (r % resolution : ℕ) / resolution

/-- `Vector::Random(size)`, `f` being the random entries. -/
def randoms (c : Option ℕ) (d : ℤ) (f : ℕ → ℚ) : Except Err (List ℚ) := do
  assertThat (decide (0 ≤ d))
  vec c ((List.range d.toNat).map f)

/-- `Random(state_dim, control_dim)` (knotpoint.hpp:103-112), in exact arithmetic. -/
def random (ty : Ty) (a b : ℤ) (fx fu : ℕ → ℚ) (r1 r2 : ℕ) : Except Err (Kp ℚ) := do
  let x ← randoms ty.n a fx
  let u ← randoms ty.m b fu
  ofVectors ty x u (uniformRandom 10 100 r1) (uniformRandom 1 100 r2)

/-- `Random()` (knotpoint.hpp:96-101); `Eigen::Dynamic` is −1. -/
def randomFixed (ty : Ty) (fx fu : ℕ → ℚ) (r1 r2 : ℕ) : Except Err (Kp ℚ) :=
  match ty.n, ty.m with
  | some n, some m => do
    assertThat (decide (0 < n) && decide (0 < m))
    random ty n m fx fu r1 r2
  | _, _ => .error .assertion

/-- The objects; `none` if there is none. -/
abbrev Heap (T : Type) := ℕ → Option (Kp T)

def put (h : Heap T) (i : ℕ) (z : Kp T) : Heap T := fun k => if k = i then some z else h k

/-- What can be done with knot points. -/
inductive Op (T : Type) where
  | ofVectors (i : ℕ) (ty : Ty) (x u : List T) (t h : T)
  | ofSizes (i : ℕ) (ty : Ty) (a b : ℤ)
  | convert (i : ℕ) (ty : Ty) (j : ℕ)
  | copyAssign (i j : ℕ)
  | moveCtor (i j : ℕ)
  | moveAssign (i j : ℕ)
  /-- `State() = v` (knotpoint.hpp:114) -/
  | setState (i : ℕ) (v : List T)
  /-- `Control() = v` (knotpoint.hpp:115) -/
  | setControl (i : ℕ) (v : List T)
  /-- `SetTime` (knotpoint.hpp:125) -/
  | setTime (i : ℕ) (t : T)
  /-- `SetStep` (knotpoint.hpp:126) -/
  | setStep (i : ℕ) (h : T)
  | setTerminal (i : ℕ)

/-- The object with an identifier. -/
def get (h : Heap T) (i : ℕ) : Except Err (Kp T) :=
  match h i with
  | some z => .ok z
  | none => .error .undefined

/-- An identifier for a new object must be unused. -/
def fresh (h : Heap T) (i : ℕ) : Except Err Unit :=
  match h i with
  | none => .ok ()
  | some _ => .error .undefined

/-- `dst = src` for different types converts `src` to a temporary of the type of `dst` and moves that. -/
def assign (sw : Bool) (dst src : Kp T) : Except Err (Kp T) :=
  if dst.ty = src.ty then copyAssign dst src
  else do
    let tmp ← convert dst.ty src
    pure (moveAssign sw dst tmp).1

def step (sw : Bool) (h : Heap T) : Op T → Except Err (Heap T)
  | .ofVectors i ty x u t s => do
    fresh h i
    let z ← ofVectors ty x u t s
    pure (put h i z)
  | .ofSizes i ty a b => do
    fresh h i
    let z ← ofSizes ty a b
    pure (put h i z)
  | .convert i ty j => do
    fresh h i
    let z ← get h j
    let w ← convert ty z
    pure (put h i w)
  | .copyAssign i j => do
    let d ← get h i
    let z ← get h j
    let w ← assign sw d z
    pure (put h i w)
  | .moveCtor i j => do
    fresh h i
    let z ← get h j
    let r ← moveCtor z
    pure (put (put h j r.2) i r.1)
  | .moveAssign i j => do
    let d ← get h i
    let z ← get h j
    if i = j then pure h
    else if d.ty = z.ty then pure (put (put h j (moveAssign sw d z).2) i (moveAssign sw d z).1)
    else do
      let w ← assign sw d z
      pure (put h i w)
  | .setState i v => do
    let z ← get h i
    let x ← vec z.ty.n v
    pure (put h i { z with x := x })
  | .setControl i v => do
    let z ← get h i
    let u ← vec z.ty.m v
    pure (put h i { z with u := u })
  | .setTime i t => do
    let z ← get h i
    pure (put h i { z with t := t })
  | .setStep i s => do
    let z ← get h i
    pure (put h i { z with h := s })
  | .setTerminal i => do
    let z ← get h i
    pure (put h i (setTerminal z))

def run (sw : Bool) (h : Heap T) : List (Op T) → Except Err (Heap T)
  | [] => .ok h
  | op :: l => do
    let h ← step sw h op
    run sw h l

def empty : Heap T := fun _ => none

end Knot
end Altro
