import Mathlib.Analysis.Real.Sqrt
import Verif.Model.ConInfo
import Verif.Model.Problem

/-!
# Benchmark statistics   (`altro/utils/benchmarking.hpp:21-113`)

Durations are real numbers; the code has `double`.  Printing is not modelled.
-/

namespace Altro
namespace Bench

/-- `BenchmarkResults` (benchmarking.hpp:21-30). -/
structure Results where
  mean : ℝ
  median : ℝ
  std : ℝ
  max : ℝ
  min : ℝ
  samples : ℕ

/-- The median (benchmarking.hpp:50-56) of the sorted samples.  Without samples it reads at `0` and `-1`. -/
noncomputable def medianOf (l : List ℝ) : Except Err ℝ :=
  if l.length % 2 = 1 then vread l ((l.length / 2 : ℕ) : ℤ)
  else do
    let b ← vread l ((l.length / 2 : ℕ) : ℤ)
    let a ← vread l ((l.length / 2 : ℕ) - 1 : ℤ)
    pure ((b + a) / 2)

/-- `Calculate` after the sort (benchmarking.hpp:50-73). -/
noncomputable def calcSorted (l : List ℝ) : Except Err Results := do
  let med ← medianOf l
  let t0 ← vread l 0
  let sum := l.tail.foldl (fun s t => s + t) t0
  let mx := l.tail.foldl (fun s t => max t s) t0
  let mn := l.tail.foldl (fun s t => min t s) t0
  let mean := sum / l.length
  let std := l.tail.foldl (fun s t => s + (t - mean) ^ 2) ((t0 - mean) ^ 2)
  pure { mean := mean, median := med, std := Real.sqrt (std / l.length), max := mx, min := mn, samples := l.length }

/-- `Calculate(times)` (benchmarking.hpp:46-73) can leave the vector `times'` and give `res`. -/
def Calculate (times times' : List ℝ) (res : Except Err Results) : Prop :=
  StdSort (fun a b : ℝ => decide (a < b)) times times' ∧ res = calcSorted times'

variable {S : Type}

/-- The loop of `Benchmark` (benchmarking.hpp:106-111).  The state `S` includes the clock; `now` reads it. -/
def benchLoop (now : S → ℝ × S) (f : S → S) : ℕ → S → List ℝ × S
  | 0, s => ([], s)
  | r + 1, s =>
    let p := benchLoop now f r s
    let a := now p.2
    let b := now (f a.2)
    (p.1 ++ [b.1 - a.1], b.2)

/-- `Benchmark(f, Nsamples)` (benchmarking.hpp:101-113): the samples, sorted or not, the result and the final state.
`reserve` of a negative number converted to `size_t` throws `length_error`. -/
def Benchmark (now : S → ℝ × S) (f : S → S) (n : ℤ) (s : S) (times' : List ℝ) (res : Except Err (Results × S)) : Prop :=
  if n < 0 then res = .error .thrown
  else ∃ r, Calculate (benchLoop now f n.toNat s).1 times' r ∧
    res = r.map fun q => (q, (benchLoop now f n.toNat s).2)

end Bench
end Altro
