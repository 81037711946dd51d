import Mathlib.Analysis.SpecialFunctions.Log.Base
import Mathlib.Analysis.SpecialFunctions.Pow.Real
import Mathlib.Analysis.Complex.ExponentialBounds
import Mathlib.Data.Nat.Log
import Mathlib.Tactic.Linarith
import Mathlib.Tactic.FieldSimp
import Mathlib.Tactic.NormNum

/-! # Model of the sample-count and sample-position helpers (src/support/Utils.cpp, Utils.h) -/

namespace Verif.Sampling

/-! ## Sizes -/

/-- Models `is_size_power_of_2` (src/support/Utils.cpp:2205-2207 and
src/processors/WaveformProcessor.cpp:79-81); the vector is represented by its size. -/
def isSizePowerOf2 (n : Nat) : Bool := decide (n > 0) && ((n &&& (n - 1)) == 0)

/-- The part of `round_up_size_to_power_of_2` after the quotient of logarithms has been computed:
`pow(2, ceil(q))` converted to `size_t`, which truncates (src/support/Utils.cpp:2209-2216). -/
noncomputable def sizeFromQuotient (q : ℝ) : Nat := ⌊(2 : ℝ) ^ ⌈q⌉⌋₊

/-- Models `round_up_size_to_power_of_2` (src/support/Utils.cpp:2209-2216) with exact logarithms. Size 0
gives `log(0) = -inf`, `pow(2, -inf) = 0`. The rounding of the floating-point quotient is treated separately
(`roundUp_robust`, `roundUp_doubles_when_quotient_rounds_up`). -/
noncomputable def roundUpSize (n : Nat) : Nat :=
  if n = 0 then 0 else sizeFromQuotient (Real.log n / Real.log 2)

/-! ## Spaced arrays -/

variable {K : Type} [Field K]

/-- The filling loop of `linear_spaced_array` (src/support/Utils.cpp:2386-2388). -/
def fill (h : K) : Nat → K → List K
  | 0, _ => []
  | n + 1, val => val :: fill h n (val + h)

/-- Models `linear_spaced_array` (src/support/Utils.cpp:2381-2391, duplicated in
src/processors/WaveformProcessor.cpp:87-97). For `N = 1` the step is a division by zero in the code, but is
never used; for `N = 0` the size wraps but nothing is produced. -/
def linearSpaced (a b : K) (N : Nat) : List K := fill ((b - a) / ((N - 1 : Nat) : K)) N a

/-- Models `logarithmic_spaced_array` (src/support/Utils.cpp:2393-2406) with exact `log10` and `pow`. -/
noncomputable def logarithmicSpaced (a b : ℝ) (N : Nat) : List ℝ :=
  (fill ((Real.logb 10 b - Real.logb 10 a) / ((N - 1 : Nat) : ℝ)) N (Real.logb 10 a)).map
    (fun v => (10 : ℝ) ^ v)

/-- Models `linspace` (src/support/Utils.h:29-41). -/
def linspace (start stop : K) (num : Nat) : List K :=
  if num = 0 then []
  else if num = 1 then [start]
  else
    let step := (stop - start) / ((num - 1 : Nat) : K)
    (List.range num).map (fun i : Nat => start + (i : K) * step)

end Verif.Sampling
