import Verif.Fft.Model
import Mathlib.Algebra.BigOperators.Fin
import Mathlib.Analysis.SpecialFunctions.Trigonometric.Basic

/-! # What transforms and harmonics should be -/

namespace Verif.Fft

/-- The sum of Fourier at `q` with the root `w`. -/
def dft {F : Type} [CommRing F] (w : F) (x : List F) (q : Nat) : F := ∑ j : Fin x.length, x.get j * w ^ (j.val * q)

/-- `exp (-2 π i j q / N)`. -/
noncomputable def turn (N j q : Nat) : ℂ := Complex.exp (-(2 * Real.pi * Complex.I * j * q / N))

/-- The component of real values at `q` turns per period. -/
noncomputable def component (x : List ℝ) (q : Nat) : ℂ := ∑ j : Fin x.length, (x.get j : ℂ) * turn x.length j.val q

/-- The amplitude of the component at `q`: its mean value for `q = 0`, and the amplitude of a sine otherwise. -/
noncomputable def amplitudeAt (x : List ℝ) (q : Nat) : ℝ := (if q = 0 then 1 else 2) * ‖component x q‖ / x.length

/-- The mean of some values. -/
noncomputable def mean (x : List ℝ) : ℝ := x.sum / x.length

/-- The values of a signal made of harmonics of amplitudes `c` and phases `p`. -/
noncomputable def signal (N M : Nat) (c p : Nat → ℝ) : List ℝ :=
  (List.range N).map fun j : Nat => ∑ h ∈ Finset.range M, c h * Real.cos (2 * Real.pi * h * j / N + p h)

end Verif.Fft
