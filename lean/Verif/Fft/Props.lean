import Verif.Fft.Lemmas
import Mathlib.Data.ZMod.Basic
import Mathlib.Tactic.NormNum.Prime

/-! # Properties of the transform (C133, C134) -/

namespace Verif.Fft

set_option linter.unusedSimpArgs false

/-- C133: for every power of two from 2 to `2 ^ 31`, and over every commutative ring, the transform started with a root whose
`N`-th power is `-1` gives the sums of Fourier with the square of that root, in order. -/
theorem fft_computes_sums {F : Type} [CommRing F] (phi : F) (m : Nat) (h1 : 1 ≤ m) (h2 : m ≤ 31) (x : List F)
    (hx : x.length = 2 ^ m) (hphi : phi ^ (2 ^ m) = -1) :
    fft phi x = .ok ((List.range (2 ^ m)).map (dft (phi * phi) x)) := fft_spec phi m h1 h2 x hx hphi

/-- Eight values modulo 97, whose root 8 has order 16. -/
example : fft (8 : ZMod 97) [1, 5, 0, 7, 3, 3, 90, 2] =
    .ok ((List.range 8).map (dft (64 : ZMod 97) [1, 5, 0, 7, 3, 3, 90, 2])) := by
  have h := fft_computes_sums (8 : ZMod 97) 3 (by decide) (by decide) [1, 5, 0, 7, 3, 3, 90, 2] rfl (by decide +kernel)
  have e : (8 : ZMod 97) * 8 = 64 := by decide +kernel
  rw [e] at h
  exact h

/-- C133: over the complex numbers it gives the discrete Fourier transform: value `q` is `∑ x_j exp (-2 π i j q / N)`. -/
theorem transform_is_fourier (x : List ℂ) (m : Nat) (h1 : 1 ≤ m) (h2 : m ≤ 31) (hx : x.length = 2 ^ m) :
    transform x = .ok ((List.range x.length).map fun q : Nat => ∑ j : Fin x.length, x.get j * turn x.length j.val q) := by
  rw [transform_eq m h1 h2 x hx, ← hx]
  congr 1
  apply List.map_congr_left
  intro q _
  rw [← Fin.sum_univ_eq_sum_range (fun j : Nat => val x j * tw x.length (-(j * q : ℤ)))]
  apply Finset.sum_congr rfl
  intro j _
  rw [turn_eq, val_of (v := x.get j) (by simp)]

example : ∃ y, transform [1, 2, 3, 4] = .ok y ∧ y.length = 4 :=
  ⟨_, transform_is_fourier [1, 2, 3, 4] 2 (by decide) (by decide) rfl, by simp⟩

/-- C133: no value, and one value, are undefined: the first converts the logarithm of zero to an integer, the second shifts
32 bits by 32. -/
theorem transform_needs_two {F : Type} [CommRing F] (phi : F) (x : List F) (h : x.length < 2) : fft phi x = .ub := by
  unfold fft
  have e : stages x.length x.length phi x = .ok x := by rw [stages, if_neg (by omega)]
  rw [e]
  simp only [Res.bind]
  by_cases h0 : x.length = 0
  · rw [if_pos h0]
  · rw [if_neg h0, if_pos (Nat.log_of_lt h)]

example : ([3] : List ℤ).length < 2 := by decide

/-- C134: the inverse undoes the transform, and the transform undoes the inverse, for every power of two from 2 to `2 ^ 31`. -/
theorem inverse_undoes_transform (x : List ℂ) (m : Nat) (h1 : 1 ≤ m) (h2 : m ≤ 31) (hx : x.length = 2 ^ m) :
    (transform x).bind inverse = .ok x ∧ (inverse x).bind transform = .ok x :=
  ⟨inverse_transform_eq m h1 h2 x hx, transform_inverse_eq m h1 h2 x hx⟩

example : (transform [1, Complex.I]).bind inverse = .ok [1, Complex.I] :=
  (inverse_undoes_transform [1, Complex.I] 1 (by decide) (by decide) rfl).1

/-- C134: two sets of values of the same size with the same transform are the same. -/
theorem transform_injective (x y : List ℂ) (m : Nat) (h1 : 1 ≤ m) (h2 : m ≤ 31) (hx : x.length = 2 ^ m)
    (hy : y.length = 2 ^ m) (h : transform x = transform y) : x = y := by
  have a := (inverse_undoes_transform x m h1 h2 hx).1
  have b := (inverse_undoes_transform y m h1 h2 hy).1
  rw [h, b] at a
  exact (Res.ok.inj a).symm

example : transform [1, 2] ≠ transform [1, 3] := fun h => by
  have := transform_injective [1, 2] [1, 3] 1 (by decide) (by decide) rfl rfl h
  norm_num at this

end Verif.Fft
