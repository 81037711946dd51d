import Verif.Fft.Stages
import Mathlib.RingTheory.RootsOfUnity.Complex
import Mathlib.Analysis.SpecialFunctions.Trigonometric.Basic
import Mathlib.Algebra.Field.GeomSum

/-! # Sums of turning numbers -/

namespace Verif.Fft

set_option linter.unusedSimpArgs false

open Finset Complex

/-- `exp (2 π i d / N)`. -/
noncomputable def tw (N : Nat) (d : ℤ) : ℂ := exp (2 * Real.pi * I * (d / N))

theorem tw_add (N : Nat) (a b : ℤ) : tw N (a + b) = tw N a * tw N b := by
  unfold tw
  rw [← exp_add]
  congr 1
  push_cast
  ring

theorem tw_zero (N : Nat) : tw N 0 = 1 := by simp [tw]

theorem tw_mul_nat (N : Nat) (a : ℤ) (n : Nat) : tw N (a * n) = tw N a ^ n := by
  unfold tw
  rw [← exp_nat_mul]
  congr 1
  push_cast
  ring

theorem tw_neg (N : Nat) (a : ℤ) : tw N (-a) = starRingEnd ℂ (tw N a) := by
  unfold tw
  rw [← exp_conj]
  congr 1
  have h2 : (starRingEnd ℂ) 2 = 2 := map_ofNat _ 2
  simp [map_div₀, h2]
  ring

theorem tw_norm (N : Nat) (a : ℤ) : ‖tw N a‖ = 1 := by
  unfold tw
  have : (2 * Real.pi * I * (a / N) : ℂ) = ((2 * Real.pi * (a / N) : ℝ) : ℂ) * I := by push_cast; ring
  rw [this]
  exact norm_exp_ofReal_mul_I _

theorem tw_eq_one_iff (N : Nat) (hN : 0 < N) (a : ℤ) : tw N a = 1 ↔ (N : ℤ) ∣ a := by
  unfold tw
  rw [exp_eq_one_iff]
  have hN' : (N : ℂ) ≠ 0 := by exact_mod_cast hN.ne'
  constructor
  · rintro ⟨n, hn⟩
    refine ⟨n, ?_⟩
    have h1 : (2 * Real.pi * I : ℂ) ≠ 0 := by
      simp [Real.pi_ne_zero, I_ne_zero]
    have h2 : (a / N : ℂ) = n := by
      apply mul_left_cancel₀ h1
      rw [hn]; ring
    rw [div_eq_iff hN'] at h2
    have h3 : (a : ℂ) = ((N : ℤ) * n : ℤ) := by rw [h2]; push_cast; ring
    exact_mod_cast h3
  · rintro ⟨n, rfl⟩
    refine ⟨n, ?_⟩
    push_cast
    field_simp

/-- Turning all the way round in equal steps sums to zero. -/
theorem tw_sum (N : Nat) (hN : 0 < N) (d : ℤ) :
    ∑ j ∈ range N, tw N (d * j) = if (N : ℤ) ∣ d then (N : ℂ) else 0 := by
  simp only [tw_mul_nat]
  by_cases h : (N : ℤ) ∣ d
  · rw [if_pos h, (tw_eq_one_iff N hN d).mpr h]
    simp
  · rw [if_neg h]
    have h1 : tw N d ≠ 1 := fun e => h ((tw_eq_one_iff N hN d).mp e)
    rw [geom_sum_eq h1, ← tw_mul_nat, (tw_eq_one_iff N hN _).mpr (Dvd.intro_left d rfl)]
    simp

theorem rootOf_eq (N : Nat) : rootOf N = exp (-(Real.pi / N : ℝ) * I) := by
  apply Complex.ext
  · rw [rootOf, exp_re]; simp
  · rw [rootOf, exp_im]; simp

theorem rootOf_pow (N : Nat) (hN : 0 < N) : rootOf N ^ N = -1 := by
  rw [rootOf_eq, ← exp_nat_mul]
  have hN' : (N : ℂ) ≠ 0 := by exact_mod_cast hN.ne'
  have : (N * (-(Real.pi / N : ℝ) * I) : ℂ) = -(Real.pi * I) := by
    push_cast
    field_simp
  rw [this, exp_neg, exp_pi_mul_I]
  norm_num

theorem rootOf_sq (N : Nat) : rootOf N * rootOf N = tw N (-1) := by
  rw [rootOf_eq, ← exp_add, tw]
  congr 1
  push_cast
  ring

end Verif.Fft
