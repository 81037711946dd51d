import Mathlib.Tactic.Linarith
import Mathlib.Tactic.Positivity
import Mathlib.Tactic.NormNum
import Mathlib.Tactic.FieldSimp
import Verif.CoreLosses.Series
import Verif.CoreLosses.Lemmas

/-!
# Properties of the series resistance of a core and of losses by loss factor (C164)
-/

namespace Verif.CoreLosses

/-- The amplitude of the flux density of one ampere rms in an inductance: that of the turns it takes, which need not be a whole number. -/
noncomputable def exactFlux (inductance reluctance area : ℝ) : ℝ := Real.sqrt 2 * Real.sqrt (inductance * reluctance) / reluctance / area

/-- C164: the flux density at which it is calculated is that of the inductance asked for when the turns are a whole number. -/
theorem series_exact_partial (losses : ℝ → ℝ) (reluctance area : ℝ) (turns : ℕ) (hr : 0 < reluctance) :
    seriesResistance losses ((turns : ℝ) ^ 2 / reluctance) reluctance area = losses (exactFlux ((turns : ℝ) ^ 2 / reluctance) reluctance area) := by
  have h : (turns : ℝ) ^ 2 / reluctance * reluctance = (turns : ℝ) ^ 2 := by field_simp
  have hs : Real.sqrt ((turns : ℝ) ^ 2) = turns := Real.sqrt_sq (by positivity)
  unfold seriesResistance seriesFlux exactFlux seriesTurns
  rw [h, hs, Nat.floor_natCast]
  simp

/-- C164: it is never more than that of the inductance asked for, and is that of an inductance of whole turns which is not more. -/
theorem series_understated (losses : ℝ → ℝ) (inductance reluctance area : ℝ) (hl : 0 ≤ inductance) (hr : 0 < reluctance) (ha : 0 < area)
    (hm : ∀ x y, 0 ≤ x → x ≤ y → losses x ≤ losses y) :
    seriesResistance losses inductance reluctance area ≤ losses (exactFlux inductance reluctance area) ∧
    ∃ turns : ℕ, (turns : ℝ) ^ 2 / reluctance ≤ inductance ∧ inductance < ((turns : ℝ) + 1) ^ 2 / reluctance ∧
      seriesResistance losses inductance reluctance area = losses (exactFlux ((turns : ℝ) ^ 2 / reluctance) reluctance area) := by
  have h0 : 0 ≤ inductance * reluctance := by positivity
  have hfl : (seriesTurns inductance reluctance : ℝ) ≤ Real.sqrt (inductance * reluctance) := Nat.floor_le (Real.sqrt_nonneg _)
  have hlt : Real.sqrt (inductance * reluctance) < (seriesTurns inductance reluctance : ℝ) + 1 := Nat.lt_floor_add_one _
  constructor
  · unfold seriesResistance
    rw [one_pow, div_one]
    refine hm _ _ (by unfold seriesFlux; positivity) ?_
    unfold seriesFlux exactFlux
    gcongr
  · refine ⟨seriesTurns inductance reluctance, ?_, ?_, ?_⟩
    · rw [div_le_iff₀ hr]
      calc ((seriesTurns inductance reluctance : ℝ)) ^ 2 ≤ Real.sqrt (inductance * reluctance) ^ 2 := by gcongr
        _ = inductance * reluctance := Real.sq_sqrt h0
    · rw [lt_div_iff₀ hr]
      calc inductance * reluctance = Real.sqrt (inductance * reluctance) ^ 2 := (Real.sq_sqrt h0).symm
        _ < _ := by gcongr
    · rw [← series_exact_partial losses reluctance area _ hr]
      have h : seriesTurns (((seriesTurns inductance reluctance : ℝ)) ^ 2 / reluctance) reluctance = seriesTurns inductance reluctance := by
        generalize seriesTurns inductance reluctance = n
        unfold seriesTurns
        rw [div_mul_cancel₀ _ hr.ne', Real.sqrt_sq (by positivity), Nat.floor_natCast]
      unfold seriesResistance seriesFlux
      rw [h]

/-- C164 fails: an inductance of less than one turn has no resistance, whatever its losses. -/
theorem series_vanishes (losses : ℝ → ℝ) (inductance reluctance area : ℝ) (h : inductance * reluctance < 1) :
    seriesResistance losses inductance reluctance area = losses 0 := by
  have h1 : Real.sqrt (inductance * reluctance) < 1 := by
    rw [Real.sqrt_lt' one_pos]; simpa using h
  have : seriesTurns inductance reluctance = 0 := Nat.floor_eq_zero.mpr h1
  unfold seriesResistance seriesFlux
  rw [this]
  simp

/-- C164 fails: with losses by the square of the flux density, an inductance of just under four times that of one turn has a quarter of
its resistance. -/
theorem series_witness : seriesResistance (fun b => b ^ 2) (399 / 100) 1 1 = 2 ∧ exactFlux (399 / 100) 1 1 ^ 2 = 2 * (399 / 100) := by
  constructor
  · have : seriesTurns (399 / 100) 1 = 1 := by
      unfold seriesTurns
      rw [Nat.floor_eq_iff (Real.sqrt_nonneg _)]
      refine ⟨?_, ?_⟩
      · rw [Nat.cast_one, Real.one_le_sqrt]; norm_num
      · rw [Nat.cast_one, Real.sqrt_lt' (by norm_num)]; norm_num
    unfold seriesResistance seriesFlux
    rw [this]
    norm_num
  · unfold exactFlux
    rw [div_one, div_one, mul_pow, Real.sq_sqrt (by norm_num), Real.sq_sqrt (by norm_num)]
    norm_num

/-- C164: losses by loss factor are those of the resistance at the rms current, not negative, those by volume times the volume, and
proportional to the loss factor and the square of the current. -/
theorem factor_losses {factor permeability f fluxPeak currentPeak rms reluctance area volume : ℝ} {p : ℝ × ℝ} (hmu : 0 ≤ permeability)
    (hf : 0 ≤ f) (hr : 0 < reluctance)
    (h : factorLosses factor permeability f fluxPeak currentPeak rms reluctance area volume = .ok p) :
    0 ≤ factor ∧ 0 ≤ p.1 ∧ p.2 * volume = p.1 ∧ ∃ turns : ℤ, fluxPeak / currentPeak * reluctance * area ≤ turns ∧
      (turns : ℝ) < fluxPeak / currentPeak * reluctance * area + 1 ∧
      p.1 = factor * permeability * (2 * Real.pi * f * ((turns : ℝ) ^ 2 / reluctance)) * rms ^ 2 := by
  unfold factorLosses inductanceOf factorResistance at h
  by_cases hi : currentPeak = 0
  · rw [if_pos hi] at h; simp [Res.bind] at h
  rw [if_neg hi, if_neg hr.ne'] at h
  simp only [Res.bind] at h
  by_cases hfa : factor < 0
  · rw [if_pos hfa] at h; simp at h
  rw [if_neg hfa] at h
  simp only at h
  by_cases hv : volume = 0
  · rw [if_pos hv] at h; simp at h
  rw [if_neg hv] at h
  simp only [Res.ok.injEq] at h
  have hfa := not_lt.mp hfa
  have hpi := Real.pi_pos
  subst h
  have hsq := mul_self_nonneg (⌈fluxPeak / currentPeak * reluctance * area⌉ : ℝ)
  refine ⟨hfa, ?_, div_mul_cancel₀ _ hv, ⌈fluxPeak / currentPeak * reluctance * area⌉, Int.le_ceil _, Int.ceil_lt_add_one _, ?_⟩
  · have : 0 ≤ (⌈fluxPeak / currentPeak * reluctance * area⌉ : ℝ) * ⌈fluxPeak / currentPeak * reluctance * area⌉ / reluctance :=
      div_nonneg hsq hr.le
    positivity
  · ring

/-- C164 fails: without current the turns are the conversion of a number that is not finite. -/
theorem factor_no_current (factor permeability f fluxPeak rms reluctance area volume : ℝ) :
    factorLosses factor permeability f fluxPeak 0 rms reluctance area volume = .ub := by
  simp [factorLosses, inductanceOf, Res.bind]

example : ∃ p, factorLosses 1 1 1 1 1 1 1 1 1 = .ok p := by
  unfold factorLosses inductanceOf factorResistance
  rw [if_neg one_ne_zero, if_neg one_ne_zero]
  simp only [Res.bind]
  rw [if_neg (by norm_num)]
  simp only
  rw [if_neg one_ne_zero]
  exact ⟨_, rfl⟩

end Verif.CoreLosses
