import Verif.CoreLosses.SteinmetzProps

/-!
# Core losses: formulas of the manufacturers (C159)
-/

set_option linter.unusedSimpArgs false
set_option linter.unusedVariables false

namespace Verif.CoreLosses

/-- The equations published (CoreLosses.cpp 2465-2506), of a, b, c, d, the amplitude and the frequency. -/
noncomputable def published (m : Method) (a b c d B f : ℝ) : Option ℝ :=
  match m with
  | .micrometals => some (f / (a / B ^ 3 + b / B ^ (23 / 10 : ℝ) + c / B ^ (165 / 100 : ℝ)) + d * B ^ 2 * f ^ 2)
  | .magnetics => some (a * B ^ b * f ^ c)
  | .poco => some (1000 * (a * f / 1000 * (B * 10) ^ b + c * (B * 10 * f / 1000) ^ 2))
  | .tdg => some (1000 * (B * 10) ^ a * (b * f / 1000 + c * (f / 1000) ^ d))
  | _ => none

/-- The denominator for Micrometals. -/
noncomputable def denominator (a b c B : ℝ) : ℝ := a / B ^ 3 + b / B ^ (23 / 10 : ℝ) + c / B ^ (165 / 100 : ℝ)

theorem denominator_pos {a b c B : ℝ} (ha : 0 ≤ a) (hb : 0 ≤ b) (hc : 0 ≤ c) (h : 0 < a ∨ 0 < b ∨ 0 < c) (hB : 0 < B) :
    0 < denominator a b c B := by
  unfold denominator
  have h1 : 0 ≤ a / B ^ 3 := by positivity
  have h2 : 0 ≤ b / B ^ (23 / 10 : ℝ) := by positivity
  have h3 : 0 ≤ c / B ^ (165 / 100 : ℝ) := by positivity
  rcases h with h | h | h
  · have : 0 < a / B ^ 3 := by positivity
    linarith
  · have : 0 < b / B ^ (23 / 10 : ℝ) := by positivity
    linarith
  · have : 0 < c / B ^ (165 / 100 : ℝ) := by positivity
    linarith

/-- C159: at a positive amplitude and frequency the losses by volume are those of the equation published. -/
theorem maker_published (a b c d B f : ℝ) (hB : 0 < B) (hf : 0 < f) :
    (denominator a b c B ≠ 0 → some (micrometals a b c d f B) = (published .micrometals a b c d B f).map Res.ok) ∧
    (0 ≤ b → some (magnetics a b c f B B) = (published .magnetics a b c d B f).map Res.ok) ∧
    some (poco a b c f B) = (published .poco a b c d B f).map Res.ok ∧
    some (tdg a b c d f B) = (published .tdg a b c d B f).map Res.ok := by
  refine ⟨?_, ?_, ?_, ?_⟩
  · intro h
    unfold micrometals published
    unfold denominator at h
    rw [if_neg hB.ne', if_neg h]; rfl
  · intro hb
    unfold magnetics published
    rw [cpow_pos hf]
    simp only [Res.bind]
    rw [amplitudes_eq hB.le hb]
    simp only [Option.map_some]
    congr 2; ring
  · unfold poco published
    rw [cpow_pos (by linarith)]
    simp only [Res.bind, Option.map_some]
    congr 2; ring
  · unfold tdg published
    rw [cpow_pos (by linarith), cpow_pos (by linarith)]
    simp only [Res.bind, Option.map_some]

/-- C159: with coefficients that are not negative, neither are the losses. -/
theorem maker_nonneg (a b c d B f p : ℝ) (ha : 0 ≤ a) (hc : 0 ≤ c) (hB : 0 < B) (hf : 0 < f) :
    (0 ≤ b → 0 ≤ d → micrometals a b c d f B = .ok p → 0 ≤ p) ∧
    (0 ≤ b → magnetics a b c f B B = .ok p → 0 ≤ p) ∧
    (poco a b c f B = .ok p → 0 ≤ p) ∧
    (0 ≤ b → tdg a b c d f B = .ok p → 0 ≤ p) := by
  refine ⟨?_, ?_, ?_, ?_⟩
  · intro hb hd h
    unfold micrometals at h
    rw [if_neg hB.ne'] at h
    split_ifs at h with h0
    simp only [Res.ok.injEq] at h
    rw [← h]
    have h1 : 0 ≤ a / B ^ 3 + b / B ^ (23 / 10 : ℝ) + c / B ^ (165 / 100 : ℝ) := by positivity
    positivity
  · intro hb h
    unfold magnetics at h
    rw [cpow_pos hf] at h
    simp only [Res.bind] at h
    exact amplitudes_nonneg (by positivity) hB.le hB.le h
  · intro h
    unfold poco at h
    rw [cpow_pos (by linarith)] at h
    simp only [Res.bind, Res.ok.injEq] at h
    rw [← h]; positivity
  · intro hb h
    unfold tdg at h
    rw [cpow_pos (by linarith), cpow_pos (by linarith)] at h
    simp only [Res.bind, Res.ok.injEq] at h
    rw [← h]; positivity

/-- The positive root of a quadratic without a negative coefficient but the last. -/
theorem root_of {qa qb v x : ℝ} (ha : 0 < qa) (hb : 0 ≤ qb) (hx : 0 ≤ x) (h : qa * x ^ 2 + qb * x = v) :
    (-qb + Real.sqrt (qb ^ 2 + 4 * qa * v)) / (2 * qa) = x := by
  have : qb ^ 2 + 4 * qa * v = (qb + 2 * qa * x) ^ 2 := by rw [← h]; ring
  rw [this, Real.sqrt_sq (by positivity)]
  field_simp
  ring

/-- C159: for Micrometals, without bias and with a positive quadratic coefficient, the frequency of the losses of a frequency is that
frequency. -/
theorem micrometals_round_trip_partial (a b c d B f v : ℝ) (ha : 0 ≤ a) (hb : 0 ≤ b) (hc : 0 ≤ c) (h0 : 0 < a ∨ 0 < b ∨ 0 < c)
    (hd : 0 < d) (hB : 0 < B) (hf : 0 < f) (h : micrometals a b c d f B = .ok v) : micrometalsFrequency a b c d B v = .ok f := by
  have hden := denominator_pos ha hb hc h0 hB
  unfold denominator at hden
  unfold micrometals at h
  rw [if_neg hB.ne', if_neg hden.ne'] at h
  simp only [Res.ok.injEq] at h
  unfold micrometalsFrequency
  rw [if_neg (not_le.mpr hB), if_neg hden.ne']
  simp only []
  set q := a / B ^ 3 + b / B ^ (23 / 10 : ℝ) + c / B ^ (165 / 100 : ℝ) with hq
  have hq0 : 0 < q := hden
  have hv : 0 ≤ v := by rw [← h]; positivity
  rw [if_neg]
  · have := root_of (qa := d * B ^ 2) (qb := 1 / q) (v := v) (x := f) (by positivity) (by positivity) hf.le (by rw [← h]; ring)
    rw [this, if_neg (not_lt.mpr hf.le)]
  · rintro (h' | h')
    · have : 0 < d * B ^ 2 := by positivity
      linarith
    · have : 0 ≤ (1 / q) ^ 2 + 4 * (d * B ^ 2) * v := by positivity
      linarith

/-- C159 fails: without a quadratic coefficient the frequency for Micrometals is not a number, and it is not refused. -/
theorem micrometals_linear_nan (a b c B v : ℝ) : micrometalsFrequency a b c 0 B v = .nan := by
  unfold micrometalsFrequency
  simp only [zero_mul, true_or, if_true]
  split_ifs <;> rfl

/-- C159: the same for Magnetics. -/
theorem magnetics_round_trip (a b c B f v : ℝ) (ha : 0 < a) (hb : 0 ≤ b) (hc : c ≠ 0) (hB : 0 < B) (hf : 0 < f)
    (h : magnetics a b c f B B = .ok v) : magneticsFrequency a b c B v = .ok f := by
  unfold magnetics at h
  rw [cpow_pos hf] at h
  simp only [Res.bind] at h
  rw [amplitudes_eq hB.le hb] at h
  simp only [Res.ok.injEq] at h
  have hBb : 0 < B ^ b := Real.rpow_pos_of_pos hB b
  have hfc : 0 < f ^ c := Real.rpow_pos_of_pos hf c
  unfold magneticsFrequency
  rw [cpow_pos hB]
  simp only [Res.bind]
  rw [if_neg (by rintro (h' | h'); · exact absurd h' (by positivity)
                 · exact hc h')]
  have hv : v / (a * B ^ b) = f ^ c := by rw [← h]; field_simp
  rw [hv, cpow_pos hfc]
  simp only []
  rw [← Real.rpow_mul hf.le, mul_one_div_cancel hc, Real.rpow_one, if_neg (not_lt.mpr hf.le)]

/-- C159: the same for Poco, with a positive quadratic coefficient. -/
theorem poco_round_trip_partial (a b c B f v : ℝ) (ha : 0 ≤ a) (hc : 0 < c) (hB : 0 < B) (hf : 0 < f)
    (h : poco a b c f B = .ok v) : pocoFrequency a b c B v = .ok f := by
  have hB' : 0 < B * 10 := by linarith
  have hp := Real.rpow_pos_of_pos hB' b
  unfold poco at h
  rw [cpow_pos hB'] at h
  simp only [Res.bind, Res.ok.injEq] at h
  unfold pocoFrequency
  rw [cpow_pos hB']
  simp only [Res.bind]
  have hv : 0 ≤ v / 1000 := by rw [← h]; positivity
  rw [if_neg]
  · have := root_of (qa := c * (B * 10) ^ 2) (qb := a * (B * 10) ^ b) (v := v / 1000) (x := f / 1000) (by positivity) (by positivity)
      (by positivity) (by rw [← h]; ring)
    rw [mul_div_assoc, this, mul_div_cancel₀ _ (by norm_num : (1000 : ℝ) ≠ 0), if_neg (not_lt.mpr hf.le)]
  · rintro (h' | h')
    · exact absurd h' (by positivity)
    · have : 0 ≤ (a * (B * 10) ^ b) ^ 2 + 4 * (c * (B * 10) ^ 2) * (v / 1000) := by positivity
      linarith

/-- C159: the same for Magnetec, from the losses of a mass. -/
theorem magnetec_round_trip (f B mass v : ℝ) (hf : 0 < f) (hB : 0 < B) (hm : 0 < mass) (h : magnetec f B = .ok v) :
    magnetecFrequency B mass (v * mass) = .ok f := by
  unfold magnetec at h
  have hf' : 0 < f / 100000 := by positivity
  have hp := Real.rpow_pos_of_pos hf' (18 / 10)
  rw [cpow_pos hf'] at h
  simp only [Res.bind, Res.ok.injEq] at h
  unfold magnetecFrequency
  rw [if_neg (by rintro (h' | h') <;> linarith)]
  have : v * mass / mass / 80 / (B * 2 / (3 / 10)) ^ 2 = (f / 100000) ^ (18 / 10 : ℝ) := by
    rw [← h]; field_simp
  rw [this, cpow_pos hp]
  simp only [Res.bind]
  rw [← Real.rpow_mul hf'.le, show (18 / 10 * (10 / 18) : ℝ) = 1 by norm_num, Real.rpow_one,
    div_mul_cancel₀ _ (by norm_num : (100000 : ℝ) ≠ 0), if_neg (not_lt.mpr hf.le)]

/-- C159 fails: of a biased flux density the frequency is that of losses at the peak, bias included, and not at the amplitude. -/
theorem magnetics_bias_fails : ∃ a b c peak offset f v, 0 < offset ∧ offset < peak ∧
    magnetics a b c f (peak - offset) |peak - offset| = .ok v ∧ ∃ g, magneticsFrequency a b c peak v = .ok g ∧ g ≠ f := by
  refine ⟨1, 2, 1, 2, 1, 4, 4, by norm_num, by norm_num, ?_, 1, ?_, by norm_num⟩
  · have : |(2 - 1 : ℝ)| = 1 := by norm_num
    unfold magnetics amplitudes
    rw [this, cpow_pos (by norm_num)]
    simp only [Res.bind]
    rw [if_neg (by norm_num), cpow_pos (by norm_num)]
    simp [Res.bind]
  · unfold magneticsFrequency
    rw [cpow_pos (by norm_num)]
    simp only [Res.bind]
    rw [if_neg (by norm_num)]
    have : (4 : ℝ) / (1 * 2 ^ (2 : ℝ)) = 1 := by rw [Real.rpow_two]; norm_num
    rw [this, cpow_pos (by norm_num)]
    norm_num

example : ∃ v, magnetics 2 2 1 1000 1 1 = .ok v ∧ magneticsFrequency 2 2 1 1 v = .ok 1000 := by
  have h : magnetics 2 2 1 1000 1 1 = .ok (2 * 1000 ^ (1 : ℝ) * 1 ^ (2 : ℝ)) := by
    unfold magnetics
    rw [cpow_pos (by norm_num)]
    simp only [Res.bind]
    rw [amplitudes_eq (by norm_num) (by norm_num)]
  exact ⟨_, h, magnetics_round_trip 2 2 1 1 1000 _ (by norm_num) (by norm_num) (by norm_num) (by norm_num) (by norm_num) h⟩

end Verif.CoreLosses
