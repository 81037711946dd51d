import Verif.CoreLosses.Lemmas

/-!
# Core losses: Steinmetz' equation and its inverses (C152, C153)
-/

set_option linter.unusedSimpArgs false

namespace Verif.CoreLosses

/-! ## The equation (C152) -/

/-- C152: with the flux density at the frequency of switching that of the processed data, the losses are
k·f^α·B^β, B being the distance from the offset to the peak, corrected by the temperature. -/
theorem steinmetz_equation (d : Datum ℝ) (e : Excitation) (t : ℝ) (hf : 0 < e.f) (hb : 0 ≤ d.beta) (he : e.peakAt = e.peak) :
    steinmetz d e t = .ok (d.k * e.f ^ d.alpha * |e.peak - e.offset| ^ d.beta * applyTemperature 1 d t) := by
  unfold steinmetz
  rw [cpow_pos hf]
  have : e.ac = |e.main| := by unfold Excitation.ac Excitation.main; rw [he]
  simp only [Res.bind]
  rw [this, amplitudes_eq (abs_nonneg _) hb]
  simp only []
  rw [applyTemperature_one]
  rfl

/-- C152: the correction of the temperature is a positive factor: ct2·T² − ct1·T + ct0 when the three coefficients are there and it
is positive, one otherwise. -/
theorem temperature_factor (d : Datum ℝ) (t p : ℝ) :
    applyTemperature p d t = p * applyTemperature 1 d t ∧ 0 < applyTemperature 1 d t ∧
    (∀ a b c, d.ct0 = some a → d.ct1 = some b → d.ct2 = some c → 0 < c * t ^ 2 - b * t + a →
      applyTemperature 1 d t = c * t ^ 2 - b * t + a) ∧
    (∀ a b c, d.ct0 = some a → d.ct1 = some b → d.ct2 = some c → c * t ^ 2 - b * t + a ≤ 0 → applyTemperature 1 d t = 1) ∧
    (d.ct0 = none ∨ d.ct1 = none ∨ d.ct2 = none → applyTemperature 1 d t = 1) := by
  refine ⟨applyTemperature_one d t p, applyTemperature_one_pos d t, ?_, ?_, ?_⟩
  · intro a b c ha hb hc h
    simp [applyTemperature, scale, ha, hb, hc, h]
  · intro a b c ha hb hc h
    simp [applyTemperature, scale, ha, hb, hc, not_lt.mpr h]
  · rintro (h | h | h)
    · simp [applyTemperature, scale, h]
    · cases h1 : d.ct0 <;> simp [applyTemperature, scale, h, h1]
    · cases h1 : d.ct0 <;> cases h2 : d.ct1 <;> simp [applyTemperature, scale, h, h1, h2]

/-- C152: at every excitation of positive frequency the losses are a number, and not negative. -/
theorem steinmetz_nonneg (d : Datum ℝ) (e : Excitation) (t : ℝ) (hf : 0 < e.f) (hk : 0 ≤ d.k) (hb : 0 ≤ d.beta) :
    ∃ p, steinmetz d e t = .ok p ∧ 0 ≤ p := by
  have ha : 0 ≤ e.ac := abs_nonneg _
  have hh : 0 ≤ d.k * e.f ^ d.alpha := mul_nonneg hk (Real.rpow_nonneg hf.le _)
  have : ∃ p, amplitudes (d.k * e.f ^ d.alpha) |e.main| e.ac d.beta = .ok p := by
    unfold amplitudes
    split_ifs with h
    · rw [cpow_nonneg (abs_nonneg _) (by linarith)]; exact ⟨_, rfl⟩
    · rw [cpow_nonneg ha hb]; exact ⟨_, rfl⟩
  obtain ⟨p, hp⟩ := this
  refine ⟨applyTemperature p d t, ?_, applyTemperature_nonneg (amplitudes_nonneg hh (abs_nonneg _) ha hp) d t⟩
  unfold steinmetz
  rw [cpow_pos hf]
  simp only [Res.bind]
  rw [hp]

/-- C152: the losses grow with the amplitude and with the frequency. -/
theorem steinmetz_monotone (d : Datum ℝ) (e e' : Excitation) (t p p' : ℝ) (hf : 0 < e.f) (hff : e.f ≤ e'.f) (hk : 0 ≤ d.k)
    (ha : 0 ≤ d.alpha) (hb : 0 ≤ d.beta) (he : e.peakAt = e.peak) (he' : e'.peakAt = e'.peak)
    (hB : |e.peak - e.offset| ≤ |e'.peak - e'.offset|) (h : steinmetz d e t = .ok p) (h' : steinmetz d e' t = .ok p') : p ≤ p' := by
  rw [steinmetz_equation d e t hf hb he] at h
  rw [steinmetz_equation d e' t (lt_of_lt_of_le hf hff) hb he'] at h'
  simp at h h'
  subst h h'
  have h1 := Real.rpow_le_rpow hf.le hff ha
  have h2 := Real.rpow_le_rpow (abs_nonneg _) hB hb
  have h3 := applyTemperature_one_pos d t
  have h4 := Real.rpow_nonneg hf.le d.alpha
  have h5 := Real.rpow_nonneg (abs_nonneg (e.peak - e.offset)) d.beta
  have h6 : d.k * e.f ^ d.alpha ≤ d.k * e'.f ^ d.alpha := mul_le_mul_of_nonneg_left h1 hk
  exact mul_le_mul_of_nonneg_right (mul_le_mul h6 h2 h5 (mul_nonneg hk (le_trans h4 h1))) h3.le

/-- C152: a flux density scaled by a factor scales the losses by that factor to β, and a frequency by it to α. -/
theorem steinmetz_scales (d : Datum ℝ) (e : Excitation) (t p c : ℝ) (hf : 0 < e.f) (hb : 0 ≤ d.beta) (he : e.peakAt = e.peak)
    (hc : 0 < c) (h : steinmetz d e t = .ok p) :
    steinmetz d { e with peak := c * e.peak, offset := c * e.offset, peakAt := c * e.peakAt } t = .ok (c ^ d.beta * p) ∧
    steinmetz d { e with f := c * e.f } t = .ok (c ^ d.alpha * p) := by
  rw [steinmetz_equation d e t hf hb he] at h
  simp at h
  subst h
  constructor
  · rw [steinmetz_equation d { e with peak := c * e.peak, offset := c * e.offset, peakAt := c * e.peakAt } t hf hb (by simp [he])]
    simp only [← mul_sub, abs_mul, abs_of_pos hc]
    rw [Real.mul_rpow hc.le (abs_nonneg _)]
    congr 1; ring
  · rw [steinmetz_equation _ _ _ (by simpa using mul_pos hc hf) hb (by simpa using he)]
    simp only []
    rw [Real.mul_rpow hc.le hf.le]
    congr 1; ring

/-- Coefficients with k one, the exponents one and two, without temperature. -/
noncomputable def plain (k alpha beta : ℝ) : Datum ℝ := ⟨k, alpha, beta, none, none, none, none, none⟩

/-- A sinusoidal excitation without offset. -/
noncomputable def sine (f b : ℝ) : Excitation := ⟨f, b, 0, b, 2 * b, []⟩

example : steinmetz (plain 3 1 2) (sine 10 (1 / 2)) 25 = .ok (15 / 2) := by
  rw [steinmetz_equation _ _ _ (by norm_num [sine]) (by norm_num [plain]) rfl]
  have h : |(1 / 2 : ℝ)| = 1 / 2 := abs_of_pos (by norm_num)
  have : applyTemperature 1 (plain 3 1 2) 25 = 1 := (temperature_factor _ _ 1).2.2.2.2 (Or.inl rfl)
  rw [this]
  simp only [plain, sine, Real.rpow_one, sub_zero, h]
  rw [Real.rpow_two]
  norm_num

/-! ## Flux density from losses (C152) -/

/-- C152: the flux density given for some losses has those losses, and the one given for the losses of a flux density is that one. -/
theorem flux_round_trip (d : Datum ℝ) (f t v : ℝ) (hf : 0 < f) (hk : 0 < d.k) (hb : 0 < d.beta) (hv : 0 < v) :
    (∀ losses, 0 ≤ losses → ∃ b p, fluxFromLosses d f t v losses = .ok b ∧ 0 ≤ b ∧ steinmetz d (sine f b) t = .ok p ∧ p * v = losses) ∧
    (∀ b p, 0 ≤ b → steinmetz d (sine f b) t = .ok p → fluxFromLosses d f t v (p * v) = .ok b) := by
  have hT := applyTemperature_one_pos d t
  have ha := Real.rpow_pos_of_pos hf d.alpha
  have hka : 0 < d.k * f ^ d.alpha := mul_pos hk ha
  have hn : ¬(v = 0 ∨ d.k * f ^ d.alpha = 0 ∨ d.beta = 0) := by
    push Not; exact ⟨hv.ne', hka.ne', hb.ne'⟩
  have hF : ∀ losses, 0 ≤ losses → fluxFromLosses d f t v losses =
      .ok ((losses / v / applyTemperature 1 d t / (d.k * f ^ d.alpha)) ^ (1 / d.beta)) := by
    intro losses hl
    unfold fluxFromLosses
    rw [cpow_pos hf]
    simp only [Res.bind]
    rw [if_neg hn, cpow_nonneg (by positivity) (by positivity)]
  have hS : ∀ b, 0 ≤ b → steinmetz d (sine f b) t = .ok (d.k * f ^ d.alpha * b ^ d.beta * applyTemperature 1 d t) := by
    intro b hb'
    have := steinmetz_equation d (sine f b) t hf hb.le rfl
    simpa only [sine, sub_zero, abs_of_nonneg hb'] using this
  constructor
  · intro losses hl
    have hx : 0 ≤ losses / v / applyTemperature 1 d t / (d.k * f ^ d.alpha) := by positivity
    refine ⟨_, _, hF losses hl, Real.rpow_nonneg hx _, hS _ (Real.rpow_nonneg hx _), ?_⟩
    rw [← Real.rpow_mul hx, one_div_mul_cancel hb.ne', Real.rpow_one]
    field_simp
  · intro b p hb' hp
    rw [hS b hb'] at hp
    simp at hp
    subst hp
    have hbb := Real.rpow_nonneg hb' d.beta
    rw [hF _ (by positivity)]
    have : d.k * f ^ d.alpha * b ^ d.beta * applyTemperature 1 d t * v / v / applyTemperature 1 d t / (d.k * f ^ d.alpha) = b ^ d.beta := by
      field_simp
    rw [this, ← Real.rpow_mul hb', mul_one_div_cancel hb.ne', Real.rpow_one]

example : ∃ b p, fluxFromLosses (plain 3 1 2) 10 25 2 15 = .ok b ∧ 0 ≤ b ∧ steinmetz (plain 3 1 2) (sine 10 b) 25 = .ok p ∧ p * 2 = 15 :=
  (flux_round_trip (plain 3 1 2) 10 25 2 (by norm_num) (by norm_num [plain]) (by norm_num [plain]) (by norm_num)).1 15 (by norm_num)

/-- C152: `get_magnetic_flux_density_from_volumetric_losses` gives the same when the polynomial of the temperature is missing or
positive. -/
theorem flux_from_volumetric_partial (d : Datum ℝ) (f t losses : ℝ) (hf : 0 < f) (hk : 0 < d.k) (hb : 0 < d.beta)
    (hs : ∀ s, scale d t = some s → 0 < s) : fluxFromVolumetric d losses f t = fluxFromLosses d f t 1 losses := by
  have ha := Real.rpow_pos_of_pos hf d.alpha
  have hT := applyTemperature_one_pos d t
  have e : (scale d t).getD 1 = applyTemperature 1 d t := by
    unfold applyTemperature
    cases h : scale d t with
    | none => rfl
    | some s => simp [hs s h]
  unfold fluxFromVolumetric fluxFromLosses
  rw [cpow_pos hf]
  simp only [Res.bind]
  rw [e, if_neg (by push Not; exact ⟨hk.ne', ha.ne', hT.ne', hb.ne'⟩),
    if_neg (by push Not; exact ⟨one_ne_zero, (mul_pos hk ha).ne', hb.ne'⟩)]
  congr 1
  field_simp

/-- C152 fails: where the polynomial of the temperature is negative the losses are not corrected, but that function corrects them
and its flux density is not a number. -/
theorem flux_from_volumetric_fails : ∃ (d : Datum ℝ) (t : ℝ), steinmetz d (sine 10 (1 / 2)) t = .ok (5 / 2) ∧
    fluxFromLosses d 10 t 1 (5 / 2) = .ok (1 / 2) ∧ fluxFromVolumetric d (5 / 2) 10 t = .nan := by
  refine ⟨⟨1, 1, 2, some 1, some 1, some 0, none, none⟩, 2, ?_⟩
  set d : Datum ℝ := ⟨1, 1, 2, some 1, some 1, some 0, none, none⟩ with hd
  have hT : applyTemperature 1 d 2 = 1 := (temperature_factor d 2 1).2.2.2.1 1 1 0 rfl rfl rfl (by norm_num)
  have h1 : steinmetz d (sine 10 (1 / 2)) 2 = .ok (5 / 2) := by
    rw [steinmetz_equation _ _ _ (by norm_num [sine]) (by norm_num [hd]) rfl, hT]
    have h : |(1 / 2 : ℝ)| = 1 / 2 := abs_of_pos (by norm_num)
    simp only [hd, sine, Real.rpow_one, sub_zero, h, Real.rpow_two]
    norm_num
  refine ⟨h1, ?_, ?_⟩
  · have := (flux_round_trip d 10 2 1 (by norm_num) (by norm_num [hd]) (by norm_num [hd]) (by norm_num)).2 (1 / 2) (5 / 2) (by norm_num) h1
    simpa using this
  · unfold fluxFromVolumetric
    rw [cpow_pos (by norm_num)]
    simp only [Res.bind, hd, Real.rpow_one, scale, Option.getD_some]
    rw [if_neg (by norm_num)]
    apply cpow_neg
    · norm_num
    · rintro ⟨n, hn⟩
      have h2 : (1 : ℝ) = 2 * n := by linarith
      have h3 : (1 : ℤ) = 2 * n := by exact_mod_cast h2
      omega

/-! ## Frequency from losses (C153) -/

/-- C153: the answer of the search of a frequency comes from coefficients that are those of the frequency looked at before, and is
within a millionth of it or has coefficients of the same α. -/
theorem frequencyLoop_sound (look : ℝ → Res (Datum ℝ)) (main t v losses : ℝ) (n : ℕ) (d : Datum ℝ) (previous f : ℝ)
    (hd : look previous = .ok d) (h : frequencyLoop look main t v losses n d previous = .ok f) :
    ∃ g d₀ d₁, look g = .ok d₀ ∧ frequencyOf d₀ main t v losses = .ok f ∧ look f = .ok d₁ ∧
      (d₁.alpha = d₀.alpha ∨ (0 < g ∧ |f - g| / g < 1 / 1000000)) := by
  induction n generalizing d previous with
  | zero => simp [frequencyLoop] at h
  | succ n ih =>
    unfold frequencyLoop at h
    obtain ⟨f', hf', h⟩ := Res.bind_eq_ok h
    obtain ⟨d', hd', h⟩ := Res.bind_eq_ok h
    by_cases h1 : d'.alpha = d.alpha
    · rw [if_pos h1] at h; simp at h; subst h
      exact ⟨previous, d, d', hd, hf', hd', Or.inl h1⟩
    · rw [if_neg h1] at h
      by_cases h2 : previous > 0 ∧ |f' - previous| / previous < 1 / 1000000
      · rw [if_pos h2] at h; simp at h; subst h
        exact ⟨previous, d, d', hd, hf', hd', Or.inr h2⟩
      · rw [if_neg h2] at h
        exact ih d' f' hd' h

theorem frequencyOf_losses (d : Datum ℝ) (b t v losses f : ℝ) (hb : 0 < b) (hk : 0 < d.k) (ha : 0 < d.alpha)
    (hv : 0 < v) (hl : 0 < losses) (h : frequencyOf d b t v losses = .ok f) :
    0 < f ∧ d.k * f ^ d.alpha * b ^ d.beta * applyTemperature 1 d t * v = losses := by
  have hT := applyTemperature_one_pos d t
  have hbb := Real.rpow_pos_of_pos hb d.beta
  have hx : 0 < losses / v / applyTemperature 1 d t / (d.k * b ^ d.beta) := by positivity
  unfold frequencyOf at h
  rw [cpow_pos hb] at h
  simp only [] at h
  rw [if_neg (by push Not; exact ⟨hv.ne', (mul_pos hk hbb).ne', ha.ne'⟩), cpow_pos hx] at h
  simp at h
  subst h
  refine ⟨Real.rpow_pos_of_pos hx _, ?_⟩
  rw [← Real.rpow_mul hx.le, inv_mul_cancel₀ ha.ne', Real.rpow_one]
  field_simp

/-- C153: the frequency given for some losses has those losses when all the frequencies have the same coefficients. -/
theorem frequency_round_trip_partial (look : ℝ → Res (Datum ℝ)) (b t v losses f : ℝ) (d : Datum ℝ) (hb : 0 < b) (hv : 0 < v)
    (hl : 0 < losses) (hd : ∀ g, look g = .ok d) (hk : 0 < d.k) (ha : 0 < d.alpha) (hbeta : 0 ≤ d.beta)
    (h : frequencyFromLosses look b t v losses = .ok f) : ∃ p, steinmetz d (sine f b) t = .ok p ∧ p * v = losses := by
  unfold frequencyFromLosses at h
  rw [hd] at h
  simp only [Res.bind] at h
  obtain ⟨g, d₀, d₁, h0, h1, _, _⟩ := frequencyLoop_sound look b t v losses 50 d 100000 f (hd _) h
  rw [hd g] at h0
  simp at h0
  subst h0
  obtain ⟨hf, he⟩ := frequencyOf_losses d b t v losses f hb hk ha hv hl h1
  have := steinmetz_equation d (sine f b) t hf hbeta rfl
  simp only [sine, sub_zero, abs_of_pos hb] at this
  exact ⟨_, this, he⟩

/-- C153: when no two ranges share α, the frequency given has those losses with its own coefficients, unless it is within a millionth
of a frequency of other coefficients. -/
theorem frequency_of_own_range (look : ℝ → Res (Datum ℝ)) (b t v losses f : ℝ) (hb : 0 < b) (hv : 0 < v) (hl : 0 < losses)
    (hpos : ∀ g d, look g = .ok d → 0 < d.k ∧ 0 < d.alpha ∧ 0 ≤ d.beta)
    (hdiff : ∀ g g' d d', look g = .ok d → look g' = .ok d' → d.alpha = d'.alpha → d = d')
    (h : frequencyFromLosses look b t v losses = .ok f) :
    (∃ d p, look f = .ok d ∧ steinmetz d (sine f b) t = .ok p ∧ p * v = losses) ∨
    ∃ g, 0 < g ∧ |f - g| / g < 1 / 1000000 ∧ look f ≠ look g := by
  unfold frequencyFromLosses at h
  obtain ⟨d, hd, h⟩ := Res.bind_eq_ok h
  obtain ⟨g, d₀, d₁, h0, h1, h2, h3⟩ := frequencyLoop_sound look b t v losses 50 d 100000 f hd h
  obtain ⟨hk, ha, hbeta⟩ := hpos g d₀ h0
  obtain ⟨hf, he⟩ := frequencyOf_losses d₀ b t v losses f hb hk ha hv hl h1
  by_cases hsame : d₁ = d₀
  · left
    have := steinmetz_equation d₀ (sine f b) t hf hbeta rfl
    simp only [sine, sub_zero, abs_of_pos hb] at this
    exact ⟨d₀, _, by rw [h2, hsame], this, he⟩
  · rcases h3 with h3 | ⟨h3, h4⟩
    · exact absurd (hdiff f g d₁ d₀ h2 h0 h3) hsame
    · right
      refine ⟨g, h3, h4, ?_⟩
      rw [h2, h0]
      intro hc
      simp at hc
      exact hsame hc

/-- C153: whatever the coefficients, the search ends, with a finite number or an exception. -/
theorem frequency_settled (look : ℝ → Res (Datum ℝ)) (main t v losses : ℝ) (hlook : ∀ g, look g ≠ .nan ∧ look g ≠ .ub) :
    (∃ f, frequencyFromLosses look main t v losses = .ok f) ∨ ∃ e, frequencyFromLosses look main t v losses = .throws e := by
  have hof : ∀ d : Datum ℝ, (∃ f, frequencyOf d main t v losses = .ok f) ∨ ∃ e, frequencyOf d main t v losses = .throws e := by
    intro d
    unfold frequencyOf
    split
    · split
      · exact Or.inr ⟨_, rfl⟩
      · split
        · exact Or.inl ⟨_, rfl⟩
        · exact Or.inr ⟨_, rfl⟩
    · exact Or.inr ⟨_, rfl⟩
  have hloop : ∀ n d previous, (∃ f, frequencyLoop look main t v losses n d previous = .ok f) ∨
      ∃ e, frequencyLoop look main t v losses n d previous = .throws e := by
    intro n
    induction n with
    | zero => intro d p; exact Or.inr ⟨_, rfl⟩
    | succ n ih =>
      intro d p
      unfold frequencyLoop
      rcases hof d with ⟨f, hf⟩ | ⟨e, he⟩
      · rw [hf]; simp only [Res.bind]
        cases hl : look f with
        | ok d' =>
          simp only []
          split_ifs
          · exact Or.inl ⟨_, rfl⟩
          · exact Or.inl ⟨_, rfl⟩
          · exact ih d' f
        | nan => exact absurd hl (hlook f).1
        | throws e => exact Or.inr ⟨_, rfl⟩
        | ub => exact absurd hl (hlook f).2
      · rw [he]; exact Or.inr ⟨_, rfl⟩
  unfold frequencyFromLosses
  cases hl : look 100000 with
  | ok d => simp only [Res.bind]; exact hloop 50 d 100000
  | nan => exact absurd hl (hlook _).1
  | throws e => exact Or.inr ⟨_, rfl⟩
  | ub => exact absurd hl (hlook _).2

/-- The coefficients of the tables of a material by frequency, as looked for. -/
noncomputable def tableLook (ranges : List (Datum ℝ)) (f : ℝ) : Res (Datum ℝ) := coefficients 100000000 0 ranges f

/-- C153 fails: two ranges of the same α and different k give a frequency with twice the losses asked for. -/
theorem frequency_wrong_range : ∃ (ranges : List (Datum ℝ)) (f p : ℝ) (d : Datum ℝ),
    frequencyFromLosses (tableLook ranges) 1 25 1 150000 = .ok f ∧ tableLook ranges f = .ok d ∧
    steinmetz d (sine f 1) 25 = .ok p ∧ p = 2 * 150000 := by
  set a : Datum ℝ := ⟨1, 1, 1, none, none, none, some 1000, some 100000⟩ with ha
  set b : Datum ℝ := ⟨2, 1, 1, none, none, none, some 100000, some 1000000⟩ with hb
  have hTa : applyTemperature 1 a 25 = 1 := (temperature_factor _ _ 1).2.2.2.2 (Or.inl rfl)
  have hTb : applyTemperature 1 b 25 = 1 := (temperature_factor _ _ 1).2.2.2.2 (Or.inl rfl)
  have h1 : tableLook [a, b] 100000 = .ok a := by
    unfold tableLook coefficients pick
    simp only [ha]
    rw [if_pos (by norm_num)]
  have h2 : tableLook [a, b] 150000 = .ok b := by
    unfold tableLook coefficients pick
    simp only [ha]
    rw [if_neg (by norm_num)]
    unfold pick
    simp only [hb]
    rw [if_pos (by norm_num)]
  have h3 : frequencyOf a 1 25 1 150000 = .ok 150000 := by
    unfold frequencyOf
    rw [cpow_pos one_pos]
    simp only [hTa]
    rw [if_neg (by simp [ha]), cpow_pos (by simp [ha])]
    simp [ha]
  refine ⟨[a, b], 150000, 300000, b, ?_, h2, ?_, by norm_num⟩
  · unfold frequencyFromLosses
    rw [h1]
    simp only [Res.bind]
    unfold frequencyLoop
    rw [h3]
    simp only [Res.bind]
    rw [h2]
    simp only []
    rw [if_pos rfl]
  · rw [steinmetz_equation _ _ _ (by norm_num [sine]) (by norm_num [hb]) rfl, hTb]
    simp only [hb, sine, Real.rpow_one, sub_zero, abs_one]
    norm_num

end Verif.CoreLosses
