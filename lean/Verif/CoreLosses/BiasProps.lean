import Verif.CoreLosses.WaveProps

/-!
# Core losses: bias (C157) and semi-shielded drums (C158)
-/

set_option linter.unusedSimpArgs false
set_option linter.unusedVariables false

namespace Verif.CoreLosses

/-! ## Bias (C157) -/

/-- C157: the factor of the bias is between one and ten. -/
theorem bias_bounds (mu0 : ℝ) (flux : Option ℝ) (dependent : Bool) (mu : ℝ → Option ℝ) :
    1 ≤ biasFactor mu0 flux dependent mu ∧ biasFactor mu0 flux dependent mu ≤ 10 := by
  unfold biasFactor
  split
  · norm_num
  split_ifs
  · norm_num
  · norm_num
  split
  · norm_num
  split_ifs
  · norm_num
  split
  · norm_num
  split_ifs
  · norm_num
  · simp only []
    split_ifs <;> constructor <;> linarith

/-- C157: it is one without bias, or for a material of which the permeability does not depend on it. -/
theorem bias_none (mu0 : ℝ) (flux : Option ℝ) (dependent : Bool) (mu : ℝ → Option ℝ)
    (h : flux = none ∨ dependent = false ∨ ∃ b, flux = some b ∧ |b| < 1 / 1000000) : biasFactor mu0 flux dependent mu = 1 := by
  rcases h with rfl | rfl | ⟨b, rfl, hb⟩
  · rfl
  · cases flux with
    | none => rfl
    | some b => unfold biasFactor; simp
  · unfold biasFactor
    simp only []
    rw [if_pos hb]

/-- C157: it is the quotient of the permeabilities without bias and with it, limited to that range. -/
theorem bias_ratio (mu0 b m0 m : ℝ) (mu : ℝ → Option ℝ) (hb : 1 / 1000000 ≤ |b|) (h0 : mu 0 = some m0) (hm0 : 0 < m0)
    (h : mu (|b| / (mu0 * m0)) = some m) (hm : 0 < m) : biasFactor mu0 (some b) true mu = min 10 (max 1 (m0 / m)) := by
  unfold biasFactor
  simp only []
  rw [if_neg (not_lt.mpr hb), if_neg (by simp)]
  simp only [h0]
  rw [if_neg (not_le.mpr hm0)]
  simp only [h]
  rw [if_neg (not_le.mpr hm)]
  by_cases h1 : m0 / m < 1
  · rw [if_pos h1, if_neg (by norm_num), max_eq_left h1.le, min_eq_right (by norm_num)]
  · rw [if_neg h1, max_eq_right (not_lt.mp h1)]
    split_ifs with h2
    · rw [min_eq_left h2.le]
    · rw [min_eq_right (not_lt.mp h2)]

/-- C157: its sign does not matter. -/
theorem bias_even (mu0 b : ℝ) (dependent : Bool) (mu : ℝ → Option ℝ) :
    biasFactor mu0 (some (-b)) dependent mu = biasFactor mu0 (some b) dependent mu := by
  unfold biasFactor
  simp only [abs_neg]

/-- C157: of a material of which the permeability never grows with the field, more bias never gives less losses. -/
theorem bias_monotone (mu0 b b' m0 : ℝ) (mu : ℝ → ℝ) (hmu0 : 0 < mu0) (h0 : mu 0 = m0) (hpos : ∀ x, 0 < mu x)
    (hanti : ∀ x y, 0 ≤ x → x ≤ y → mu y ≤ mu x) (hb : |b| ≤ |b'|) :
    biasFactor mu0 (some b) true (fun x => some (mu x)) ≤ biasFactor mu0 (some b') true (fun x => some (mu x)) := by
  by_cases hs : |b| < 1 / 1000000
  · rw [bias_none mu0 (some b) true _ (Or.inr (Or.inr ⟨b, rfl, hs⟩))]
    exact (bias_bounds mu0 (some b') true _).1
  · have hs' := not_lt.mp hs
    have hm0 : 0 < m0 := by rw [← h0]; exact hpos 0
    rw [bias_ratio mu0 b m0 (mu (|b| / (mu0 * m0))) _ hs' (by rw [h0]) hm0 rfl (hpos _),
      bias_ratio mu0 b' m0 (mu (|b'| / (mu0 * m0))) _ (le_trans hs' hb) (by rw [h0]) hm0 rfl (hpos _)]
    have : mu (|b'| / (mu0 * m0)) ≤ mu (|b| / (mu0 * m0)) := by
      apply hanti
      · positivity
      · exact div_le_div_of_nonneg_right hb (by positivity)
    exact min_le_min (le_refl _) (max_le_max (le_refl _) (div_le_div_of_nonneg_left hm0.le (hpos _) this))

/-- C157: the losses, and those by volume and by mass, are all scaled by it, and are given only if they are a number. -/
theorem corrected_scaled (l v m c : ℝ) (hc : 1 ≤ c) :
    corrected ⟨.ok l, some (.ok v), some (.ok m)⟩ c = .ok ⟨.ok (l * c), some (.ok (v * c)), some (.ok (m * c))⟩ ∧
    corrected ⟨.ok l, some (.ok v), none⟩ c = .ok ⟨.ok (l * c), some (.ok (v * c)), none⟩ ∧
    corrected ⟨.ok l, none, some (.ok m)⟩ c = .ok ⟨.ok (l * c), none, some (.ok (m * c))⟩ := by
  unfold corrected
  rcases hc.lt_or_eq with h | h
  · simp [if_pos h, times, Res.bind]
  · subst h; simp [times, Res.bind]

/-- C157: losses that are not a number are refused, so what is given is one. -/
theorem corrected_number (o o' : Output) (c : ℝ) (h : corrected o c = .ok o') :
    (∃ x, o'.losses = .ok x) ∧ (o.losses = .nan → False) := by
  constructor
  · unfold corrected at h
    simp only [] at h
    generalize hx : (if c > 1 then (⟨times o.losses c, o.volumetric.map fun x => times x c, o.mass.map fun x => times x c⟩ : Output) else o) = y at h
    cases hy : y.losses with
    | ok x => rw [hy] at h; simp at h; subst h; exact ⟨x, hy⟩
    | nan => rw [hy] at h; simp at h
    | throws e => rw [hy] at h; simp at h
    | ub => rw [hy] at h; simp at h
  · intro hn
    unfold corrected at h
    by_cases hc : c > 1
    · simp [if_pos hc, hn, times, Res.bind] at h
    · simp [if_neg hc, hn] at h

/-- C157: for every model but Roshen's the losses by volume asked for alone agree with those of the core. -/
theorem volumetric_agrees_partial (x : Model) (hx : x ≠ .roshen) (l v c : ℝ) (hc : 1 ≤ c) :
    ∃ o, corrected ⟨.ok l, some (.ok v), none⟩ c = .ok o ∧ o.volumetric = some (volumetricCorrected x (.ok v) c) := by
  refine ⟨_, (corrected_scaled l v 0 c hc).2.1, ?_⟩
  unfold volumetricCorrected
  rw [if_neg hx]; rfl

/-- C157 fails: for Roshen's the losses by volume asked for alone are not corrected, and those of the core are. -/
theorem roshen_disagrees (l v c : ℝ) (hc : 1 < c) (hv : v ≠ 0) :
    ∃ o, corrected ⟨.ok l, some (.ok v), none⟩ c = .ok o ∧ o.volumetric ≠ some (volumetricCorrected .roshen (.ok v) c) := by
  refine ⟨_, (corrected_scaled l v 0 c hc.le).2.1, ?_⟩
  simp only [volumetricCorrected, if_true]
  intro h
  simp only [Option.some.injEq, Res.ok.injEq] at h
  have : v * (c - 1) = 0 := by linarith
  rcases mul_eq_zero.mp this with h | h
  · exact hv h
  · linarith

example : biasFactor 1 (some 1) true (fun x => some (2 / (1 + x))) = 3 / 2 := by
  rw [bias_ratio 1 1 2 (4 / 3) _ (by norm_num) (by norm_num) (by norm_num) (by norm_num) (by norm_num)]
  norm_num

/-! ## Semi-shielded drums (C158) -/

/-- Effective area and volume from the constants of the shape. -/
noncomputable def areaOf (c1 c2 : ℝ) : ℝ := c1 / c2
noncomputable def volumeOf (c1 c2 : ℝ) : ℝ := c1 ^ 2 / c2 * (c1 / c2)

/-- C158: the losses are those of the drum over its volume plus those of the shell over its own, if its material has losses, each at
the flux density that carries the same flux through its area, and the losses by volume times the whole volume give them back. -/
theorem semishielded_sum (c1 c2 s1 s2 : ℝ) (h1 : 0 < c1) (h2 : 0 < c2) (h3 : 0 < s1) (h4 : 0 < s2) (drum shell : ℝ → ℝ) :
    (∃ l v, semishielded c1 c2 s1 s2 (fun r => .ok (drum r)) (some fun r => .ok (shell r)) = .ok (l, v, true) ∧
      l = drum (areaOf (c1 + s1) (c2 + s2) / areaOf c1 c2) * volumeOf c1 c2 +
        shell (areaOf (c1 + s1) (c2 + s2) / areaOf s1 s2) * volumeOf s1 s2 ∧
      v * (volumeOf c1 c2 + volumeOf s1 s2) = l) ∧
    (∃ l v, semishielded c1 c2 s1 s2 (fun r => .ok (drum r)) none = .ok (l, v, false) ∧
      l = drum (areaOf (c1 + s1) (c2 + s2) / areaOf c1 c2) * volumeOf c1 c2 ∧
      v * (volumeOf c1 c2 + volumeOf s1 s2) = l) := by
  have hv : ∀ a b : ℝ, 0 < b → a ^ 3 / b ^ 2 = volumeOf a b := by
    intro a b hb; unfold volumeOf; field_simp
  have p1 : 0 < c1 ^ 3 / c2 ^ 2 := by positivity
  have p2 : 0 < s1 ^ 3 / s2 ^ 2 := by positivity
  have hn : ¬(c2 = 0 ∨ s2 = 0 ∨ c2 + s2 = 0 ∨ c1 = 0 ∨ s1 = 0 ∨ c1 ^ 3 / c2 ^ 2 + s1 ^ 3 / s2 ^ 2 = 0) := by
    rintro (h | h | h | h | h | h) <;> linarith
  have hne : volumeOf c1 c2 + volumeOf s1 s2 ≠ 0 := by rw [← hv c1 c2 h2, ← hv s1 s2 h4]; linarith
  constructor
  · refine ⟨_, ?_, ?_, rfl, ?_⟩
    · exact (drum (areaOf (c1 + s1) (c2 + s2) / areaOf c1 c2) * volumeOf c1 c2 +
        shell (areaOf (c1 + s1) (c2 + s2) / areaOf s1 s2) * volumeOf s1 s2) / (volumeOf c1 c2 + volumeOf s1 s2)
    · unfold semishielded
      rw [if_neg hn]
      simp only [Res.bind, hv c1 c2 h2, hv s1 s2 h4]
      rfl
    · exact div_mul_cancel₀ _ hne
  · refine ⟨_, ?_, ?_, rfl, ?_⟩
    · exact drum (areaOf (c1 + s1) (c2 + s2) / areaOf c1 c2) * volumeOf c1 c2 / (volumeOf c1 c2 + volumeOf s1 s2)
    · unfold semishielded
      rw [if_neg hn]
      simp only [Res.bind, hv c1 c2 h2, hv s1 s2 h4]
      rfl
    · exact div_mul_cancel₀ _ hne

/-- C158: the flux density of each part times its area is that of the whole times the whole area. -/
theorem flux_continuous (c1 c2 s1 s2 : ℝ) (h1 : 0 < c1) (h2 : 0 < c2) (e : Excitation) :
    (forArea e false (areaOf (c1 + s1) (c2 + s2) / areaOf c1 c2)).peak * areaOf c1 c2 = e.peak * areaOf (c1 + s1) (c2 + s2) ∧
    (forArea e false (areaOf (c1 + s1) (c2 + s2) / areaOf c1 c2)).offset * areaOf c1 c2 = e.offset * areaOf (c1 + s1) (c2 + s2) ∧
    (forArea e false (areaOf (c1 + s1) (c2 + s2) / areaOf c1 c2)).peakToPeak * areaOf c1 c2 =
      e.peakToPeak * areaOf (c1 + s1) (c2 + s2) := by
  have : areaOf c1 c2 ≠ 0 := by unfold areaOf; positivity
  refine ⟨?_, ?_, ?_⟩ <;> simp only [forArea, Bool.false_eq_true, if_false] <;> field_simp

/-- C158: with Steinmetz' model the losses of a part are the ratio of areas to β times those at the flux density of the whole. -/
theorem area_steinmetz_partial (d : Datum ℝ) (e : Excitation) (t p r : ℝ) (hf : 0 < e.f) (hb : 0 ≤ d.beta) (he : e.peakAt = e.peak)
    (hr : 0 < r) (h : steinmetz d e t = .ok p) : steinmetz d (forArea e false r) t = .ok (r ^ d.beta * p) := by
  have := (steinmetz_scales d e t p r hf hb he hr h).1
  rw [← this]
  unfold steinmetz
  simp only [forArea, Excitation.main, Excitation.ac, Bool.false_eq_true, if_false, mul_comm r]

/-- C158 fails: with iGSE the waveform is not scaled, and they are the ratio to β − α times those. -/
theorem area_igse (setting : ℕ) (d : Datum ℝ) (e : Excitation) (t p r : ℝ) (ha : 0 ≤ d.alpha) (hp : e.points ≠ [])
    (hri : Rising e.points) (hs : 0 < e.peakToPeak) (hr : 0 < r) (h : igse setting d e t = .ok p) :
    igse setting d (forArea e false r) t = .ok (r ^ (d.beta - d.alpha) * p) ∧
    igse setting d { forArea e false r with points := e.points.map fun q => (q.1, r * q.2) } t = .ok (r ^ d.beta * p) := by
  have hscale := igse_scales setting d e t r p ha hr hp hri hs h
  constructor
  · rw [igse_equation setting d e t ha hp hri (Or.inl hs)] at h
    simp only [Res.ok.injEq] at h
    have hs' : 0 < (forArea e false r).peakToPeak := by simp only [forArea, Bool.false_eq_true, if_false]; positivity
    rw [igse_equation setting d (forArea e false r) t ha (by simpa [forArea] using hp) (by simpa [forArea] using hri) (Or.inl hs')]
    simp only [forArea, Bool.false_eq_true, if_false]
    rw [← h, Real.mul_rpow hs.le hr.le]
    congr 1; ring
  · rw [← hscale]
    unfold igse
    simp only [forArea, Bool.false_eq_true, if_false, mul_comm r]

/-- C158 fails: losses that are not a number are not refused for a semi-shielded drum: they are given as its losses. -/
theorem semishielded_nan (c1 c2 s1 s2 : ℝ) (shell : Option (ℝ → Res ℝ)) :
    semishielded c1 c2 s1 s2 (fun _ => .nan) shell = .nan ∧ ∀ c v m, corrected ⟨.nan, v, m⟩ c = .throws .nanResult := by
  constructor
  · unfold semishielded
    split_ifs <;> rfl
  · intro c v m
    unfold corrected
    by_cases hc : c > 1
    · simp [if_pos hc, times, Res.bind]
    · simp [if_neg hc]

end Verif.CoreLosses
