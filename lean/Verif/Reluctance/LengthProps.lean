import Verif.Reluctance.Props

/-!
# The reluctance of a gap and its length, and what the models refuse
-/

set_option linter.unusedSimpArgs false
set_option linter.unusedVariables false
set_option linter.unnecessarySeqFocus false

namespace Verif.Reluctance

/-! ## What a described gap is answered -/

theorem zhang_run {saturation : ℝ} {g : Gap} {area : ℝ} {round : Bool} {w d h : ℝ} (hg : Described g area round w d h)
    (hl : 0 < g.length) : ∃ f e, gapReluctance .zhang saturation g =
      .ok ⟨1 / (mu0 * (area / g.length + perimeter round w d * Real.log ((2 * h + g.length) / g.length) / Real.pi)), f, e, "Zhang"⟩ := by
  simp only [gapReluctance, zhang, hg.has_round, hg.has_dims, hg.has_normal, hg.has_area]
  rw [if_neg (not_lt.mpr hg.normal_pos.le), if_pos hl, zhang_permeance hl]
  exact ⟨_, _, rfl⟩

theorem balakrishnan_run {saturation : ℝ} {g : Gap} {area : ℝ} {round : Bool} {w d h : ℝ} (hg : Described g area round w d h)
    (hl : 0 < g.length) {a : Answer} (ha : gapReluctance .balakrishnan saturation g = .ok a) :
    0 < permeance g.length area d h ∧ a.reluctance = 1 / (mu0 * permeance g.length area d h) := by
  simp only [gapReluctance, balakrishnan, hg.has_dims, hg.has_normal, hg.has_area] at ha
  rw [if_neg (by intro hc; rcases hc with hc | hc; linarith [hg.normal_pos]; linarith [hg.normal_pos, hc.1]),
    if_neg (not_le.mpr hl), if_neg hg.normal_pos.ne'] at ha
  split_ifs at ha with hp
  simp only [Res.ok.injEq] at ha
  subst ha
  exact ⟨not_le.mp hp, rfl⟩

theorem partridge_run {saturation : ℝ} {g : Gap} {area : ℝ} {round : Bool} {w d h : ℝ} (hg : Described g area round w d h)
    (hl : 0 < g.length) {a : Answer} (ha : gapReluctance .partridge saturation g = .ok a) :
    0 < partridgeFactor g.length area h ∧ a.reluctance = g.length / (mu0 * area * partridgeFactor g.length area h) := by
  simp only [gapReluctance, partridge, hg.has_dims, hg.has_normal, hg.has_area] at ha
  rw [if_neg (fun hc => hg.normal_pos.ne' hc.2), if_neg (fun hc => absurd hc.2 (not_lt.mpr hg.normal_pos.le))] at ha
  split_ifs at ha with hf
  simp only [Res.ok.injEq] at ha
  subst ha
  exact ⟨not_le.mp hf, rfl⟩

theorem inverse_lt {p q : ℝ} (hq : 0 < q) (h : q < p) : 1 / (mu0 * p) < 1 / (mu0 * q) := by
  have hm := mu0_pos
  apply one_div_lt_one_div_of_lt (by positivity)
  exact mul_lt_mul_of_pos_left h hm

/-- A logarithm of a ratio to a longer length. -/
theorem log_ratio_le {c1 c2 l1 l2 : ℝ} (h1 : 0 < l1) (hl : l1 < l2) (hc : 0 < c2) (hcc : c2 ≤ c1) :
    Real.log (c2 / l2) < Real.log (c1 / l1) := by
  apply Real.log_lt_log (div_pos hc (lt_trans h1 hl))
  rw [div_lt_div_iff₀ (lt_trans h1 hl) h1]
  nlinarith

/-! ## The length of a gap -/

/-- **C263.** For the models of Zhang, Partridge and Balakrishnan, and the classic one, of two gaps of the same section, the longer
one, which is not farther from the nearest normal surface, has more reluctance. -/
theorem longer_gap_more_reluctance (k : Kind) (hk : k = .zhang ∨ k = .partridge ∨ k = .balakrishnan ∨ k = .classic)
    (s1 s2 : ℝ) (g1 g2 : Gap) (area : ℝ) (round : Bool) (w d h1 h2 : ℝ) (a1 a2 : Answer)
    (hg1 : Described g1 area round w d h1) (hg2 : Described g2 area round w d h2)
    (hl1 : 0 < g1.length) (hl : g1.length < g2.length) (hh : h2 ≤ h1)
    (ha1 : gapReluctance k s1 g1 = .ok a1) (ha2 : gapReluctance k s2 g2 = .ok a2) : a1.reluctance < a2.reluctance := by
  have hm := mu0_pos
  have hpi := Real.pi_pos
  have ha := hg1.area_pos
  have hd := hg1.depth_pos
  have hl2 : 0 < g2.length := lt_trans hl1 hl
  have hdiv : area / g2.length < area / g1.length := div_lt_div_of_pos_left ha hl1 hl
  rcases hk with rfl | rfl | rfl | rfl
  · obtain ⟨f1, e1, r1⟩ := zhang_run (saturation := s1) hg1 hl1
    obtain ⟨f2, e2, r2⟩ := zhang_run (saturation := s2) hg2 hl2
    rw [r1] at ha1
    rw [r2] at ha2
    simp only [Res.ok.injEq] at ha1 ha2
    subst ha1
    subst ha2
    simp only
    have hp := perimeter_pos (round := round) hg1.width_pos hg1.depth_pos
    have hlog : Real.log ((2 * h2 + g2.length) / g2.length) ≤ Real.log ((2 * h1 + g1.length) / g1.length) := by
      have := hg2.normal_pos
      apply Real.log_le_log (by positivity)
      rw [div_le_div_iff₀ hl2 hl1]
      nlinarith [mul_le_mul hh hl.le hl1.le (le_trans this.le hh)]
    have hlog2 := zhang_log_nonneg hl2 hg2.normal_pos.le
    apply inverse_lt (by positivity)
    have : perimeter round w d * Real.log ((2 * h2 + g2.length) / g2.length) / Real.pi ≤
        perimeter round w d * Real.log ((2 * h1 + g1.length) / g1.length) / Real.pi := by
      apply div_le_div_of_nonneg_right _ hpi.le
      exact mul_le_mul_of_nonneg_left hlog hp.le
    linarith
  · obtain ⟨p1, r1⟩ := partridge_run hg1 hl1 ha1
    obtain ⟨p2, r2⟩ := partridge_run hg2 hl2 ha2
    rw [r1, r2]
    have hs := Real.sqrt_pos.mpr ha
    have e : ∀ l, 0 < l → ∀ h, 0 < partridgeFactor l area h →
        l / (mu0 * area * partridgeFactor l area h) = 1 / (mu0 * (area * (1 / l + Real.log (2 * 2 * h / l) / Real.sqrt area))) := by
      intro l hl h hf
      unfold partridgeFactor at hf ⊢
      rw [if_pos hl] at hf ⊢
      have hf' := hf.ne'
      have hq : 1 / l + Real.log (2 * 2 * h / l) / Real.sqrt area = (1 + l / Real.sqrt area * Real.log (2 * 2 * h / l)) / l := by
        field_simp
      rw [hq]
      field_simp
    have hpos : 0 < area * (1 / g2.length + Real.log (2 * 2 * h2 / g2.length) / Real.sqrt area) := by
      unfold partridgeFactor at p2
      rw [if_pos hl2] at p2
      have : 1 / g2.length + Real.log (2 * 2 * h2 / g2.length) / Real.sqrt area =
          (1 + g2.length / Real.sqrt area * Real.log (2 * 2 * h2 / g2.length)) / g2.length := by field_simp
      rw [this]
      positivity
    rw [e _ hl1 _ p1, e _ hl2 _ p2]
    apply inverse_lt hpos
    apply mul_lt_mul_of_pos_left _ ha
    have h3 : 1 / g2.length < 1 / g1.length := one_div_lt_one_div_of_lt hl1 hl
    have h4 := log_ratio_le (c1 := 2 * 2 * h1) (c2 := 2 * 2 * h2) hl1 hl (by linarith [hg2.normal_pos]) (by linarith)
    have h5 := div_lt_div_of_pos_right h4 hs
    linarith
  · obtain ⟨p1, r1⟩ := balakrishnan_run hg1 hl1 ha1
    obtain ⟨p2, r2⟩ := balakrishnan_run hg2 hl2 ha2
    rw [r1, r2]
    apply inverse_lt p2
    unfold permeance
    have h4 := log_ratio_le (c1 := Real.pi * h1 / 2) (c2 := Real.pi * h2 / 2) hl1 hl
      (by have := hg2.normal_pos; positivity) (by nlinarith)
    rw [div_div, div_div] at h4
    have hc : 0 < 2 * d / Real.pi := by positivity
    have := mul_lt_mul_of_pos_left h4 hc
    nlinarith
  · simp only [gapReluctance, classic, hg1.has_area, hg2.has_area, Res.ok.injEq] at ha1 ha2
    subst ha1
    subst ha2
    exact div_lt_div_of_pos_right hl (by positivity)

/-- The sample with another length. -/
noncomputable def sampleOf (length : ℝ) : Gap := { sample with length := length }

theorem sampleOf_described (length : ℝ) : Described (sampleOf length) 0.0000785 true 0.01 0.01 0.01 :=
  ⟨rfl, rfl, rfl, rfl, by norm_num, by norm_num, by norm_num, by norm_num⟩

example (a1 a2 : Answer) (h1 : gapReluctance .zhang 0.3 (sampleOf 0.0005) = .ok a1)
    (h2 : gapReluctance .zhang 0.3 (sampleOf 0.001) = .ok a2) : a1.reluctance < a2.reluctance :=
  longer_gap_more_reluctance .zhang (by simp) 0.3 0.3 _ _ _ _ _ _ _ _ a1 a2 (sampleOf_described _) (sampleOf_described _)
    (by norm_num [sampleOf]) (by norm_num [sampleOf]) (le_refl _) h1 h2

example : ∃ a1, gapReluctance .zhang 0.3 (sampleOf 0.0005) = .ok a1 := by
  obtain ⟨f, e, h⟩ := zhang_run (saturation := 0.3) (sampleOf_described 0.0005) (by norm_num [sampleOf])
  exact ⟨_, h⟩

/-- **C263.** For the models of the effective area and of the effective length the longer gap has more reluctance only while the
gaps are not longer than the width and the depth of the column. -/
theorem longer_gap_more_reluctance_partial (k : Kind) (hk : k = .effectiveArea ∨ k = .effectiveLength)
    (s1 s2 : ℝ) (g1 g2 : Gap) (area : ℝ) (round : Bool) (w d h1 h2 : ℝ) (a1 a2 : Answer)
    (hg1 : Described g1 area round w d h1) (hg2 : Described g2 area round w d h2)
    (hl1 : 0 < g1.length) (hl : g1.length < g2.length) (hw : g2.length ≤ w) (hd : g2.length ≤ d)
    (ha1 : gapReluctance k s1 g1 = .ok a1) (ha2 : gapReluctance k s2 g2 = .ok a2) : a1.reluctance < a2.reluctance := by
  have hm := mu0_pos
  have ha := hg1.area_pos
  have wp := hg1.width_pos
  have dp := hg1.depth_pos
  have hl2 : 0 < g2.length := lt_trans hl1 hl
  have hf1 := areaFactor_pos round wp dp hl1.le
  have hf2 := areaFactor_pos round wp dp hl2.le
  have key : g1.length / (mu0 * area * areaFactor g1.length round w d) < g2.length / (mu0 * area * areaFactor g2.length round w d) := by
    rw [div_lt_div_iff₀ (mul_pos (mul_pos hm ha) (by linarith)) (mul_pos (mul_pos hm ha) (by linarith))]
    have : g1.length * areaFactor g2.length round w d < g2.length * areaFactor g1.length round w d := by
      unfold areaFactor
      rw [if_pos hl1, if_pos hl2]
      cases round with
      | true =>
        simp only [if_true]
        have e1 : (1 + g2.length / w) ^ 2 = (w + g2.length) ^ 2 / w ^ 2 := by field_simp
        have e2 : (1 + g1.length / w) ^ 2 = (w + g1.length) ^ 2 / w ^ 2 := by field_simp
        rw [e1, e2, mul_div_assoc', mul_div_assoc']
        apply div_lt_div_of_pos_right _ (by positivity)
        nlinarith [mul_pos (sub_pos.mpr hl) (show 0 < w * w - g1.length * g2.length by nlinarith)]
      | false =>
        simp only [Bool.false_eq_true, if_false]
        rw [mul_div_assoc', mul_div_assoc']
        apply div_lt_div_of_pos_right _ (by positivity)
        nlinarith [mul_pos (sub_pos.mpr hl) (show 0 < d * w - g1.length * g2.length by nlinarith)]
    nlinarith [mul_pos hm ha]
  rcases hk with rfl | rfl
  · simp only [gapReluctance, effectiveArea, hg1.has_area, hg2.has_area, hg1.has_round, hg2.has_round, hg1.has_dims, hg2.has_dims,
      Res.ok.injEq] at ha1 ha2
    subst ha1
    subst ha2
    exact key
  · simp only [gapReluctance, effectiveLength, hg1.has_area, hg2.has_area, hg1.has_round, hg2.has_round, hg1.has_dims, hg2.has_dims,
      Res.ok.injEq] at ha1 ha2
    subst ha1
    subst ha2
    simp only [answer]
    rw [lengthFactor_eq round wp.ne' dp.ne', lengthFactor_eq round wp.ne' dp.ne']
    exact key

/-- A column of one millimetre by one. -/
noncomputable def slim (length : ℝ) : Gap := ⟨length, some 0.000001, some false, some (0.001, 0.001), some 0.01, none, none⟩

/-- **C263.** In a column of one millimetre, a gap of two millimetres has less reluctance than one of one millimetre. -/
theorem longer_gap_less_reluctance : ∃ a1 a2 : Answer, gapReluctance .effectiveArea 0.3 (slim 0.001) = .ok a1 ∧
    gapReluctance .effectiveArea 0.3 (slim 0.002) = .ok a2 ∧ 0 < a2.reluctance ∧ a2.reluctance < a1.reluctance := by
  have f1 : areaFactor 0.001 false 0.001 0.001 = 4 := by unfold areaFactor; norm_num
  have f2 : areaFactor 0.002 false 0.001 0.001 = 9 := by unfold areaFactor; norm_num
  refine ⟨_, _, rfl, rfl, ?_⟩
  have hm := mu0_pos
  change 0 < 0.002 / (mu0 * 0.000001 * areaFactor 0.002 false 0.001 0.001) ∧
    0.002 / (mu0 * 0.000001 * areaFactor 0.002 false 0.001 0.001) < 0.001 / (mu0 * 0.000001 * areaFactor 0.001 false 0.001 0.001)
  rw [f1, f2]
  refine ⟨by positivity, ?_⟩
  rw [div_lt_div_iff₀ (by positivity) (by positivity)]
  nlinarith

/-- **C263.** The models of the effective area and of the effective length answer the same of every gap, but for their name. -/
theorem effective_same (saturation : ℝ) (g : Gap) (hd : ∀ w d, g.dims = some (w, d) → w ≠ 0 ∧ d ≠ 0) :
    (∀ a, gapReluctance .effectiveArea saturation g = .ok a →
      gapReluctance .effectiveLength saturation g = .ok { a with method := "EffectiveLength" }) ∧
    (gapReluctance .effectiveArea saturation g = .throws ↔ gapReluctance .effectiveLength saturation g = .throws) := by
  simp only [gapReluctance, effectiveArea, effectiveLength]
  cases ha : g.area with
  | none => simp
  | some area =>
    cases hr : g.round with
    | none => simp
    | some round =>
      cases hdd : g.dims with
      | none => simp
      | some x =>
        obtain ⟨w, d⟩ := x
        obtain ⟨hw, hd'⟩ := hd w d hdd
        simp only [lengthFactor_eq round hw hd', Res.ok.injEq]
        refine ⟨?_, by simp⟩
        rintro a rfl
        rfl

/-! ## A gap without length -/

/-- **C264.** Every model but that of Muehlethaler answers a gap without length with no reluctance, no fringing and no energy. -/
theorem no_length_no_reluctance (k : Kind) (hk : k ≠ .muehlethaler) (saturation : ℝ) (g : Gap) (area : ℝ) (round : Bool) (w d h : ℝ)
    (hg : Described g area round w d h) (hy : g.y.isSome) (hp : g.parallel.isSome) (hl : g.length = 0) :
    ∃ a, gapReluctance k saturation g = .ok a ∧ a.reluctance = 0 ∧ a.factor = 1 ∧ a.energy = 0 := by
  obtain ⟨y, hy⟩ := Option.isSome_iff_exists.mp hy
  obtain ⟨p, hp⟩ := Option.isSome_iff_exists.mp hp
  have hn := hg.normal_pos
  cases k with
  | muehlethaler => exact absurd rfl hk
  | zhang =>
    simp only [gapReluctance, zhang, hg.has_round, hg.has_dims, hg.has_normal, hg.has_area]
    rw [if_neg (not_lt.mpr hn.le), if_neg (by rw [hl]; simp)]
    exact ⟨_, rfl, by simp [answer, storable, hl]⟩
  | partridge =>
    simp only [gapReluctance, partridge, hg.has_dims, hg.has_normal, hg.has_area]
    rw [if_neg (by rw [hl]; simp), if_neg (by rw [hl]; simp), if_neg (by simp [partridgeFactor, hl])]
    exact ⟨_, rfl, by simp [answer, storable, hl, partridgeFactor]⟩
  | effectiveArea =>
    simp only [gapReluctance, effectiveArea, hg.has_round, hg.has_dims, hg.has_area]
    exact ⟨_, rfl, by simp [answer, storable, hl, areaFactor]⟩
  | effectiveLength =>
    simp only [gapReluctance, effectiveLength, hg.has_round, hg.has_dims, hg.has_area]
    exact ⟨_, rfl, by simp [answer, storable, hl, lengthFactor]⟩
  | stenglein =>
    simp only [gapReluctance, stenglein, hg.has_round, hg.has_dims, hg.has_normal, hg.has_area, hy, hp]
    rw [if_neg (by rw [hl]; simp), if_neg (by simp [stengleinFactor, hl])]
    exact ⟨_, rfl, by simp [answer, storable, hl, stengleinFactor]⟩
  | balakrishnan =>
    simp only [gapReluctance, balakrishnan, hg.has_dims, hg.has_normal, hg.has_area]
    rw [if_neg (by intro hc; rcases hc with hc | hc; linarith; linarith [hc.1]), if_pos hl.le]
    exact ⟨_, rfl, by simp [answer, storable, hl]⟩
  | classic =>
    simp only [gapReluctance, classic, hg.has_area]
    exact ⟨_, rfl, by simp [answer, storable, hl]⟩

/-- **C264.** The model of Muehlethaler answers what is not a number for every gap without length. -/
theorem muehlethaler_no_length (saturation : ℝ) (g : Gap) (area : ℝ) (round : Bool) (w d h : ℝ)
    (hg : Described g area round w d h) (hl : g.length = 0) : gapReluctance .muehlethaler saturation g = .notFinite := by
  simp only [gapReluctance, muehlethaler, hg.has_round, hg.has_dims, hg.has_normal, hg.has_area]
  rw [if_pos (Or.inl hl.le)]

example : gapReluctance .muehlethaler 0.3 (sampleOf 0) = .notFinite :=
  muehlethaler_no_length 0.3 _ _ _ _ _ _ (sampleOf_described 0) rfl

/-! ## What the models refuse -/

/-- **C266.** Whatever a gap lacks, every model but that of Muehlethaler has a defined behaviour. -/
theorem defined (k : Kind) (hk : k ≠ .muehlethaler) (saturation : ℝ) (g : Gap) : gapReluctance k saturation g ≠ .ub := by
  cases k with
  | muehlethaler => exact absurd rfl hk
  | zhang => simp only [gapReluctance, zhang]; split <;> (try split_ifs) <;> simp
  | partridge => simp only [gapReluctance, partridge]; split <;> (try split_ifs) <;> simp
  | effectiveArea => simp only [gapReluctance, effectiveArea]; split <;> simp
  | effectiveLength => simp only [gapReluctance, effectiveLength]; split <;> simp
  | stenglein => simp only [gapReluctance, stenglein]; split <;> (try split_ifs) <;> simp
  | balakrishnan => simp only [gapReluctance, balakrishnan]; split <;> (try split_ifs) <;> simp
  | classic => simp only [gapReluctance, classic]; split <;> simp

/-- **C266.** A gap without an area is refused by every model but that of Muehlethaler. -/
theorem without_area_refused (k : Kind) (hk : k ≠ .muehlethaler) (saturation : ℝ) (g : Gap) (ha : g.area = none) :
    gapReluctance k saturation g = .throws := by
  cases k with
  | muehlethaler => exact absurd rfl hk
  | zhang => simp [gapReluctance, zhang, ha]
  | partridge => simp [gapReluctance, partridge, ha]
  | effectiveArea => simp [gapReluctance, effectiveArea, ha]
  | effectiveLength => simp [gapReluctance, effectiveLength, ha]
  | stenglein => simp [gapReluctance, stenglein, ha]
  | balakrishnan => simp [gapReluctance, balakrishnan, ha]
  | classic => simp [gapReluctance, classic, ha]

/-- **C266.** The model of Muehlethaler has no defined behaviour exactly for a gap with all it looks for but without an area. -/
theorem muehlethaler_without_area (saturation : ℝ) (g : Gap) :
    gapReluctance .muehlethaler saturation g = .ub ↔ g.area = none ∧ g.round.isSome ∧ g.dims.isSome ∧ g.normal.isSome := by
  simp only [gapReluctance, muehlethaler]
  cases hr : g.round with
  | none => simp
  | some round =>
    cases hd : g.dims with
    | none => simp
    | some x =>
      cases hn : g.normal with
      | none => simp
      | some h =>
        obtain ⟨w, d⟩ := x
        cases ha : g.area with
        | none => simp
        | some area =>
          simp only [Option.isSome_some]
          split_ifs <;> simp

/-- **C266.** Every model but those of Muehlethaler and Stenglein answers a positive reluctance and factor for a gap with length. -/
theorem positive_reluctance_partial (k : Kind) (hk : k ≠ .muehlethaler ∧ k ≠ .stenglein) (saturation : ℝ) (g : Gap)
    (area : ℝ) (round : Bool) (w d h : ℝ) (a : Answer) (hg : Described g area round w d h) (hl : 0 < g.length)
    (ha : gapReluctance k saturation g = .ok a) : 0 < a.reluctance ∧ 0 < a.factor := by
  have hm := mu0_pos
  have hap := hg.area_pos
  have hag := factor_and_energy_agree k hk.1 saturation g area a hg.has_area hg.area_pos hl (described_dims hg) ha
  have hS : 0 < g.length / (mu0 * area) := by positivity
  have key : 0 < a.reluctance := by
    cases k with
    | muehlethaler => exact absurd rfl hk.1
    | stenglein => exact absurd rfl hk.2
    | zhang =>
      obtain ⟨b, hb, hf⟩ := fringing_lowers .zhang (by simp) saturation g area round w d h hg hl
      rw [ha] at hb; simp only [Res.ok.injEq] at hb; subst hb; exact hf.1
    | effectiveArea =>
      obtain ⟨b, hb, hf⟩ := fringing_lowers .effectiveArea (by simp) saturation g area round w d h hg hl
      rw [ha] at hb; simp only [Res.ok.injEq] at hb; subst hb; exact hf.1
    | effectiveLength =>
      obtain ⟨b, hb, hf⟩ := fringing_lowers .effectiveLength (by simp) saturation g area round w d h hg hl
      rw [ha] at hb; simp only [Res.ok.injEq] at hb; subst hb; exact hf.1
    | classic =>
      obtain ⟨b, hb, hf⟩ := fringing_lowers .classic (by simp) saturation g area round w d h hg hl
      rw [ha] at hb; simp only [Res.ok.injEq] at hb; subst hb; exact hf.1
    | partridge =>
      obtain ⟨p, r⟩ := partridge_run hg hl ha
      rw [r]; positivity
    | balakrishnan =>
      obtain ⟨p, r⟩ := balakrishnan_run hg hl ha
      rw [r]; positivity
  refine ⟨key, ?_⟩
  by_contra hn
  nlinarith [hag.1, not_lt.mp hn]

/-- A gap of twenty micrometres, five millimetres from the end of a column of four millimetres by sixty. -/
noncomputable def nearEnd : Gap := ⟨0.00002, some 0.000016, some false, some (0.004, 0.004), some 0.005, some 0.005, some 0.025⟩

/-- **C266.** The model of Stenglein answers a negative reluctance for a gap near the end of a slim column, and does not refuse it. -/
theorem stenglein_negative : Described nearEnd 0.000016 false 0.004 0.004 0.005 ∧ 0 < nearEnd.length ∧
    ∃ a, gapReluctance .stenglein 0.3 nearEnd = .ok a ∧ a.reluctance < 0 := by
  have hD : Described nearEnd 0.000016 false 0.004 0.004 0.005 :=
    ⟨rfl, rfl, rfl, rfl, by norm_num, by norm_num, by norm_num, by norm_num⟩
  refine ⟨hD, by norm_num [nearEnd], ?_⟩
  have hpi := Real.pi_gt_three
  have hs : (17 / 10 : ℝ) ≤ Real.sqrt Real.pi := by
    apply Real.le_sqrt_of_sq_le
    linarith
  have hc : 2 / Real.sqrt Real.pi ≤ 20 / 17 := by
    rw [div_le_div_iff₀ (by linarith) (by norm_num)]
    linarith
  have hc0 : 0 < 2 / Real.sqrt Real.pi := by positivity
  have hlog1 : Real.log (2.1 * (0.004 / 2) / 0.00002) ≤ 2.1 * (0.004 / 2) / 0.00002 - 1 := Real.log_le_sub_one_of_pos (by norm_num)
  have hlog1' : 0 ≤ Real.log (2.1 * (0.004 / 2) / 0.00002) := Real.log_nonneg (by norm_num)
  have hlog2 : (1 : ℝ) - (2.1 * (0.004 / 2) / (0.005 * 2))⁻¹ ≤ Real.log (2.1 * (0.004 / 2) / (0.005 * 2)) :=
    Real.one_sub_inv_le_log_of_pos (by norm_num)
  have hlog2' : Real.log (2.1 * (0.004 / 2) / (0.005 * 2)) ≤ 0 := Real.log_nonpos (by norm_num) (by norm_num)
  have hA1 : aux1 (0.004 / 2) 0.00002 ≤ 2.3 := by
    unfold aux1
    generalize Real.log (2.1 * (0.004 / 2) / 0.00002) = L at *
    generalize 2 / Real.sqrt Real.pi = c at *
    norm_num at hlog1 ⊢
    nlinarith
  have hA2 : -4 ≤ aux1 (0.004 / 2) (0.005 * 2) := by
    unfold aux1
    generalize Real.log (2.1 * (0.004 / 2) / (0.005 * 2)) = L at *
    generalize 2 / Real.sqrt Real.pi = c at *
    norm_num at hlog2 ⊢
    nlinarith
  have hpow : (0.00002 / (0.005 * 2) : ℝ) ^ (2 * Real.pi) ≤ 0.002 := by
    calc (0.00002 / (0.005 * 2) : ℝ) ^ (2 * Real.pi) ≤ (0.00002 / (0.005 * 2) : ℝ) ^ (1 : ℝ) :=
          Real.rpow_le_rpow_of_exponent_ge (by norm_num) (by norm_num) (by linarith)
      _ = 0.002 := by rw [Real.rpow_one]; norm_num
  have hpow0 : 0 ≤ (0.00002 / (0.005 * 2) : ℝ) ^ (2 * Real.pi) := Real.rpow_nonneg (by norm_num) _
  have haux2 : aux2 (0.004 / 2) 0.005 ≤ 5 := by unfold aux2; norm_num
  have hf : stengleinFactor 0.00002 0.004 0.005 0.005 0.025 < 0 := by
    unfold stengleinFactor stengleinGamma
    rw [if_pos (by norm_num)]
    have hal : alpha (0.004 / 2) (0.005 * 2) 0.00002 ≤ -0.5 := by unfold alpha; norm_num
    have : (aux2 (0.004 / 2) 0.005 - aux1 (0.004 / 2) (0.005 * 2)) * (0.00002 / (0.005 * 2)) ^ (2 * Real.pi) ≤ 9 * 0.002 := by
      apply le_trans (mul_le_mul_of_nonneg_right (show _ ≤ (9 : ℝ) by linarith) hpow0)
      linarith
    have h2 : (0.025 / (0.005 * 2) : ℝ) ^ 2 = 6.25 := by norm_num
    rw [h2]
    linarith
  have hy : nearEnd.y = some 0.025 := rfl
  have hp : nearEnd.parallel = some 0.005 := rfl
  have hl : nearEnd.length = 0.00002 := rfl
  simp only [gapReluctance, stenglein, hD.has_area, hD.has_round, hD.has_dims, hD.has_normal, hy, hp, hl]
  rw [if_neg (by norm_num), if_neg hf.ne]
  refine ⟨_, rfl, ?_⟩
  simp only [answer]
  have hm := mu0_pos
  apply div_neg_of_pos_of_neg (by norm_num)
  exact mul_neg_of_pos_of_neg (by positivity) hf

/-- A gap of a millimetre almost against the yoke, in a column of one millimetre by ten. -/
noncomputable def flush : Gap :=
  ⟨0.001, some 0.00001, some false, some (0.001, 0.01), some (2 * 0.001 / (Real.pi * 2 ^ 10)), none, none⟩

/-- **C266.** The model of Muehlethaler answers a negative reluctance for a gap almost against the yoke, and does not refuse it. -/
theorem muehlethaler_negative : Described flush 0.00001 false 0.001 0.01 (2 * 0.001 / (Real.pi * 2 ^ 10)) ∧ 0 < flush.length ∧
    ∃ a, gapReluctance .muehlethaler 0.3 flush = .ok a ∧ a.reluctance < 0 := by
  have hpi := Real.pi_pos
  have hpi3 := Real.pi_gt_three
  have hpi4 := Real.pi_lt_four
  have hh : (0 : ℝ) < 2 * 0.001 / (Real.pi * 2 ^ 10) := by positivity
  have hD : Described flush 0.00001 false 0.001 0.01 (2 * 0.001 / (Real.pi * 2 ^ 10)) :=
    ⟨rfl, rfl, rfl, rfl, by norm_num, by norm_num, by norm_num, hh⟩
  refine ⟨hD, by norm_num [flush], ?_⟩
  have hlog : Real.log (Real.pi * (2 * 0.001 / (Real.pi * 2 ^ 10)) / (2 * 0.001)) = -(10 * Real.log 2) := by
    have : Real.pi * (2 * 0.001 / (Real.pi * 2 ^ 10)) / (2 * 0.001) = ((2 : ℝ) ^ 10)⁻¹ := by field_simp
    rw [this, Real.log_inv, Real.log_pow]
    norm_num
  have hl2 := Real.log_two_gt_d9
  have hl2' := Real.log_two_lt_d9
  have hT : ∀ x, basicTerm (0.001 / 2) x (2 * 0.001 / (Real.pi * 2 ^ 10)) = x / 0.001 + 2 / Real.pi * (1 - 10 * Real.log 2) := by
    intro x
    rw [basicTerm_eq (by norm_num), hlog]
    ring
  have hq1 : 2 / Real.pi ≤ 2 / 3 := by rw [div_le_div_iff₀ hpi (by norm_num)]; linarith
  have hq2 : 1 / 2 ≤ 2 / Real.pi := by rw [div_le_div_iff₀ (by norm_num) hpi]; linarith
  have t1 : basicTerm (0.001 / 2) 0.001 (2 * 0.001 / (Real.pi * 2 ^ 10)) < 0 := by
    rw [hT]; norm_num; nlinarith
  have t2 : 0 < basicTerm (0.001 / 2) 0.01 (2 * 0.001 / (Real.pi * 2 ^ 10)) := by
    rw [hT]; norm_num; nlinarith
  have hl : flush.length = 0.001 := rfl
  simp only [gapReluctance, muehlethaler, hD.has_area, hD.has_round, hD.has_dims, hD.has_normal, hl]
  rw [if_neg (by intro hc; rcases hc with hc | hc; norm_num at hc; linarith)]
  simp only [Bool.false_eq_true, if_false]
  rw [if_neg (by intro hc; rcases hc with hc | hc; exact t1.ne hc; exact t2.ne' hc)]
  refine ⟨_, rfl, ?_⟩
  simp only [answer]
  rw [gamma_eq (by norm_num) (by norm_num) t1.ne, gamma_eq (by norm_num) (by norm_num) t2.ne']
  have hm := mu0_pos
  apply div_neg_of_neg_of_pos _ (by positivity)
  apply mul_neg_of_neg_of_pos _ (by norm_num)
  apply mul_neg_of_neg_of_pos
  · exact div_neg_of_pos_of_neg (by norm_num) t1
  · positivity

/-! ## Names -/

/-- **C268.** The answer of every model for a gap has the name of the model, and no two models have the same name. -/
theorem gap_answer_named (k : Kind) (saturation : ℝ) (g : Gap) (a : Answer) (h : gapReluctance k saturation g = .ok a) :
    a.method = nameOf k ∧ ∀ k', nameOf k' = nameOf k → k' = k := by
  refine ⟨?_, by cases k <;> intro k' hk' <;> cases k' <;> first | rfl | simp [nameOf] at hk'⟩
  cases k with
  | zhang => simp only [gapReluctance, zhang] at h; split at h <;> (try split_ifs at h) <;> simp at h <;> subst h <;> rfl
  | partridge => simp only [gapReluctance, partridge] at h; split at h <;> (try split_ifs at h) <;> simp at h <;> subst h <;> rfl
  | effectiveArea => simp only [gapReluctance, effectiveArea] at h; split at h <;> simp at h <;> subst h <;> rfl
  | effectiveLength => simp only [gapReluctance, effectiveLength] at h; split at h <;> simp at h <;> subst h <;> rfl
  | muehlethaler =>
    simp only [gapReluctance, muehlethaler] at h
    split at h
    · split at h
      · simp at h
      · split_ifs at h <;> simp at h <;> subst h <;> rfl
    · simp at h
  | stenglein => simp only [gapReluctance, stenglein] at h; split at h <;> (try split_ifs at h) <;> simp at h <;> subst h <;> rfl
  | balakrishnan => simp only [gapReluctance, balakrishnan] at h; split at h <;> (try split_ifs at h) <;> simp at h <;> subst h <;> rfl
  | classic => simp only [gapReluctance, classic] at h; split at h <;> simp at h <;> subst h <;> rfl

/-- **C268.** What is said of all the gaps of a core never has the name of the model that answered. -/
theorem core_answer_not_named (k : Kind) (saturation : ℝ) (gaps : List Gap) (r : Gapping) (h : gapping k saturation gaps = .ok r) :
    r.method = "Default" ∧ ∀ k', r.method ≠ nameOf k' := by
  unfold gapping at h
  split at h <;> simp at h
  subst h
  exact ⟨rfl, fun k' => by cases k' <;> simp [nameOf]⟩

example : ∃ r, gapping .classic 0.3 [sample] = .ok r := ⟨_, rfl⟩

end Verif.Reluctance
