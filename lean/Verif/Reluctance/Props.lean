import Verif.Reluctance.Lemmas
import Mathlib.Analysis.SpecialFunctions.Log.Deriv
import Mathlib.Analysis.Complex.ExponentialBounds

/-!
# Properties of the reluctance of gaps
-/

set_option linter.unusedSimpArgs false
set_option linter.unusedVariables false

namespace Verif.Reluctance

/-! ## Specification -/

/-- A gap that has everything a model may read, all of it positive but the height at which it is. -/
structure Described (g : Gap) (area : ℝ) (round : Bool) (w d h : ℝ) : Prop where
  has_area : g.area = some area
  has_round : g.round = some round
  has_dims : g.dims = some (w, d)
  has_normal : g.normal = some h
  area_pos : 0 < area
  width_pos : 0 < w
  depth_pos : 0 < d
  normal_pos : 0 < h

/-- An answer that does not have more reluctance than a gap without fringing, which is `length / (mu0 * area)`. -/
def Fringed (g : Gap) (area : ℝ) (a : Answer) : Prop :=
  0 < a.reluctance ∧ a.reluctance ≤ g.length / (mu0 * area) ∧ 1 ≤ a.factor

/-- An answer whose factor is how many times the reluctance is lower than without fringing, and whose energy is that of the flux
at saturation through the reluctance. -/
def Agrees (saturation : ℝ) (g : Gap) (area : ℝ) (a : Answer) : Prop :=
  a.reluctance * a.factor = g.length / (mu0 * area) ∧ a.energy = (saturation * area) ^ 2 * a.reluctance / 2

/-- The name of a model. -/
def nameOf : Kind → String
  | .zhang => "Zhang"
  | .partridge => "Partridge"
  | .effectiveArea => "EffectiveArea"
  | .effectiveLength => "EffectiveLength"
  | .muehlethaler => "Muehlethaler"
  | .stenglein => "Stenglein"
  | .balakrishnan => "Balakrishnan"
  | .classic => "Classic"

/-- A gap used in the examples: half a millimetre in a round column of ten millimetres, ten millimetres from the yoke. -/
noncomputable def sample : Gap :=
  ⟨0.0005, some 0.0000785, some true, some (0.01, 0.01), some 0.01, some 0.005, some 0⟩

theorem sample_described : Described sample 0.0000785 true 0.01 0.01 0.01 :=
  ⟨rfl, rfl, rfl, rfl, by norm_num, by norm_num, by norm_num, by norm_num⟩

/-! ## What a model answers -/

theorem areaFactor_pos {length w d : ℝ} (round : Bool) (hw : 0 < w) (hd : 0 < d) (hl : 0 ≤ length) :
    1 ≤ areaFactor length round w d := by
  unfold areaFactor
  split_ifs
  · have : 0 ≤ length / w := by positivity
    nlinarith
  · rw [le_div_iff₀ (by positivity)]
    nlinarith [mul_nonneg hl hl, mul_nonneg hd.le hl, mul_nonneg hw.le hl]
  · exact le_refl 1

theorem lengthFactor_eq {length w d : ℝ} (round : Bool) (hw : w ≠ 0) (hd : d ≠ 0) :
    lengthFactor length round w d = areaFactor length round w d := by
  unfold lengthFactor areaFactor
  split_ifs
  · rfl
  · field_simp
  · rfl

/-- The energy is that of the flux through the reluctance once the reluctance and the factor agree. -/
theorem energy_agrees {saturation : ℝ} {g : Gap} {area r f : ℝ} (ha : area ≠ 0) (hf : f ≠ 0)
    (h : r * f = g.length / (mu0 * area)) (m : String) : Agrees saturation g area (answer saturation g area r f m) := by
  refine ⟨h, ?_⟩
  have hm := mu0_pos.ne'
  have hr : r = g.length / (mu0 * area) / f := by rw [← h]; field_simp
  simp only [answer, storable]
  rw [hr]
  field_simp
  ring

/-- **C265.** For every model but that of Muehlethaler, every gap of a positive area and length answered with a factor: the
reluctance is that of the gap without fringing over the factor, and the energy is that of the flux at saturation through the
reluctance. -/
theorem factor_and_energy_agree (k : Kind) (hk : k ≠ .muehlethaler) (saturation : ℝ) (g : Gap) (area : ℝ) (a : Answer)
    (ha : g.area = some area) (hpos : 0 < area) (hl : 0 < g.length)
    (hd : ∀ w d, g.dims = some (w, d) → 0 < w ∧ 0 < d)
    (h : gapReluctance k saturation g = .ok a) : Agrees saturation g area a := by
  have hm := mu0_pos
  have hm' := mu0_pos.ne'
  have ha' := hpos.ne'
  have hl' := hl.ne'
  cases k with
  | muehlethaler => exact absurd rfl hk
  | classic =>
    simp only [gapReluctance, classic, ha, Res.ok.injEq] at h
    subst h
    exact energy_agrees ha' one_ne_zero (by simp) _
  | zhang =>
    simp only [gapReluctance, zhang, ha] at h
    split at h
    · rename_i a' round w d hh e1 e2 e3 e4
      simp only [Option.some.injEq] at e1
      subst e1
      obtain ⟨hw, hdd⟩ := hd w d e3
      by_cases hneg : hh < 0
      · rw [if_pos hneg] at h; simp at h
      · rw [if_neg hneg, if_pos hl] at h
        simp only [Res.ok.injEq] at h
        subst h
        have hp := zhang_permeance_pos hl hpos (perimeter_pos (round := round) hw hdd) (not_lt.mp hneg)
        have hr : 0 < zhangReluctance g.length area (perimeter round w d) hh := by
          rw [zhang_permeance hl]; positivity
        refine energy_agrees ha' (by positivity) ?_ _
        field_simp
    · simp at h
  | effectiveArea =>
    simp only [gapReluctance, effectiveArea, ha] at h
    split at h
    · rename_i a' round w d e1 e2 e3
      simp only [Option.some.injEq] at e1
      subst e1
      obtain ⟨hw, hdd⟩ := hd w d e3
      simp only [Res.ok.injEq] at h
      subst h
      have hf := areaFactor_pos round hw hdd hl.le
      have hf' : areaFactor g.length round w d ≠ 0 := by linarith
      refine energy_agrees ha' hf' ?_ _
      field_simp
    · simp at h
  | effectiveLength =>
    simp only [gapReluctance, effectiveLength, ha] at h
    split at h
    · rename_i a' round w d e1 e2 e3
      simp only [Option.some.injEq] at e1
      subst e1
      obtain ⟨hw, hdd⟩ := hd w d e3
      simp only [Res.ok.injEq] at h
      subst h
      rw [lengthFactor_eq round hw.ne' hdd.ne']
      have hf := areaFactor_pos round hw hdd hl.le
      have hf' : areaFactor g.length round w d ≠ 0 := by linarith
      refine energy_agrees ha' hf' ?_ _
      field_simp
    · simp at h
  | partridge =>
    simp only [gapReluctance, partridge, ha] at h
    split at h
    · rename_i a' dims hh e1 e2 e3
      simp only [Option.some.injEq] at e1
      subst e1
      split_ifs at h with h1 h2 h3
      simp only [Res.ok.injEq] at h
      subst h
      have hf : partridgeFactor g.length area hh ≠ 0 := by linarith [not_le.mp h3]
      refine energy_agrees ha' hf ?_ _
      field_simp
    · simp at h
  | stenglein =>
    simp only [gapReluctance, stenglein, ha] at h
    split at h
    · rename_i a' round w d hh y p e1 e2 e3 e4 e5 e6
      simp only [Option.some.injEq] at e1
      subst e1
      split_ifs at h with h1 h2
      simp only [Res.ok.injEq] at h
      subst h
      refine energy_agrees ha' h2 ?_ _
      field_simp
    · simp at h
  | balakrishnan =>
    simp only [gapReluctance, balakrishnan, ha] at h
    split at h
    · rename_i a' hh w d e1 e2 e3
      simp only [Option.some.injEq] at e1
      subst e1
      rw [if_neg (not_le.mpr hl)] at h
      split_ifs at h with h1 h2 h3
      simp only [Res.ok.injEq] at h
      subst h
      have hp : 0 < permeance g.length area d hh := not_le.mp h3
      refine energy_agrees ha' (by positivity) ?_ _
      field_simp
    · simp at h

/-- **C265.** The model of Muehlethaler in a column that is not round, and whose area is its width by its depth. -/
theorem muehlethaler_agrees_partial (saturation : ℝ) (g : Gap) (w d h : ℝ) (a : Answer)
    (hg : Described g (w * d) false w d h) (hl : 0 < g.length) (h1 : gapReluctance .muehlethaler saturation g = .ok a) :
    Agrees saturation g (w * d) a := by
  have hm := mu0_pos.ne'
  have hw := hg.width_pos
  have hd := hg.depth_pos
  simp only [gapReluctance, muehlethaler, hg.has_round, hg.has_dims, hg.has_normal, hg.has_area] at h1
  rw [if_neg (by intro hc; rcases hc with hc | hc; linarith; linarith [hg.normal_pos])] at h1
  simp only [Bool.false_eq_true, if_false] at h1
  split_ifs at h1 with hz
  obtain ⟨hz1, hz2⟩ := not_or.mp hz
  simp only [Res.ok.injEq] at h1
  subst h1
  rw [gamma_eq hl hw hz1, gamma_eq hl hd hz2]
  have hw' := hw.ne'
  have hd' := hd.ne'
  have hl' := hl.ne'
  refine energy_agrees (by positivity) (by positivity) ?_ _
  field_simp

/-- **C265.** In a round column the model of Muehlethaler reports a factor that does not go with its reluctance, wherever there
is any fringing. -/
theorem muehlethaler_round_disagrees (saturation : ℝ) (g : Gap) (w d h : ℝ)
    (hg : Described g (Real.pi * (w / 2) ^ 2) true w d h) (hl : 0 < g.length) (hin : 2 * g.length < Real.pi * Real.exp 1 * h) :
    ∃ a, gapReluctance .muehlethaler saturation g = .ok a ∧ ¬ Agrees saturation g (Real.pi * (w / 2) ^ 2) a := by
  have hm := mu0_pos
  have hw := hg.width_pos
  have hpi := Real.pi_pos
  have hpos : 0 < 1 + Real.log (Real.pi * h / (2 * g.length)) := by
    have hx : 0 < Real.pi * h / (2 * g.length) := by have := hg.normal_pos; positivity
    have : 1 + Real.log (Real.pi * h / (2 * g.length)) = Real.log (Real.exp 1 * (Real.pi * h / (2 * g.length))) := by
      rw [Real.log_mul (Real.exp_ne_zero 1) hx.ne', Real.log_exp]
    rw [this]
    apply Real.log_pos
    rw [show Real.exp 1 * (Real.pi * h / (2 * g.length)) = (Real.pi * Real.exp 1 * h) / (2 * g.length) by ring]
    rw [lt_div_iff₀ (by positivity)]
    linarith
  have hT := basicTerm_eq (w := w / 2) (h := h) hl
  have hTpos : w / 2 / g.length < basicTerm (g.length / 2) (w / 2) h := by
    rw [hT]
    have : 0 < 2 / Real.pi * (1 + Real.log (Real.pi * h / (2 * g.length))) := by positivity
    linarith
  have hT0 : 0 < basicTerm (g.length / 2) (w / 2) h := lt_trans (by positivity) hTpos
  simp only [gapReluctance, muehlethaler, hg.has_round, hg.has_dims, hg.has_normal, hg.has_area]
  rw [if_neg (by intro hc; rcases hc with hc | hc; linarith; linarith [hg.normal_pos])]
  rw [if_pos trivial, if_neg hT0.ne']
  refine ⟨_, rfl, ?_⟩
  rintro ⟨h1, -⟩
  rw [gamma_eq hl (by positivity) hT0.ne'] at h1
  simp only [answer] at h1
  generalize basicTerm (g.length / 2) (w / 2) h = T at *
  have hw' := hw.ne'
  have hl' := hl.ne'
  have hT' := hT0.ne'
  have hm' := hm.ne'
  have hpi' := hpi.ne'
  field_simp at h1
  rw [div_lt_iff₀ hl] at hTpos
  nlinarith

/-- **C265.** The energy answered grows as the reluctance, so a model that answers less reluctance answers less energy. -/
theorem less_reluctance_less_energy (saturation : ℝ) (g : Gap) (area : ℝ) (a b : Answer) (hs : 0 < saturation) (hpos : 0 < area)
    (ha : Agrees saturation g area a) (hb : Agrees saturation g area b) : a.reluctance < b.reluctance ↔ a.energy < b.energy := by
  rw [ha.2, hb.2]
  have : 0 < (saturation * area) ^ 2 := by positivity
  constructor
  · intro h; nlinarith
  · intro h; by_contra hn; nlinarith [not_lt.mp hn]

/-! ## Fringing -/

/-- An answer that agrees is fringed where the factor is one or more. -/
theorem fringed_iff {saturation : ℝ} {g : Gap} {area : ℝ} {a : Answer} (hpos : 0 < area) (hl : 0 < g.length)
    (h : Agrees saturation g area a) : Fringed g area a ↔ 1 ≤ a.factor := by
  have hm := mu0_pos
  have hS : 0 < g.length / (mu0 * area) := by positivity
  constructor
  · exact fun hf => hf.2.2
  · intro hf
    have hr : 0 < a.reluctance := by
      by_contra hn
      nlinarith [h.1, not_lt.mp hn]
    exact ⟨hr, by rw [← h.1]; nlinarith, hf⟩

/-- The factor of Zhang. -/
theorem zhang_factor {length area p h : ℝ} (hl : 0 < length) (ha : 0 < area) (hp : 0 < p) (hh : 0 ≤ h) :
    length / (mu0 * area * zhangReluctance length area p h) =
      1 + length * p * Real.log ((2 * h + length) / length) / (Real.pi * area) := by
  have hP := (zhang_permeance_pos hl ha hp hh).ne'
  rw [zhang_permeance hl]
  have hm := mu0_pos.ne'
  have hpi := Real.pi_pos.ne'
  have hl' := hl.ne'
  have ha' := ha.ne'
  rw [show length / (mu0 * area * (1 / (mu0 * (area / length + p * Real.log ((2 * h + length) / length) / Real.pi)))) =
    length * (area / length + p * Real.log ((2 * h + length) / length) / Real.pi) / area by field_simp]
  field_simp

/-- **C262.** The models of Zhang and of the effective area and length, and the classic one, answer every gap with a length, and
with no more reluctance than without fringing. -/
theorem fringing_lowers (k : Kind) (hk : k = .zhang ∨ k = .effectiveArea ∨ k = .effectiveLength ∨ k = .classic)
    (saturation : ℝ) (g : Gap) (area : ℝ) (round : Bool) (w d h : ℝ) (hg : Described g area round w d h) (hl : 0 < g.length) :
    ∃ a, gapReluctance k saturation g = .ok a ∧ Fringed g area a := by
  have key : ∃ a, gapReluctance k saturation g = .ok a ∧ 1 ≤ a.factor := by
    rcases hk with rfl | rfl | rfl | rfl
    · simp only [gapReluctance, zhang, hg.has_round, hg.has_dims, hg.has_normal, hg.has_area]
      rw [if_neg (not_lt.mpr hg.normal_pos.le), if_pos hl]
      refine ⟨_, rfl, ?_⟩
      simp only [answer]
      have hp := perimeter_pos (round := round) hg.width_pos hg.depth_pos
      rw [zhang_factor hl hg.area_pos hp hg.normal_pos.le]
      have h1 := zhang_log_nonneg hl hg.normal_pos.le
      have := Real.pi_pos
      have := hg.area_pos
      have : 0 ≤ g.length * perimeter round w d * Real.log ((2 * h + g.length) / g.length) / (Real.pi * area) := by positivity
      linarith
    · simp only [gapReluctance, effectiveArea, hg.has_round, hg.has_dims, hg.has_normal, hg.has_area]
      exact ⟨_, rfl, areaFactor_pos round hg.width_pos hg.depth_pos hl.le⟩
    · simp only [gapReluctance, effectiveLength, hg.has_round, hg.has_dims, hg.has_normal, hg.has_area]
      refine ⟨_, rfl, ?_⟩
      simp only [answer]
      rw [lengthFactor_eq round hg.width_pos.ne' hg.depth_pos.ne']
      exact areaFactor_pos round hg.width_pos hg.depth_pos hl.le
    · simp only [gapReluctance, classic, hg.has_area]
      exact ⟨_, rfl, le_refl 1⟩
  obtain ⟨a, ha, hf⟩ := key
  refine ⟨a, ha, (fringed_iff (saturation := saturation) hg.area_pos hl ?_).mpr hf⟩
  refine factor_and_energy_agree k ?_ saturation g area a hg.has_area hg.area_pos hl ?_ ha
  · rcases hk with rfl | rfl | rfl | rfl <;> simp
  · intro w' d' e; rw [hg.has_dims] at e; simp at e; rw [← e.1, ← e.2]; exact ⟨hg.width_pos, hg.depth_pos⟩

example : ∃ a, gapReluctance .zhang 0.3 sample = .ok a ∧ Fringed sample 0.0000785 a :=
  fringing_lowers .zhang (by simp) 0.3 sample _ _ _ _ _ sample_described (by norm_num [sample])

theorem described_dims {g : Gap} {area : ℝ} {round : Bool} {w d h : ℝ} (hg : Described g area round w d h) :
    ∀ w' d', g.dims = some (w', d') → 0 < w' ∧ 0 < d' := by
  intro w' d' e
  rw [hg.has_dims] at e
  simp at e
  rw [← e.1, ← e.2]
  exact ⟨hg.width_pos, hg.depth_pos⟩

/-- **C262.** The model of Partridge lowers the reluctance only of gaps of up to four times the distance to the nearest normal
surface, all of which it answers. -/
theorem partridge_range_partial (saturation : ℝ) (g : Gap) (area : ℝ) (round : Bool) (w d h : ℝ)
    (hg : Described g area round w d h) (hl : 0 < g.length) :
    (g.length ≤ 4 * h → ∃ a, gapReluctance .partridge saturation g = .ok a) ∧
      ∀ a, gapReluctance .partridge saturation g = .ok a → (Fringed g area a ↔ g.length ≤ 4 * h) := by
  have hs : 0 < g.length / Real.sqrt area := div_pos hl (Real.sqrt_pos.mpr hg.area_pos)
  have hlog : 0 ≤ Real.log (2 * 2 * h / g.length) ↔ g.length ≤ 4 * h := by
    have hx : 0 < 2 * 2 * h / g.length := by have := hg.normal_pos; positivity
    rw [Real.log_nonneg_iff hx, le_div_iff₀ hl]
    constructor <;> intro <;> linarith
  have hfac : 1 ≤ partridgeFactor g.length area h ↔ g.length ≤ 4 * h := by
    unfold partridgeFactor
    rw [if_pos hl, ← hlog]
    constructor
    · intro hf
      by_contra hn
      nlinarith [not_le.mp hn, mul_pos hs (neg_pos.mpr (not_le.mp hn))]
    · intro hf
      have := mul_nonneg hs.le hf
      linarith
  have hrun : gapReluctance .partridge saturation g =
      if partridgeFactor g.length area h ≤ 0 then .throws
      else .ok (answer saturation g area (g.length / (mu0 * area * partridgeFactor g.length area h))
        (partridgeFactor g.length area h) "Partridge") := by
    simp only [gapReluctance, partridge, hg.has_dims, hg.has_normal, hg.has_area]
    rw [if_neg (fun hc => hg.normal_pos.ne' hc.2), if_neg (fun hc => absurd hc.2 (not_lt.mpr hg.normal_pos.le))]
  refine ⟨?_, ?_⟩
  · intro hle
    rw [hrun, if_neg (not_le.mpr (lt_of_lt_of_le one_pos (hfac.mpr hle)))]
    exact ⟨_, rfl⟩
  · intro a ha
    rw [fringed_iff hg.area_pos hl
      (factor_and_energy_agree .partridge (by simp) saturation g area a hg.has_area hg.area_pos hl (described_dims hg) ha)]
    rw [hrun] at ha
    split_ifs at ha
    simp only [Res.ok.injEq] at ha
    subst ha
    exact hfac

/-- **C262.** A gap of five millimetres at one millimetre from the yoke is answered by the model of Partridge with more reluctance
than it has without fringing. -/
theorem partridge_raises : ∃ (g : Gap) (a : Answer), Described g 0.0001 true 0.01 0.01 0.001 ∧ 0 < g.length ∧
    gapReluctance .partridge 0.3 g = .ok a ∧ ¬ Fringed g 0.0001 a := by
  have hs : Real.sqrt 0.0001 = 0.01 := by
    rw [show (0.0001 : ℝ) = 0.01 ^ 2 by norm_num]
    exact Real.sqrt_sq (by norm_num)
  have hd : Described ⟨0.005, some 0.0001, some true, some (0.01, 0.01), some 0.001, none, none⟩ 0.0001 true 0.01 0.01 0.001 :=
    ⟨rfl, rfl, rfl, rfl, by norm_num, by norm_num, by norm_num, by norm_num⟩
  have hlog : (1 : ℝ) - (2 * 2 * 0.001 / 0.005)⁻¹ ≤ Real.log (2 * 2 * 0.001 / 0.005) :=
    Real.one_sub_inv_le_log_of_pos (by norm_num)
  have hf : 0 < partridgeFactor 0.005 0.0001 0.001 := by
    unfold partridgeFactor
    rw [if_pos (by norm_num), hs]
    norm_num at hlog ⊢
    linarith
  have hrun : gapReluctance .partridge 0.3 ⟨0.005, some 0.0001, some true, some (0.01, 0.01), some 0.001, none, none⟩ =
      .ok (answer 0.3 ⟨0.005, some 0.0001, some true, some (0.01, 0.01), some 0.001, none, none⟩ 0.0001
        (0.005 / (mu0 * 0.0001 * partridgeFactor 0.005 0.0001 0.001)) (partridgeFactor 0.005 0.0001 0.001) "Partridge") := by
    simp only [gapReluctance, partridge]
    rw [if_neg (by norm_num), if_neg (by norm_num), if_neg (not_le.mpr hf)]
  refine ⟨_, _, hd, by norm_num, hrun, ?_⟩
  rw [(partridge_range_partial 0.3 _ _ _ _ _ _ hd (by norm_num)).2 _ hrun]
  norm_num

/-- **C262.** The model of Balakrishnan lowers the reluctance only of gaps of up to `π e / 2` times the distance to the nearest
normal surface, all of which it answers. -/
theorem balakrishnan_range_partial (saturation : ℝ) (g : Gap) (area : ℝ) (round : Bool) (w d h : ℝ)
    (hg : Described g area round w d h) (hl : 0 < g.length) :
    (2 * g.length ≤ Real.pi * Real.exp 1 * h → ∃ a, gapReluctance .balakrishnan saturation g = .ok a) ∧
      ∀ a, gapReluctance .balakrishnan saturation g = .ok a → (Fringed g area a ↔ 2 * g.length ≤ Real.pi * Real.exp 1 * h) := by
  have hpi := Real.pi_pos
  have hd := hg.depth_pos
  have ha := hg.area_pos
  have hm := mu0_pos
  have hrun : gapReluctance .balakrishnan saturation g =
      if permeance g.length area d h ≤ 0 then .throws
      else .ok (answer saturation g area (1 / (mu0 * permeance g.length area d h))
        (g.length / (mu0 * area * (1 / (mu0 * permeance g.length area d h)))) "Balakrishnan") := by
    simp only [gapReluctance, balakrishnan, hg.has_dims, hg.has_normal, hg.has_area]
    rw [if_neg (by intro hc; rcases hc with hc | hc; linarith [hg.normal_pos]; linarith [hg.normal_pos, hc.1]),
      if_neg (not_le.mpr hl), if_neg hg.normal_pos.ne']
  have hfac : 0 < permeance g.length area d h →
      (1 ≤ g.length / (mu0 * area * (1 / (mu0 * permeance g.length area d h))) ↔
        0 ≤ 1 + Real.log (Real.pi * h / (2 * g.length))) := by
    intro hp
    have e : g.length / (mu0 * area * (1 / (mu0 * permeance g.length area d h))) =
        1 + 2 * d * g.length / (Real.pi * area) * (1 + Real.log (Real.pi * h / (2 * g.length))) := by
      have : g.length / (mu0 * area * (1 / (mu0 * permeance g.length area d h))) = g.length * permeance g.length area d h / area := by
        field_simp
      rw [this]
      unfold permeance
      field_simp
    rw [e]
    have hc : 0 < 2 * d * g.length / (Real.pi * area) := by positivity
    constructor
    · intro h1
      by_contra hn
      nlinarith [mul_pos hc (neg_pos.mpr (not_le.mp hn))]
    · intro h1
      have := mul_nonneg hc.le h1
      linarith
  refine ⟨?_, ?_⟩
  · intro hle
    have h1 := (logTerm_nonneg hl hg.normal_pos).mpr hle
    have hp : 0 < permeance g.length area d h := by unfold permeance; positivity
    rw [hrun, if_neg (not_le.mpr hp)]
    exact ⟨_, rfl⟩
  · intro a h1
    rw [fringed_iff hg.area_pos hl
      (factor_and_energy_agree .balakrishnan (by simp) saturation g area a hg.has_area hg.area_pos hl (described_dims hg) h1)]
    rw [← logTerm_nonneg hl hg.normal_pos]
    rw [hrun] at h1
    split_ifs at h1 with hp
    simp only [Res.ok.injEq] at h1
    subst h1
    exact hfac (not_le.mp hp)

/-- **C262.** The model of Muehlethaler, in a column that is not round and whose area is its width by its depth, answers gaps of
up to `π e / 2` times the distance to the nearest normal surface, and with no more reluctance than without fringing. -/
theorem muehlethaler_range_partial (saturation : ℝ) (g : Gap) (w d h : ℝ)
    (hg : Described g (w * d) false w d h) (hl : 0 < g.length) (hin : 2 * g.length ≤ Real.pi * Real.exp 1 * h) :
    ∃ a, gapReluctance .muehlethaler saturation g = .ok a ∧ Fringed g (w * d) a := by
  have hpi := Real.pi_pos
  have hw := hg.width_pos
  have hd := hg.depth_pos
  have h1 := (logTerm_nonneg hl hg.normal_pos).mpr hin
  have hT : ∀ x, 0 < x → 0 < basicTerm (g.length / 2) x h ∧ 0 < gamma g.length x h ∧ gamma g.length x h ≤ 1 := by
    intro x hx
    have e := basicTerm_eq (w := x) (h := h) hl
    have hge : x / g.length ≤ basicTerm (g.length / 2) x h := by
      rw [e]
      have : 0 ≤ 2 / Real.pi * (1 + Real.log (Real.pi * h / (2 * g.length))) := by positivity
      linarith
    have hp : 0 < basicTerm (g.length / 2) x h := lt_of_lt_of_le (by positivity) hge
    refine ⟨hp, ?_, ?_⟩
    · rw [gamma_eq hl hx hp.ne']; positivity
    · rw [gamma_eq hl hx hp.ne', div_le_one hp]; exact hge
  obtain ⟨t1, t2, t3⟩ := hT w hw
  obtain ⟨u1, u2, u3⟩ := hT d hd
  have hrun : gapReluctance .muehlethaler saturation g = .ok (answer saturation g (w * d)
      (gamma g.length w h * gamma g.length d h * g.length / (mu0 * d * w)) (1 / (gamma g.length w h * gamma g.length d h))
      "Muehlethaler") := by
    simp only [gapReluctance, muehlethaler, hg.has_round, hg.has_dims, hg.has_normal, hg.has_area]
    rw [if_neg (by intro hc; rcases hc with hc | hc; linarith; linarith [hg.normal_pos])]
    simp only [Bool.false_eq_true, if_false]
    rw [if_neg (by intro hc; rcases hc with hc | hc; exact t1.ne' hc; exact u1.ne' hc)]
  refine ⟨_, hrun, ?_⟩
  rw [fringed_iff (by positivity) hl (muehlethaler_agrees_partial saturation g w d h _ hg hl hrun)]
  simp only [answer]
  rw [le_div_iff₀ (by positivity)]
  nlinarith

end Verif.Reluctance
