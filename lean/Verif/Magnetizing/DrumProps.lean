import Verif.Magnetizing.Drum
import Mathlib.Analysis.SpecialFunctions.Arcosh
import Mathlib.Analysis.SpecialFunctions.Trigonometric.Bounds
import Mathlib.Analysis.SpecialFunctions.Trigonometric.DerivHyp
import Mathlib.Tactic.Linarith
import Mathlib.Tactic.Positivity
import Mathlib.Tactic.FieldSimp
import Mathlib.Tactic.Ring
import Mathlib.Tactic.NormNum

/-! # The inductance of drums (C236) -/

namespace Verif.Magnetizing.Drum

/-- The hyperbolic sine is below the angle times the cosine, and above the angle. -/
theorem sinh_bounds {t : ℝ} (ht : 0 < t) : Real.sinh t < t * Real.cosh t ∧ t < Real.sinh t := by
  obtain ⟨c, ⟨h1, h2⟩, h3⟩ := exists_deriv_eq_slope Real.sinh ht Real.continuous_sinh.continuousOn Real.differentiable_sinh.differentiableOn
  rw [Real.deriv_sinh, Real.sinh_zero, sub_zero, sub_zero, eq_div_iff ht.ne'] at h3
  have hlt : Real.cosh c < Real.cosh t := by
    rw [Real.cosh_lt_cosh, abs_of_pos h1, abs_of_pos ht]; exact h2
  have hone : 1 < Real.cosh c := Real.one_lt_cosh.mpr h1.ne'
  constructor <;> nlinarith

/-- **C236.** The demagnetizing factor is above zero and no more than one. -/
theorem demagnetizing_range {m : ℝ} (hm : 0 < m) : 0 < demagnetizing m ∧ demagnetizing m ≤ 1 := by
  unfold demagnetizing
  by_cases hnear : |m - 1| < 1 / 10000
  · rw [if_pos hnear]; norm_num
  rw [if_neg hnear]
  by_cases hgt : m > 1
  · rw [if_pos hgt]
    have hs : 0 < m * m - 1 := by nlinarith
    have hcosh := Real.cosh_arcosh hgt.le
    have hsinh := Real.sinh_arcosh hgt.le
    have hdef : Real.log (m + √(m * m - 1)) = Real.arcosh m := by rw [Real.arcosh, ← sq]
    have ht := Real.arcosh_pos hgt
    obtain ⟨h1, h2⟩ := sinh_bounds ht
    rw [hdef]
    rw [hcosh] at h1
    rw [hsinh, sq] at h1 h2
    have hpos : 0 < √(m * m - 1) := Real.sqrt_pos.mpr hs
    have hsq : √(m * m - 1) ^ 2 = m * m - 1 := Real.sq_sqrt hs.le
    generalize Real.arcosh m = t at *
    generalize √(m * m - 1) = s at *
    have e : 1 / (m * m - 1) * (m / s * t - 1) = (m * t - s) / s ^ 3 := by rw [← hsq]; field_simp
    rw [e]
    refine ⟨div_pos (by linarith) (by positivity), ?_⟩
    rw [div_le_one (by positivity)]
    -- `m t ≤ s + s³ = s m²`
    have : s ^ 3 = s * (m * m - 1) := by rw [← hsq]; ring
    nlinarith [mul_pos (by linarith : (0 : ℝ) < m) hpos]
  · rw [if_neg hgt]
    have hlt : m < 1 := by
      rcases lt_or_eq_of_le (not_lt.mp hgt) with h | h
      · exact h
      · subst h; norm_num at hnear
    have hs : 0 < 1 - m * m := by nlinarith
    have hpos : 0 < √(1 - m * m) := Real.sqrt_pos.mpr hs
    have hsq : √(1 - m * m) ^ 2 = 1 - m * m := Real.sq_sqrt hs.le
    have ht : 0 < Real.arccos m := Real.arccos_pos.mpr hlt
    have hlt2 : Real.arccos m < Real.pi / 2 := Real.arccos_lt_pi_div_two.mpr hm
    have htan := Real.lt_tan ht hlt2
    rw [Real.tan_arccos, sq] at htan
    have hsin := Real.sin_lt ht
    rw [Real.sin_arccos, sq] at hsin
    rw [lt_div_iff₀ hm] at htan
    generalize Real.arccos m = t at *
    generalize √(1 - m * m) = s at *
    have e : 1 / (1 - m * m) * (1 - m * t / s) = (s - m * t) / s ^ 3 := by rw [← hsq]; field_simp
    rw [e]
    refine ⟨div_pos (by linarith) (by positivity), ?_⟩
    rw [div_le_one (by positivity)]
    have : s ^ 3 = s * (1 - m * m) := by rw [← hsq]; ring
    -- `s m² ≤ m t`
    nlinarith [mul_pos hm hpos]

/-- What the factor of a sphere is compared with, for long drums. -/
theorem long_bound {t : ℝ} (ht : 0 ≤ t) : t * Real.cosh t - Real.sinh t ≤ Real.sinh t ^ 3 / 3 := by
  have hm : MonotoneOn (fun t : ℝ => Real.sinh t ^ 3 / 3 - (t * Real.cosh t - Real.sinh t)) (Set.Ici 0) := by
    refine monotoneOn_of_deriv_nonneg (convex_Ici 0) (by fun_prop) (by fun_prop) fun x hx => ?_
    rw [interior_Ici] at hx
    have hd : HasDerivAt (fun t : ℝ => Real.sinh t ^ 3 / 3 - (t * Real.cosh t - Real.sinh t))
        ((3 : ℕ) * Real.sinh x ^ (3 - 1) * Real.cosh x / 3 - ((1 * Real.cosh x + x * Real.sinh x) - Real.cosh x)) x :=
      (((Real.hasDerivAt_sinh x).pow 3).div_const 3).sub (((hasDerivAt_id x).mul (Real.hasDerivAt_cosh x)).sub (Real.hasDerivAt_sinh x))
    rw [hd.deriv]
    have hx' : 0 < x := hx
    have h1 := (sinh_bounds hx').2
    have h2 : 1 ≤ Real.cosh x := Real.one_le_cosh x
    have h3 : 0 < Real.sinh x := by linarith
    have h4 : x * Real.sinh x ≤ Real.sinh x ^ 2 * Real.cosh x := by
      calc x * Real.sinh x ≤ Real.sinh x * Real.sinh x := by gcongr
        _ = Real.sinh x ^ 2 * 1 := by ring
        _ ≤ Real.sinh x ^ 2 * Real.cosh x := by gcongr
    push_cast
    linarith
  have := hm (Set.mem_Ici.2 le_rfl) (Set.mem_Ici.2 ht) ht
  simp at this
  linarith

/-- And for flat ones. -/
theorem flat_bound {t : ℝ} (ht : 0 ≤ t) (hp : t ≤ Real.pi / 2) : Real.sin t ^ 3 / 3 ≤ Real.sin t - t * Real.cos t := by
  have hm : MonotoneOn (fun t : ℝ => (Real.sin t - t * Real.cos t) - Real.sin t ^ 3 / 3) (Set.Icc 0 (Real.pi / 2)) := by
    refine monotoneOn_of_deriv_nonneg (convex_Icc _ _) (by fun_prop) (by fun_prop) fun x hx => ?_
    rw [interior_Icc] at hx
    have hd : HasDerivAt (fun t : ℝ => (Real.sin t - t * Real.cos t) - Real.sin t ^ 3 / 3)
        ((Real.cos x - (1 * Real.cos x + x * (-Real.sin x))) - (3 : ℕ) * Real.sin x ^ (3 - 1) * Real.cos x / 3) x :=
      ((Real.hasDerivAt_sin x).sub ((hasDerivAt_id x).mul (Real.hasDerivAt_cos x))).sub (((Real.hasDerivAt_sin x).pow 3).div_const 3)
    rw [hd.deriv]
    have h1 := Real.sin_lt hx.1
    have h2 : Real.cos x ≤ 1 := Real.cos_le_one x
    have h3 : 0 < Real.sin x := Real.sin_pos_of_pos_of_lt_pi hx.1 (by have := hx.2; have := Real.pi_pos; linarith)
    have h4 : Real.sin x ^ 2 * Real.cos x ≤ x * Real.sin x := by
      calc Real.sin x ^ 2 * Real.cos x ≤ Real.sin x ^ 2 * 1 := by gcongr
        _ = Real.sin x * Real.sin x := by ring
        _ ≤ x * Real.sin x := by gcongr
    push_cast
    linarith
  have := hm (Set.mem_Icc.2 ⟨le_rfl, by positivity⟩) (Set.mem_Icc.2 ⟨ht, hp⟩) ht
  simp at this
  linarith

/-- **C236.** The factor is a third for a drum as high as it is wide, as for a sphere; no more for a higher one and no less for a flatter one. -/
theorem demagnetizing_third {m : ℝ} (hm : 0 < m) :
    (m = 1 → demagnetizing m = 1 / 3) ∧ (1 ≤ m → demagnetizing m ≤ 1 / 3) ∧ (m ≤ 1 → 1 / 3 ≤ demagnetizing m) := by
  have h1 : m = 1 → demagnetizing m = 1 / 3 := by rintro rfl; simp [demagnetizing]
  refine ⟨h1, fun hge => ?_, fun hle => ?_⟩
  · rcases eq_or_lt_of_le hge with h | hgt
    · exact (h1 h.symm).le
    unfold demagnetizing
    by_cases hnear : |m - 1| < 1 / 10000
    · rw [if_pos hnear]
    rw [if_neg hnear, if_pos hgt]
    have hs : 0 < m * m - 1 := by nlinarith
    have hb := long_bound (Real.arcosh_pos hgt).le
    rw [Real.cosh_arcosh hgt.le, Real.sinh_arcosh hgt.le, sq] at hb
    have hdef : Real.log (m + √(m * m - 1)) = Real.arcosh m := by rw [Real.arcosh, ← sq]
    rw [hdef]
    have hpos : 0 < √(m * m - 1) := Real.sqrt_pos.mpr hs
    have hsq : √(m * m - 1) ^ 2 = m * m - 1 := Real.sq_sqrt hs.le
    generalize Real.arcosh m = t at *
    generalize √(m * m - 1) = s at *
    have e : 1 / (m * m - 1) * (m / s * t - 1) = (m * t - s) / s ^ 3 := by rw [← hsq]; field_simp
    rw [e, div_le_iff₀ (by positivity)]
    linarith
  · rcases eq_or_lt_of_le hle with h | hlt
    · exact (h1 h).ge
    unfold demagnetizing
    by_cases hnear : |m - 1| < 1 / 10000
    · rw [if_pos hnear]
    rw [if_neg hnear, if_neg (by linarith)]
    have hs : 0 < 1 - m * m := by nlinarith
    have hb := flat_bound (Real.arccos_nonneg m) (Real.arccos_le_pi_div_two.2 hm.le)
    rw [Real.cos_arccos (by linarith) hle, Real.sin_arccos, sq] at hb
    have hpos : 0 < √(1 - m * m) := Real.sqrt_pos.mpr hs
    have hsq : √(1 - m * m) ^ 2 = 1 - m * m := Real.sq_sqrt hs.le
    generalize Real.arccos m = t at *
    generalize √(1 - m * m) = s at *
    have e : 1 / (1 - m * m) * (1 - m * t / s) = (s - m * t) / s ^ 3 := by rw [← hsq]; field_simp
    rw [e, le_div_iff₀ (by positivity)]
    linarith

/-- **C236.** A rod has a permeability from one to that of its material, and no more than what its shape allows. -/
theorem rod_range {factor permeability : ℝ} (h0 : 0 < factor) (h1 : factor ≤ 1) (hp : 1 ≤ permeability) :
    1 ≤ rodPermeability factor permeability ∧ rodPermeability factor permeability ≤ permeability ∧ rodPermeability factor permeability ≤ 1 / factor := by
  have hd : 0 < 1 + factor * (permeability - 1) := by nlinarith
  unfold rodPermeability
  refine ⟨?_, ?_, ?_⟩
  · rw [le_div_iff₀ hd]; nlinarith
  · rw [div_le_iff₀ hd]
    have : 0 ≤ factor * (permeability - 1) := mul_nonneg h0.le (by linarith)
    nlinarith
  · rw [div_le_div_iff₀ hd h0]; nlinarith

/-- A drum that can be made: the groove is no higher than the drum, the bore is inside the post and the post inside the flanges. -/
structure Sizes.Makeable (s : Sizes) : Prop where
  groove : 0 < s.groove
  height : s.groove ≤ s.height
  bore : 0 ≤ s.bore
  post : s.bore < s.post
  flange : s.post ≤ s.flange

theorem areas (s : Sizes) (h : s.Makeable) : 0 < postArea s ∧ postArea s ≤ envelopeArea s := by
  have hb := h.bore; have hp := h.post; have hf := h.flange
  have hpi := Real.pi_pos
  unfold postArea envelopeArea
  refine ⟨by have : 0 < s.post ^ 2 - s.bore ^ 2 := by nlinarith
             positivity, ?_⟩
  gcongr
  nlinarith

theorem factor_of (s : Sizes) (h : s.Makeable) :
    0 < demagnetizing (s.height / s.flange) ∧ demagnetizing (s.height / s.flange) ≤ 1 := by
  have hb := h.bore; have hp := h.post; have hf := h.flange; have hg := h.groove; have hh := h.height
  exact demagnetizing_range (div_pos (by linarith) (by linarith))

theorem lower_pos (s : Sizes) (h : s.Makeable) {vacuum permeability turns : ℝ} (hv : 0 < vacuum) (hp : 1 ≤ permeability) (hn : 0 < turns) :
    0 < lower vacuum permeability turns s := by
  obtain ⟨h1, h2⟩ := areas s h
  obtain ⟨h3, _⟩ := factor_of s h
  have hg := h.groove; have hh := h.height
  have hH : 0 < s.height := by linarith
  have hA : 0 < envelopeArea s := by linarith
  unfold lower
  positivity

/-- **C236.** The lower inductance is below the upper one. -/
theorem lower_le_upper (s : Sizes) (h : s.Makeable) {vacuum permeability turns : ℝ} (hv : 0 < vacuum) (hp : 1 ≤ permeability) (hn : 0 < turns) :
    lower vacuum permeability turns s ≤ upper vacuum permeability turns s := by
  obtain ⟨h1, h2⟩ := areas s h
  obtain ⟨h3, h4⟩ := factor_of s h
  have hg := h.groove; have hh := h.height
  have hH : 0 < s.height := by linarith
  have hA : 0 < envelopeArea s := by linarith
  have hd : 0 < 1 + demagnetizing (s.height / s.flange) * (permeability - 1) := by nlinarith
  have hp0 : 0 < permeability := by linarith
  unfold lower upper rodPermeability
  generalize demagnetizing (s.height / s.flange) = d at *
  generalize envelopeArea s = A at *
  generalize postArea s = P at *
  rw [div_le_iff₀ (by positivity)]
  have e : vacuum * (permeability / (1 + d * (permeability - 1))) * A / s.groove * turns ^ 2 *
      (d * s.height / (vacuum * A) + s.height / (vacuum * permeability * P)) =
      turns ^ 2 * ((permeability * d * P + A) * s.height / ((1 + d * (permeability - 1)) * s.groove * P)) := by
    field_simp
  rw [e]
  have hone : 1 ≤ (permeability * d * P + A) * s.height / ((1 + d * (permeability - 1)) * s.groove * P) := by
    rw [le_div_iff₀ (by positivity), one_mul]
    have a1 : (1 + d * (permeability - 1)) * P ≤ permeability * d * P + A := by nlinarith
    calc (1 + d * (permeability - 1)) * s.groove * P = (1 + d * (permeability - 1)) * P * s.groove := by ring
      _ ≤ (permeability * d * P + A) * s.height := by gcongr
  have : 0 < turns ^ 2 := by positivity
  nlinarith

/-- **C236.** The inductance of a drum is between the lower and the upper one. -/
theorem open_between (s : Sizes) (h : s.Makeable) {vacuum permeability turns : ℝ} (hv : 0 < vacuum) (hp : 1 ≤ permeability) (hn : 0 < turns) :
    lower vacuum permeability turns s ≤ openInductance vacuum permeability turns s ∧
      openInductance vacuum permeability turns s ≤ upper vacuum permeability turns s := by
  have h1 := lower_pos s h hv hp hn
  have h2 := lower_le_upper s h hv hp hn
  unfold openInductance
  constructor
  · apply Real.le_sqrt_of_sq_le; nlinarith
  · rw [Real.sqrt_le_left (by linarith)]; nlinarith

/-- **C236.** It is that of one turn times the square of the turns. -/
theorem open_turns (s : Sizes) (vacuum permeability turns : ℝ) :
    openInductance vacuum permeability turns s = turns ^ 2 * openInductance vacuum permeability 1 s := by
  unfold openInductance
  have : upper vacuum permeability turns s * lower vacuum permeability turns s =
      (turns ^ 2) ^ 2 * (upper vacuum permeability 1 s * lower vacuum permeability 1 s) := by
    unfold upper lower; ring
  rw [this, Real.sqrt_mul (by positivity), Real.sqrt_sq (by positivity)]

/-- **C236.** Whatever the material, it is no more than the shape allows. -/
theorem open_limited (s : Sizes) (h : s.Makeable) {vacuum permeability turns : ℝ} (hv : 0 < vacuum) (hp : 1 ≤ permeability) (hn : 0 < turns) :
    openInductance vacuum permeability turns s ≤
      vacuum * envelopeArea s * turns ^ 2 / (demagnetizing (s.height / s.flange) * √(s.groove * s.height)) := by
  obtain ⟨h1, h2⟩ := areas s h
  obtain ⟨h3, h4⟩ := factor_of s h
  have hg := h.groove; have hh := h.height
  have hH : 0 < s.height := by linarith
  have hA : 0 < envelopeArea s := by linarith
  have hp0 : 0 < permeability := by linarith
  have hrod := (rod_range h3 h4 hp).2.2
  have hrod0 := (rod_range h3 h4 hp).1
  unfold openInductance upper lower
  generalize demagnetizing (s.height / s.flange) = d at *
  generalize rodPermeability d permeability = r at *
  generalize envelopeArea s = A at *
  generalize postArea s = P at *
  have hgh : 0 < s.groove * s.height := by positivity
  rw [Real.sqrt_le_left (by positivity), div_pow, mul_pow d, Real.sq_sqrt hgh.le]
  have e1 : vacuum * r * A / s.groove * turns ^ 2 ≤ vacuum * (1 / d) * A / s.groove * turns ^ 2 := by gcongr
  have e2 : turns ^ 2 / (d * s.height / (vacuum * A) + s.height / (vacuum * permeability * P)) ≤ turns ^ 2 / (d * s.height / (vacuum * A)) := by
    gcongr
    have : 0 < s.height / (vacuum * permeability * P) := by positivity
    linarith
  refine le_trans (mul_le_mul e1 e2 (by positivity) (by positivity)) (le_of_eq ?_)
  field_simp

/-- **C236.** The sizes are the dimensions `A` to `C` and `E` of the drum, with the bore `H` if it has one; with a second flange `A2` the area of the flanges
is the geometric mean of both. -/
theorem sizes_of {dimensions : String → Option ℝ} {a b c e : ℝ} (ha : dimensions "A" = some a) (hb : dimensions "B" = some b)
    (hc : dimensions "C" = some c) (he : dimensions "E" = some e) :
    (sizes dimensions).height = b ∧ (sizes dimensions).post = c ∧ (sizes dimensions).groove = e ∧
      (∀ h, dimensions "H" = some h → (sizes dimensions).bore = h) ∧ (dimensions "H" = none → (sizes dimensions).bore = 0) ∧
      (dimensions "A2" = none → (sizes dimensions).flange = a) ∧
      (∀ a2, dimensions "A2" = some a2 → 0 < a2 → 0 ≤ a → envelopeArea (sizes dimensions) = Real.pi / 4 * (a * a2)) := by
  refine ⟨by simp [sizes, hb], by simp [sizes, hc], by simp [sizes, he], fun h hh => by simp [sizes, hh], fun hh => by simp [sizes, hh],
    fun h2 => by simp [sizes, h2, ha], fun a2 h2 hpos hnn => ?_⟩
  simp only [envelopeArea, sizes, h2, ha, Option.getD_some, if_pos hpos]
  rw [Real.sq_sqrt (by positivity)]

/-- **C236.** A better material never has less. -/
theorem open_mono (s : Sizes) (h : s.Makeable) {vacuum permeability permeability' turns : ℝ} (hv : 0 < vacuum) (hp : 1 ≤ permeability)
    (hpp : permeability ≤ permeability') (hn : 0 < turns) :
    openInductance vacuum permeability turns s ≤ openInductance vacuum permeability' turns s := by
  obtain ⟨h1, h2⟩ := areas s h
  obtain ⟨h3, h4⟩ := factor_of s h
  have hg := h.groove; have hh := h.height
  have hH : 0 < s.height := by linarith
  have hA : 0 < envelopeArea s := by linarith
  have hp0 : 0 < permeability := by linarith
  have hp0' : 0 < permeability' := by linarith
  have hr0 := (rod_range h3 h4 hp).1
  have hr : rodPermeability (demagnetizing (s.height / s.flange)) permeability ≤
      rodPermeability (demagnetizing (s.height / s.flange)) permeability' := by
    unfold rodPermeability
    rw [div_le_div_iff₀ (by nlinarith) (by nlinarith)]
    nlinarith
  unfold openInductance upper lower
  generalize demagnetizing (s.height / s.flange) = d at *
  generalize rodPermeability d permeability = r at *
  generalize rodPermeability d permeability' = r' at *
  apply Real.sqrt_le_sqrt
  have hr0' : 0 < r := by linarith
  apply mul_le_mul
  · gcongr
  · gcongr
  · positivity
  · have : 0 < r' := by linarith
    positivity

/-- **C236.** A drum is only calculated with all of its six dimensions and without gaps: the first that is missing is told. -/
theorem open_refused (vacuum permeability turns : ℝ) (dimensions : String → Option ℝ) (gaps : List Gap) :
    ((∃ value, openCore vacuum permeability turns dimensions gaps = .ok value) ↔
      (∀ name ∈ ["A", "B", "C", "D", "E", "F"], (dimensions name).isSome) ∧ ∀ g ∈ gaps, g.residual = true ∨ g.length ≤ 1 / 1000000) ∧
    ∀ name, openCore vacuum permeability turns dimensions gaps = .error (.missing name) →
      name ∈ ["A", "B", "C", "D", "E", "F"] ∧ dimensions name = none := by
  unfold openCore firstMissing
  cases hf : ["A", "B", "C", "D", "E", "F"].find? (fun name => (dimensions name).isNone) with
  | some name =>
    have hmem := List.mem_of_find?_eq_some hf
    have hnone := List.find?_some hf
    refine ⟨⟨fun ⟨v, hv⟩ => by simp at hv, fun ⟨hall, _⟩ => ?_⟩, fun name' hn => ?_⟩
    · have := hall name hmem
      simp only [Option.isNone_iff_eq_none] at hnone
      rw [hnone] at this
      simp at this
    · simp only [Except.error.injEq, Err.missing.injEq] at hn
      subst hn
      exact ⟨hmem, by simpa using hnone⟩
  | none =>
    rw [List.find?_eq_none] at hf
    simp only
    by_cases hg : ∃ g ∈ gaps, g.residual = false ∧ g.length > 1 / 1000000
    · rw [if_pos hg]
      refine ⟨⟨fun ⟨v, hv⟩ => by simp at hv, fun ⟨_, hno⟩ => ?_⟩, fun name hn => by simp at hn⟩
      obtain ⟨g, h1, h2, h3⟩ := hg
      rcases hno g h1 with h4 | h4
      · rw [h4] at h2; cases h2
      · exact absurd h3 (not_lt.mpr h4)
    · rw [if_neg hg]
      refine ⟨⟨fun _ => ⟨fun name hn => ?_, fun g hgm => ?_⟩, fun _ => ⟨_, rfl⟩⟩, fun name hn => by simp at hn⟩
      · have := hf name hn
        cases hd : dimensions name with
        | none => simp [hd] at this
        | some _ => rfl
      · by_contra hcon
        push Not at hcon
        exact hg ⟨g, hgm, by simpa using hcon.1, hcon.2⟩

/-- **C236.** With two materials the inductance is between those that it would have with either alone, and a better material never has less. -/
theorem sectioned_between {vacuum first second clearance turns p q : ℝ} (hv : 0 < vacuum) (h1 : 0 < first) (h2 : 0 < second) (hc : 0 ≤ clearance)
    (hp : 0 < p) (hpq : p ≤ q) :
    (sectioned vacuum first p second p clearance turns ≤ sectioned vacuum first p second q clearance turns ∧
      sectioned vacuum first p second q clearance turns ≤ sectioned vacuum first q second q clearance turns) ∧
    (sectioned vacuum first p second p clearance turns ≤ sectioned vacuum first q second p clearance turns ∧
      sectioned vacuum first q second p clearance turns ≤ sectioned vacuum first q second q clearance turns) := by
  have hq : 0 < q := by linarith
  unfold sectioned
  refine ⟨⟨?_, ?_⟩, ⟨?_, ?_⟩⟩ <;> gcongr

/-- **C236.** Its reluctance is the sum of those of the sections and of what is between them, and it goes with the square of the turns. -/
theorem sectioned_sum {vacuum first second clearance turns p q : ℝ} (hv : 0 < vacuum) (h1 : 0 < first) (h2 : 0 < second) (hc : 0 ≤ clearance)
    (hp : 0 < p) (hq : 0 < q) :
    sectioned vacuum first p second q clearance turns * (first / (vacuum * p) + second / (vacuum * q) + clearance) = turns ^ 2 := by
  have : (first / p + second / q) / vacuum + clearance = first / (vacuum * p) + second / (vacuum * q) + clearance := by
    field_simp
  unfold sectioned
  rw [this]
  have : 0 < first / (vacuum * p) + second / (vacuum * q) + clearance := by positivity
  field_simp

/-- **C236.** A drum in epoxy is only calculated with a coating of magnetic epoxy that names the material of the shell. -/
theorem semishielded_needs (vacuum turns : ℝ) (constants : Option (ℝ × ℝ)) (drum : Except Err ℝ) (coating : Coating)
    (permeability : String → Except Err ℝ) (value : ℝ) (h : semishielded vacuum turns constants drum coating permeability = .ok value) :
    ∃ first second d name p, constants = some (first, second) ∧ drum = .ok d ∧ coating = .explicit (some "magneticEpoxy") (some name) ∧
      permeability name = .ok p ∧ value = sectioned vacuum first d second p 0 turns := by
  unfold semishielded at h
  cases constants with
  | none => simp at h
  | some c =>
    cases hd : drum with
    | error e => simp [hd, Except.bind] at h
    | ok d =>
      simp only [hd, Except.bind] at h
      cases coating with
      | none => simp [shellName] at h
      | named => simp [shellName] at h
      | explicit type material =>
        by_cases ht : type = some "magneticEpoxy"
        · subst ht
          cases material with
          | none => simp [shellName] at h
          | some name =>
            simp only [shellName, if_pos] at h
            cases hp : permeability name with
            | error e => simp [hp, Except.map] at h
            | ok p =>
              simp only [hp, Except.map, Except.ok.injEq] at h
              exact ⟨c.1, c.2, d, name, p, rfl, rfl, rfl, hp, h.symm⟩
        · simp [shellName, ht] at h

/-- **C236.** A drum with a ring is calculated as two materials exactly when it names two; with one it is calculated as any closed core, and with any
other number not at all. -/
theorem ring_ways {M : Type} (materials : List M) :
    (∀ m, way .ring materials = .ok (.drumRing m) ↔ ∃ d, materials = [d, m]) ∧
      (way .ring materials = .ok .closed ↔ materials.length = 1) ∧
      ((∃ e, way .ring materials = .error e) ↔ materials.length ≠ 1 ∧ materials.length ≠ 2) := by
  match materials with
  | [] => simp [way, ringMaterial, Except.map]
  | [a] => simp [way, ringMaterial, Except.map]
  | [a, b] => simp [way, ringMaterial, Except.map]
  | a :: b :: c :: l => simp [way, ringMaterial, Except.map]

/-- **C236.** The nominal inductance is between the minimum and the maximum. -/
theorem tolerance_around (isOpen : Bool) {inductance : ℝ} (h : 0 < inductance) : 0 < (tolerance isOpen inductance).minimum ∧
    (tolerance isOpen inductance).minimum < (tolerance isOpen inductance).nominal ∧
    (tolerance isOpen inductance).nominal < (tolerance isOpen inductance).maximum ∧ (tolerance isOpen inductance).nominal = inductance := by
  unfold tolerance
  cases isOpen <;> simp <;> refine ⟨?_, ?_, ?_⟩ <;> linarith

/-- Case of the drums: 12 mm of flange, 10 mm high, a post of 6 mm with a bore of 1 mm. -/
example : Sizes.Makeable ⟨12 / 1000, 10 / 1000, 6 / 1000, 1 / 1000, 7 / 1000⟩ := by
  constructor <;> norm_num

/-- Cases of the ways. -/
example : way .ring ["P47", "B45"] = .ok (.drumRing "B45") ∧ way .ring ["P47"] = .ok .closed ∧ way .ring ["a", "b", "c"] = .error (.materials 3) ∧
    way .drum ["a"] = .ok .openCore := ⟨rfl, rfl, rfl, rfl⟩

/-- Case of `semishielded_needs`. -/
example : semishielded 1 2 (some (3, 4)) (.ok 5) (.explicit (some "magneticEpoxy") (some "x")) (fun _ => .ok 2) = .ok (sectioned 1 3 5 4 2 0 2) := by
  simp [semishielded, shellName, Except.bind, Except.map]

end Verif.Magnetizing.Drum
