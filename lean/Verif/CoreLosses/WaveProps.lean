import Verif.CoreLosses.WaveLemmas
import Verif.CoreLosses.SteinmetzProps

/-!
# Core losses: models of the waveform (C155)
-/

set_option linter.unusedSimpArgs false
set_option linter.unusedVariables false

namespace Verif.CoreLosses

/-! ## iGSE -/

/-- C155: the losses of iGSE are ki·ΔB^(β−α)·f times the integral of |dB/dt|^α over the segments, corrected by the temperature. -/
theorem igse_equation (setting : ℕ) (d : Datum ℝ) (e : Excitation) (t : ℝ) (ha : 0 ≤ d.alpha) (hp : e.points ≠ [])
    (hr : Rising e.points) (hs : 0 < e.peakToPeak ∨ 0 ≤ e.peakToPeak ∧ d.alpha ≤ d.beta) :
    igse setting d e t = .ok (ki setting d * e.peakToPeak ^ (d.beta - d.alpha) * e.f * integral d.alpha e.points *
      applyTemperature 1 d t) := by
  unfold igse
  rw [slopes_eq ha hp hr]
  have : cpow e.peakToPeak (d.beta - d.alpha) = .ok (e.peakToPeak ^ (d.beta - d.alpha)) := by
    rcases hs with hs | ⟨hs, hb⟩
    · exact cpow_pos hs _
    · exact cpow_nonneg hs (by linarith)
  rw [this]
  simp only [Res.bind]
  rw [applyTemperature_one]

/-- C155: they are a number, and not negative. -/
theorem igse_nonneg (setting : ℕ) (hs : 0 < setting) (d : Datum ℝ) (e : Excitation) (t : ℝ) (hk : 0 ≤ d.k) (ha : 0 ≤ d.alpha)
    (hf : 0 < e.f) (hp : e.points ≠ []) (hr : Rising e.points) (hb : 0 < e.peakToPeak ∨ 0 ≤ e.peakToPeak ∧ d.alpha ≤ d.beta) :
    ∃ p, igse setting d e t = .ok p ∧ 0 ≤ p := by
  refine ⟨_, igse_equation setting d e t ha hp hr hb, ?_⟩
  have h1 := ki_nonneg setting hs d hk
  have h2 := integral_nonneg d.alpha hr
  have h3 := applyTemperature_one_pos d t
  have h4 : 0 ≤ e.peakToPeak := by rcases hb with hb | ⟨hb, _⟩ <;> linarith
  have h5 := Real.rpow_nonneg h4 (d.beta - d.alpha)
  positivity

/-- C155: a bias of the waveform, whatever peak and offset it is given, changes nothing. -/
theorem igse_shift (setting : ℕ) (d : Datum ℝ) (e : Excitation) (t c peak offset peakAt : ℝ) :
    igse setting d { e with peak := peak, offset := offset, peakAt := peakAt, points := e.points.map fun p => (p.1, p.2 + c) } t =
    igse setting d e t := by
  have : steps (e.points.map fun p => (p.1, p.2 + c)) = steps e.points := by
    generalize e.points = l
    fun_induction steps l with
    | case1 p q l ih => simp only [List.map_cons, steps] at ih ⊢; rw [ih]; congr 2; ring
    | case2 l h =>
      match l with
      | [] => rfl
      | [_] => rfl
      | p :: q :: l => exact absurd rfl (h p q l)
  unfold igse slopes overSteps
  simp only [this, List.map_eq_nil_iff]

/-- C155: nor does reversing it. -/
theorem igse_reversed (setting : ℕ) (d : Datum ℝ) (e : Excitation) (t peak offset peakAt : ℝ) :
    igse setting d { e with peak := peak, offset := offset, peakAt := peakAt, points := e.points.map fun p => (p.1, -p.2) } t =
    igse setting d e t := by
  have : ∀ (g : ℝ → ℝ → Res ℝ), (∀ dt db, g dt (-db) = g dt db) → ∀ l : List (ℝ × ℝ),
      overSteps g (l.map fun p => (p.1, -p.2)) = overSteps g l := by
    intro g hg l
    have hs : steps (l.map fun p => (p.1, -p.2)) = (steps l).map fun s => (s.1, -s.2) := by
      fun_induction steps l with
      | case1 p q l ih => simp only [List.map_cons, steps] at ih ⊢; rw [ih]; congr 2; ring
      | case2 l h =>
        match l with
        | [] => rfl
        | [_] => rfl
        | p :: q :: l => exact absurd rfl (h p q l)
    unfold overSteps
    simp only [hs, List.map_eq_nil_iff, List.foldr_map, hg]
  unfold igse slopes
  simp only []
  rw [this]
  intro dt db
  rw [neg_div, abs_neg]

theorem rising_map {l : List (ℝ × ℝ)} (g : ℝ × ℝ → ℝ × ℝ) (h : ∀ p q : ℝ × ℝ, p.1 < q.1 → (g p).1 < (g q).1) (hr : Rising l) :
    Rising (l.map g) := by
  unfold Rising at hr ⊢
  rw [List.isChain_map]
  exact List.IsChain.imp (fun {a b} hab => h a b hab) hr

theorem integral_values (alpha c : ℝ) (ha : 0 ≤ alpha) (hc : 0 < c) (l : List (ℝ × ℝ)) :
    integral alpha (l.map fun p => (p.1, c * p.2)) = c ^ alpha * integral alpha l := by
  fun_induction integral alpha l with
  | case1 p q l ih =>
    simp only [List.map_cons, integral] at ih ⊢
    rw [ih, show (c * q.2 - c * p.2) / (q.1 - p.1) = c * ((q.2 - p.2) / (q.1 - p.1)) by ring, abs_mul, abs_of_pos hc,
      Real.mul_rpow hc.le (abs_nonneg _)]
    ring
  | case2 l h =>
    match l with
    | [] => simp [integral]
    | [_] => simp [integral]
    | p :: q :: l => exact absurd rfl (h p q l)

theorem integral_times (alpha c : ℝ) (hc : 0 < c) (l : List (ℝ × ℝ)) :
    integral alpha (l.map fun p => (c * p.1, p.2)) = c ^ (1 - alpha) * integral alpha l := by
  fun_induction integral alpha l with
  | case1 p q l ih =>
    simp only [List.map_cons, integral] at ih ⊢
    rw [ih, show (q.2 - p.2) / (c * q.1 - c * p.1) = c⁻¹ * ((q.2 - p.2) / (q.1 - p.1)) by
      rw [← mul_sub, div_mul_eq_div_div_swap]; ring, abs_mul, abs_of_pos (inv_pos.mpr hc),
      Real.mul_rpow (inv_pos.mpr hc).le (abs_nonneg _), Real.inv_rpow hc.le, Real.rpow_sub hc, Real.rpow_one]
    ring
  | case2 l h =>
    match l with
    | [] => simp [integral]
    | [_] => simp [integral]
    | p :: q :: l => exact absurd rfl (h p q l)

/-- C155: a waveform scaled by a factor loses that factor to β times as much. -/
theorem igse_scales (setting : ℕ) (d : Datum ℝ) (e : Excitation) (t c p : ℝ) (ha : 0 ≤ d.alpha) (hc : 0 < c) (hp : e.points ≠ [])
    (hr : Rising e.points) (hs : 0 < e.peakToPeak) (h : igse setting d e t = .ok p) :
    igse setting d { e with peakToPeak := c * e.peakToPeak, points := e.points.map fun q => (q.1, c * q.2) } t =
      .ok (c ^ d.beta * p) := by
  rw [igse_equation setting d e t ha hp hr (Or.inl hs)] at h
  simp at h
  subst h
  rw [igse_equation setting d { e with peakToPeak := c * e.peakToPeak, points := e.points.map fun q => (q.1, c * q.2) } t ha
    (by simpa using hp) (rising_map _ (fun _ _ h => h) hr) (Or.inl (mul_pos hc hs))]
  simp only []
  rw [integral_values d.alpha c ha hc, Real.mul_rpow hc.le hs.le]
  have : c ^ d.beta = c ^ (d.beta - d.alpha) * c ^ d.alpha := by rw [← Real.rpow_add hc]; congr 1; ring
  rw [this]
  congr 1; ring

/-- C155: one repeated faster by a factor loses that factor to α times as much. -/
theorem igse_faster (setting : ℕ) (d : Datum ℝ) (e : Excitation) (t c p : ℝ) (ha : 0 ≤ d.alpha) (hc : 0 < c) (hp : e.points ≠ [])
    (hr : Rising e.points) (hs : 0 < e.peakToPeak) (h : igse setting d e t = .ok p) :
    igse setting d { e with f := c * e.f, points := e.points.map fun q => (c⁻¹ * q.1, q.2) } t = .ok (c ^ d.alpha * p) := by
  rw [igse_equation setting d e t ha hp hr (Or.inl hs)] at h
  simp at h
  subst h
  have hi : 0 < c⁻¹ := inv_pos.mpr hc
  rw [igse_equation setting d { e with f := c * e.f, points := e.points.map fun q => (c⁻¹ * q.1, q.2) } t ha
    (by simpa using hp) (rising_map _ (fun p q h => mul_lt_mul_of_pos_left h hi) hr) (Or.inl hs)]
  simp only []
  rw [integral_times d.alpha c⁻¹ hi, Real.rpow_sub hi, Real.rpow_one, Real.inv_rpow hc.le]
  have := (Real.rpow_pos_of_pos hc d.alpha).ne'
  congr 1
  field_simp

/-- C155: a point added on a segment changes nothing. -/
theorem igse_refined (setting : ℕ) (d : Datum ℝ) (e : Excitation) (t : ℝ) (a b : List (ℝ × ℝ)) (p q r : ℝ × ℝ) (ha : 0 ≤ d.alpha)
    (he : e.points = a ++ p :: q :: b) (hr : Rising (a ++ p :: r :: q :: b)) (hr' : Rising e.points)
    (hc : (r.2 - p.2) * (q.1 - p.1) = (q.2 - p.2) * (r.1 - p.1)) (hs : 0 < e.peakToPeak) :
    igse setting d { e with points := a ++ p :: r :: q :: b } t = igse setting d e t := by
  rw [igse_equation setting d e t ha (by rw [he]; simp) hr' (Or.inl hs),
    igse_equation setting d { e with points := a ++ p :: r :: q :: b } t ha (by simp) hr (Or.inl hs)]
  simp only []
  rw [he, integral_append, integral_append _ p (q :: b)]
  have h1 : p.1 < r.1 ∧ r.1 < q.1 := by
    unfold Rising at hr
    have := (List.isChain_append.mp hr).2.1
    rw [List.isChain_cons_cons, List.isChain_cons_cons] at this
    exact ⟨this.1, this.2.1⟩
  have hp : (0 : ℝ) < r.1 - p.1 := by linarith
  have hq : (0 : ℝ) < q.1 - r.1 := by linarith
  have hpq : (0 : ℝ) < q.1 - p.1 := by linarith
  have s1 : (r.2 - p.2) / (r.1 - p.1) = (q.2 - p.2) / (q.1 - p.1) := by
    rw [div_eq_div_iff hp.ne' hpq.ne']; exact hc
  have s2 : (q.2 - r.2) / (q.1 - r.1) = (q.2 - p.2) / (q.1 - p.1) := by
    rw [div_eq_div_iff hq.ne' hpq.ne']; linear_combination -hc
  have : integral d.alpha (p :: r :: q :: b) = integral d.alpha (p :: q :: b) := by
    simp only [integral]
    rw [s1, s2]; ring
  rw [this]

/-- A triangle between two values, the first part of it a fraction `duty` of the period. -/
noncomputable def triangle (f a b duty t0 : ℝ) : List (ℝ × ℝ) := [(t0, a), (t0 + duty / f, b), (t0 + 1 / f, a)]

theorem triangle_rising {f a b duty t0 : ℝ} (hf : 0 < f) (h0 : 0 < duty) (h1 : duty < 1) : Rising (triangle f a b duty t0) := by
  unfold Rising triangle
  simp only [List.isChain_cons_cons, List.isChain_singleton, and_true]
  have := div_pos h0 hf
  have := div_lt_div_of_pos_right h1 hf
  constructor <;> linarith

theorem integral_triangle {f a b duty t0 alpha : ℝ} (hf : 0 < f) (h0 : 0 < duty) (h1 : duty < 1) :
    integral alpha (triangle f a b duty t0) =
      |b - a| ^ alpha * f ^ (alpha - 1) * (duty ^ (1 - alpha) + (1 - duty) ^ (1 - alpha)) := by
  have h1' : 0 < 1 - duty := by linarith
  have hv := abs_nonneg (b - a)
  simp only [triangle, integral, add_zero]
  rw [show t0 + duty / f - t0 = duty / f by ring, show t0 + 1 / f - (t0 + duty / f) = (1 - duty) / f by ring, abs_div (b - a), abs_div (a - b),
    abs_of_pos (by positivity : 0 < duty / f), abs_of_pos (by positivity : 0 < (1 - duty) / f), abs_sub_comm a b,
    Real.div_rpow hv (by positivity), Real.div_rpow hv (by positivity), Real.div_rpow h0.le hf.le, Real.div_rpow h1'.le hf.le,
    Real.rpow_sub h0, Real.rpow_sub h1', Real.rpow_sub hf, Real.rpow_one, Real.rpow_one, Real.rpow_one]
  have := (Real.rpow_pos_of_pos h0 alpha).ne'
  have := (Real.rpow_pos_of_pos h1' alpha).ne'
  have := (Real.rpow_pos_of_pos hf alpha).ne'
  field_simp

/-- C155: the losses of a triangle are ki·ΔB^β·f^α·(D^(1−α) + (1−D)^(1−α)). -/
theorem igse_triangle (setting : ℕ) (d : Datum ℝ) (e : Excitation) (t a b duty t0 : ℝ) (ha : 0 ≤ d.alpha) (hf : 0 < e.f) (h0 : 0 < duty)
    (h1 : duty < 1) (hab : a ≠ b) (hp : e.points = triangle e.f a b duty t0) (hs : e.peakToPeak = |b - a|) :
    igse setting d e t = .ok (ki setting d * |b - a| ^ d.beta * e.f ^ d.alpha * (duty ^ (1 - d.alpha) + (1 - duty) ^ (1 - d.alpha)) *
      applyTemperature 1 d t) := by
  have hv : 0 < |b - a| := abs_pos.mpr (sub_ne_zero.mpr hab.symm)
  rw [igse_equation setting d e t ha (by rw [hp]; simp [triangle]) (by rw [hp]; exact triangle_rising hf h0 h1)
    (Or.inl (by rw [hs]; exact hv)), hp, hs, integral_triangle hf h0 h1]
  have : |b - a| ^ d.beta = |b - a| ^ (d.beta - d.alpha) * |b - a| ^ d.alpha := by rw [← Real.rpow_add hv]; congr 1; ring
  rw [this, Real.rpow_sub hf, Real.rpow_one]
  congr 1
  field_simp

/-- The period of a waveform that starts and ends at the same value, between which the swing is reached. -/
def Period (f swing : ℝ) (points : List (ℝ × ℝ)) : Prop :=
  Rising points ∧ ∃ p q l, points = p :: (l ++ [q]) ∧ q.2 = p.2 ∧ q.1 - p.1 = 1 / f ∧
    ∃ a b c x y, points = a ++ x :: b ++ y :: c ∧ |y.2 - x.2| = swing

theorem period_integral {f swing alpha : ℝ} {points : List (ℝ × ℝ)} (hf : 0 < f) (ha : 1 ≤ alpha) (h : Period f swing points) :
    0 ≤ swing ∧ points ≠ [] ∧ (2 * swing) ^ alpha * f ^ (alpha - 1) ≤ integral alpha points := by
  obtain ⟨hr, p, q, l, hl, hpq, hd, a, b, c, x, y, hx, hxy⟩ := h
  have hsw : 0 ≤ swing := by rw [← hxy]; exact abs_nonneg _
  refine ⟨hsw, by rw [hl]; simp, ?_⟩
  rw [hl] at hr hx
  rw [hl]
  have hv := variation_closed p q x y a b c l hpq hx
  rw [hxy] at hv
  obtain ⟨_, hj⟩ := jensen ha q l p hr
  rw [hd] at hj
  refine le_trans ?_ hj
  rw [div_div_eq_mul_div, div_one, Real.mul_rpow (variation_nonneg _) hf.le, Real.rpow_sub hf, Real.rpow_one]
  have h2 := Real.rpow_le_rpow (by positivity : 0 ≤ 2 * swing) hv (by linarith : 0 ≤ alpha)
  have h3 := Real.rpow_nonneg hf.le alpha
  calc (2 * swing) ^ alpha * (f ^ alpha / f) ≤ variation (p :: (l ++ [q])) ^ alpha * (f ^ alpha / f) :=
        mul_le_mul_of_nonneg_right h2 (by positivity)
    _ = _ := by ring

/-- C155: of all the waveforms of a swing, none loses less than the triangle that goes up and down in the same time. -/
theorem igse_least (setting : ℕ) (hset : 0 < setting) (d : Datum ℝ) (e e' : Excitation) (t a b t0 p p' : ℝ) (hk : 0 ≤ d.k)
    (ha : 1 ≤ d.alpha) (hf : 0 < e.f) (hab : a ≠ b) (hff : e'.f = e.f) (hs : e.peakToPeak = |b - a|) (hs' : e'.peakToPeak = |b - a|)
    (hp : Period e.f |b - a| e.points) (hp' : e'.points = triangle e.f a b (1 / 2) t0)
    (h : igse setting d e t = .ok p) (h' : igse setting d e' t = .ok p') : p' ≤ p := by
  have hv : 0 < |b - a| := abs_pos.mpr (sub_ne_zero.mpr hab.symm)
  obtain ⟨_, hne, hi⟩ := period_integral hf ha hp
  rw [igse_equation setting d e t (by linarith) hne hp.1 (Or.inl (by rw [hs]; exact hv)), hs] at h
  rw [igse_triangle setting d e' t a b (1 / 2) t0 (by linarith) (by rw [hff]; exact hf) (by norm_num) (by norm_num) hab
    (by rw [hff]; exact hp') hs', hff] at h'
  simp only [Res.ok.injEq] at h h'
  rw [← h, ← h']
  have h3 := applyTemperature_one_pos d t
  have h4 := ki_nonneg setting hset d hk
  apply mul_le_mul_of_nonneg_right _ h3.le
  have e1 : |b - a| ^ d.beta = |b - a| ^ (d.beta - d.alpha) * |b - a| ^ d.alpha := by rw [← Real.rpow_add hv]; congr 1; ring
  have e2 : ((1 / 2 : ℝ) ^ (1 - d.alpha) + (1 - 1 / 2) ^ (1 - d.alpha)) = 2 ^ d.alpha := by
    rw [show (1 - 1 / 2 : ℝ) = 1 / 2 by norm_num, show (1 / 2 : ℝ) = 2⁻¹ by norm_num, Real.inv_rpow (by norm_num),
      ← Real.rpow_neg (by norm_num), show -(1 - d.alpha) = d.alpha - 1 by ring, Real.rpow_sub (by norm_num), Real.rpow_one]
    ring
  rw [e1, e2]
  have h5 := Real.rpow_nonneg hv.le (d.beta - d.alpha)
  calc ki setting d * (|b - a| ^ (d.beta - d.alpha) * |b - a| ^ d.alpha) * e.f ^ d.alpha * 2 ^ d.alpha
      = ki setting d * |b - a| ^ (d.beta - d.alpha) * e.f * ((2 * |b - a|) ^ d.alpha * e.f ^ (d.alpha - 1)) := by
        rw [Real.mul_rpow (by norm_num) hv.le, Real.rpow_sub hf, Real.rpow_one]
        field_simp
    _ ≤ _ := mul_le_mul_of_nonneg_left hi (by positivity)

example : Period 1000 2 (triangle 1000 (-1) 1 (1 / 4) 0) := by
  refine ⟨triangle_rising (by norm_num) (by norm_num) (by norm_num), (0, -1), (0 + 1 / 1000, -1), [(0 + 1 / 4 / 1000, 1)], rfl, rfl,
    by norm_num, [], [], [(0 + 1 / 1000, -1)], (0, -1), (0 + 1 / 4 / 1000, 1), rfl, ?_⟩
  norm_num

/-! ## Other models -/

/-- C155: NSE agrees with iGSE when the swing is twice the amplitude. -/
theorem nse_is_igse (setting : ℕ) (d : Datum ℝ) (e : Excitation) (t : ℝ) (hm : 0 < e.main) (hs : e.peakToPeak = 2 * e.main) :
    nse setting d e t = igse setting d e t := by
  unfold nse igse
  rw [hs, cpow_pos hm, cpow_pos (by linarith)]
  simp only [Res.bind]
  have : kn setting d * e.main ^ (d.beta - d.alpha) = ki setting d * (2 * e.main) ^ (d.beta - d.alpha) := by
    unfold kn ki
    rw [Real.mul_rpow (by norm_num) hm.le]
    have := (Real.rpow_pos_of_pos (by norm_num : (0 : ℝ) < 2) (d.beta - d.alpha)).ne'
    rw [show (2 * Real.pi) ^ (d.alpha - 1) * (2 ^ (d.beta - d.alpha) * angles setting d.alpha) =
      (2 * Real.pi) ^ (d.alpha - 1) * angles setting d.alpha * 2 ^ (d.beta - d.alpha) by ring, ← div_div]
    field_simp
  rw [this]

/-- C155: the models of Albach and MSE always agree, when there is a swing. -/
theorem albach_is_mse (d : Datum ℝ) (e : Excitation) (t : ℝ) (hp : e.points ≠ []) (hr : Rising e.points) (hs : e.peakToPeak ≠ 0) :
    albach d e t = mse d e t := by
  unfold albach mse
  rw [squares_eq (1 / e.peakToPeak ^ 2) _ (fun dt db h => by rw [if_neg hs]; congr 1; field_simp) hp hr,
    squares_eq 1 _ (fun dt db h => by rw [one_mul]) hp hr]
  simp only [Res.bind]
  rw [if_neg hs]
  congr 1
  ring

/-- C155: MSE is Steinmetz' equation with the equivalent frequency to α less one, the latter being 2/π²/ΔB² times the integral of the
square of the slope. -/
theorem mse_equation (d : Datum ℝ) (e : Excitation) (t : ℝ) (hb : 0 ≤ d.beta) (ha : 1 ≤ d.alpha) (hp : e.points ≠ [])
    (hr : Rising e.points) (hs : e.peakToPeak ≠ 0) (hm : 0 ≤ e.main) (he : e.peakAt = e.peak) :
    mse d e t = .ok (d.k * e.f * (2 / Real.pi ^ 2 / e.peakToPeak ^ 2 * integral 2 e.points) ^ (d.alpha - 1) * e.main ^ d.beta *
      applyTemperature 1 d t) := by
  unfold mse
  rw [squares_eq 1 _ (fun dt db h => by rw [one_mul]) hp hr]
  simp only [Res.bind]
  rw [if_neg hs, one_mul]
  unfold atEquivalent
  have h2 := integral_nonneg 2 hr
  have : 0 < Real.pi := Real.pi_pos
  rw [cpow_nonneg (by positivity) (by linarith)]
  have hac : e.ac = e.main := by unfold Excitation.ac; rw [he]; exact abs_of_nonneg hm
  simp only [Res.bind]
  rw [hac, amplitudes_eq hm hb]
  simp only []
  rw [applyTemperature_one]

/-- C155: the equivalent frequency is never under 8/π² of that of switching, as it is for the triangle that goes up and down in the
same time. -/
theorem equivalent_least (f swing : ℝ) (points : List (ℝ × ℝ)) (hf : 0 < f) (hs : 0 < swing) (hp : Period f swing points) :
    8 / Real.pi ^ 2 * f ≤ 2 / Real.pi ^ 2 / swing ^ 2 * integral 2 points ∧
    ∀ a b t0 : ℝ, |b - a| = swing → 2 / Real.pi ^ 2 / swing ^ 2 * integral 2 (triangle f a b (1 / 2) t0) = 8 / Real.pi ^ 2 * f := by
  have hpi : 0 < Real.pi := Real.pi_pos
  constructor
  · obtain ⟨_, _, hi⟩ := period_integral (alpha := 2) hf (by norm_num) hp
    rw [Real.rpow_two, show (2 - 1 : ℝ) = 1 by norm_num, Real.rpow_one] at hi
    calc 8 / Real.pi ^ 2 * f = 2 / Real.pi ^ 2 / swing ^ 2 * ((2 * swing) ^ 2 * f) := by field_simp; ring
      _ ≤ _ := mul_le_mul_of_nonneg_left hi (by positivity)
  · intro a b t0 hab
    rw [integral_triangle hf (by norm_num) (by norm_num), hab, Real.rpow_two, show (2 - 1 : ℝ) = 1 by norm_num, Real.rpow_one,
      show (1 - 2 : ℝ) = -1 by norm_num, Real.rpow_neg_one, Real.rpow_neg_one]
    field_simp
    norm_num

/-- C155: ciGSE gives what iGSE gives with the coefficients of the material. -/
theorem cigse_is_igse (setting : ℕ) (own : Option (Datum ℝ)) (d : Datum ℝ) (e : Excitation) (t : ℝ) :
    cigse setting own d e t = igse setting d e t := rfl

/-- C155 fails: with coefficients set for it, ciGSE still takes those of the material. -/
theorem cigse_ignores_datum : ∃ (own d : Datum ℝ) (e : Excitation) (t : ℝ),
    cigse 1 (some own) d e t ≠ igse 1 (datumUsed (some own) d) e t := by
  refine ⟨plain 2 1 1, plain 1 1 1, ⟨1, 1, 0, 1, 2, triangle 1 (-1) 1 (1 / 2) 0⟩, 25, ?_⟩
  have ht : ∀ k, applyTemperature 1 (plain k 1 1) 25 = 1 := fun k => (temperature_factor _ _ 1).2.2.2.2 (Or.inl rfl)
  have h : ∀ k : ℝ, igse 1 (plain k 1 1) ⟨1, 1, 0, 1, 2, triangle 1 (-1) 1 (1 / 2) 0⟩ 25 = .ok (k * (2 / Real.pi)) := by
    intro k
    have habs : |(1 : ℝ) - -1| = 2 := by norm_num
    rw [igse_triangle 1 (plain k 1 1) ⟨1, 1, 0, 1, 2, triangle 1 (-1) 1 (1 / 2) 0⟩ 25 (-1) 1 (1 / 2) 0 (by norm_num [plain])
      (by norm_num) (by norm_num) (by norm_num) (by norm_num) rfl habs.symm, habs, ht]
    simp only [ki, plain, angles]
    congr 1
    have := Real.pi_pos
    simp
    field_simp
    norm_num
  have h1 : cigse 1 (some (plain 2 1 1)) (plain 1 1 1) ⟨1, 1, 0, 1, 2, triangle 1 (-1) 1 (1 / 2) 0⟩ 25 = .ok (1 * (2 / Real.pi)) := h 1
  rw [h1]
  simp only [datumUsed, Option.getD_some]
  rw [h 2]
  have := Real.pi_pos
  have : 0 < 2 / Real.pi := by positivity
  intro hh
  simp only [Res.ok.injEq] at hh
  linarith

/-- C155: Barg's model gives π/4 of Steinmetz', times a factor that is never under one. -/
theorem barg_factor (spline : ℝ → ℝ) (d : Datum ℝ) (e : Excitation) (t p : ℝ) (hf : 0 < e.f) (hb : 0 ≤ d.beta) (hm : 0 ≤ e.main)
    (hp : e.points ≠ []) (he : e.peakAt = e.peak) (h : steinmetz d e t = .ok p) :
    ∃ c x, 1 ≤ c ∧ c = max 1 (spline x) ∧ 1 / 10 ≤ x ∧ x ≤ 1 / 2 ∧ barg spline d e t = .ok (c * (Real.pi / 4) * p) := by
  obtain ⟨duty, hd⟩ : ∃ duty, plateauDuty (e.points.map Prod.snd) = .ok duty := by
    unfold plateauDuty
    cases hx : (e.points.map Prod.snd).max? with
    | none => rw [List.max?_eq_none_iff] at hx; simp at hx; exact absurd hx hp
    | some m => exact ⟨_, rfl⟩
  refine ⟨_, max (1 / 10) (min duty (1 / 2)), le_max_left _ _, rfl, le_max_left _ _, max_le (by norm_num) (min_le_right _ _), ?_⟩
  rw [steinmetz_equation d e t hf hb he] at h
  simp only [Res.ok.injEq] at h
  rw [← h]
  unfold barg
  rw [hd, cpow_pos hf]
  have hac : e.ac = e.main := by unfold Excitation.ac; rw [he]; exact abs_of_nonneg hm
  simp only [Res.bind]
  rw [hac, amplitudes_eq hm hb]
  simp only []
  rw [applyTemperature_one]
  have : |e.peak - e.offset| = e.main := abs_of_nonneg hm
  rw [this]
  congr 1; ring

/-- C155 fails: a waveform wholly below zero is taken to be plateau all along, whatever its shape. -/
theorem plateau_below_zero (data : List ℝ) (hne : data ≠ []) (h : ∀ x ∈ data, x < 0) : plateauDuty data = .ok (-1 / 2) := by
  unfold plateauDuty
  cases hx : data.max? with
  | none => rw [List.max?_eq_none_iff] at hx; exact absurd hx hne
  | some m =>
    simp only []
    have hm : m < 0 := h m (List.max?_mem hx)
    have : data.filter (fun x => decide (m ≠ 0 ∧ |m - x| / m < 2 / 100)) = data := by
      rw [List.filter_eq_self]
      intro x hx
      have : |m - x| / m ≤ 0 := div_nonpos_of_nonneg_of_nonpos (abs_nonneg _) hm.le
      simp only [decide_eq_true_eq]
      exact ⟨hm.ne, by linarith⟩
    rw [this]
    have hl : (0 : ℝ) < data.length := by exact_mod_cast List.length_pos_iff.mpr hne
    congr 1
    field_simp
    norm_num

end Verif.CoreLosses
