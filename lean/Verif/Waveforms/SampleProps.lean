import Verif.Waveforms.SampleLemmas

/-! # Sampling waveforms (C121, C122, C123)

`OnLine` and `OnWaveform` (SampleLemmas) are the specification: the waveform a list of vertices stands for. -/

namespace Verif.Waveforms

open Verif.Round (roundFloat)

set_option linter.unusedSectionVars false
set_option linter.unusedSimpArgs false

variable {K : Type} [Field K] [LinearOrder K] [IsStrictOrderedRing K] [FloorRing K]

/-! ## C121: what sampling returns -/

theorem welltimed_two {w : Waveform K} {ts : List K} {T : K} (h : WellTimed w ts T) : 2 ≤ w.data.length := by
  have hs := h.spans
  have hl := h.sizes
  rcases ts with _ | ⟨a, _ | ⟨b, l⟩⟩
  · simp [span] at hs
  · rw [span_single] at hs
    simp only [Option.some.injEq] at hs
    exact absurd hs h.positive.ne
  · simp at hl; omega

/-- C121: every point sampled lies on the waveform, at its own time, for any waveform with times for which
sampling succeeds; there are as many times as values and the label is kept. -/
theorem sampled_on_waveform (w s : Waveform K) (ts : List K) (f : K) (p : Option Nat) (N : Nat)
    (ht : w.time = some ts) (h : sampled w f p N = .ok s) :
    ∃ us : List K, s.time = some us ∧ us.length = s.data.length ∧ s.label = w.label ∧
      s.data.length = pointsForSampling w.data.length p N ∧
      ∀ (i : Nat) (t v : K), us[i]? = some t → s.data[i]? = some v → OnWaveform w.data ts t v := by
  unfold sampled at h
  by_cases h2 : w.data.length < 2
  · rw [if_pos h2] at h; simp at h
  rw [if_neg h2] at h
  unfold timeBase at h
  rw [ht] at h
  simp only at h
  cases hs : span ts with
  | none => rw [hs] at h; simp [Res.bind] at h
  | some T =>
    rw [hs] at h
    simp only at h
    by_cases hT : T ≤ 0
    · rw [if_pos hT] at h; simp [Res.bind] at h
    rw [if_neg hT] at h
    simp only [Res.bind] at h
    by_cases hr : roundFloat (1 / T) 9 = 0
    · rw [if_pos hr] at h; simp at h
    rw [if_neg hr] at h
    cases hv : sampleAll w.data ts (sampleTimes (1 / T) (pointsForSampling w.data.length p N)) with
    | throws => rw [hv] at h; simp at h
    | nan => rw [hv] at h; simp at h
    | ub => rw [hv] at h; simp at h
    | ok vs =>
      rw [hv] at h
      simp only [Res.ok.injEq] at h
      subst h
      obtain ⟨h3, h4⟩ := sampleAll_get _ _ _ _ hv
      refine ⟨_, rfl, h3.symm, rfl, by rw [h3, sampleTimes_length], fun i t v hi hvi => ?_⟩
      obtain ⟨v', e1, e2⟩ := h4 i t hi
      simp only at hvi
      rw [e1] at hvi
      simp only [Option.some.injEq] at hvi
      subst hvi
      exact interpolate_on t _ _ _ e2

/-- C121: where the times of a waveform are all different, a point on it has only one value, so the samples are
the values of the waveform. -/
theorem onWaveform_unique (data ts : List K) (hinc : ts.Pairwise (· < ·)) (t u v : K)
    (hu : OnWaveform data ts t u) (hv : OnWaveform data ts t v) : u = v := by
  obtain ⟨i, a0, a1, s0, s1, h1, h2, h3, h4, h5, h6, h7, -, -⟩ := hu
  obtain ⟨j, b0, b1, r0, r1, g1, g2, g3, g4, g5, g6, g7, -, -⟩ := hv
  have mono : ∀ (p q : Nat) (x y : K), p < q → ts[p]? = some x → ts[q]? = some y → x < y := by
    intro p q x y hpq hx hy
    obtain ⟨hp, rfl⟩ := List.getElem?_eq_some_iff.mp hx
    obtain ⟨hq, rfl⟩ := List.getElem?_eq_some_iff.mp hy
    exact List.pairwise_iff_getElem.mp hinc p q hp hq hpq
  have hs := mono i (i + 1) _ _ (by omega) h3 h4
  have hr := mono j (j + 1) _ _ (by omega) g3 g4
  -- at an end of its segment the value is that of the vertex
  have atEnd : ∀ (x0 x1 y0 y1 z : K), y0 < y1 → z * (y1 - y0) = x0 * (y1 - t) + x1 * (t - y0) →
      (t = y1 → z = x1) ∧ (t = y0 → z = x0) := by
    intro x0 x1 y0 y1 z hy hz
    have hne : y1 - y0 ≠ 0 := (sub_pos.mpr hy).ne'
    constructor
    · rintro rfl
      have : z * (t - y0) = x1 * (t - y0) := by linear_combination hz
      exact mul_right_cancel₀ hne this
    · rintro rfl
      have : z * (y1 - t) = x0 * (y1 - t) := by linear_combination hz
      exact mul_right_cancel₀ hne this
  rcases Nat.lt_trichotomy i j with hij | hij | hij
  · have e : i + 1 = j := by
      by_contra hne
      have := mono (i + 1) j _ _ (by omega) h4 g3
      linarith
    subst e
    rw [h2] at g1; rw [h4] at g3
    simp only [Option.some.injEq] at g1 g3
    subst g1 g3
    have ht : t = s1 := le_antisymm h6 g5
    rw [(atEnd _ _ _ _ _ hs h7).1 ht, (atEnd _ _ _ _ _ hr g7).2 ht]
  · subst hij
    rw [h1] at g1; rw [h2] at g2; rw [h3] at g3; rw [h4] at g4
    simp only [Option.some.injEq] at g1 g2 g3 g4
    subst g1 g2 g3 g4
    have hne : s1 - s0 ≠ 0 := (sub_pos.mpr hs).ne'
    exact mul_right_cancel₀ hne (h7.trans g7.symm)
  · have e : j + 1 = i := by
      by_contra hne
      have := mono (j + 1) i _ _ (by omega) g4 h3
      linarith
    subst e
    rw [g2] at h1; rw [g4] at h3
    simp only [Option.some.injEq] at h1 h3
    subst h1 h3
    have ht : t = r1 := le_antisymm g6 h5
    rw [(atEnd _ _ _ _ _ hs h7).2 ht, (atEnd _ _ _ _ _ hr g7).1 ht]

/-- C121: no sample lies outside the range of the values. -/
theorem sampled_between (w s : Waveform K) (ts : List K) (f lo hi : K) (p : Option Nat) (N : Nat)
    (ht : w.time = some ts) (hb : ∀ d ∈ w.data, lo ≤ d ∧ d ≤ hi) (h : sampled w f p N = .ok s) :
    ∀ v ∈ s.data, lo ≤ v ∧ v ≤ hi := by
  obtain ⟨us, h1, h2, -, -, h5⟩ := sampled_on_waveform w s ts f p N ht h
  intro v hv
  obtain ⟨i, hi', rfl⟩ := List.mem_iff_getElem.mp hv
  obtain ⟨j, d0, d1, t0, t1, e1, e2, -, -, -, -, -, hm, hM⟩ :=
    h5 i us[i] s.data[i] (List.getElem?_eq_getElem _) (List.getElem?_eq_getElem _)
  have b0 := hb d0 (List.mem_of_getElem? e1)
  have b1 := hb d1 (List.mem_of_getElem? e2)
  exact ⟨le_trans (le_min b0.1 b1.1) hm, le_trans hM (max_le b0.2 b1.2)⟩

theorem round_pos_of_one_le {f : K} (h : 1 ≤ f) : 0 < roundFloat f 9 ∧ |roundFloat f 9 - f| ≤ 1 / (2 * 10 ^ 9) := by
  have h1 := Round.roundFloat_near f 9
  have h2 := (abs_le.mp h1).1
  refine ⟨?_, h1⟩
  have : (1 : K) / (2 * 10 ^ 9) < 1 := by norm_num
  linarith

/-- The frequency of the samples is that of the waveform, rounded to nine decimals, and the last sample comes
before the end, for a period of at most one second and at most a thousand million points. -/
theorem last_sample_inside (T : K) (n : Nat) (hT : 0 < T) (h1 : T ≤ 1) (hn : 1 ≤ n) (hN : n ≤ 10 ^ 9) (i : Nat)
    (hi : i < n) : (i : K) * (1 / roundFloat (1 / T) 9 / (n : K)) ≤ T := by
  have hf : 1 ≤ 1 / T := by rw [le_div_iff₀ hT]; linarith
  obtain ⟨hr, hnear⟩ := round_pos_of_one_le hf
  have hlow := (abs_le.mp hnear).1
  have hn0 : (0 : K) < n := by exact_mod_cast hn
  have hTf : T * (1 / T) = 1 := by field_simp
  -- `roundFloat (1/T) 9 ≥ (1/T) (1 - 1/(2·10⁹))`
  have hge : (1 / T) * (1 - 1 / 10 ^ 9) ≤ roundFloat (1 / T) 9 := by
    have : (1 : K) / (2 * 10 ^ 9) ≤ 1 / T * (1 / 10 ^ 9) := by
      have h2 : (1 : K) / (2 * 10 ^ 9) ≤ 1 / 10 ^ 9 := by norm_num
      have h3 : (1 : K) / 10 ^ 9 ≤ 1 / T * (1 / 10 ^ 9) :=
        le_mul_of_one_le_left (by norm_num) hf
      linarith
    nlinarith
  have hi' : (i : K) ≤ n - 1 := by
    have : (i : K) + 1 ≤ n := by exact_mod_cast hi
    linarith
  have hNn : (n : K) ≤ 10 ^ 9 := by exact_mod_cast hN
  rw [div_div, mul_one_div, div_le_iff₀ (mul_pos hr hn0)]
  have key : (i : K) ≤ (1 - 1 / 10 ^ 9) * n := by
    have : (n : K) / 10 ^ 9 ≤ 1 := by rw [div_le_one (by norm_num)]; exact hNn
    have e : (1 - 1 / 10 ^ 9) * (n : K) = n - n / 10 ^ 9 := by ring
    rw [e]; linarith
  have : T * ((1 / T) * (1 - 1 / 10 ^ 9)) ≤ T * roundFloat (1 / T) 9 := mul_le_mul_of_nonneg_left hge hT.le
  have e2 : T * ((1 / T) * (1 - 1 / 10 ^ 9)) = 1 - 1 / 10 ^ 9 := by rw [← mul_assoc, hTf, one_mul]
  rw [e2] at this
  calc (i : K) ≤ (1 - 1 / 10 ^ 9) * n := key
    _ ≤ T * roundFloat (1 / T) 9 * n := mul_le_mul_of_nonneg_right this hn0.le
    _ = T * (roundFloat (1 / T) 9 * n) := by ring

/-- C121: a waveform whose times start at zero and do not go back, with a period of at most a second, is always
sampled, at equally spaced times from zero on, at the rate of its own frequency rounded to nine decimals. -/
theorem sampled_succeeds (w : Waveform K) (ts : List K) (T f : K) (p : Option Nat) (N : Nat)
    (h : WellTimed w ts T) (h0 : ts.head? = some 0) (h1 : T ≤ 1)
    (hN : pointsForSampling w.data.length p N ≤ 10 ^ 9) :
    ∃ (s : Waveform K) (us : List K), sampled w f p N = .ok s ∧ s.time = some us ∧
      ∀ i, i < pointsForSampling w.data.length p N →
        us[i]? = some ((i : K) * (1 / roundFloat (1 / T) 9 / (pointsForSampling w.data.length p N : K))) := by
  have h2 := welltimed_two h
  have hn : 2 ≤ pointsForSampling w.data.length p N := le_trans h2 (points_ge _ _ _)
  generalize hnd : pointsForSampling w.data.length p N = n at hn hN ⊢
  have hT := h.positive
  have hf : 1 ≤ 1 / T := by rw [le_div_iff₀ hT]; linarith
  have hr := (round_pos_of_one_le hf).1
  have hlast : ts.getLast? = some T := by
    have hs := h.spans
    unfold span at hs
    rw [h0] at hs
    cases hg : ts.getLast? with
    | none => rw [hg] at hs; simp at hs
    | some z => rw [hg] at hs; simpa using hs
  obtain ⟨vs, hvs⟩ := sampleAll_ok w.data ts (sampleTimes (1 / T) n) (by
    intro t ht
    obtain ⟨i, hi, rfl⟩ := List.mem_iff_getElem.mp ht
    rw [sampleTimes_length] at hi
    have he := sampleTimes_get (1 / T) n i hi
    rw [List.getElem?_eq_getElem (by rw [sampleTimes_length]; exact hi)] at he
    simp only [Option.some.injEq] at he
    rw [he]
    refine interpolate_finds _ _ _ T h.sizes h2 hlast (fun a ha => ?_)
      (last_sample_inside T n hT h1 (by omega) hN i hi)
    rw [h0] at ha
    simp only [Option.some.injEq] at ha
    rw [← ha]
    have hnn : (0 : K) ≤ n := Nat.cast_nonneg n
    exact mul_nonneg (Nat.cast_nonneg i) (div_nonneg (div_nonneg zero_le_one hr.le) hnn))
  refine ⟨⟨vs, some (sampleTimes (1 / T) n), w.label⟩, _, ?_, rfl, fun i hi => sampleTimes_get (1 / T) n i hi⟩
  unfold sampled
  rw [if_neg (by omega)]
  unfold timeBase
  rw [h.times]
  simp only [h.spans, Res.bind]
  rw [if_neg (not_le.mpr hT)]
  simp only [hnd]
  rw [if_neg hr.ne', hvs]

/-- C121: a waveform whose first time is later than zero is refused, whatever its values: the samples are taken
from zero on, not from its first time. -/
theorem late_start_refused (w : Waveform K) (ts : List K) (T t0 f : K) (p : Option Nat) (N : Nat)
    (h : WellTimed w ts T) (h0 : ts.head? = some t0) (hpos : 0 < t0) (h1 : T ≤ 1) : sampled w f p N = .throws := by
  have h2 := welltimed_two h
  have hn : 2 ≤ pointsForSampling w.data.length p N := le_trans h2 (points_ge _ _ _)
  have hf : 1 ≤ 1 / T := by rw [le_div_iff₀ h.positive]; linarith
  have hr := (round_pos_of_one_le hf).1
  unfold sampled
  rw [if_neg (by omega)]
  unfold timeBase
  rw [h.times]
  simp only [h.spans, Res.bind]
  rw [if_neg (not_le.mpr h.positive)]
  simp only
  rw [if_neg hr.ne']
  rw [sampleAll_throws]
  · intro t _
    exact interpolate_not_ub t _ _ h.sizes.ge
  · refine ⟨0, ?_, interpolate_misses 0 _ _ h.sizes.ge (Or.inl ?_)⟩
    · have := sampleTimes_get (1 / T) (pointsForSampling w.data.length p N) 0 (by omega)
      simp only [Nat.cast_zero, zero_mul] at this
      exact List.mem_of_getElem? this
    · intro a ha
      rcases ts with _ | ⟨b, l⟩
      · simp at ha
      · simp only [List.head?_cons, Option.some.injEq] at h0
        subst h0
        rcases List.mem_cons.mp ha with rfl | ha
        · exact hpos
        · exact lt_of_lt_of_le hpos ((List.pairwise_cons.mp h.ordered).1 a ha)

/-- C121: a waveform that ends before the last sample is due, because it starts more than a step before zero, is
refused too. -/
theorem early_start_refused (w : Waveform K) (ts : List K) (T tl f : K) (p : Option Nat) (N : Nat)
    (h : WellTimed w ts T) (hl : ts.getLast? = some tl) (h1 : T ≤ 1)
    (hlast : tl < ((pointsForSampling w.data.length p N - 1 : Nat) : K) *
      (1 / roundFloat (1 / T) 9 / (pointsForSampling w.data.length p N : K))) : sampled w f p N = .throws := by
  have h2 := welltimed_two h
  have hn : 2 ≤ pointsForSampling w.data.length p N := le_trans h2 (points_ge _ _ _)
  have hf : 1 ≤ 1 / T := by rw [le_div_iff₀ h.positive]; linarith
  have hr := (round_pos_of_one_le hf).1
  unfold sampled
  rw [if_neg (by omega)]
  unfold timeBase
  rw [h.times]
  simp only [h.spans, Res.bind]
  rw [if_neg (not_le.mpr h.positive)]
  simp only
  rw [if_neg hr.ne']
  rw [sampleAll_throws]
  · intro t _
    exact interpolate_not_ub t _ _ h.sizes.ge
  · refine ⟨_, List.mem_of_getElem? (sampleTimes_get (1 / T) (pointsForSampling w.data.length p N)
      (pointsForSampling w.data.length p N - 1) (by omega)), interpolate_misses _ _ _ h.sizes.ge (Or.inr ?_)⟩
    intro a ha
    refine lt_of_le_of_lt ?_ hlast
    obtain ⟨i, hi, rfl⟩ := List.mem_iff_getElem.mp ha
    rw [List.getLast?_eq_getElem?] at hl
    obtain ⟨hj, rfl⟩ := List.getElem?_eq_some_iff.mp hl
    rcases Nat.lt_or_ge i (ts.length - 1) with hlt | hge
    · exact List.pairwise_iff_getElem.mp h.ordered i (ts.length - 1) hi hj hlt
    · have : i = ts.length - 1 := by omega
      subst this; exact le_refl _

/-- C121: a waveform without times is refused below one hertz. -/
theorem timeless_slow_refused (w : Waveform K) (f : K) (p : Option Nat) (N : Nat) (h : w.time = none) (hf : f < 1) :
    sampled w f p N = .throws := by
  unfold sampled timeBase
  rw [h]
  simp only
  split_ifs <;> first | rfl | simp_all [Res.bind]

example : sampled (K := ℚ) ⟨[0, 2, 0], some [0, 1/2, 1], none⟩ 50 none 4
    = .ok ⟨[0, 1, 2, 1], some [0, 1/4, 1/2, 3/4], none⟩ := by decide +kernel
example : sampled (K := ℚ) ⟨[0, 2, 0], some [1, 3/2, 2], none⟩ 50 none 4 = .throws := by decide +kernel
example : sampled (K := ℚ) ⟨[0, 2, 0], some [-1, -1/2, 0], none⟩ 50 none 4 = .throws := by decide +kernel
example : WellTimed (K := ℚ) ⟨[0, 2, 0], some [0, 1/2, 1], none⟩ [0, 1/2, 1] 1 :=
  ⟨rfl, rfl, by decide +kernel, by decide +kernel, by norm_num⟩

/-! ## C122: sampling and arithmetic -/

theorem sampled_affine (w : Waveform K) (k c f : K) (p : Option Nat) (N : Nat) :
    sampled { w with data := w.data.map fun d => d * k + c } f p N =
      (sampled w f p N).bind fun s => .ok { s with data := s.data.map fun d => d * k + c } := by
  unfold sampled
  simp only [List.length_map]
  by_cases h2 : w.data.length < 2
  · rw [if_pos h2, if_pos h2]; rfl
  rw [if_neg h2, if_neg h2]
  have hb : timeBase { w with data := w.data.map fun d => d * k + c } f = timeBase w f := by
    unfold timeBase; simp only [List.length_map]
  rw [hb]
  cases timeBase w f with
  | throws => rfl
  | nan => rfl
  | ub => rfl
  | ok tf =>
    obtain ⟨time, g⟩ := tf
    simp only [Res.bind]
    by_cases hr : roundFloat g 9 = 0
    · rw [if_pos hr, if_pos hr]
    · rw [if_neg hr, if_neg hr, sampleAll_affine]
      cases sampleAll w.data time (sampleTimes g (pointsForSampling w.data.length p N)) <;> simp only [Res.bind]

/-- C122: sampling a multiplied waveform is multiplying the sampled one, refusals included. -/
theorem sampled_multiplied (w : Waveform K) (k f : K) (p : Option Nat) (N : Nat) :
    sampled (multiply w k) f p N = (sampled w f p N).bind fun s => .ok (multiply s k) := by
  have := sampled_affine w k 0 f p N
  simpa [multiply] using this

/-- C122: sampling a raised waveform is raising the sampled one. -/
theorem sampled_raised (w : Waveform K) (c f : K) (p : Option Nat) (N : Nat) :
    sampled (sum w c) f p N = (sampled w f p N).bind fun s => .ok (sum s c) := by
  have := sampled_affine w 1 c f p N
  simpa [sum] using this

/-- C122: sampling the sum of two waveforms with the same times is summing the sampled ones. -/
theorem sampled_added (a b s sa sb : Waveform K) (f : K) (p : Option Nat) (N : Nat) (ht : a.time = b.time)
    (h : add a b = .ok s) (ha : sampled a f p N = .ok sa) (hb : sampled b f p N = .ok sb) :
    ∃ r, add sa sb = .ok r ∧ sampled s f p N = .ok r := by
  unfold add at h
  by_cases hl : a.data.length ≠ b.data.length
  · rw [if_pos hl] at h; simp at h
  rw [if_neg hl] at h
  simp only [Res.ok.injEq] at h
  subst h
  push Not at hl
  have hlen : (List.zipWith (· + ·) a.data b.data).length = a.data.length := by simp [hl]
  have htb : timeBase b f = timeBase a f := by unfold timeBase; rw [← ht, hl]
  have hts : timeBase { a with data := List.zipWith (· + ·) a.data b.data } f = timeBase a f := by
    unfold timeBase; simp only [hlen]
  unfold sampled at ha hb ⊢
  simp only [hlen, hts]
  rw [htb, ← hl] at hb
  by_cases h2 : a.data.length < 2
  · rw [if_pos h2] at ha; simp at ha
  rw [if_neg h2] at ha hb ⊢
  cases htf : timeBase a f with
  | throws => rw [htf] at ha; simp [Res.bind] at ha
  | nan => rw [htf] at ha; simp [Res.bind] at ha
  | ub => rw [htf] at ha; simp [Res.bind] at ha
  | ok tf =>
    obtain ⟨time, g⟩ := tf
    rw [htf] at ha hb
    simp only [Res.bind] at ha hb ⊢
    by_cases hr : roundFloat g 9 = 0
    · rw [if_pos hr] at ha; simp at ha
    rw [if_neg hr] at ha hb ⊢
    cases hva : sampleAll a.data time (sampleTimes g (pointsForSampling a.data.length p N)) <;> rw [hva] at ha <;>
      simp at ha
    cases hvb : sampleAll b.data time (sampleTimes g (pointsForSampling a.data.length p N)) <;> rw [hvb] at hb <;>
      simp at hb
    rw [sampleAll_added _ _ _ hl _ _ _ hva hvb]
    have e1 := (sampleAll_get _ _ _ _ hva).1
    have e2 := (sampleAll_get _ _ _ _ hvb).1
    subst ha hb
    refine ⟨_, ?_, rfl⟩
    unfold add
    rw [if_neg (by simp [e1, e2])]

/-- C122: the frequency asked for does not matter to a waveform with times of its own. -/
theorem frequency_unused (w : Waveform K) (ts : List K) (f g : K) (p : Option Nat) (N : Nat) (h : w.time = some ts) :
    sampled w f p N = sampled w g p N := by
  unfold sampled timeBase; rw [h]

/-! ## C123: a sampled waveform sampled again -/

/-- C123: what sampling returns counts as sampled, unless a number of points is asked for. -/
theorem sampled_is_sampled (w s : Waveform K) (ts : List K) (f : K) (N : Nat) (ht : w.time = some ts)
    (h : sampled w f none N = .ok s) : isSampled s N = true := by
  obtain ⟨us, h1, -, -, h4, -⟩ := sampled_on_waveform w s ts f none N ht h
  unfold isSampled isImported
  rw [h1]
  simp only [decide_eq_true_eq]
  unfold pointsForSampling at h4
  simp only [Option.getD_none] at h4
  by_cases hs : w.data.length > N
  · rw [if_pos hs] at h4
    by_cases hp : Sampling.isSizePowerOf2 w.data.length = true
    · rw [if_pos hp] at h4
      rw [if_pos (by rw [h4]; exact hs), h4]; exact hp
    · rw [if_neg hp] at h4
      have hge := (Sampling.isNextPower_clog w.data.length).2.1
      rw [if_pos (by rw [h4]; omega), h4]
      exact (Sampling.isSizePowerOf2_iff _).mpr ⟨_, rfl⟩
  · rw [if_neg hs] at h4
    rw [if_neg (by omega), h4]; simp

theorem sampleTimes_span (g : K) (n : Nat) (hn : 1 ≤ n) :
    span (sampleTimes g n) = some (((n - 1 : Nat) : K) * (1 / roundFloat g 9 / (n : K))) := by
  unfold span
  rw [List.head?_eq_getElem?, List.getLast?_eq_getElem?, sampleTimes_length, sampleTimes_get g n 0 (by omega),
    sampleTimes_get g n (n - 1) (by omega)]
  simp

theorem sampled_times (w s : Waveform K) (ts : List K) (T f : K) (p : Option Nat) (N : Nat)
    (h : WellTimed w ts T) (hs : sampled w f p N = .ok s) :
    s.time = some (sampleTimes (1 / T) (pointsForSampling w.data.length p N)) := by
  unfold sampled at hs
  rw [if_neg (by have := welltimed_two h; omega)] at hs
  unfold timeBase at hs
  rw [h.times] at hs
  simp only [h.spans, Res.bind] at hs
  rw [if_neg (not_le.mpr h.positive)] at hs
  simp only at hs
  split_ifs at hs
  cases hv : sampleAll w.data ts (sampleTimes (1 / T) (pointsForSampling w.data.length p N)) <;> rw [hv] at hs <;>
    simp only [Res.ok.injEq, reduceCtorEq] at hs
  subst hs; rfl

theorem points_again (m : Nat) (N : Nat) :
    pointsForSampling (pointsForSampling m none N) none N = pointsForSampling m none N := by
  unfold pointsForSampling
  simp only [Option.getD_none]
  by_cases h : m > N
  · simp only [if_pos h]
    by_cases hp : Sampling.isSizePowerOf2 m = true
    · simp only [if_pos hp, if_pos h]
    · simp only [if_neg hp]
      have hge := (Sampling.isNextPower_clog m).2.1
      rw [if_pos (by omega), if_pos ((Sampling.isSizePowerOf2_iff _).mpr ⟨_, rfl⟩)]
  · simp only [if_neg h, lt_irrefl, gt_iff_lt, if_false]

/-- C123: the times of a sampled waveform stop one step short of its period. Sampling it again takes what is left
for the whole period: the new waveform has the same number of points over a shorter time, at a frequency
`n / (n - 1)` times as high (up to the ninth decimal). -/
theorem sampled_again_shorter (w s r : Waveform K) (ts : List K) (T f g : K) (N : Nat) (h : WellTimed w ts T)
    (h1 : T ≤ 1) (hN : pointsForSampling w.data.length none N ≤ 10 ^ 9)
    (hs : sampled w f none N = .ok s) (hr : sampled s g none N = .ok r) :
    ∃ (us vs : List K) (S R : K), s.time = some us ∧ r.time = some vs ∧ us.length = vs.length ∧
      span us = some S ∧ span vs = some R ∧ R < S := by
  obtain ⟨us, e1, e2, -, e4, -⟩ := sampled_on_waveform w s ts f none N h.times hs
  have hst := sampled_times w s ts T f none N h hs
  have h2 := welltimed_two h
  have hn2 : 2 ≤ pointsForSampling w.data.length none N := le_trans h2 (points_ge _ _ _)
  generalize hnd : pointsForSampling w.data.length none N = n at *
  have hf : 1 ≤ 1 / T := by rw [le_div_iff₀ h.positive]; linarith
  have hrp := (round_pos_of_one_le hf).1
  have hn0 : (0 : K) < n := by exact_mod_cast (by omega : 0 < n)
  have hnm : (0 : K) < ((n - 1 : Nat) : K) := by exact_mod_cast (by omega : 0 < n - 1)
  have hcast : ((n - 1 : Nat) : K) = n - 1 := by rw [Nat.cast_sub (by omega)]; simp
  set ρ := roundFloat (1 / T) 9 with hρ
  have hS : 0 < ((n - 1 : Nat) : K) * (1 / ρ / (n : K)) :=
    mul_pos hnm (div_pos (one_div_pos.mpr hrp) hn0)
  have hsp := sampleTimes_span (1 / T) n (by omega)
  have hws : WellTimed s (sampleTimes (1 / T) n) (((n - 1 : Nat) : K) * (1 / ρ / (n : K))) := by
    refine ⟨hst, by rw [sampleTimes_length, e4], ?_, hsp, hS⟩
    rw [List.pairwise_iff_getElem]
    intro i j hi hj hij
    rw [sampleTimes_length] at hi hj
    have e1 := sampleTimes_get (1 / T) n i hi
    have e2 := sampleTimes_get (1 / T) n j hj
    rw [List.getElem?_eq_getElem (by rw [sampleTimes_length]; exact hi)] at e1
    rw [List.getElem?_eq_getElem (by rw [sampleTimes_length]; exact hj)] at e2
    simp only [Option.some.injEq] at e1 e2
    rw [e1, e2]
    have : (i : K) ≤ j := by exact_mod_cast hij.le
    exact mul_le_mul_of_nonneg_right this (div_pos (one_div_pos.mpr hrp) hn0).le
  have hrt := sampled_times s r _ _ g none N hws hr
  rw [e4, ← hnd, points_again, hnd] at hrt
  have hspr := sampleTimes_span (1 / (((n - 1 : Nat) : K) * (1 / ρ / (n : K)))) n (by omega)
  refine ⟨_, _, _, _, hst, hrt, by rw [sampleTimes_length, sampleTimes_length], hsp, hspr, ?_⟩
  -- the rounded new frequency is higher than the rounded old one
  have hρ1 : 1 / 2 ≤ ρ := by
    have := (abs_le.mp (round_pos_of_one_le hf).2).1
    have h9 : (1 : K) / (2 * 10 ^ 9) ≤ 1 / 2 := by norm_num
    linarith
  have hnew : ρ < roundFloat (1 / (((n - 1 : Nat) : K) * (1 / ρ / (n : K)))) 9 := by
    have hx : 1 / (((n - 1 : Nat) : K) * (1 / ρ / (n : K))) = ρ + ρ / ((n - 1 : Nat) : K) := by
      rw [hcast]
      have : (n : K) - 1 ≠ 0 := by rw [← hcast]; exact hnm.ne'
      field_simp; ring
    rw [hx]
    have hnear := (abs_le.mp (Round.roundFloat_near (ρ + ρ / ((n - 1 : Nat) : K)) 9)).1
    have hbig : 1 / (2 * 10 ^ 9) < ρ / ((n - 1 : Nat) : K) := by
      rw [div_lt_div_iff₀ (by norm_num) hnm]
      have : ((n - 1 : Nat) : K) < 10 ^ 9 := by exact_mod_cast (by omega : n - 1 < 10 ^ 9)
      nlinarith
    linarith
  have hnewpos := lt_trans hrp hnew
  apply mul_lt_mul_of_pos_left _ hnm
  apply div_lt_div_of_pos_right _ hn0
  exact one_div_lt_one_div_of_lt hrp hnew

/-- C123: a ramp sampled in five points and then sampled again: the time covered falls from 4/5 to 16/25 of the
period and the top of the ramp is lost. -/
theorem sampled_again_example :
    sampled (K := ℚ) ⟨[0, 5], some [0, 1], none⟩ 1 none 5 = .ok ⟨[0, 1, 2, 3, 4], some [0, 1/5, 2/5, 3/5, 4/5], none⟩
    ∧ sampled (K := ℚ) ⟨[0, 1, 2, 3, 4], some [0, 1/5, 2/5, 3/5, 4/5], none⟩ 1 none 5
      = .ok ⟨[0, 4/5, 8/5, 12/5, 16/5], some [0, 4/25, 8/25, 12/25, 16/25], none⟩ := by
  decide +kernel

/-- C122: the sum of the signals of two waveforms with the same times is the signal of their sum. -/
theorem signals_added (a b s : Waveform K) (f : K) (N : Nat) (ht : a.time = b.time) (h : add a b = .ok s)
    (x y : Waveform K) (hx : sampled a f none N = .ok x) (hy : sampled b f none N = .ok y) :
    addSignals a b f N = sampled s f none N := by
  obtain ⟨r, h1, h2⟩ := sampled_added a b s x y f none N ht h hx hy
  unfold addSignals
  rw [hx, hy, h2]
  simpa [Res.bind] using h1

/-- C123: adding nothing to a signal a second time, or shifting it there and back, changes it, since each call
samples again what is already sampled. -/
theorem signals_drift :
    addSignals (K := ℚ) ⟨[0, 5], some [0, 1], none⟩ ⟨[0, 0], some [0, 1], none⟩ 1 5
      = .ok ⟨[0, 1, 2, 3, 4], some [0, 1/5, 2/5, 3/5, 4/5], none⟩ ∧
    addSignals (K := ℚ) ⟨[0, 1, 2, 3, 4], some [0, 1/5, 2/5, 3/5, 4/5], none⟩ ⟨[0, 0], some [0, 1], none⟩ 1 5
      = .ok ⟨[0, 4/5, 8/5, 12/5, 16/5], some [0, 4/25, 8/25, 12/25, 16/25], none⟩ ∧
    (shiftSignal (K := ℚ) ⟨[0, 5], some [0, 1], none⟩ 2 1 5).bind (fun s => shiftSignal s (-2) 1 5)
      = .ok ⟨[8/5, 2/5, 6/5, 3, 19/5], some [0, 4/25, 8/25, 12/25, 16/25], none⟩ := by
  decide +kernel

end Verif.Waveforms
