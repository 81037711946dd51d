import Verif.Fft.Props
import Verif.Sampling.Props

/-! # Properties of harmonics of sampled values (C135 to C137) -/

namespace Verif.Fft

set_option linter.unusedSimpArgs false

open Finset

/-- C135: values whose number is not a power of two are refused. -/
theorem harmonics_refused (x : List ℝ) (f : ℝ) (h0 : 0 < x.length) (h : ¬ ∃ m, x.length = 2 ^ m) :
    harmonics x f = .throws := by
  unfold harmonics
  have : ¬ Sampling.isSizePowerOf2 x.length = true := fun hc => h ((Sampling.isSizePowerOf2_iff x.length).mp hc)
  rw [if_pos ⟨h0, this⟩]

example : harmonics [1, 2, 3] 50 = .throws := by
  apply harmonics_refused _ _ (by simp)
  rintro ⟨m, hm⟩
  simp only [List.length_cons, List.length_nil] at hm
  rcases m with _ | _ | m
  · norm_num at hm
  · norm_num at hm
  · rw [pow_succ, pow_succ] at hm; omega

/-- C135: no value and a single value are undefined. -/
theorem harmonics_undefined (x : List ℝ) (f : ℝ) (h : x.length < 2) : harmonics x f = .ub := by
  unfold harmonics
  rw [if_neg]
  · unfold transform
    rw [transform_needs_two _ _ (by simpa using h)]
    rfl
  · rintro ⟨h0, hc⟩
    apply hc
    rw [show x.length = 2 ^ 0 by simp; omega]
    exact isPow 0

example : ([] : List ℝ).length < 2 := by simp

/-- C135: the harmonics of a power of two of values are half as many; harmonic `q` has `q` times the frequency and the
amplitude of the component of `q` turns per period. -/
theorem harmonics_are_components (x : List ℝ) (f : ℝ) (m : Nat) (h1 : 1 ≤ m) (h2 : m ≤ 31) (hx : x.length = 2 ^ m) :
    ∃ h, harmonics x f = .ok h ∧ h.amplitudes.length = x.length / 2 ∧ h.frequencies.length = x.length / 2 ∧
      ∀ q < x.length / 2, h.amplitudes[q]? = some (amplitudeAt x q) ∧ h.frequencies[q]? = some (q * f) := by
  refine ⟨_, harmonics_eq m h1 h2 x hx f, by simp, by simp, ?_⟩
  intro q hq
  simp [hq, mul_comm]

example : ∃ h, harmonics [1, 0, 3, 0] 50 = .ok h ∧ h.amplitudes.length = 2 := by
  obtain ⟨h, a, b, _⟩ := harmonics_are_components [1, 0, 3, 0] 50 2 (by decide) (by decide) rfl
  exact ⟨h, a, by simpa using b⟩

/-- C135: the first amplitude is the mean of the values without its sign. -/
theorem first_amplitude_mean (x : List ℝ) : amplitudeAt x 0 = |mean x| := by
  unfold amplitudeAt mean
  rw [component_zero, Complex.norm_real, Real.norm_eq_abs, abs_div, Nat.abs_cast]
  simp

/-- Amplitudes are not negative and are bounded by the values. -/
theorem amplitude_bounds (x : List ℝ) (B : ℝ) (hB : ∀ v ∈ x, |v| ≤ B) (h0 : 0 < x.length) (q : Nat) :
    0 ≤ amplitudeAt x q ∧ amplitudeAt x q ≤ (if q = 0 then 1 else 2) * B := by
  have hN : (0 : ℝ) < x.length := by exact_mod_cast h0
  have hf : (0 : ℝ) ≤ (if q = 0 then 1 else 2) := by split_ifs <;> norm_num
  constructor
  · unfold amplitudeAt
    positivity
  · unfold amplitudeAt
    rw [mul_div_assoc]
    apply mul_le_mul_of_nonneg_left _ hf
    rw [div_le_iff₀ hN, mul_comm]
    unfold component
    refine (norm_sum_le _ _).trans ?_
    have : ∀ j ∈ (univ : Finset (Fin x.length)), ‖((x.get j : ℝ) : ℂ) * turn x.length j.val q‖ ≤ B := by
      intro j _
      rw [norm_mul, Complex.norm_real, turn_eq, tw_norm, mul_one]
      exact hB _ (List.get_mem x j)
    refine (Finset.sum_le_sum this).trans ?_
    simp

example : amplitudeAt [1, -1] 0 ≤ 1 := by
  have := (amplitude_bounds [1, -1] 1 (by simp) (by simp) 0).2
  simpa using this

/-! ## What changes of the values do (C136) -/

/-- Harmonics with their amplitudes changed, the frequencies kept. -/
def Harmonics.mapAmplitudes (h : Harmonics) (g : ℝ → ℝ) : Harmonics :=
  { h with amplitudes := h.amplitudes.map g }

/-- Values are either refused, undefined, or a power of two from 2 to `2 ^ 31`. -/
theorem sizes (n : Nat) (h : n < 2 ^ 32) : n < 2 ∨ (0 < n ∧ ¬ ∃ m, n = 2 ^ m) ∨ ∃ m, 1 ≤ m ∧ m ≤ 31 ∧ n = 2 ^ m := by
  by_cases hp : ∃ m, n = 2 ^ m
  · obtain ⟨m, rfl⟩ := hp
    rcases m with _ | m
    · left; simp
    · right; right
      refine ⟨m + 1, by omega, ?_, rfl⟩
      have := (Nat.pow_lt_pow_iff_right (by norm_num : 1 < 2)).mp h
      omega
  · by_cases h2 : n < 2
    · exact Or.inl h2
    · exact Or.inr (Or.inl ⟨by omega, hp⟩)

/-- C136: multiplying all values by a factor multiplies all amplitudes by its size, and changes nothing else. -/
theorem harmonics_scaled (x : List ℝ) (s f : ℝ) (hx : x.length < 2 ^ 32) :
    harmonics (x.map (s * ·)) f = (harmonics x f).bind fun h => .ok (h.mapAmplitudes (|s| * ·)) := by
  rcases sizes x.length hx with h | ⟨h0, h⟩ | ⟨m, h1, h2, h⟩
  · rw [harmonics_undefined _ _ h, harmonics_undefined _ _ (by simpa using h)]; rfl
  · rw [harmonics_refused _ _ h0 h, harmonics_refused _ _ (by simpa using h0) (by simpa using h)]; rfl
  · rw [harmonics_eq m h1 h2 x h, harmonics_eq m h1 h2 _ (by simpa using h)]
    simp only [Res.bind, Harmonics.mapAmplitudes, List.length_map, List.map_map]
    congr 2
    apply List.map_congr_left
    intro q _
    simp only [Function.comp, amplitudeAt, component_scale, List.length_map, norm_mul, Complex.norm_real, Real.norm_eq_abs]
    ring

example : (harmonics [1, 2] 50).bind (fun h => .ok (h.mapAmplitudes (|(-3)| * ·))) = harmonics [-3, -6] 50 := by
  rw [← harmonics_scaled [1, 2] (-3) 50 (by simp)]
  norm_num

/-- C136: adding the same to all values changes no amplitude but the first. -/
theorem harmonics_offset (x : List ℝ) (c f : ℝ) (m : Nat) (h1 : 1 ≤ m) (h2 : m ≤ 31) (hx : x.length = 2 ^ m) :
    ∃ h h', harmonics x f = .ok h ∧ harmonics (x.map (· + c)) f = .ok h' ∧ h'.frequencies = h.frequencies ∧
      h'.amplitudes.head? = some |mean x + c| ∧ h'.amplitudes.tail = h.amplitudes.tail := by
  refine ⟨_, _, harmonics_eq m h1 h2 x hx f, harmonics_eq m h1 h2 _ (by simpa using hx) f, by simp, ?_, ?_⟩
  · have h0 : 0 < x.length / 2 := by
      obtain ⟨k, rfl⟩ : ∃ k, m = k + 1 := ⟨m - 1, by omega⟩
      have : 0 < 2 ^ k := by positivity
      rw [hx, pow_succ]; omega
    have hN : (x.length : ℝ) ≠ 0 := by
      have : 0 < x.length := by omega
      exact_mod_cast this.ne'
    obtain ⟨k, hk⟩ : ∃ k, x.length / 2 = k + 1 := ⟨x.length / 2 - 1, by omega⟩
    simp only [List.length_map, hk, List.range_succ_eq_map, List.map_cons, List.head?_cons]
    rw [first_amplitude_mean]
    congr 2
    unfold mean
    rw [List.length_map]
    have : (x.map (· + c)).sum = x.sum + x.length * c := by
      clear hk h0 hN hx
      induction x with
      | nil => simp
      | cons a x ih => simp only [List.map_cons, List.sum_cons, List.length_cons, ih]; push_cast; ring
    rw [this]
    field_simp
  · simp only [List.length_map]
    rw [← List.map_tail, ← List.map_tail]
    apply List.map_congr_left
    intro q hq
    rw [List.mem_iff_getElem?] at hq
    obtain ⟨i, hi⟩ := hq
    rw [← List.drop_one, List.getElem?_drop] at hi
    obtain ⟨hi1, hi2⟩ := List.getElem?_eq_some_iff.mp hi
    simp only [List.length_range] at hi1
    rw [List.getElem_range] at hi2
    unfold amplitudeAt
    rw [component_offset x c q (by omega) (by omega), List.length_map]

example : ∃ h', harmonics [1, 2, 5, 2] 50 = .ok h' := by
  obtain ⟨_, h', _, b, _⟩ := harmonics_offset [0, 1, 4, 1] 1 50 2 (by decide) (by decide) rfl
  norm_num at b
  exact ⟨h', b⟩

/-- C136: starting the period elsewhere leaves the harmonics as they are. -/
theorem harmonics_shifted (x : List ℝ) (s : Nat) (f : ℝ) (hx : x.length < 2 ^ 32) :
    harmonics (x.rotate s) f = harmonics x f := by
  rcases sizes x.length hx with h | ⟨h0, h⟩ | ⟨m, h1, h2, h⟩
  · rw [harmonics_undefined _ _ h, harmonics_undefined _ _ (by simpa using h)]
  · rw [harmonics_refused _ _ h0 h, harmonics_refused _ _ (by simpa using h0) (by simpa using h)]
  · rw [harmonics_eq m h1 h2 x h, harmonics_eq m h1 h2 _ (by simpa using h)]
    simp only [List.length_rotate]
    congr 2
    apply List.map_congr_left
    intro q _
    simp only [amplitudeAt, component_rotate, List.length_rotate, norm_mul, tw_norm, one_mul]

example : harmonics [2, 3, 4, 1] 50 = harmonics [1, 2, 3, 4] 50 := by
  have := harmonics_shifted [1, 2, 3, 4] 1 50 (by simp)
  simpa using this

/-- C136: no amplitude of a sum of values exceeds the sum of the amplitudes. -/
theorem harmonics_of_sum (x y : List ℝ) (f : ℝ) (m : Nat) (h1 : 1 ≤ m) (h2 : m ≤ 31) (hx : x.length = 2 ^ m)
    (hy : y.length = 2 ^ m) :
    ∃ a b c, harmonics x f = .ok a ∧ harmonics y f = .ok b ∧ harmonics (List.zipWith (· + ·) x y) f = .ok c ∧
      ∀ (q : Nat) (u v w : ℝ), a.amplitudes[q]? = some u → b.amplitudes[q]? = some v → c.amplitudes[q]? = some w → w ≤ u + v := by
  have hl : (List.zipWith (· + ·) x y).length = 2 ^ m := by simp [hx, hy]
  refine ⟨_, _, _, harmonics_eq m h1 h2 x hx f, harmonics_eq m h1 h2 y hy f, harmonics_eq m h1 h2 _ hl f, ?_⟩
  intro q u v w hu hv hw
  simp only [List.getElem?_map, Option.map_eq_some_iff] at hu hv hw
  obtain ⟨i, hi, rfl⟩ := hu
  obtain ⟨j, hj, rfl⟩ := hv
  obtain ⟨k, hk, rfl⟩ := hw
  rw [List.getElem?_eq_some_iff] at hi hj hk
  obtain ⟨_, rfl⟩ := hi
  obtain ⟨_, rfl⟩ := hj
  obtain ⟨_, rfl⟩ := hk
  simp only [List.getElem_range]
  unfold amplitudeAt
  rw [component_add x y (by rw [hx, hy]), hl, hx, hy, ← add_div, ← mul_add]
  gcongr
  exact norm_add_le _ _

example : ∃ c, harmonics [1, 5] 50 = .ok c := by
  obtain ⟨_, _, c, _, _, h, _⟩ := harmonics_of_sum [0, 2] [1, 3] 50 1 (by decide) (by decide) rfl rfl
  norm_num at h
  exact ⟨c, h⟩

/-! ## Power (C137) -/

/-- C137: the mean of the squares of the values is the square of the first amplitude, plus half the squares of the others,
plus the square of the mean of the values with alternating signs: the component at half the number of points, which is
not among the harmonics. -/
theorem mean_square (x : List ℝ) (f : ℝ) (m : Nat) (h1 : 1 ≤ m) (h2 : m ≤ 31) (hx : x.length = 2 ^ m) :
    ∃ h a0 as, harmonics x f = .ok h ∧ h.amplitudes = a0 :: as ∧
      mean (x.map (· ^ 2)) = a0 ^ 2 + (as.map fun a => a ^ 2 / 2).sum + (‖component x (x.length / 2)‖ / x.length) ^ 2 := by
  obtain ⟨k, rfl⟩ : ∃ k, m = k + 1 := ⟨m - 1, by omega⟩
  have hk : 0 < 2 ^ k := by positivity
  have hl : x.length = 2 * 2 ^ k := by rw [hx, pow_succ]; ring
  have hN : 0 < x.length := by omega
  have hN' : (x.length : ℝ) ≠ 0 := by exact_mod_cast hN.ne'
  obtain ⟨n, hn⟩ : ∃ n, 2 ^ k = n + 1 := ⟨2 ^ k - 1, by omega⟩
  have hh : x.length / 2 = n + 1 := by omega
  refine ⟨_, amplitudeAt x 0, (List.range' 1 n).map (amplitudeAt x), harmonics_eq (k + 1) h1 h2 x hx f, ?_, ?_⟩
  · simp only [hh]
    rw [List.range_eq_range', List.range'_succ, List.map_cons]
  · have hp := parseval x hN
    have hsym := sum_symmetric (2 ^ k) hk (fun q => ‖component x q‖ ^ 2) (fun q hq => by
      have := norm_conj_component x q (by omega)
      rw [← hl, this, Complex.norm_conj])
    rw [← hl, hp] at hsym
    have hms : mean (x.map (· ^ 2)) = (∑ j ∈ range x.length, (val x j) ^ 2) / x.length := by
      unfold mean
      rw [List.length_map]
      congr 1
      rw [← Fin.sum_univ_eq_sum_range (fun j => val x j ^ 2)]
      have : (x.map (· ^ 2)) = List.ofFn fun j : Fin x.length => (x.get j) ^ 2 := by
        conv_lhs => rw [← List.ofFn_get x, List.map_ofFn]
        rfl
      rw [this, List.sum_ofFn]
      apply sum_congr rfl
      intro j _
      rw [val_of (v := x.get j) (by simp)]
    have hsum : ((List.range' 1 n).map (amplitudeAt x)).map (fun a => a ^ 2 / 2) =
        (List.range' 1 n).map fun q => 2 * ‖component x q‖ ^ 2 / (x.length : ℝ) ^ 2 := by
      rw [List.map_map]
      apply List.map_congr_left
      intro q hq
      have : q ≠ 0 := by
        obtain ⟨i, _, rfl⟩ := List.mem_range'.mp hq
        omega
      simp only [Function.comp, amplitudeAt, if_neg this]
      field_simp
    have hIco : ((List.range' 1 n).map fun q => 2 * ‖component x q‖ ^ 2 / (x.length : ℝ) ^ 2).sum =
        (2 * ∑ q ∈ Ico 1 (2 ^ k), ‖component x q‖ ^ 2) / (x.length : ℝ) ^ 2 := by
      rw [mul_sum, sum_div, hn]
      rw [show (Ico 1 (n + 1)) = (List.range' 1 n).toFinset by
        ext a; simp [List.mem_range'_1, Nat.add_comm]]
      rw [List.sum_toFinset _ (List.nodup_range' (step := 1))]
    rw [hsum, hIco, hms, show x.length / 2 = 2 ^ k by omega]
    have h0 : amplitudeAt x 0 = ‖component x 0‖ / x.length := by simp [amplitudeAt]
    rw [h0]
    rw [div_pow, div_pow, ← add_div, ← add_div, ← hsym]
    field_simp

/-- C137: so the power of the harmonics never exceeds that of the values, and equals it exactly if the values with
alternating signs sum to zero. -/
theorem harmonics_power_le (x : List ℝ) (f : ℝ) (m : Nat) (h1 : 1 ≤ m) (h2 : m ≤ 31) (hx : x.length = 2 ^ m) :
    ∃ h a0 as, harmonics x f = .ok h ∧ h.amplitudes = a0 :: as ∧
      a0 ^ 2 + (as.map fun a => a ^ 2 / 2).sum ≤ mean (x.map (· ^ 2)) ∧
      (a0 ^ 2 + (as.map fun a => a ^ 2 / 2).sum = mean (x.map (· ^ 2)) ↔
        ∑ j : Fin x.length, (-1) ^ j.val * x.get j = 0) := by
  obtain ⟨h, a0, as, e1, e2, e3⟩ := mean_square x f m h1 h2 hx
  refine ⟨h, a0, as, e1, e2, ?_, ?_⟩
  · rw [e3]
    have := sq_nonneg (‖component x (x.length / 2)‖ / x.length)
    linarith
  · obtain ⟨k, rfl⟩ : ∃ k, m = k + 1 := ⟨m - 1, by omega⟩
    have hk : 0 < 2 ^ k := by positivity
    have hl : x.length = 2 * (x.length / 2) := by rw [hx, pow_succ]; omega
    have hN : 0 < x.length := by rw [hx]; positivity
    have hN' : (x.length : ℝ) ≠ 0 := by exact_mod_cast hN.ne'
    have hc : component x (x.length / 2) = ((∑ j : Fin x.length, (-1) ^ j.val * x.get j : ℝ) : ℂ) := by
      unfold component
      push_cast
      apply sum_congr rfl
      intro j _
      rw [mul_comm]
      congr 1
      rw [turn_eq]
      have e : (-((j.val : ℤ) * ((x.length / 2 : ℕ) : ℤ))) = (-((x.length / 2 : ℕ) : ℤ)) * (j.val : ℕ) := by ring
      rw [e, tw_mul_nat]
      congr 1
      unfold tw
      have : (2 * Real.pi * Complex.I * (((-((x.length / 2 : ℕ) : ℤ) : ℤ) : ℂ) / (x.length : ℂ))) = -(Real.pi * Complex.I) := by
        have h3 : (x.length : ℂ) = 2 * ((x.length / 2 : ℕ) : ℂ) := by exact_mod_cast hl
        have h4 : ((x.length / 2 : ℕ) : ℂ) ≠ 0 := by
          have : x.length / 2 ≠ 0 := by omega
          exact_mod_cast this
        rw [Int.cast_neg, Int.cast_natCast, h3]
        field_simp
      rw [this, Complex.exp_neg, Complex.exp_pi_mul_I]
      norm_num
    rw [e3, hc, Complex.norm_real]
    constructor
    · intro h
      have h' : (‖∑ j : Fin x.length, (-1) ^ j.val * x.get j‖ / (x.length : ℝ)) ^ 2 = 0 := by linarith
      have := pow_eq_zero_iff (two_ne_zero) |>.mp h'
      rcases div_eq_zero_iff.mp this with h5 | h5
      · exact norm_eq_zero.mp h5
      · exact absurd h5 hN'
    · intro h
      rw [h]
      simp

/-- Alternating values have no harmonics at all but all their power above them. -/
example : ∃ h a0 as, harmonics [1, -1, 1, -1] 50 = .ok h ∧ h.amplitudes = a0 :: as ∧
    a0 ^ 2 + (as.map fun a => a ^ 2 / 2).sum < mean ([1, -1, 1, -1].map (· ^ 2)) := by
  obtain ⟨h, a0, as, e1, e2, e3, e4⟩ := harmonics_power_le [1, -1, 1, -1] 50 2 (by decide) (by decide) rfl
  refine ⟨h, a0, as, e1, e2, lt_of_le_of_ne e3 ?_⟩
  intro e
  have := e4.mp e
  simp [Fin.sum_univ_succ] at this
  norm_num at this

end Verif.Fft
