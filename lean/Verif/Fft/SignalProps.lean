import Verif.Fft.HarmonicsProps
import Verif.Waveforms.ShapeProps
import Verif.Waveforms.SampleProps

/-! # Properties of signals made of harmonics, of trimmed harmonics, of processed data (C138 to C140) -/

namespace Verif.Fft

set_option linter.unusedSimpArgs false

open Finset

/-! ## Signals read back (C138) -/

/-- C138: a signal made of harmonics below half its number of points is read back to their amplitudes, whatever their
phases, with nothing at the others. -/
theorem signal_read_back (m : Nat) (h1 : 1 ≤ m) (h2 : m ≤ 31) (M : Nat) (hM : 2 * M ≤ 2 ^ m) (c p : Nat → ℝ) (f : ℝ) :
    ∃ h, harmonics (signal (2 ^ m) M c p) f = .ok h ∧ h.amplitudes.length = 2 ^ m / 2 ∧
      ∀ q < 2 ^ m / 2, h.amplitudes[q]? =
        some (if q < M then (if q = 0 then |c 0 * Real.cos (p 0)| else |c q|) else 0) := by
  have hN : 0 < 2 ^ m := by positivity
  have hN' : ((2 ^ m : ℕ) : ℝ) ≠ 0 := by exact_mod_cast hN.ne'
  have hl : (signal (2 ^ m) M c p).length = 2 ^ m := by simp [signal]
  refine ⟨_, harmonics_eq m h1 h2 _ hl f, by simp [hl], ?_⟩
  intro q hq
  simp only [hl, List.getElem?_map, List.getElem?_range hq, Option.map_some]
  congr 1
  unfold amplitudeAt
  rw [component_signal (2 ^ m) M hM hN c p q (by omega), hl]
  by_cases hqM : q < M
  · rw [if_pos hqM, if_pos hqM]
    by_cases h0 : q = 0
    · rw [if_pos h0, if_pos h0, if_pos h0, Complex.norm_real, Real.norm_eq_abs, abs_mul, Nat.abs_cast]
      field_simp
    · rw [if_neg h0, if_neg h0, if_neg h0, norm_mul, norm_mul, Complex.norm_exp_ofReal_mul_I, Complex.norm_real,
        Real.norm_eq_abs, norm_div, Complex.norm_natCast]
      norm_num
      field_simp
  · rw [if_neg hqM, if_neg hqM]
    simp

/-- A cosine of amplitude 3 at the first harmonic of eight points. -/
example : ∃ h, harmonics (signal 8 2 (fun q => if q = 1 then -3 else 0) fun _ => 0) 50 = .ok h ∧ h.amplitudes[1]? = some 3 := by
  obtain ⟨h, a, _, b⟩ := signal_read_back 3 (by decide) (by decide) 2 (by decide) (fun q => if q = 1 then -3 else 0) (fun _ => 0) 50
  refine ⟨h, a, ?_⟩
  rw [b 1 (by decide)]
  norm_num

theorem zip_sum (f : ℝ) (hf : 0 < f) (n : Nat) (i : Nat) (A : List ℝ) :
    ((A.zip ((List.range A.length).map fun k : Nat => f * k)).map fun p => contribution f p.1 p.2 n i).sum =
      ∑ h ∈ range A.length, val A h * Real.cos (2 * Real.pi * h * i / n + (if h = 0 then 0 else -(Real.pi / 2))) := by
  have e : (A.zip ((List.range A.length).map fun k : Nat => f * k)).map (fun p => contribution f p.1 p.2 n i) =
      (List.range A.length).map fun h : Nat => contribution f (val A h) (f * h) n i := by
    apply List.ext_getElem?
    intro j
    by_cases hj : j < A.length
    · have hz : (A.zip ((List.range A.length).map fun k : Nat => f * k))[j]? = some (val A j, f * (j : ℝ)) :=
        List.getElem?_zip_eq_some.mpr ⟨val_get hj, by rw [List.getElem?_map, List.getElem?_range hj]; rfl⟩
      rw [List.getElem?_map, List.getElem?_map, List.getElem?_range hj, hz]
      rfl
    · rw [List.getElem?_eq_none (by simp; omega), List.getElem?_eq_none (by simp; omega)]
  rw [e, ← List.sum_toFinset _ List.nodup_range, List.toFinset_range]
  apply sum_congr rfl
  intro h _
  unfold contribution
  by_cases h0 : h = 0
  · subst h0
    rw [if_neg (by simp), if_pos rfl]
    simp
  · have hp : (0 : ℝ) < h := by
      have : 0 < h := Nat.pos_of_ne_zero h0
      exact_mod_cast this
    rw [if_pos (by positivity), if_neg h0, ← sub_eq_add_neg, Real.cos_sub_pi_div_two, mul_comm]
    congr 2
    field_simp

/-- Harmonics whose frequencies are the multiples of one. -/
def IsSeries (h : Harmonics) (f : ℝ) : Prop :=
  h.amplitudes ≠ [] ∧ h.frequencies = (List.range h.amplitudes.length).map fun k : Nat => f * k

theorem reconstruct_eq (setting : Nat) (h : Harmonics) (f : ℝ) (hf : 0 < f) (hs : IsSeries h f) :
    reconstruct setting h f = .ok (signal (pointsFor setting (h.amplitudes.length - 1)) h.amplitudes.length
      (val h.amplitudes) fun q => if q = 0 then 0 else -(Real.pi / 2)) := by
  obtain ⟨hne, hfr⟩ := hs
  obtain ⟨M, hM⟩ : ∃ M, h.amplitudes.length = M + 1 := by
    cases hA : h.amplitudes with
    | nil => exact absurd hA hne
    | cons a l => exact ⟨l.length, by simp⟩
  have hlast : h.frequencies.getLast? = some (f * M) := by
    rw [hfr, hM, List.range_succ]
    simp
  unfold reconstruct
  rw [hlast]
  simp only
  have hfl : ⌊f * (M : ℝ) / f⌋₊ = M := by
    rw [mul_div_cancel_left₀ _ hf.ne', Nat.floor_natCast]
  rw [hfl, show h.amplitudes.length - 1 = M by omega]
  unfold reconstructed
  rw [if_neg (by rw [hfr]; simp), hfr]
  congr 1
  unfold signal
  apply List.map_congr_left
  intro i _
  exact zip_sum f hf _ i h.amplitudes

theorem points_enough (setting M : Nat) (hn : 2 ≤ pointsFor setting M) : 2 * (M + 1) ≤ pointsFor setting M := by
  rcases Nat.eq_zero_or_pos M with h | h
  · subst h; exact hn
  · unfold pointsFor
    rw [if_neg h.ne']
    have := Nat.le_pow_clog (by norm_num : 1 < 2) M
    have h3 : 16 * 2 ^ Nat.clog 2 M ≤ max setting (16 * 2 ^ Nat.clog 2 M) := le_max_right _ _
    omega

/-- C138: the signal reconstructed from a series of harmonics has, if its number of points is a power of two, the amplitudes
it was made from (without signs), and nothing above them. -/
theorem reconstructed_harmonics (setting : Nat) (h : Harmonics) (f : ℝ) (hf : 0 < f) (hs : IsSeries h f) (m : Nat)
    (h1 : 1 ≤ m) (h2 : m ≤ 31) (hn : pointsFor setting (h.amplitudes.length - 1) = 2 ^ m) :
    ∃ y h', reconstruct setting h f = .ok y ∧ y.length = 2 ^ m ∧ harmonics y f = .ok h' ∧
      h'.amplitudes = h.amplitudes.map abs ++ List.replicate (2 ^ m / 2 - h.amplitudes.length) 0 := by
  have hlen : 0 < h.amplitudes.length := List.length_pos_iff.mpr hs.1
  have h2m : 2 ≤ 2 ^ m := by
    calc 2 = 2 ^ 1 := rfl
      _ ≤ 2 ^ m := Nat.pow_le_pow_right (by norm_num) h1
  have hen := points_enough setting (h.amplitudes.length - 1) (by rw [hn]; exact h2m)
  rw [hn, Nat.sub_add_cancel hlen] at hen
  obtain ⟨h', e1, e2, e3⟩ := signal_read_back m h1 h2 h.amplitudes.length hen (val h.amplitudes)
    (fun q => if q = 0 then 0 else -(Real.pi / 2)) f
  refine ⟨_, h', reconstruct_eq setting h f hf hs, by simp [signal, hn], by rw [hn]; exact e1, ?_⟩
  apply List.ext_getElem?
  intro q
  by_cases hq : q < 2 ^ m / 2
  · rw [e3 q hq]
    by_cases hqM : q < h.amplitudes.length
    · rw [if_pos hqM, List.getElem?_append_left (by simpa using hqM), List.getElem?_map, val_get hqM]
      simp only [Option.map_some]
      congr 1
      by_cases h0 : q = 0
      · subst h0
        simp
      · rw [if_neg h0]
    · rw [if_neg hqM, List.getElem?_append_right (by simpa using hqM), List.getElem?_replicate, if_pos]
      simp only [List.length_map]
      omega
  · rw [List.getElem?_eq_none (by omega), List.getElem?_eq_none (by simp; omega)]

example : ∃ y h', reconstruct 128 ⟨[1, 2], [0, 50]⟩ 50 = .ok y ∧ harmonics y 50 = .ok h' ∧ h'.amplitudes.take 2 = [1, 2] := by
  obtain ⟨y, h', a, _, b, c⟩ := reconstructed_harmonics 128 ⟨[1, 2], [0, 50]⟩ 50 (by norm_num)
    ⟨by simp, by simp [List.range_succ]⟩ 7 (by decide) (by decide) (by decide +kernel)
  refine ⟨y, h', a, b, ?_⟩
  rw [c]
  simp

theorem harmonics_series (x : List ℝ) (f : ℝ) (m : Nat) (h1 : 1 ≤ m) (h2 : m ≤ 31) (hx : x.length = 2 ^ m) :
    ∃ h, harmonics x f = .ok h ∧ IsSeries h f ∧ h.amplitudes = (List.range (x.length / 2)).map (amplitudeAt x) := by
  refine ⟨_, harmonics_eq m h1 h2 x hx f, ⟨?_, by simp⟩, rfl⟩
  have : 2 ≤ x.length := by
    rw [hx]
    calc 2 = 2 ^ 1 := rfl
      _ ≤ 2 ^ m := Nat.pow_le_pow_right (by norm_num) h1
  simp
  omega

/-- C138: with a setting that is a power of two, the harmonics of values are kept by reconstruction: those of the signal
reconstructed from them are the same, followed by zeros. -/
theorem harmonics_kept (x : List ℝ) (f : ℝ) (hf : 0 < f) (m : Nat) (h1 : 1 ≤ m) (h2 : m ≤ 27) (hx : x.length = 2 ^ m)
    (s : Nat) (s1 : 1 ≤ s) (s2 : s ≤ 31) :
    ∃ h y h', harmonics x f = .ok h ∧ reconstruct (2 ^ s) h f = .ok y ∧ harmonics y f = .ok h' ∧
      ∃ n, h'.amplitudes = h.amplitudes ++ List.replicate n 0 := by
  obtain ⟨h, e1, e2, e3⟩ := harmonics_series x f m h1 (by omega) hx
  have hlen : h.amplitudes.length = 2 ^ m / 2 := by rw [e3]; simp [hx]
  obtain ⟨k, hk1, hk2, hk⟩ : ∃ k, 1 ≤ k ∧ k ≤ 31 ∧ pointsFor (2 ^ s) (h.amplitudes.length - 1) = 2 ^ k := by
    unfold pointsFor
    by_cases h0 : h.amplitudes.length - 1 = 0
    · rw [if_pos h0]
      exact ⟨s, s1, s2, by simp⟩
    · rw [if_neg h0]
      have hc : Nat.clog 2 (h.amplitudes.length - 1) ≤ m := by
        apply Nat.clog_le_of_le_pow
        omega
      have e : 16 * 2 ^ Nat.clog 2 (h.amplitudes.length - 1) = 2 ^ (4 + Nat.clog 2 (h.amplitudes.length - 1)) := by
        rw [pow_add]; rfl
      rw [e]
      rcases le_total s (4 + Nat.clog 2 (h.amplitudes.length - 1)) with hle | hle
      · exact ⟨_, by omega, by omega, max_eq_right (Nat.pow_le_pow_right (by norm_num) hle)⟩
      · exact ⟨s, s1, s2, max_eq_left (Nat.pow_le_pow_right (by norm_num) hle)⟩
  obtain ⟨y, h', a, _, b, c⟩ := reconstructed_harmonics (2 ^ s) h f hf e2 k hk1 hk2 hk
  refine ⟨h, y, h', e1, a, b, 2 ^ k / 2 - h.amplitudes.length, ?_⟩
  rw [c]
  congr 1
  rw [e3, List.map_map]
  apply List.map_congr_left
  intro q _
  simp only [Function.comp]
  apply abs_of_nonneg
  unfold amplitudeAt
  positivity

example : ∃ h y, harmonics [1, 2, 3, 9] 50 = .ok h ∧ reconstruct 128 h 50 = .ok y := by
  obtain ⟨h, y, _, a, b, _⟩ := harmonics_kept [1, 2, 3, 9] 50 (by norm_num) 2 (by decide) (by decide) rfl 7 (by decide) (by decide)
  exact ⟨h, y, a, b⟩

/-- C138: with a setting that is not a power of two and larger than what the harmonics need, the signal has that number of
points, and its harmonics are refused. -/
theorem odd_setting_refused (setting : Nat) (h : Harmonics) (f : ℝ) (hf : 0 < f) (hs : IsSeries h f)
    (hn : ¬ ∃ m, setting = 2 ^ m) (h0 : 0 < setting)
    (hb : pointsFor setting (h.amplitudes.length - 1) = setting) :
    ∃ y, reconstruct setting h f = .ok y ∧ harmonics y f = .throws := by
  refine ⟨_, reconstruct_eq setting h f hf hs, ?_⟩
  rw [hb]
  exact harmonics_refused _ _ (by simp [signal, h0]) (by simpa [signal] using hn)

example : ∃ y, reconstruct 100 ⟨[1, 2], [0, 50]⟩ 50 = .ok y ∧ harmonics y 50 = .throws := by
  apply odd_setting_refused 100 _ _ (by norm_num) ⟨by simp, by simp [List.range_succ]⟩ _ (by norm_num) (by decide +kernel)
  rintro ⟨m, hm⟩
  have h6 : m < 7 := (Nat.pow_lt_pow_iff_right (by norm_num : 1 < 2)).mp (by omega)
  interval_cases m <;> omega

theorem mean_signal (N M : Nat) (hM : 2 * M ≤ N) (hN : 0 < N) (h0 : 0 < M) (c p : Nat → ℝ) :
    mean (signal N M c p) = c 0 * Real.cos (p 0) := by
  have h := component_signal N M hM hN c p 0 (by omega)
  rw [component_zero, if_pos h0, if_pos rfl] at h
  have h' : (signal N M c p).sum = N * (c 0 * Real.cos (p 0)) := by exact_mod_cast h
  have hN' : (N : ℝ) ≠ 0 := by exact_mod_cast hN.ne'
  unfold mean
  rw [h', show (signal N M c p).length = N by simp [signal]]
  field_simp

/-- C138: the mean of the reconstructed signal is that of the values without its sign: values with a negative mean, however
few harmonics they have, come back with a positive one. -/
theorem sign_of_mean_lost (x : List ℝ) (f : ℝ) (hf : 0 < f) (m : Nat) (h1 : 1 ≤ m) (h2 : m ≤ 31) (hx : x.length = 2 ^ m)
    (setting : Nat) (hset : 2 ≤ setting) :
    ∃ h y, harmonics x f = .ok h ∧ reconstruct setting h f = .ok y ∧ mean y = |mean x| := by
  obtain ⟨h, e1, e2, e3⟩ := harmonics_series x f m h1 h2 hx
  refine ⟨h, _, e1, reconstruct_eq setting h f hf e2, ?_⟩
  have hlen : 0 < h.amplitudes.length := List.length_pos_iff.mpr e2.1
  have hp : 2 ≤ pointsFor setting (h.amplitudes.length - 1) := le_trans hset (le_max_left _ _)
  have hen := points_enough setting (h.amplitudes.length - 1) hp
  rw [Nat.sub_add_cancel hlen] at hen
  rw [mean_signal _ _ hen (by omega) hlen, if_pos rfl, Real.cos_zero, mul_one, ← first_amplitude_mean]
  apply val_of
  rw [e3]
  rw [e3] at hlen
  simp only [List.length_map, List.length_range] at hlen
  simp only [List.getElem?_map, List.getElem?_range hlen, Option.map_some]

example : ∃ h y, harmonics [-1, -1] 50 = .ok h ∧ reconstruct 128 h 50 = .ok y ∧ mean y = 1 ∧ mean [-1, -1] = -1 := by
  obtain ⟨h, y, a, b, c⟩ := sign_of_mean_lost [-1, -1] 50 (by norm_num) 1 (by decide) (by decide) rfl 128 (by decide)
  refine ⟨h, y, a, b, ?_, by norm_num [mean]⟩
  rw [c]
  norm_num [mean]

/-! ## Trimmed harmonics (C139) -/

/-- The weight of a harmonic: its amplitude times the root of its frequency. -/
noncomputable def weightOf (p : ℝ × ℝ) : ℝ := p.1 * Real.sqrt p.2

theorem foldl_max (l : List (ℝ × ℝ)) (m : ℝ) :
    let r := l.foldl (fun m p => max (p.1 * Real.sqrt p.2) m) m
    m ≤ r ∧ (∀ p ∈ l, weightOf p ≤ r) ∧ (r = m ∨ ∃ p ∈ l, r = weightOf p) := by
  induction l generalizing m with
  | nil => simp
  | cons a l ih =>
    obtain ⟨h1, h2, h3⟩ := ih (max (a.1 * Real.sqrt a.2) m)
    simp only [List.foldl_cons]
    refine ⟨(le_max_right _ _).trans h1, ?_, ?_⟩
    · intro p hp
      rcases List.mem_cons.mp hp with rfl | hp
      · exact (le_max_left _ _).trans h1
      · exact h2 p hp
    · rcases h3 with h | ⟨p, hp, h⟩
      · rcases le_total (a.1 * Real.sqrt a.2) m with hc | hc
        · left; rw [h]; exact max_eq_right hc
        · right; exact ⟨a, List.mem_cons_self, by rw [h]; exact max_eq_left hc⟩
      · right; exact ⟨p, List.mem_cons_of_mem _ hp, h⟩

/-- C139: of imported harmonics the first two are kept, and of the others, in their order, exactly those whose weight is at
least the threshold times the largest weight past the first. -/
theorem trimmed_keeps (t : ℝ) (h : Harmonics) (hl : h.amplitudes.length = h.frequencies.length) (h2 : 2 ≤ h.amplitudes.length) :
    ∃ h' W, trimmed t h = .ok h' ∧ h'.amplitudes.length = h'.frequencies.length ∧
      (∀ p ∈ (h.amplitudes.zip h.frequencies).drop 1, weightOf p ≤ W) ∧
      (W = 0 ∨ ∃ p ∈ (h.amplitudes.zip h.frequencies).drop 1, W = weightOf p) ∧ 0 ≤ W ∧
      h'.amplitudes.zip h'.frequencies = (h.amplitudes.zip h.frequencies).take 2 ++
        ((h.amplitudes.zip h.frequencies).drop 2).filter fun p => decide (t * W ≤ weightOf p) := by
  obtain ⟨A, Fr⟩ := h
  rcases A with _ | ⟨a0, _ | ⟨a1, as⟩⟩
  · simp at h2
  · simp at h2
  rcases Fr with _ | ⟨f0, _ | ⟨f1, fs⟩⟩
  · simp at hl
  · simp at hl
  simp only [List.length_cons, Nat.add_right_cancel_iff] at hl
  set h : Harmonics := ⟨a0 :: a1 :: as, f0 :: f1 :: fs⟩ with hh
  obtain ⟨w1, w2, w3⟩ := foldl_max ((h.amplitudes.zip h.frequencies).drop 1) 0
  refine ⟨_, largestWeight h, rfl, by simp, w2, w3, w1, ?_⟩
  simp only [List.zip_cons_cons, List.drop_succ_cons, List.drop_zero, List.take_succ_cons, List.take_zero,
    List.cons_append, List.nil_append, hh]
  congr 2
  rw [List.zip_map', List.map_id'']
  · apply List.filter_congr
    intro p _
    simp only [decide_eq_decide, not_lt, weightOf, mul_comm t]
  · intro p; rfl

example : ∃ h' : Harmonics, trimmed (1 / 2) ⟨[1, 2, 3, 0], [0, 1, 4, 9]⟩ = .ok h' := by
  obtain ⟨h', _, a, _⟩ := trimmed_keeps (1 / 2) ⟨[1, 2, 3, 0], [0, 1, 4, 9]⟩ rfl (by simp)
  exact ⟨h', a⟩

/-- C139: with a threshold of at most one no amplitude that has the largest weight is dropped, and with a threshold of at
most zero nothing with an amplitude that is not negative is. -/
theorem trimmed_keeps_main (t : ℝ) (h h' : Harmonics) (hl : h.amplitudes.length = h.frequencies.length)
    (h2 : 2 ≤ h.amplitudes.length) (hpos : ∀ a ∈ h.amplitudes, 0 ≤ a) (hr : trimmed t h = .ok h') :
    (t ≤ 1 → ∀ p ∈ (h.amplitudes.zip h.frequencies).drop 1,
      (∀ r ∈ (h.amplitudes.zip h.frequencies).drop 1, weightOf r ≤ weightOf p) → p ∈ h'.amplitudes.zip h'.frequencies) ∧
    (t ≤ 0 → h'.amplitudes.zip h'.frequencies = h.amplitudes.zip h.frequencies) := by
  obtain ⟨h'', W, e1, e2, e3, e4, e5, e6⟩ := trimmed_keeps t h hl h2
  rw [hr] at e1
  obtain rfl := Res.ok.inj e1
  have hw : ∀ p ∈ h.amplitudes.zip h.frequencies, 0 ≤ weightOf p := by
    intro p hp
    have := hpos p.1 (List.of_mem_zip hp).1
    unfold weightOf
    positivity
  constructor
  · intro ht p hp hmax
    rw [e6]
    have hpW : W ≤ weightOf p := by
      rcases e4 with h0 | ⟨r, hr, h0⟩
      · rw [h0]; exact hw p (List.mem_of_mem_drop hp)
      · rw [h0]; exact hmax r hr
    rw [List.mem_append]
    by_cases hd : p ∈ (h.amplitudes.zip h.frequencies).drop 2
    · right
      rw [List.mem_filter]
      refine ⟨hd, ?_⟩
      rw [decide_eq_true_eq]
      nlinarith
    · left
      generalize h.amplitudes.zip h.frequencies = l at hp hd
      rcases l with _ | ⟨a, _ | ⟨b, l⟩⟩
      · simp at hp
      · simp at hp
      · simp only [List.drop_succ_cons, List.drop_zero, List.mem_cons] at hp hd
        simp only [List.take_succ_cons, List.take_zero, List.mem_cons, List.not_mem_nil, or_false]
        tauto
  · intro ht
    rw [e6, List.filter_eq_self.mpr, List.take_append_drop]
    intro p hp
    have := hw p (List.mem_of_mem_drop hp)
    rw [decide_eq_true_eq]
    nlinarith

example : ∀ a ∈ ([1, 2, 3, 0] : List ℝ), 0 ≤ a := by simp

/-- C139: only imported values, and only if asked for, are trimmed. -/
theorem trimmed_only_imported (x : List ℝ) (f : ℝ) (imported trim : Bool) (t : ℝ) :
    harmonicsData x f imported trim t = if imported = true ∧ trim = true then (harmonics x f).bind (trimmed t) else harmonics x f := by
  unfold harmonicsData
  cases imported <;> cases trim <;> simp <;> cases harmonics x f <;> rfl

/-! ## Processed data (C140) -/

/-- C140: data whose number is not a power of two are sampled first, and with a setting that is a power of two what is
analysed is never refused for its size. The full claim, that the harmonics are those of the waveform, fails for data whose
number is a power of two: see `times_ignored`, `corners_taken_as_samples`. -/
theorem sampled_first_partial (w s : Waveforms.Waveform ℝ) (ts : List ℝ) (f t : ℝ) (k : Nat) (hw : w.time = some ts)
    (hp : ¬ ∃ m, w.data.length = 2 ^ m) (hs : Waveforms.sampled w f none (2 ^ k) = .ok s) :
    harmonicsFor w f false t (2 ^ k) = (harmonics s.data f).lift ∧ ∃ m, s.data.length = 2 ^ m := by
  have hc : ¬ Sampling.isSizePowerOf2 w.data.length = true := fun hc => hp ((Sampling.isSizePowerOf2_iff _).mp hc)
  constructor
  · unfold harmonicsFor
    rw [if_neg hc, hs]
    simp only [Waveforms.Res.bind]
    rw [trimmed_only_imported]
    simp
  · obtain ⟨us, _, h1, _, h4, _⟩ := Waveforms.sampled_on_waveform w s ts f none (2 ^ k) hw hs
    rw [h4]
    unfold Waveforms.pointsForSampling
    simp only [Option.getD_none]
    rw [if_neg hc]
    split_ifs
    · exact ⟨_, rfl⟩
    · exact ⟨k, rfl⟩

/-- A triangle of three corners, sampled in four points. -/
example : ∃ s : Waveforms.Waveform ℝ, Waveforms.sampled ⟨[0, 1, 0], some [0, 1 / 2, 1], none⟩ 1 none (2 ^ 2) = .ok s := by
  obtain ⟨s, _, h, _⟩ := Waveforms.sampled_succeeds (⟨[0, 1, 0], some [0, 1 / 2, 1], none⟩ : Waveforms.Waveform ℝ) [0, 1 / 2, 1]
    1 1 none (2 ^ 2) ⟨rfl, rfl, by norm_num, by norm_num [Waveforms.span], by norm_num⟩ rfl le_rfl
    (by norm_num [Waveforms.pointsForSampling])
  exact ⟨s, h⟩

/-- C140: but data whose number is a power of two are analysed as they are, as if they were equal steps of a period: the
times make no difference to the harmonics. -/
theorem times_ignored (w : Waveforms.Waveform ℝ) (time : Option (List ℝ)) (f t : ℝ) (setting : Nat) (m : Nat)
    (hw : w.data.length = 2 ^ m) :
    harmonicsFor { w with time := time } f false t setting = (harmonics w.data f).lift := by
  unfold harmonicsFor
  simp only
  rw [hw, if_pos (isPow m)]
  simp only [Waveforms.Res.bind]
  rw [trimmed_only_imported]
  simp

example : (⟨[1, 5, 2, 2], some [0, 1, 2, 7], none⟩ : Waveforms.Waveform ℝ).data.length = 2 ^ 2 := rfl

/-- C140: so the harmonics of the four corners of a triangle without dead time say that its mean is a quarter of its height,
whatever its duty cycle; its average is half the duty cycle of its height, which is the same only for a duty cycle of one
half. -/
theorem corners_taken_as_samples (p2p f duty phase t : ℝ) (setting : Nat) (hp : 0 < p2p) (hf : 0 < f) :
    ∃ w h, Waveforms.create Real.sin (2 * Real.pi) .unipolarTriangular p2p f duty 0 0 0 phase setting = .ok w ∧
      harmonicsFor w f false t setting = .ok h ∧ h.amplitudes.head? = some (p2p / 4) ∧
      Waveforms.average w = .ok (p2p * duty / 2) ∧ (p2p / 4 = p2p * duty / 2 ↔ duty = 1 / 2) := by
  obtain ⟨w, hw, hav⟩ := Waveforms.created_average Real.sin (2 * Real.pi) .unipolarTriangular p2p f duty 0 0 0 phase setting hf le_rfl
    (by simp [Waveforms.Plain])
  have hd : w.data = [0, p2p, 0, 0] := by
    rw [Waveforms.create_plain _ _ _ _ _ _ _ _ _ _ _ hf le_rfl] at hw
    simp only [Waveforms.vertices, Waveforms.Res.bind, Waveforms.Res.ok.injEq] at hw
    rw [← hw]
    simp
  have hlen : w.data.length = 2 ^ 2 := by rw [hd]; rfl
  have hh := times_ignored w w.time f t setting 2 hlen
  obtain ⟨h, e1, e2, e3⟩ := harmonics_series w.data f 2 (by decide) (by decide) hlen
  rw [e1] at hh
  refine ⟨w, h, hw, hh, ?_, ?_, ?_⟩
  · rw [e3, hlen]
    have : amplitudeAt w.data 0 = p2p / 4 := by
      rw [first_amplitude_mean, hd]
      simp only [mean, List.sum_cons, List.sum_nil, List.length_cons, List.length_nil]
      rw [abs_of_nonneg (by positivity)]
      norm_num
    simp [List.range_succ, this]
  · rw [hav]
    simp [Waveforms.shapeAverage]
  · constructor
    · intro h
      have : p2p * (duty - 1 / 2) = 0 := by linarith
      rcases mul_eq_zero.mp this with h | h
      · exact absurd h hp.ne'
      · linarith
    · rintro rfl; ring

/-- C140: four values have no distortion. -/
theorem four_values_undistorted (w : Waveforms.Waveform ℝ) (f : Option ℝ) (given : Option (Waveforms.Processed ℝ)) (t : ℝ)
    (setting : Nat) (p : Waveforms.Processed ℝ) (hw : w.data.length = 4)
    (h : processedData w f true given false t setting = .ok p) : p.thd = some 0 := by
  unfold processedData at h
  cases hf : frequencyOf w f with
  | throws => rw [hf] at h; simp [Waveforms.Res.bind] at h
  | nan => rw [hf] at h; simp [Waveforms.Res.bind] at h
  | ub => rw [hf] at h; simp [Waveforms.Res.bind] at h
  | ok fr =>
    rw [hf] at h
    simp only [Waveforms.Res.bind] at h
    have hlen : w.data.length = 2 ^ 2 := hw
    have hh := times_ignored w w.time fr t setting 2 hlen
    obtain ⟨hm, e1, e2, e3⟩ := harmonics_series w.data fr 2 (by decide) (by decide) hlen
    rw [e1] at hh
    have hh' : harmonicsFor w fr false t setting = .ok hm := hh
    rw [hh'] at h
    simp only at h
    have hA : hm.amplitudes = [amplitudeAt w.data 0, amplitudeAt w.data 1] := by
      rw [e3, hlen]; simp [List.range_succ]
    have hthd : Waveforms.thdOf Real.sqrt hm.amplitudes = .ok 0 := by
      rw [hA]
      simp [Waveforms.thdOf]
    unfold Waveforms.processed at h
    rw [hthd] at h
    simp only [if_true] at h
    have hb : ∀ {α β : Type} (r : Waveforms.Res α) (g : α → Waveforms.Res β) (b : β), r.bind g = .ok b →
        ∃ a, r = .ok a ∧ g a = .ok b := by
      intro α β r g b hr
      cases r <;> simp_all [Waveforms.Res.bind]
    obtain ⟨s, _, h⟩ := hb _ _ _ h
    obtain ⟨q, _, h⟩ := hb _ _ _ h
    obtain ⟨a, _, h⟩ := hb _ _ _ h
    obtain ⟨ef, _, h⟩ := hb _ _ _ h
    obtain ⟨ac, _, h⟩ := hb _ _ _ h
    obtain ⟨rms, _, h⟩ := hb _ _ _ h
    simp only [Waveforms.Res.bind, Waveforms.Res.ok.injEq] at h
    rw [← h]

/-- Four values without times. -/
example (g : Waveforms.Processed ℝ) : ∃ p, processedData ⟨[0, 1, 0, 0], none, none⟩ (some 50) true (some g) false 0 128 = .ok p := by
  obtain ⟨hm, e1, e2, e3⟩ := harmonics_series [0, 1, 0, 0] 50 2 (by decide) (by decide) rfl
  have hh := times_ignored ⟨[0, 1, 0, 0], none, none⟩ none 50 0 128 2 rfl
  simp only at hh
  rw [e1] at hh
  have hl : hm.amplitudes.length = 2 := by rw [e3]; simp
  have hA : ∃ a b, hm.amplitudes = [a, b] := by
    rw [e3]; simp [List.range_succ]
  obtain ⟨a, b, hA⟩ := hA
  have hF := e2.2
  rw [hA] at hF
  simp only [List.length_cons, List.length_nil, List.range_succ, List.range_zero, List.nil_append, List.cons_append, List.map_cons, List.map_nil] at hF
  unfold processedData frequencyOf
  simp only [Waveforms.Res.bind]
  rw [hh]
  simp only [Res.lift, Waveforms.Res.bind, Waveforms.processed, hA, hF, Option.isSome_none, Bool.false_eq_true, false_and, if_false, if_true,
    or_true, Waveforms.mean, Waveforms.effectiveFrequency, Waveforms.powerSums, List.tail_cons, Waveforms.rmsOf, Waveforms.thdOf,
    reduceCtorEq, List.cons_ne_nil]
  exact ⟨_, rfl⟩

/-- C140: one or two values with times, such as a ramp given by its two ends, are read past the end of their harmonics. -/
theorem two_values_undefined (w : Waveforms.Waveform ℝ) (f : ℝ) (advanced trim : Bool) (given : Option (Waveforms.Processed ℝ))
    (t : ℝ) (setting : Nat) (ts : List ℝ) (ht : w.time = some ts) (h0 : 0 < w.data.length) (hw : w.data.length ≤ 2)
    (hset : 2 < setting) :
    processedData w (some f) advanced given trim t setting = .ub := by
  have himp : Waveforms.isImported w setting = false := by
    unfold Waveforms.isImported
    rw [ht]
    simp only [decide_eq_false_iff_not]
    omega
  unfold processedData frequencyOf
  simp only [Waveforms.Res.bind]
  unfold harmonicsFor
  have hp : Sampling.isSizePowerOf2 w.data.length = true := by
    rcases (by omega : w.data.length = 1 ∨ w.data.length = 2) with h | h <;> rw [h]
    · exact isPow 0
    · exact isPow 1
  rw [if_pos hp]
  simp only [Waveforms.Res.bind, himp]
  rw [trimmed_only_imported, if_neg (by simp)]
  rcases (by omega : w.data.length = 1 ∨ w.data.length = 2) with h | h
  · rw [harmonics_undefined _ _ (by omega)]
    rfl
  · rw [harmonics_eq 1 (by decide) (by decide) w.data h f]
    simp only [Res.lift]
    unfold Waveforms.processed
    rw [if_pos ⟨by rw [ht]; rfl, by omega⟩, h]
    rfl

example : (⟨[0, 1], some [0, 1], none⟩ : Waveforms.Waveform ℝ).data.length ≤ 2 := by simp

end Verif.Fft
