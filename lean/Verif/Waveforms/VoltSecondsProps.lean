import Verif.Waveforms.Props

/-! # Largest volt-seconds of an excitation (C126) -/

namespace Verif.Waveforms

set_option linter.unusedSectionVars false
set_option linter.unusedSimpArgs false

variable {K : Type} [Field K] [LinearOrder K] [IsStrictOrderedRing K] [FloorRing K]

/-! ## Specification -/

/-- The volt-seconds gathered over the first `k` intervals, the voltage taken constant over each. -/
def gathered (data time : List K) : Nat → K
  | 0 => 0
  | k + 1 => gathered data time k + data.getD k 0 * (time.getD (k + 1) 0 - time.getD k 0)

/-- Interval `k` belongs to the first period: both its ends are there and it starts before the period is over. -/
def InPeriod (data time : List K) (frequency : K) (k : Nat) : Prop :=
  k + 1 < data.length ∧ k + 1 < time.length ∧
    (0 < frequency → time.getD k 0 < time.getD 0 0 + 1 / frequency)

/-! ## Lemmas -/

theorem gathered_shift (d t : K) (D T : List K) : ∀ k,
    gathered (d :: D) (t :: T) (k + 1) = d * (T.getD 0 0 - t) + gathered D T k
  | 0 => by simp [gathered]
  | k + 1 => by
    rw [gathered, gathered_shift d t D T k, gathered]
    simp only [List.getD_cons_succ]; ring

theorem loop_bounds (tEnd : K) : ∀ (acc best : K) (D T : List K), 0 ≤ best → T.Pairwise (· ≤ ·) →
    best ≤ voltSecondsLoop tEnd acc best D T ∧
    (∀ k, k + 1 < D.length → k + 1 < T.length → T.getD k 0 < tEnd →
      |acc + gathered D T (k + 1)| ≤ voltSecondsLoop tEnd acc best D T) ∧
    (voltSecondsLoop tEnd acc best D T = best ∨ ∃ k, k + 1 < D.length ∧ k + 1 < T.length ∧ T.getD k 0 < tEnd ∧
      voltSecondsLoop tEnd acc best D T = |acc + gathered D T (k + 1)|)
  | acc, best, [], T, hb, _ => by
    refine ⟨by simp [voltSecondsLoop], fun k h => by simp at h, Or.inl (by simp [voltSecondsLoop])⟩
  | acc, best, [d], T, hb, _ => by
    refine ⟨by simp [voltSecondsLoop], fun k h => by simp at h, Or.inl (by simp [voltSecondsLoop])⟩
  | acc, best, d0 :: d1 :: ds, [], hb, _ => by
    refine ⟨by simp [voltSecondsLoop], fun k _ h => by simp at h, Or.inl (by simp [voltSecondsLoop])⟩
  | acc, best, d0 :: d1 :: ds, [t], hb, _ => by
    refine ⟨by simp [voltSecondsLoop], fun k _ h => by simp at h, Or.inl (by simp [voltSecondsLoop])⟩
  | acc, best, d0 :: d1 :: ds, t0 :: t1 :: ts, hb, hT => by
    rw [voltSecondsLoop]
    by_cases hend : t0 ≥ tEnd
    · rw [if_pos hend]
      refine ⟨le_refl _, fun k h1 h2 h3 => ?_, Or.inl rfl⟩
      exfalso
      have : t0 ≤ (t0 :: t1 :: ts).getD k 0 := by
        rcases k with _ | k
        · simp
        · rw [List.getD_eq_getElem?_getD, List.getElem?_eq_getElem (by omega), Option.getD_some,
            List.getElem_cons_succ]
          exact (List.pairwise_cons.mp hT).1 _ (List.getElem_mem _)
      exact absurd h3 (not_lt.mpr (hend.trans this))
    · rw [if_neg hend]
      simp only
      have hb' : 0 ≤ max best |acc + d0 * (t1 - t0)| := le_max_of_le_left hb
      obtain ⟨i1, i2, i3⟩ := loop_bounds tEnd (acc + d0 * (t1 - t0)) (max best |acc + d0 * (t1 - t0)|)
        (d1 :: ds) (t1 :: ts) hb' (List.pairwise_cons.mp hT).2
      have e : ∀ k, acc + gathered (d0 :: d1 :: ds) (t0 :: t1 :: ts) (k + 1 + 1)
          = acc + d0 * (t1 - t0) + gathered (d1 :: ds) (t1 :: ts) (k + 1) := by
        intro k; rw [gathered_shift]; simp; ring
      have e0 : acc + gathered (d0 :: d1 :: ds) (t0 :: t1 :: ts) (0 + 1) = acc + d0 * (t1 - t0) := by
        simp [gathered]
      refine ⟨(le_max_left _ _).trans i1, fun k h1 h2 h3 => ?_, ?_⟩
      · rcases k with _ | k
        · rw [e0]; exact (le_max_right _ _).trans i1
        · rw [e]
          exact i2 k (by simpa using h1) (by simpa using h2) (by simpa using h3)
      · rcases i3 with i3 | ⟨k, h1, h2, h3, h4⟩
        · rcases le_total best |acc + d0 * (t1 - t0)| with hm | hm
          · right
            refine ⟨0, by simp, by simp, by simpa using hend, ?_⟩
            rw [i3, e0, max_eq_right hm]
          · left; rw [i3, max_eq_left hm]
        · right
          exact ⟨k + 1, by simpa using h1, by simpa using h2, by simpa using h3, by rw [h4, e]⟩

theorem gathered_take (D T : List K) (n : Nat) : ∀ k, k < n → gathered (D.take n) (T.take n) k = gathered D T k
  | 0, _ => rfl
  | k + 1, h => by
    have h1 : (D.take n).getD k 0 = D.getD k 0 := by
      simp only [List.getD_eq_getElem?_getD, List.getElem?_take, if_pos (by omega : k < n)]
    have h2 : (T.take n).getD k 0 = T.getD k 0 := by
      simp only [List.getD_eq_getElem?_getD, List.getElem?_take, if_pos (by omega : k < n)]
    have h3 : (T.take n).getD (k + 1) 0 = T.getD (k + 1) 0 := by
      simp only [List.getD_eq_getElem?_getD, List.getElem?_take, if_pos (by omega : k + 1 < n)]
    rw [gathered, gathered, gathered_take D T n k (by omega), h1, h2, h3]

theorem getLast_ge (T : List K) (hT : T.Pairwise (· ≤ ·)) (tl : K) (hl : T.getLast? = some tl) (k : Nat)
    (hk : k < T.length) : T.getD k 0 ≤ tl := by
  rw [List.getLast?_eq_getElem?] at hl
  obtain ⟨hj, rfl⟩ := List.getElem?_eq_some_iff.mp hl
  rw [List.getD_eq_getElem?_getD, List.getElem?_eq_getElem hk, Option.getD_some]
  rcases Nat.lt_or_ge k (T.length - 1) with hlt | hge
  · exact List.pairwise_iff_getElem.mp hT k (T.length - 1) hk hj hlt
  · have : k = T.length - 1 := by omega
    subst this; exact le_refl _

/-! ## C126 -/

/-- C126: with a waveform whose times do not go back, the result is the largest magnitude the volt-seconds gathered
from the start reach within the first period: none of them is larger, and it is zero or one of them. -/
theorem largest_gathered (twoPi : K) (v : Voltage K) (w : Waveform K) (ts : List K) (f : K)
    (hw : v.waveform = some w) (ht : w.time = some ts) (hT : ts.Pairwise (· ≤ ·)) :
    (∀ k, InPeriod w.data ts f k → |gathered w.data ts (k + 1)| ≤ maxVoltSeconds twoPi (some v) f) ∧
    (maxVoltSeconds twoPi (some v) f = 0 ∨
      ∃ k, InPeriod w.data ts f k ∧ maxVoltSeconds twoPi (some v) f = |gathered w.data ts (k + 1)|) := by
  unfold maxVoltSeconds
  simp only [hw, ht]
  by_cases hn : min w.data.length ts.length < 2
  · simp only [if_pos hn]
    refine ⟨fun k hk => ?_, by simp⟩
    obtain ⟨h1, h2, _⟩ := hk
    have : 2 ≤ min w.data.length ts.length := le_min (by omega) (by omega)
    omega
  · simp only [if_neg hn]
    have hn2 : 2 ≤ w.data.length ∧ 2 ≤ ts.length := by
      have : 2 ≤ min w.data.length ts.length := by omega
      exact ⟨this.trans (min_le_left _ _), this.trans (min_le_right _ _)⟩
    obtain ⟨t0, h0⟩ : ∃ x, ts.head? = some x := by
      rcases ts with _ | ⟨a, l⟩
      · simp at hn2
      · exact ⟨a, rfl⟩
    obtain ⟨tl, hl⟩ : ∃ x, ts.getLast? = some x := by
      rcases ts with _ | ⟨a, l⟩
      · simp at hn2
      · exact ⟨_, List.getLast?_eq_getLast_of_ne_nil (by simp)⟩
    have h0' : ts.getD 0 0 = t0 := by
      rcases ts with _ | ⟨a, l⟩
      · simp at hn2
      · simpa using h0
    simp only [h0, hl]
    set n := min w.data.length ts.length
    set tEnd := if f > 0 then t0 + 1 / f else tl + 1 with hE
    obtain ⟨_, b2, b3⟩ := loop_bounds tEnd 0 0 (w.data.take n) (ts.take n) (le_refl _)
      (hT.sublist (List.take_sublist _ _))
    have hlD : (w.data.take n).length = n := by simp [n]
    have hlT : (ts.take n).length = n := by simp [n]
    have key : ∀ k, InPeriod w.data ts f k ↔
        (k + 1 < (w.data.take n).length ∧ k + 1 < (ts.take n).length ∧ (ts.take n).getD k 0 < tEnd) := by
      intro k
      rw [hlD, hlT]
      have hg : k + 1 < n → (ts.take n).getD k 0 = ts.getD k 0 := by
        intro h
        simp only [List.getD_eq_getElem?_getD, List.getElem?_take, if_pos (by omega : k < n)]
      constructor
      · rintro ⟨h1, h2, h3⟩
        have hk : k + 1 < n := lt_min h1 h2
        refine ⟨hk, hk, ?_⟩
        rw [hg hk, hE]
        by_cases hf : f > 0
        · rw [if_pos hf, ← h0']; exact h3 hf
        · rw [if_neg hf]
          have := getLast_ge ts hT tl hl k (by omega)
          linarith
      · rintro ⟨hk, _, h3⟩
        have h12 := lt_min_iff.mp hk
        refine ⟨h12.1, h12.2, fun hf => ?_⟩
        rw [hg hk, hE, if_pos hf] at h3
        rw [h0']; exact h3
    refine ⟨fun k hk => ?_, ?_⟩
    · obtain ⟨a1, a2, a3⟩ := (key k).mp hk
      have := b2 k a1 a2 a3
      rw [zero_add, gathered_take _ _ _ _ (by rw [hlD] at a1; exact a1)] at this
      exact this
    · rcases b3 with b3 | ⟨k, a1, a2, a3, a4⟩
      · exact Or.inl b3
      · right
        refine ⟨k, (key k).mpr ⟨a1, a2, a3⟩, ?_⟩
        rw [a4, zero_add, gathered_take _ _ _ _ (by rw [hlD] at a1; exact a1)]

/-- C126: the result is never negative when there is a waveform with times. -/
theorem volt_seconds_nonneg (twoPi : K) (v : Voltage K) (w : Waveform K) (ts : List K) (f : K)
    (hw : v.waveform = some w) (ht : w.time = some ts) (hT : ts.Pairwise (· ≤ ·)) :
    0 ≤ maxVoltSeconds twoPi (some v) f := by
  rcases (largest_gathered twoPi v w ts f hw ht hT).2 with h | ⟨k, _, h⟩
  · rw [h]
  · rw [h]; exact abs_nonneg _

theorem gathered_scaled (D T : List K) (s : K) : ∀ k, gathered (D.map (· * s)) T k = gathered D T k * s
  | 0 => by simp [gathered]
  | k + 1 => by
    rw [gathered, gathered, gathered_scaled D T s k]
    have : (D.map (· * s)).getD k 0 = D.getD k 0 * s := by
      simp only [List.getD_eq_getElem?_getD, List.getElem?_map]
      cases D[k]? <;> simp
    rw [this]; ring

/-- C126: a voltage `s` times as large has `|s|` times the volt-seconds; reversing it changes nothing. -/
theorem volt_seconds_scaled (twoPi : K) (w : Waveform K) (ts : List K) (f s : K) (p q : Option K)
    (ht : w.time = some ts) (hT : ts.Pairwise (· ≤ ·)) :
    maxVoltSeconds twoPi (some ⟨some (multiply w s), p⟩) f = maxVoltSeconds twoPi (some ⟨some w, q⟩) f * |s| := by
  obtain ⟨a1, a2⟩ := largest_gathered twoPi ⟨some w, q⟩ w ts f rfl ht hT
  obtain ⟨b1, b2⟩ := largest_gathered twoPi ⟨some (multiply w s), p⟩ (multiply w s) ts f rfl ht hT
  have hnn := volt_seconds_nonneg twoPi ⟨some w, q⟩ w ts f rfl ht hT
  have hnn' := volt_seconds_nonneg twoPi ⟨some (multiply w s), p⟩ (multiply w s) ts f rfl ht hT
  have hin : ∀ k, InPeriod (multiply w s).data ts f k ↔ InPeriod w.data ts f k := by
    intro k; simp [InPeriod, multiply]
  have hg : ∀ k, |gathered (multiply w s).data ts k| = |gathered w.data ts k| * |s| := by
    intro k; rw [← abs_mul, ← gathered_scaled]; rfl
  apply le_antisymm
  · rcases b2 with h | ⟨k, hk, h⟩
    · rw [h]; exact mul_nonneg hnn (abs_nonneg _)
    · rw [h, hg]
      exact mul_le_mul_of_nonneg_right (a1 k ((hin k).mp hk)) (abs_nonneg _)
  · rcases a2 with h | ⟨k, hk, h⟩
    · rw [h, zero_mul]; exact hnn'
    · rw [h, ← hg]; exact b1 k ((hin k).mpr hk)

/-- C126: the flux excursion is the distance between the highest and the lowest of the volt-seconds gathered. The
result is at least half of it, and it is at most the whole of it. -/
theorem excursion_bounds (twoPi : K) (v : Voltage K) (w : Waveform K) (ts : List K) (f hi lo : K)
    (hw : v.waveform = some w) (ht : w.time = some ts) (hT : ts.Pairwise (· ≤ ·))
    (hhi : 0 ≤ hi ∧ (∀ k, InPeriod w.data ts f k → gathered w.data ts (k + 1) ≤ hi) ∧
      (hi = 0 ∨ ∃ k, InPeriod w.data ts f k ∧ hi = gathered w.data ts (k + 1)))
    (hlo : lo ≤ 0 ∧ (∀ k, InPeriod w.data ts f k → lo ≤ gathered w.data ts (k + 1)) ∧
      (lo = 0 ∨ ∃ k, InPeriod w.data ts f k ∧ lo = gathered w.data ts (k + 1))) :
    (hi - lo) / 2 ≤ maxVoltSeconds twoPi (some v) f ∧ maxVoltSeconds twoPi (some v) f ≤ hi - lo := by
  obtain ⟨a1, a2⟩ := largest_gathered twoPi v w ts f hw ht hT
  have hnn := volt_seconds_nonneg twoPi v w ts f hw ht hT
  constructor
  · have h1 : hi ≤ maxVoltSeconds twoPi (some v) f := by
      rcases hhi.2.2 with h | ⟨k, hk, h⟩
      · rw [h]; exact hnn
      · rw [h]; exact (le_abs_self _).trans (a1 k hk)
    have h2 : -lo ≤ maxVoltSeconds twoPi (some v) f := by
      rcases hlo.2.2 with h | ⟨k, hk, h⟩
      · rw [h, neg_zero]; exact hnn
      · rw [h]; exact (neg_le_abs _).trans (a1 k hk)
    linarith
  · rcases a2 with h | ⟨k, hk, h⟩
    · rw [h]; linarith [hhi.1, hlo.1]
    · rw [h]
      have u1 := hhi.2.1 k hk
      have u2 := hlo.2.1 k hk
      rw [abs_le]
      constructor <;> linarith [hhi.1, hlo.1]

/-- C126: which of the two it is depends on where in its period the waveform starts: a square voltage has twice the
volt-seconds when its period starts at an edge as it has when it starts half way through a level. -/
theorem depends_on_start :
    maxVoltSeconds (K := ℚ) 6 (some ⟨some ⟨[1, 1, 1, 1, -1, -1, -1, -1], some [0, 1, 2, 3, 4, 5, 6, 7], none⟩, none⟩) (1 / 8) = 4 ∧
    shift (K := ℚ) ⟨[1, 1, 1, 1, -1, -1, -1, -1], some [0, 1, 2, 3, 4, 5, 6, 7], none⟩ 2
      = .ok ⟨[-1, -1, 1, 1, 1, 1, -1, -1], some [0, 1, 2, 3, 4, 5, 6, 7], none⟩ ∧
    maxVoltSeconds (K := ℚ) 6 (some ⟨some ⟨[-1, -1, 1, 1, 1, 1, -1, -1], some [0, 1, 2, 3, 4, 5, 6, 7], none⟩, none⟩) (1 / 8) = 2 := by
  decide +kernel

/-- C126: every interval counts with the voltage it starts with, so volt-seconds of a voltage given by the corners
of slopes are off: one rising from zero to any value has none at all. -/
theorem ramp_has_none (twoPi V T f : K) (hT : 0 < T) (p : Option K) :
    maxVoltSeconds twoPi (some ⟨some ⟨[0, V], some [0, T], none⟩, p⟩) f = 0 := by
  have hsort : [0, T].Pairwise (· ≤ ·) := by simp [hT.le]
  rcases (largest_gathered twoPi ⟨some ⟨[0, V], some [0, T], none⟩, p⟩ ⟨[0, V], some [0, T], none⟩ [0, T] f
    rfl rfl hsort).2 with h | ⟨k, hk, h⟩
  · exact h
  · have : k = 0 := by have := hk.1; simp at this; exact this
    subst this
    rw [h]; simp [gathered]

/-- C126: with no waveform, or one without times, the volt-seconds are those of a sinusoidal voltage of the same
peak at the frequency of the excitation. Without a frequency 100 kHz is taken for it, and without a voltage or
without its peak there are none. -/
theorem sinusoidal_fallback (twoPi f peak : K) (v : Voltage K) (hp : v.peak = some peak) (h2 : 0 < twoPi) (hf : 0 < f)
    (hno : v.waveform = none ∨ ∃ w, v.waveform = some w ∧ w.time = none) :
    maxVoltSeconds twoPi (some v) f = peak / (twoPi * f) ∧
    (∀ g, g ≤ 0 → maxVoltSeconds twoPi (some v) g = peak / (twoPi * 100000)) ∧
    maxVoltSeconds twoPi none f = 0 ∧ (∀ w, maxVoltSeconds twoPi (some { v with peak := none, waveform := none }) w = 0) := by
  have key : ∀ g, maxVoltSeconds twoPi (some v) g
      = if 0 < twoPi * (if g > 0 then g else 100000) then peak / (twoPi * (if g > 0 then g else 100000)) else 0 := by
    intro g
    unfold maxVoltSeconds
    rcases hno with h | ⟨w, h, h'⟩
    · simp only [h, hp]
    · simp only [h, h', hp]
  refine ⟨?_, fun g hg => ?_, by simp [maxVoltSeconds], fun w => by simp [maxVoltSeconds]⟩
  · rw [key, if_pos hf, if_pos (mul_pos h2 hf)]
  · rw [key, if_neg (not_lt.mpr hg), if_pos (mul_pos h2 (by norm_num))]

/-- C126: an operating point has the largest volt-seconds of its windings: none has more, and it is zero or that of
one of them. -/
theorem point_is_largest (twoPi : K) (windings : List (Option (Voltage K) × K)) :
    0 ≤ maxVoltSecondsOfPoint twoPi windings ∧
    (∀ e ∈ windings, maxVoltSeconds twoPi e.1 e.2 ≤ maxVoltSecondsOfPoint twoPi windings) ∧
    (maxVoltSecondsOfPoint twoPi windings = 0 ∨
      ∃ e ∈ windings, maxVoltSecondsOfPoint twoPi windings = maxVoltSeconds twoPi e.1 e.2) := by
  have gen : ∀ (l : List (Option (Voltage K) × K)) (b : K),
      b ≤ l.foldl (fun best e => max best (maxVoltSeconds twoPi e.1 e.2)) b ∧
      (∀ e ∈ l, maxVoltSeconds twoPi e.1 e.2 ≤ l.foldl (fun best e => max best (maxVoltSeconds twoPi e.1 e.2)) b) ∧
      (l.foldl (fun best e => max best (maxVoltSeconds twoPi e.1 e.2)) b = b ∨
        ∃ e ∈ l, l.foldl (fun best e => max best (maxVoltSeconds twoPi e.1 e.2)) b = maxVoltSeconds twoPi e.1 e.2) := by
    intro l
    induction l with
    | nil => intro b; simp
    | cons x l ih =>
      intro b
      obtain ⟨i1, i2, i3⟩ := ih (max b (maxVoltSeconds twoPi x.1 x.2))
      simp only [List.foldl_cons]
      refine ⟨(le_max_left _ _).trans i1, fun e he => ?_, ?_⟩
      · rcases List.mem_cons.mp he with rfl | he
        · exact (le_max_right _ _).trans i1
        · exact i2 e he
      · rcases i3 with h | ⟨e, he, h⟩
        · rcases max_choice b (maxVoltSeconds twoPi x.1 x.2) with hm | hm
          · left; rw [h, hm]
          · right; exact ⟨x, by simp, by rw [h, hm]⟩
        · right; exact ⟨e, List.mem_cons_of_mem _ he, h⟩
  exact gen windings 0

example : maxVoltSeconds (K := ℚ) 6 (some ⟨some ⟨[2, 2, -1, -1], some [0, 1, 1, 3], none⟩, none⟩) (1 / 3) = 2 := by
  decide +kernel
example : InPeriod (K := ℚ) [2, 2, -1, -1] [0, 1, 1, 3] (1 / 3) 2 := by
  refine ⟨by simp, by simp, fun _ => by norm_num⟩

end Verif.Waveforms
