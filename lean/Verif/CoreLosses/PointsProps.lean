import Mathlib.Tactic.Linarith
import Mathlib.Tactic.Ring
import Mathlib.Tactic.NormNum
import Mathlib.Tactic.FieldSimp
import Mathlib.Tactic.Positivity
import Mathlib.Algebra.Order.Field.Rat
import Verif.CoreLosses.Points

/-!
# Core losses: frequency, amplitude and points used (C154, C156)
-/

set_option linter.unusedSimpArgs false
set_option linter.unusedSectionVars false

namespace Verif.CoreLosses

section
variable {K : Type} [Field K] [LinearOrder K] [IsStrictOrderedRing K]

/-! ## Frequency of switching (C154) -/

/-- What is chosen among the harmonics after the main one: the strongest of those over a hundredth of the main one, the first of
several, or what there was if none is stronger. -/
def IsStrongest (main : K) (l : List (K × K)) (start r : K × K) : Prop :=
  (r = start ∧ ∀ h ∈ l, main / 100 < h.2 → h.2 ≤ start.1) ∨
  (∃ before h after, l = before ++ h :: after ∧ r = (h.2, h.1) ∧ main / 100 < h.2 ∧ start.1 < h.2 ∧
    (∀ x ∈ before, main / 100 < x.2 → x.2 < h.2) ∧ ∀ x ∈ after, main / 100 < x.2 → x.2 ≤ h.2)

theorem strongest_spec (main : K) (l : List (K × K)) (start : K × K) : IsStrongest main l start (strongest main l start) := by
  induction l generalizing start with
  | nil => exact Or.inl ⟨rfl, by simp⟩
  | cons h l ih =>
    unfold strongest
    by_cases hc : h.2 > main / 100 ∧ h.2 > start.1
    · rw [if_pos hc]
      rcases ih (h.2, h.1) with ⟨h1, h2⟩ | ⟨a, x, b, hl, hr, hm, hs, hb, ha⟩
      · right
        exact ⟨[], h, l, rfl, h1, hc.1, hc.2, by simp, h2⟩
      · right
        refine ⟨h :: a, x, b, by rw [hl]; rfl, hr, hm, lt_trans hc.2 hs, ?_, ha⟩
        intro y hy hy'
        rcases List.mem_cons.mp hy with rfl | hy
        · exact hs
        · exact hb y hy hy'
    · rw [if_neg hc]
      rcases ih start with ⟨h1, h2⟩ | ⟨a, x, b, hl, hr, hm, hs, hb, ha⟩
      · left
        refine ⟨h1, ?_⟩
        intro y hy hy'
        rcases List.mem_cons.mp hy with rfl | hy
        · by_contra hn
          exact hc ⟨hy', not_le.mp hn⟩
        · exact h2 y hy hy'
      · right
        refine ⟨h :: a, x, b, by rw [hl]; rfl, hr, hm, hs, ?_, ha⟩
        intro y hy hy'
        rcases List.mem_cons.mp hy with rfl | hy
        · by_contra hn
          exact hc ⟨hy', lt_of_lt_of_le hs (not_lt.mp hn)⟩
        · exact hb y hy hy'

/-- C154: from 400 Hz on, and without a current of more points than those sampled and harmonics, the frequency of switching is that
of the excitation. -/
theorem switching_own (setting : ℕ) (f : K) (current : Option (Current K))
    (h : 400 ≤ f ∨ current = none ∨ ∃ c, current = some c ∧
      (c.points = none ∨ c.harmonics = none ∨ ∃ n, c.points = some n ∧ n ≤ setting)) : switching setting f current = .ok f := by
  unfold switching
  rcases h with h | h | ⟨⟨p, hs⟩, rfl, h⟩
  · rw [if_neg (not_lt.mpr h)]
  · subst h; split <;> rfl
  · rcases h with h | h | ⟨n, h, hn⟩
    · simp only at h; subst h; split <;> rfl
    · simp only at h; subst h; cases p <;> split <;> rfl
    · simp only at h; subst h
      cases hs with
      | none => split <;> rfl
      | some hs => simp only []; rw [if_neg (not_lt.mpr hn)]; split <;> rfl

/-- C154: below 400 Hz it is the frequency of the strongest harmonic after the main one over a hundredth of it, or that of the main
one if there is none. -/
theorem switching_strongest (setting n : ℕ) (f : K) (h0 m : K × K) (l : List (K × K)) (hf : f < 400) (hn : setting < n) :
    ∃ r, IsStrongest m.2 l (0, m.1) r ∧ switching setting f (some ⟨some n, some (h0 :: m :: l)⟩) = .ok r.2 := by
  refine ⟨_, strongest_spec m.2 l (0, m.1), ?_⟩
  unfold switching
  rw [if_pos hf]
  simp only []
  rw [if_pos hn]

/-- C154: fewer than two harmonics are read out of bounds. -/
theorem switching_ub (setting n : ℕ) (f : K) (hs : List (K × K)) (hf : f < 400) (hn : setting < n) :
    switching setting f (some ⟨some n, some hs⟩) = .ub ↔ hs.length < 2 := by
  unfold switching
  rw [if_pos hf]
  simp only []
  rw [if_pos hn]
  match hs with
  | [] => simp
  | [_] => simp
  | a :: b :: l => simp

example : switching 128 (50 : ℚ) (some ⟨some 200, some [(0, 0), (50, 1), (100, 1 / 200), (10000, 1 / 10), (20000, 1 / 10)]⟩) = .ok 10000 := by
  decide +kernel
example : switching 128 (50 : ℚ) (some ⟨some 128, some []⟩) = .ok 50 ∧ switching 128 (50 : ℚ) (some ⟨some 129, some []⟩) = .ub := by
  decide +kernel

/-! ## Amplitude (C154) -/

/-- C154: the peak at the frequency of switching is that of the processed data when the fundamental has that frequency or no harmonic
does, and the amplitude of the first harmonic that has it otherwise; the peak to peak is then twice that. -/
theorem flux_peak (h0 m : K × K) (l : List (K × K)) (f peak p2p : K) :
    (m.1 = f ∨ (∀ h ∈ m :: l, h.1 ≠ f) → fluxPeak (some (h0 :: m :: l)) f peak = peak ∧ fluxPeakToPeak (some (h0 :: m :: l)) f p2p = p2p) ∧
    (∀ before h after, l = before ++ h :: after → m.1 ≠ f → (∀ x ∈ before, x.1 ≠ f) → h.1 = f →
      fluxPeak (some (h0 :: m :: l)) f peak = h.2 ∧ fluxPeakToPeak (some (h0 :: m :: l)) f p2p = h.2 * 2) ∧
    fluxPeak none f peak = peak ∧ fluxPeakToPeak none f p2p = p2p := by
  refine ⟨?_, ?_, rfl, rfl⟩
  · intro h
    have : harmonicAt (some (h0 :: m :: l)) f = none := by
      unfold harmonicAt
      simp only []
      rcases h with h | h
      · rw [if_neg (by simpa using h)]
      · split_ifs
        · have : (m :: l).find? (fun h => decide (h.1 = f)) = none := by
            rw [List.find?_eq_none]; intro x hx; simpa using h x hx
          rw [this]; rfl
        · rfl
    unfold fluxPeak fluxPeakToPeak
    rw [this]
    exact ⟨rfl, rfl⟩
  · intro before h after hl hm hb hh
    have : harmonicAt (some (h0 :: m :: l)) f = some h.2 := by
      unfold harmonicAt
      simp only []
      rw [if_pos hm]
      have : (m :: l).find? (fun h => decide (h.1 = f)) = some h := by
        rw [List.find?_eq_some_iff_append]
        refine ⟨by simpa using hh, m :: before, after, by rw [hl]; rfl, ?_⟩
        intro x hx
        rcases List.mem_cons.mp hx with rfl | hx
        · simpa using hm
        · simpa using hb x hx
      rw [this]; rfl
    unfold fluxPeak fluxPeakToPeak
    rw [this]
    exact ⟨rfl, rfl⟩

/-- C154: without bias, or with one upwards, the amplitude is half the swing. -/
theorem amplitude_half_partial (largest smallest : K) (h : smallest ≤ largest) (hb : 0 ≤ largest + smallest) :
    amplitude largest smallest = (largest - smallest) / 2 := by
  unfold amplitude processed
  simp only []
  rw [max_eq_left (by linarith), abs_of_nonneg (by linarith)]
  ring

/-- C154 fails: with a bias downwards the amplitude is half the swing plus the whole of the bias twice. -/
theorem amplitude_downwards (largest smallest : K) (h : smallest ≤ largest) (hb : largest + smallest < 0) :
    amplitude largest smallest = (largest - smallest) / 2 + |largest + smallest| ∧
    (largest - smallest) / 2 < amplitude largest smallest ∧
    amplitude (-smallest) (-largest) = (largest - smallest) / 2 := by
  have h1 : amplitude largest smallest = (largest - smallest) / 2 + |largest + smallest| := by
    unfold amplitude processed
    simp only []
    rw [max_eq_right (by linarith), abs_of_nonneg (by linarith), abs_of_neg hb]
    ring
  refine ⟨h1, ?_, ?_⟩
  · rw [h1]
    have := abs_pos.mpr hb.ne
    linarith
  · rw [amplitude_half_partial _ _ (by linarith) (by linarith)]
    ring

/-- C154: the peak of processed data is never below the offset, so the amplitude is never the opposite of a difference. -/
theorem peak_over_offset (largest smallest : K) (h : smallest ≤ largest) :
    (processed largest smallest).2.1 ≤ (processed largest smallest).1 := by
  unfold processed
  have := le_max_left largest (-smallest)
  simp only []
  linarith

/-- C154 fails: a swing between −0.3 T and −0.1 T is given an amplitude of 0.5 T, five times its own. -/
theorem amplitude_witness : amplitude (-1 / 10 : ℚ) (-3 / 10) = 1 / 2 ∧ amplitude (3 / 10 : ℚ) (1 / 10) = 1 / 10 := by
  decide +kernel

/-- C154 fails: the amplitude of a harmonic, which has no offset, is diminished by the offset: it can vanish. -/
theorem harmonic_offset_witness :
    fluxPeak (some [(0, 0), (50, 1 / 5), (10000, 1 / 10)]) (10000 : ℚ) (3 / 10) - (processed (3 / 10 : ℚ) (-1 / 10)).2.1 = 0 ∧
    fluxPeakToPeak (some [(0, 0), (50, 1 / 5), (10000, 1 / 10)]) (10000 : ℚ) (4 / 10) = 1 / 5 := by decide +kernel

example : fluxPeak (some [(0, 0), (50, 1 / 5), (10000, 1 / 10)]) (50 : ℚ) (3 / 10) = 3 / 10 := by decide +kernel

/-! ## Points of one period (C156) -/

variable [FloorRing K]

theorem roundUp_natCast (n : ℕ) : roundUp (n : K) = n := by
  unfold roundUp
  have : ⌊(n : K) + 1 / 2⌋ = (n : ℤ) := by
    rw [Int.floor_eq_iff]
    constructor
    · push_cast; linarith [(by norm_num : (0 : K) ≤ 1 / 2)]
    · push_cast; linarith [(by norm_num : (1 / 2 : K) < 1)]
  rw [this]; simp

/-- C156: a waveform that lasts no more than one period and a half is used whole. -/
theorem one_period_whole (f : K) (t : K) (times : List K) (last : K) (hl : (t :: times).getLast? = some last)
    (hd : last - t ≤ 3 / 2 * (1 / f)) (hf : f ≠ 0) :
    igsePoints f f (t :: times) = .ok (t :: times).length ∧ equivalentPoints f (t :: times) = .ok (t :: times).length ∧
    nsePoints (t :: times) = .ok (t :: times).length := by
  have hone : onePeriod f (t :: times) (t :: times).length = .ok (t :: times).length := by
    unfold onePeriod
    split_ifs with h
    · have : (t :: times)[(t :: times).length - 1]? = some last := by rw [← List.getLast?_eq_getElem?, hl]
      rw [this]
      simp only [List.getElem?_cons_zero]
      rw [if_neg (not_lt.mpr hd)]
    · rfl
  refine ⟨?_, ?_, ?_⟩
  · unfold igsePoints
    rw [div_self hf, if_neg (lt_irrefl _), hone]
    simp [Res.bind]
  · unfold equivalentPoints
    rw [hone]
    simp [Res.bind]
  · simp [nsePoints]

/-- C156: no waveform of two points or more is read out of its bounds when the excitation has the frequency of switching. -/
theorem points_in_bounds (f : K) (hf : 0 < f) (times : List K) (h2 : 2 ≤ times.length) :
    ∃ n, igsePoints f f times = .ok n ∧ equivalentPoints f times = .ok n ∧ 2 ≤ n ∧ n ≤ times.length := by
  obtain ⟨a, b, l, rfl⟩ : ∃ a b l, times = a :: b :: l := by
    match times, h2 with
    | a :: b :: l, _ => exact ⟨a, b, l, rfl⟩
  set times := a :: b :: l
  have key : ∃ n, onePeriod f times times.length = .ok n ∧ 2 ≤ n ∧ n ≤ times.length := by
    unfold onePeriod
    rw [if_pos (by omega)]
    have h1 : times[times.length - 1]? = some (times[times.length - 1]'(by omega)) := List.getElem?_eq_getElem (by omega)
    have h0 : times[0]? = some a := rfl
    rw [h1, h0]
    simp only []
    set d := times[times.length - 1]'(by omega) - a with hd
    split_ifs with h
    · refine ⟨_, rfl, le_max_left _ _, ?_⟩
      apply max_le h2
      have hm : 3 / 2 < d * f := by
        have := mul_lt_mul_of_pos_right h hf
        rw [mul_assoc, one_div, inv_mul_cancel₀ hf.ne', mul_one] at this
        exact this
      have hq : (times.length : K) / (d * f) ≤ times.length := by
        apply div_le_self (Nat.cast_nonneg _)
        linarith
      unfold roundUp
      have hfl : ⌊(times.length : K) / (d * f) + 1 / 2⌋ ≤ (times.length : ℤ) := by
        rw [Int.floor_le_iff]
        push_cast
        linarith [(by norm_num : (1 / 2 : K) < 1)]
      omega
    · exact ⟨_, rfl, h2, le_refl _⟩
  obtain ⟨n, h, hn, hn'⟩ := key
  refine ⟨n, ?_, ?_, hn, hn'⟩
  · unfold igsePoints
    rw [div_self hf.ne', if_neg (lt_irrefl _), h]
    simp only [Res.bind]
    rw [if_neg (by omega)]
  · unfold equivalentPoints
    rw [h]
    simp only [Res.bind]
    rw [if_neg (by omega)]

/-- The instants of a number of periods with the same number of equal intervals each. -/
def regular (f : K) (periods intervals : ℕ) : List K := (List.range (periods * intervals + 1)).map fun i : ℕ => (i : K) / (intervals * f)

/-- C156 fails: out of three or more periods of the same number of intervals, the last interval of the period is left out. -/
theorem last_interval_missing (f : K) (hf : 0 < f) (periods intervals : ℕ) (hp : 3 ≤ periods) (hi : 2 ≤ intervals) :
    igsePoints f f (regular f periods intervals) = .ok intervals ∧ equivalentPoints f (regular f periods intervals) = .ok intervals ∧
    nsePoints (regular f periods intervals) = .ok (periods * intervals + 1) := by
  have hlen : (regular f periods intervals).length = periods * intervals + 1 := by simp [regular]
  have hpi : 6 ≤ periods * intervals := Nat.mul_le_mul hp hi
  have hle : intervals ≤ periods * intervals := Nat.le_mul_of_pos_left _ (by omega)
  have hik : (0 : K) < intervals := by exact_mod_cast (by omega : 0 < intervals)
  have hpk : (3 : K) ≤ periods := by exact_mod_cast hp
  have hone : onePeriod f (regular f periods intervals) (periods * intervals + 1) = .ok intervals := by
    unfold onePeriod
    rw [if_pos (by omega)]
    have h1 : (regular f periods intervals)[periods * intervals + 1 - 1]? = some ((periods : K) / f) := by
      simp only [regular, Nat.add_sub_cancel, List.getElem?_map]
      rw [List.getElem?_range (by omega)]
      simp only [Option.map_some]
      congr 1
      push_cast
      field_simp
    have h0 : (regular f periods intervals)[0]? = some 0 := by
      simp only [regular, List.getElem?_map]
      rw [List.getElem?_range (by omega)]
      simp
    rw [h1, h0]
    simp only [sub_zero]
    rw [if_pos]
    · have hr : roundUp (((periods * intervals + 1 : ℕ) : K) / ((periods : K) / f * f)) = intervals := by
        have hpk' : (periods : K) ≠ 0 := by positivity
        have : ((periods * intervals + 1 : ℕ) : K) / ((periods : K) / f * f) = intervals + 1 / periods := by
          push_cast; field_simp
        rw [this]
        unfold roundUp
        have hs : (0 : K) < 1 / periods := by positivity
        have hs' : (1 : K) / periods ≤ 1 / 3 := one_div_le_one_div_of_le (by norm_num) hpk
        have : ⌊(intervals : K) + 1 / periods + 1 / 2⌋ = (intervals : ℤ) := by
          rw [Int.floor_eq_iff]
          constructor
          · push_cast; linarith [(by norm_num : (0 : K) ≤ 1 / 2)]
          · push_cast; linarith [(by norm_num : (1 / 3 : K) + 1 / 2 < 1)]
        rw [this]; simp
      rw [hr]
      congr 1
      exact max_eq_right hi
    · rw [gt_iff_lt, mul_one_div]
      apply div_lt_div_of_pos_right _ hf
      linarith
  refine ⟨?_, ?_, ?_⟩
  · unfold igsePoints
    rw [div_self hf.ne', if_neg (lt_irrefl _), hlen, hone]
    simp only [Res.bind]
    rw [if_neg (by omega)]
  · unfold equivalentPoints
    rw [hlen, hone]
    simp only [Res.bind]
    rw [if_neg (by omega)]
  · unfold nsePoints
    rw [hlen, if_neg (by omega)]

example : igsePoints (1000 : ℚ) 1000 (regular 1000 3 2) = .ok 2 ∧ (regular (1000 : ℚ) 3 2).length = 7 ∧
    nsePoints (regular (1000 : ℚ) 3 2) = .ok 7 := by decide +kernel

end

end Verif.CoreLosses
