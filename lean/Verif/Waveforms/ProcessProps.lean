import Verif.Waveforms.ShapeProps
import Verif.Waveforms.CompressProps
import Verif.Waveforms.CalculusProps

/-! # What is measured on waveforms: duty cycle, label, processed data (C129, C130, C131) -/

namespace Verif.Waveforms

open Verif.Round (roundFloat)

set_option linter.unusedSectionVars false
set_option linter.unusedSimpArgs false

variable {K : Type} [Field K] [LinearOrder K] [IsStrictOrderedRing K] [FloorRing K]

/-! ## Specification -/

/-- Time spent on the segments both whose ends are at the level. -/
def timeAt (level : K) : List K → List K → K
  | d0 :: d1 :: ds, t0 :: t1 :: ts =>
    (if d0 = level ∧ d1 = level then t1 - t0 else 0) + timeAt level (d1 :: ds) (t1 :: ts)
  | _, _ => 0

/-- The values change only where the time stands still. -/
def Stepped : List K → List K → Prop
  | d0 :: d1 :: ds, t0 :: t1 :: ts => (d0 = d1 ∨ t1 = t0) ∧ Stepped (d1 :: ds) (t1 :: ts)
  | _, _ => True

/-- `rt` is a square root. -/
structure IsRoot (rt : K → K) : Prop where
  nonneg : ∀ x, 0 ≤ x → 0 ≤ rt x
  sq : ∀ x, 0 ≤ x → rt x * rt x = x

/-! ## Lemmas: extremes -/

theorem maxElement_ok : ∀ l : List K, l ≠ [] → ∃ m, maxElement l = .ok m ∧ m ∈ l ∧ ∀ x ∈ l, x ≤ m := by
  intro l hl
  obtain ⟨m, hm, hb⟩ : ∃ m ∈ l, ∀ x ∈ l, x ≤ m := by
    induction l with
    | nil => exact absurd rfl hl
    | cons a l ih =>
      by_cases h : l = []
      · subst h; exact ⟨a, by simp, by simp⟩
      · obtain ⟨m, hm, hb⟩ := ih h
        rcases le_total a m with hle | hle
        · exact ⟨m, by simp [hm], by
            intro x hx
            rcases List.mem_cons.mp hx with rfl | hx
            · exact hle
            · exact hb x hx⟩
        · exact ⟨a, by simp, by
            intro x hx
            rcases List.mem_cons.mp hx with rfl | hx
            · exact le_refl _
            · exact (hb x hx).trans hle⟩
  exact ⟨m, maxElement_eq l m hm hb, hm, hb⟩

theorem minElement_ok : ∀ l : List K, l ≠ [] → ∃ m, minElement l = .ok m ∧ m ∈ l ∧ ∀ x ∈ l, m ≤ x := by
  intro l hl
  obtain ⟨m, hm, hb⟩ : ∃ m ∈ l, ∀ x ∈ l, m ≤ x := by
    induction l with
    | nil => exact absurd rfl hl
    | cons a l ih =>
      by_cases h : l = []
      · subst h; exact ⟨a, by simp, by simp⟩
      · obtain ⟨m, hm, hb⟩ := ih h
        rcases le_total m a with hle | hle
        · exact ⟨m, by simp [hm], by
            intro x hx
            rcases List.mem_cons.mp hx with rfl | hx
            · exact hle
            · exact hb x hx⟩
        · exact ⟨a, by simp, by
            intro x hx
            rcases List.mem_cons.mp hx with rfl | hx
            · exact le_refl _
            · exact hle.trans (hb x hx)⟩
  exact ⟨m, minElement_eq l m hm hb, hm, hb⟩

theorem timeOn_bounds (mid : K) : ∀ (D T : List K), D.length = T.length → T.Pairwise (· ≤ ·) →
    ∀ p, span T = some p → 0 ≤ timeOn mid D T ∧ timeOn mid D T ≤ p
  | [], T, h, _, p, hp => by
    have : T = [] := by simpa using h.symm
    subst this; simp [span] at hp
  | [d], T, h, _, p, hp => by
    obtain ⟨t, rfl⟩ : ∃ t, T = [t] := by
      rcases T with _ | ⟨t, _ | _⟩ <;> simp at h; exact ⟨t, rfl⟩
    simp [span] at hp; subst hp; simp [timeOn]
  | d0 :: d1 :: ds, [], h, _, p, hp => by simp at h
  | d0 :: d1 :: ds, [t], h, _, p, hp => by simp at h
  | d0 :: d1 :: ds, t0 :: t1 :: ts, h, hT, p, hp => by
    obtain ⟨tl, hl⟩ : ∃ x, (t1 :: ts).getLast? = some x := ⟨_, List.getLast?_eq_getLast_of_ne_nil (by simp)⟩
    have hp' : p = tl - t0 := by
      simp only [span, List.head?_cons, List.getLast?_cons_cons, hl, Option.some.injEq] at hp; exact hp.symm
    obtain ⟨i1, i2⟩ := timeOn_bounds mid (d1 :: ds) (t1 :: ts) (by simpa using h) (List.pairwise_cons.mp hT).2
      (tl - t1) (by simp [span, hl])
    have ht : t0 ≤ t1 := (List.pairwise_cons.mp hT).1 t1 (by simp)
    rw [timeOn]
    split_ifs <;> constructor <;> linarith

/-! ## C129: the measured duty cycle -/

/-- C129: the duty cycle measured on a waveform is between zero and one. -/
theorem duty_in_unit (w : Waveform K) (ts : List K) (T : K) (h : WellTimed w ts T) (h2 : 2 ≤ w.data.length) :
    ∃ d, measuredDuty w = .ok d ∧ 0 ≤ d ∧ d ≤ 1 := by
  have hne : w.data ≠ [] := by intro e; rw [e] at h2; simp at h2
  obtain ⟨mx, hmx, _⟩ := maxElement_ok w.data hne
  obtain ⟨mn, hmn, _⟩ := minElement_ok w.data hne
  obtain ⟨b1, b2⟩ := timeOn_bounds ((mx + mn) / 2) w.data ts h.sizes.symm h.ordered T h.spans
  refine ⟨timeOn ((mx + mn) / 2) w.data ts / T, ?_, div_nonneg b1 h.positive.le, (div_le_one h.positive).mpr b2⟩
  unfold measuredDuty
  rw [if_neg (by omega), hmx, hmn]
  simp only [Res.bind, h.times]
  rw [if_pos h.sizes]
  simp only [h.spans]
  rw [if_pos h.positive]

/-- C129: without times the duty cycle is the fraction of the values at or above the middle, so between zero and
one as well. -/
theorem duty_without_times (w : Waveform K) (h2 : 2 ≤ w.data.length) (ht : w.time = none) :
    ∃ d, measuredDuty w = .ok d ∧ 0 ≤ d ∧ d ≤ 1 := by
  have hne : w.data ≠ [] := by intro e; rw [e] at h2; simp at h2
  obtain ⟨mx, hmx, _⟩ := maxElement_ok w.data hne
  obtain ⟨mn, hmn, _⟩ := minElement_ok w.data hne
  refine ⟨pointsOn ((mx + mn) / 2) w.data, ?_, ?_, ?_⟩
  · unfold measuredDuty
    rw [if_neg (by omega), hmx, hmn]
    simp only [Res.bind, ht]
  · unfold pointsOn; positivity
  · unfold pointsOn
    apply div_le_one_of_le₀ _ (by positivity)
    exact_mod_cast List.length_filter_le _ _

theorem timeOn_map (mid s c : K) (hs : 0 < s) : ∀ (D T : List K),
    timeOn (mid * s + c) (D.map fun d => d * s + c) T = timeOn mid D T
  | [], T => by simp [timeOn]
  | [d], T => by simp [timeOn]
  | d0 :: d1 :: ds, [] => by simp [timeOn]
  | d0 :: d1 :: ds, [t] => by simp [timeOn]
  | d0 :: d1 :: ds, t0 :: t1 :: ts => by
    have ih := timeOn_map mid s c hs (d1 :: ds) (t1 :: ts)
    simp only [List.map_cons] at ih ⊢
    rw [timeOn, timeOn, ih]
    have e : ((d0 * s + c + (d1 * s + c)) / 2 ≥ mid * s + c) ↔ ((d0 + d1) / 2 ≥ mid) := by
      rw [ge_iff_le, ge_iff_le, show (d0 * s + c + (d1 * s + c)) / 2 = (d0 + d1) / 2 * s + c by ring,
        add_le_add_iff_right, mul_le_mul_iff_of_pos_right hs]
    simp only [e]

theorem pointsOn_map (mid s c : K) (hs : 0 < s) (D : List K) :
    pointsOn (mid * s + c) (D.map fun d => d * s + c) = pointsOn mid D := by
  unfold pointsOn
  have : ((D.map fun d => d * s + c).filter fun d => decide (d ≥ mid * s + c)).length
      = (D.filter fun d => decide (d ≥ mid)).length := by
    rw [List.filter_map, List.length_map]
    congr 2
    funext d
    simp only [Function.comp, ge_iff_le]
    rw [decide_eq_decide, add_le_add_iff_right, mul_le_mul_iff_of_pos_right hs]
  rw [this, List.length_map]

/-- C129: the measured duty cycle does not change when the waveform is multiplied by a positive number and raised by
another. -/
theorem duty_unchanged (w : Waveform K) (s c : K) (hs : 0 < s) :
    measuredDuty (sum (multiply w s) c) = measuredDuty w := by
  have hd : (sum (multiply w s) c).data = w.data.map fun d => d * s + c := by
    simp [sum, multiply, List.map_map, Function.comp]
  have ht : (sum (multiply w s) c).time = w.time := rfl
  unfold measuredDuty
  rw [hd, ht, List.length_map]
  by_cases h2 : w.data.length < 2
  · rw [if_pos h2, if_pos h2]
  rw [if_neg h2, if_neg h2]
  have hne : w.data ≠ [] := by intro e; rw [e] at h2; simp at h2
  obtain ⟨mx, hmx, hx1, hx2⟩ := maxElement_ok w.data hne
  obtain ⟨mn, hmn, hn1, hn2⟩ := minElement_ok w.data hne
  have hmx' : maxElement (w.data.map fun d => d * s + c) = .ok (mx * s + c) :=
    maxElement_eq _ _ (List.mem_map_of_mem (f := fun d => d * s + c) hx1) (by
      intro x hx
      obtain ⟨y, hy, rfl⟩ := List.mem_map.mp hx
      have := mul_le_mul_of_nonneg_right (hx2 y hy) hs.le
      linarith)
  have hmn' : minElement (w.data.map fun d => d * s + c) = .ok (mn * s + c) :=
    minElement_eq _ _ (List.mem_map_of_mem (f := fun d => d * s + c) hn1) (by
      intro x hx
      obtain ⟨y, hy, rfl⟩ := List.mem_map.mp hx
      have := mul_le_mul_of_nonneg_right (hn2 y hy) hs.le
      linarith)
  have hmid : (mx * s + c + (mn * s + c)) / 2 = (mx + mn) / 2 * s + c := by ring
  rw [hmx, hmn, hmx', hmn']
  simp only [Res.bind, hmid, timeOn_map _ s c hs, pointsOn_map _ s c hs]

/-- C129: a waveform that stays at one value has a duty cycle of one. -/
theorem duty_of_constant (w : Waveform K) (ts : List K) (T v : K) (h : WellTimed w ts T) (h2 : 2 ≤ w.data.length)
    (hv : ∀ d ∈ w.data, d = v) : measuredDuty w = .ok 1 := by
  have hne : w.data ≠ [] := by intro e; rw [e] at h2; simp at h2
  obtain ⟨mx, hmx, hx, _⟩ := maxElement_ok w.data hne
  obtain ⟨mn, hmn, hn, _⟩ := minElement_ok w.data hne
  have e1 := hv mx hx
  have e2 := hv mn hn
  subst e1
  have gen : ∀ (D T : List K), D.length = T.length → (∀ d ∈ D, d = mx) → ∀ p, span T = some p → timeOn mx D T = p := by
    intro D
    induction D with
    | nil =>
      intro T hl _ p hp
      have : T = [] := by simpa using hl.symm
      subst this; simp [span] at hp
    | cons d0 D ih =>
      intro T hl hd p hp
      rcases D with _ | ⟨d1, ds⟩
      · obtain ⟨t, rfl⟩ : ∃ t, T = [t] := by
          rcases T with _ | ⟨t, _ | _⟩ <;> simp at hl; exact ⟨t, rfl⟩
        simp [span] at hp; subst hp; simp [timeOn]
      · rcases T with _ | ⟨t0, _ | ⟨t1, ts⟩⟩
        · simp at hl
        · simp at hl
        · obtain ⟨tl, hlast⟩ : ∃ x, (t1 :: ts).getLast? = some x :=
            ⟨_, List.getLast?_eq_getLast_of_ne_nil (by simp)⟩
          have i := ih (t1 :: ts) (by simpa using hl) (fun d hd' => hd d (List.mem_cons_of_mem _ hd')) (tl - t1)
            (by simp [span, hlast])
          simp only [span, List.head?_cons, List.getLast?_cons_cons, hlast, Option.some.injEq] at hp
          rw [timeOn, i, hd d0 (by simp), hd d1 (by simp), if_pos (by linarith)]
          linarith
  unfold measuredDuty
  rw [if_neg (by omega), hmx, hmn]
  simp only [Res.bind, h.times]
  rw [if_pos h.sizes]
  simp only [h.spans]
  rw [if_pos h.positive, e2, show (mx + mx) / 2 = mx by ring, gen w.data ts h.sizes.symm hv T h.spans,
    div_self h.positive.ne']

/-- C129: for a waveform that only ever takes two values, and changes between them in no time, the measured duty
cycle is the part of the period spent at the higher of them, however many pulses there are. -/
theorem duty_of_pulses (w : Waveform K) (ts : List K) (T hi lo : K) (h : WellTimed w ts T) (hlt : lo < hi)
    (hv : ∀ d ∈ w.data, d = lo ∨ d = hi) (hhi : hi ∈ w.data) (hlo : lo ∈ w.data) (hst : Stepped w.data ts) :
    measuredDuty w = .ok (timeAt hi w.data ts / T) := by
  have hmx := maxElement_eq w.data hi hhi (by
    intro x hx; rcases hv x hx with rfl | rfl
    · exact hlt.le
    · exact le_refl _)
  have hmn := minElement_eq w.data lo hlo (by
    intro x hx; rcases hv x hx with rfl | rfl
    · exact le_refl _
    · exact hlt.le)
  have h2 : 2 ≤ w.data.length := by
    rcases hw : w.data with _ | ⟨a, _ | ⟨b, l⟩⟩
    · rw [hw] at hhi; simp at hhi
    · rw [hw] at hhi hlo
      simp only [List.mem_singleton] at hhi hlo
      rw [← hhi] at hlo; exact absurd hlo hlt.ne
    · simp
  have gen : ∀ (D T : List K), (∀ d ∈ D, d = lo ∨ d = hi) → Stepped D T →
      timeOn ((hi + lo) / 2) D T = timeAt hi D T := by
    intro D
    induction D with
    | nil => intro T _ _; simp [timeOn, timeAt]
    | cons d0 D ih =>
      intro T hd hs
      rcases D with _ | ⟨d1, ds⟩
      · simp [timeOn, timeAt]
      · rcases T with _ | ⟨t0, _ | ⟨t1, tr⟩⟩
        · simp [timeOn, timeAt]
        · simp [timeOn, timeAt]
        · have i := ih (t1 :: tr) (fun d hd' => hd d (List.mem_cons_of_mem _ hd')) hs.2
          rw [timeOn, timeAt, i]
          congr 1
          rcases hs.1 with e | e
          · subst e
            rcases hd d0 (by simp) with e' | e'
            · rw [e', if_neg (by rw [ge_iff_le, not_le]; linarith), if_neg (by simp [hlt.ne])]
            · rw [e', if_pos (by rw [ge_iff_le]; linarith), if_pos (by simp)]
          · rw [e]; simp
  unfold measuredDuty
  rw [if_neg (by omega), hmx, hmn]
  simp only [Res.bind, h.times]
  rw [if_pos h.sizes]
  simp only [h.spans]
  rw [if_pos h.positive, gen w.data ts hv hst]

/-! ## C130: guessing the label -/

/-- C130: without its label, a unipolar rectangular waveform that rests at zero is recognised only if its average is
above one, in whatever unit it is given; below, it is taken for a rectangular one, whose offset is reported as
none. -/
theorem unipolar_recognised_iff (sine : K → K) (twoPi p2p f duty dead skew phase : K) (setting : Nat) (hf : 0 < f)
    (hs : skew ≤ 0) (hp : 0 ≤ p2p) (h0 : 0 ≤ duty) (h1 : duty ≤ 1 / 2) (hset : 10 < setting) :
    ∃ w, create sine twoPi .unipolarRectangular p2p f duty 0 dead skew phase setting = .ok w ∧
      guessLabel sine twoPi { w with label := none } setting
        = .ok (if p2p * duty > 1 then .unipolarRectangular else .rectangular) := by
  rw [create_plain sine twoPi _ p2p f duty 0 dead skew phase setting hf hs]
  have hT : 0 < 1 / f := by positivity
  refine ⟨_, rfl, ?_⟩
  unfold guessLabel forLabel
  rw [unsampled_of_size _ _ (by simp; omega)]
  have hmin : min (1 / 2) duty = duty := min_eq_right h1
  have htol : (0 : K) ≤ 3 / 2 * (1 / f) / (setting : K) := by positivity
  simp only [Bool.false_eq_true, if_false, Res.bind, span, List.head?_cons, List.getLast?_cons_cons,
    List.getLast?_singleton, sub_zero, hmin]
  rw [if_neg (by omega : ¬ setting = 0)]
  generalize hT' : (1 / f : K) = T at hT htol
  simp only [cornersLabel, close, sub_self, abs_zero, decide_eq_true htol, mul_zero, add_zero, sub_zero,
    decide_eq_true_eq, htol, and_self, and_true, true_and]
  have hpos : 0 ≤ duty * T * p2p := by positivity
  rw [abs_of_nonneg hpos]
  have e : duty * T * p2p ≤ T ↔ ¬ p2p * duty > 1 := by
    rw [gt_iff_lt, not_lt]
    constructor
    · intro h; nlinarith
    · intro h; nlinarith
  by_cases hc : p2p * duty > 1
  · have : ¬ duty * T * p2p ≤ T := fun h => e.mp h hc
    simp [hc, this, Res.bind]
  · have : duty * T * p2p ≤ T := e.mpr hc
    simp [hc, this, Res.bind]

/-- C130: so the label depends on the unit: the same waveform in units ten times smaller gets another one. -/
theorem label_depends_on_unit :
    guessLabel (K := ℚ) (fun x => x) 6 ⟨[0, 1, 1, 0, 0], some [0, 0, 1, 1, 2], none⟩ 128 = .ok .rectangular ∧
    guessLabel (K := ℚ) (fun x => x) 6 ⟨[0, 10, 10, 0, 0], some [0, 0, 1, 1, 2], none⟩ 128 = .ok .unipolarRectangular := by
  decide +kernel

/-- C130: without their labels, triangular, unipolar triangular, bipolar and rectangular waveforms are recognised,
the last if their offset is at most one; so are flyback ones whose duty cycle is more than the tolerance of one and
a half samples. -/
theorem shapes_recognised (sine : K → K) (twoPi : K) (label : Label) (p2p f duty offset dead skew phase : K)
    (setting : Nat) (hf : 0 < f) (hs : skew ≤ 0) (hset : 10 < setting) (hpl : Plain label)
    (hu : label ≠ .unipolarRectangular ∧ label ≠ .secondaryRectangular)
    (hr : label = .rectangular → |offset| ≤ 1)
    (hfl : label = .flybackPrimary ∨ label = .flybackSecondary → 0 < p2p ∧ 3 / 2 / (setting : K) < duty) :
    ∃ w, create sine twoPi label p2p f duty offset dead skew phase setting = .ok w ∧
      guessLabel sine twoPi { w with label := none } setting = .ok label := by
  rw [create_plain sine twoPi _ p2p f duty offset dead skew phase setting hf hs]
  have hT : 0 < 1 / f := by positivity
  have htol : (0 : K) ≤ 3 / 2 * (1 / f) / (setting : K) := by positivity
  have hs0 : ¬ setting = 0 := by omega
  rcases hpl with rfl | rfl | rfl | rfl | rfl | rfl | rfl | rfl | rfl
  · refine ⟨_, rfl, ?_⟩
    unfold guessLabel forLabel
    rw [unsampled_of_size _ _ (by simp; omega)]
    simp [Res.bind, span, cornersLabel, hs0]
  · refine ⟨_, rfl, ?_⟩
    unfold guessLabel forLabel
    rw [unsampled_of_size _ _ (by simp; omega)]
    simp only [Bool.false_eq_true, if_false, Res.bind, span, List.head?_cons, List.getLast?_cons_cons,
      List.getLast?_singleton, sub_zero, hs0]
    generalize hT' : (1 / f : K) = T at hT htol
    simp [cornersLabel, close, htol, Res.bind]
  · refine ⟨_, rfl, ?_⟩
    unfold guessLabel forLabel
    rw [unsampled_of_size _ _ (by simp; omega)]
    simp only [Bool.false_eq_true, if_false, Res.bind, span, List.head?_cons, List.getLast?_cons_cons,
      List.getLast?_singleton, sub_zero, hs0]
    generalize hT' : (1 / f : K) = T at hT htol
    simp only [cornersLabel, close, sub_self, abs_zero, decide_eq_true_eq, sub_zero, htol, and_self, and_true]
    have e : duty * T * (p2p * (1 - duty) + offset) + (T - duty * T) * (-p2p * duty + offset) = offset * T := by ring
    have hle : |offset * T| ≤ T := by
      rw [abs_mul, abs_of_pos hT]
      exact mul_le_of_le_one_left hT.le (hr rfl)
    rw [e]
    simp only [hle, not_true_eq_false, false_and, and_self, if_false, if_true]
  · exact absurd rfl hu.2
  · exact absurd rfl hu.1
  · refine ⟨_, rfl, ?_⟩
    unfold guessLabel forLabel
    rw [unsampled_of_size _ _ (by simp; omega)]
    simp only [Bool.false_eq_true, if_false, Res.bind, span, List.head?_cons, List.getLast?_cons_cons,
      List.getLast?_singleton, sub_zero, hs0]
    generalize hT' : (1 / f : K) = T at hT htol
    simp [cornersLabel, close, htol, Res.bind]
  · refine ⟨_, rfl, ?_⟩
    unfold guessLabel forLabel
    rw [unsampled_of_size _ _ (by simp; omega)]
    simp only [Bool.false_eq_true, if_false, Res.bind, span, List.head?_cons, List.getLast?_cons_cons,
      List.getLast?_singleton, sub_zero, hs0]
    generalize hT' : (1 / f : K) = T at hT htol
    generalize min (1 / 2) duty * T = m
    have e : 1 / 4 * T + m / 2 - (1 / 4 * T - m / 2) - (3 / 4 * T + m / 2 - (3 / 4 * T - m / 2)) = 0 := by ring
    simp only [cornersLabel, close, e, abs_zero, decide_eq_true_eq, htol]
    simp [Res.bind]
  · obtain ⟨hp, hd⟩ := hfl (by simp)
    refine ⟨_, rfl, ?_⟩
    unfold guessLabel forLabel
    rw [unsampled_of_size _ _ (by simp; omega)]
    simp only [Bool.false_eq_true, if_false, Res.bind, span, List.head?_cons, List.getLast?_cons_cons,
      List.getLast?_singleton, sub_zero, hs0]
    generalize hT' : (1 / f : K) = T at hT htol
    have hdc : 3 / 2 * T / (setting : K) < duty * T := by
      calc 3 / 2 * T / (setting : K) = 3 / 2 / (setting : K) * T := by ring
        _ < duty * T := mul_lt_mul_of_pos_right hd hT
    generalize duty * T = dc at hdc
    generalize 3 / 2 * T / (setting : K) = tol at htol hdc
    have hdt : ¬ |dc| ≤ tol := by
      rw [not_le]; exact lt_of_lt_of_le hdc (le_abs_self _)
    simp [cornersLabel, close, htol, hp.ne', hdt, hp, Res.bind]
  · obtain ⟨hp, hd⟩ := hfl (by simp)
    refine ⟨_, rfl, ?_⟩
    unfold guessLabel forLabel
    rw [unsampled_of_size _ _ (by simp; omega)]
    simp only [Bool.false_eq_true, if_false, Res.bind, span, List.head?_cons, List.getLast?_cons_cons,
      List.getLast?_singleton, sub_zero, hs0]
    generalize hT' : (1 / f : K) = T at hT htol
    have hdc : 3 / 2 * T / (setting : K) < duty * T := by
      calc 3 / 2 * T / (setting : K) = 3 / 2 / (setting : K) * T := by ring
        _ < duty * T := mul_lt_mul_of_pos_right hd hT
    generalize duty * T = dc at hdc
    generalize 3 / 2 * T / (setting : K) = tol at htol hdc
    have hdt : ¬ |dc| ≤ tol := by
      rw [not_le]; exact lt_of_lt_of_le hdc (le_abs_self _)
    simp [cornersLabel, close, htol, hp.ne', hdt, hp, Res.bind]

/-- C130: three corners that do not come back to where they started are no triangular waveform: whether it is a sinusoidal
or a custom one is decided by its error. -/
theorem open_corners_not_triangular (sine : K → K) (twoPi a b c t0 t1 t2 : K) (setting : Nat) (hset : 3 < setting) (hac : a ≠ c) :
    guessLabel sine twoPi ⟨[a, b, c], some [t0, t1, t2], none⟩ setting
      = sineOrCustom sine twoPi ⟨[a, b, c], some [t0, t1, t2], none⟩ := by
  have hs0 : ¬ setting = 0 := by omega
  unfold guessLabel forLabel
  rw [unsampled_of_size _ _ (by simp; omega)]
  simp [Res.bind, span, cornersLabel, hs0, hac]

example : guessLabel (fun x : ℚ => x) 6 ⟨[0, 1, 2], some [0, 1, 2], none⟩ 128 = .ok .custom := by decide +kernel

/-- C130: a waveform that bends slowly is labelled triangular: an exponential decay sampled in the number of points
of the setting, whatever that number and however far it falls. -/
theorem decay_labelled_triangular (sine : K → K) (twoPi a r dt : K) (n : Nat) (hn : 2 ≤ n) (ha : 0 < a)
    (hr0 : 99 / 100 ≤ r) (hr1 : r < 1) (hdt : 0 < dt) (hbig : a * r ^ n * (1 - r) / dt > 1 / 10 ^ 9) :
    guessLabel sine twoPi ⟨decay a r n, some (Sampling.fill dt n 0), none⟩ n = .ok .triangular := by
  have hlen : (decay a r n).length = n := by
    have : ∀ (m : Nat) (b : K), (decay b r m).length = m := by
      intro m; induction m with
      | zero => intro b; rfl
      | succ m ih => intro b; simp [decay, ih]
    exact this n a
  have hsm : isSampled (K := K) ⟨decay a r n, some (Sampling.fill dt n 0), none⟩ n = true := by
    simp [isSampled, isImported, hlen]
  unfold guessLabel forLabel
  simp only [hsm, if_true]
  rw [slow_bend_lost a r dt n hn ha hr0 hr1 hdt hbig none]
  have : ¬ n = 0 := by omega
  simp [Res.bind, span, cornersLabel, this]

/-- C130: a waveform that none of the corner tests recognises is labelled sinusoidal, whatever its shape, if its
peak to peak is less than a twentieth of its mean magnitude, as that of any small ripple on a large direct
current is. -/
theorem ripple_labelled_sinusoidal (sine : K → K) (twoPi : K) (w : Waveform K) (hi lo : K)
    (hsine : ∀ x, |sine x| ≤ 1) (hext : Extremes w.data hi lo)
    (hsmall : (hi - lo) * 20 < (w.data.map fun d => |d|).sum / (w.data.length : K)) :
    sineOrCustom sine twoPi w = .ok .sinusoidal := by
  obtain ⟨hhi, hlo, hb⟩ := hext
  have hne : w.data ≠ [] := by intro e; rw [e] at hhi; simp at hhi
  have hn : 0 < w.data.length := List.length_pos_of_ne_nil hne
  have hnK : (0 : K) < (w.data.length : K) := by exact_mod_cast hn
  have hle : lo ≤ hi := (hb hi hhi).1
  have herr : ∀ angles : List K, sineError sine (hi - lo) ((hi + lo) / 2) angles w.data
      ≤ (w.data.length : K) * (hi - lo) := by
    intro angles
    have gen : ∀ (A D : List K), (∀ d ∈ D, lo ≤ d ∧ d ≤ hi) →
        (List.zipWith (fun a d => |sine a * (hi - lo) / 2 + (hi + lo) / 2 - d|) A D).sum
          ≤ (D.length : K) * (hi - lo) := by
      intro A
      induction A with
      | nil => intro D _; simp; exact mul_nonneg (by positivity) (by linarith)
      | cons a A ih =>
        intro D hD
        rcases D with _ | ⟨d, D⟩
        · simp
        · simp only [List.zipWith_cons_cons, List.sum_cons, List.length_cons]
          have i := ih D fun x hx => hD x (List.mem_cons_of_mem _ hx)
          obtain ⟨l1, l2⟩ := hD d (by simp)
          obtain ⟨s1, s2⟩ := abs_le.mp (hsine a)
          have : |sine a * (hi - lo) / 2 + (hi + lo) / 2 - d| ≤ hi - lo := by
            rw [abs_le]; constructor <;> nlinarith
          push_cast
          linarith
    exact gen angles w.data hb
  have harea : 0 < (w.data.map fun d => |d|).sum / (w.data.length : K) :=
    lt_of_le_of_lt (mul_nonneg (by linarith) (by norm_num)) hsmall
  unfold sineOrCustom
  simp only
  rw [if_neg hn.ne', maxElement_eq w.data hi hhi fun x hx => (hb x hx).2,
    minElement_eq w.data lo hlo fun x hx => (hb x hx).1]
  simp only [Res.bind]
  rw [if_neg harea.ne', if_pos]
  rw [div_lt_iff₀ harea, div_lt_iff₀ hnK]
  refine lt_of_le_of_lt (herr _) ?_
  have : (w.data.length : K) * (hi - lo) = (hi - lo) * (w.data.length : K) := mul_comm _ _
  rw [this]
  apply mul_lt_mul_of_pos_right _ hnK
  linarith

/-! ## C131: processed data -/

/-- C131: the peak, positive peak and negative peak of processed data are the largest magnitude, the largest and the
smallest of the values looked at: those of the waveform, or of its compressed form if it is sampled. -/
theorem basic_peaks (sine : K → K) (twoPi : K) (w : Waveform K) (setting : Nat) (p : Processed K)
    (h : basicProcessed sine twoPi w setting = .ok p) :
    ∃ (c : Waveform K) (hi lo : K), forLabel w setting = .ok c ∧ Extremes c.data hi lo ∧ p.positivePeak = some hi ∧
      p.negativePeak = some lo ∧ p.peak = some (max hi (-lo)) ∧ (∀ d ∈ c.data, |d| ≤ max hi (-lo)) ∧
      (∃ d ∈ c.data, |d| = max hi (-lo)) := by
  unfold basicProcessed at h
  cases hc : forLabel w setting with
  | throws => rw [hc] at h; simp [Res.bind] at h
  | nan => rw [hc] at h; simp [Res.bind] at h
  | ub => rw [hc] at h; simp [Res.bind] at h
  | ok c =>
  rw [hc] at h
  simp only [Res.bind] at h
  cases hl : guessLabel sine twoPi c setting <;> rw [hl] at h <;> simp only [reduceCtorEq] at h
  rename_i l
  cases ha : (if isSampled w setting = true then (mean w.data).bind fun a => .ok (some a)
    else (.ok none : Res (Option K))) <;> simp only [Res.bind] at ha <;> rw [ha] at h <;> simp only [reduceCtorEq] at h
  cases ho : offsetOf c.data l <;> rw [ho] at h <;> simp only [reduceCtorEq] at h
  by_cases hne : c.data = []
  · rw [hne] at h; simp [maxElement] at h
  obtain ⟨mx, hmx, x1, x2⟩ := maxElement_ok c.data hne
  obtain ⟨mn, hmn, n1, n2⟩ := minElement_ok c.data hne
  rw [hmx, hmn] at h
  simp only at h
  have key : ∀ d ∈ c.data, |d| ≤ max mx (-mn) := by
    intro d hd
    rw [abs_le]
    have u := x2 d hd
    have l := n2 d hd
    have m1 := le_max_left mx (-mn)
    have m2 := le_max_right mx (-mn)
    constructor <;> linarith
  have att : ∃ d ∈ c.data, |d| = max mx (-mn) := by
    rcases le_total mx (-mn) with hle | hle
    · refine ⟨mn, n1, ?_⟩
      rw [max_eq_right hle]
      have : mn ≤ mx := n2 mx x1
      rw [abs_of_nonpos (by linarith)]
    · refine ⟨mx, x1, ?_⟩
      rw [max_eq_left hle]
      have : mn ≤ mx := n2 mx x1
      rw [abs_of_nonneg (by linarith)]
  cases hd : (if l = .custom then guessDuty w l setting else guessDuty c l setting) <;> rw [hd] at h <;>
    simp only [reduceCtorEq, Res.ok.injEq] at h
  subst h
  exact ⟨c, mx, mn, rfl, ⟨x1, n1, fun d hd => ⟨n2 d hd, x2 d hd⟩⟩, rfl, rfl, rfl, key, att⟩

/-- C131: a sampled waveform that stays at one value and is labelled rectangular, as one made with no peak to peak
is, has processed data read from a time that is not there, which is undefined. -/
theorem constant_rectangular_undefined (sine : K → K) (twoPi v : K) (n : Nat) (dt : K) (hn : 2 ≤ n) (hdt : 0 < dt)
    (label : Label) (hl : label = .rectangular ∨ label = .unipolarRectangular) :
    basicProcessed sine twoPi ⟨List.replicate n v, some (Sampling.fill dt n 0), some label⟩ n = .ub := by
  have hfl : ∀ (m : Nat) (x : K), (Sampling.fill dt m x).length = m := fun m x => Sampling.fill_length dt m x
  have hget : ∀ (m : Nat) (x : K) (i : Nat), i < m → (Sampling.fill dt m x)[i]? = some (x + i * dt) :=
    fun m x i h => Sampling.fill_get dt m x i h
  have hsm : isSampled (K := K) ⟨List.replicate n v, some (Sampling.fill dt n 0), some label⟩ n = true := by
    simp [isSampled, isImported]
  -- nothing is kept after the first point
  have hloop : ∀ (m : Nat) (t : K),
      compressLoop (.val 0) (List.replicate (m + 1) v) (Sampling.fill dt (m + 1) t) = .ok ([], []) := by
    intro m
    induction m with
    | zero => intro t; simp [compressLoop, List.replicate]
    | succ m ih =>
      intro t
      have e1 : List.replicate (m + 1 + 1) v = v :: v :: List.replicate m v := rfl
      have e1' : List.replicate (m + 1) v = v :: List.replicate m v := rfl
      have e2 : Sampling.fill dt (m + 1 + 1) t = t :: (t + dt) :: Sampling.fill dt m (t + dt + dt) := rfl
      have e2' : Sampling.fill dt (m + 1) (t + dt) = (t + dt) :: Sampling.fill dt m (t + dt + dt) := rfl
      have i := ih (t + dt)
      rw [e1', e2'] at i
      have hs : slopeOf v t v (t + dt) = .val 0 := by
        unfold slopeOf; rw [if_neg (by linarith)]; simp
      rw [e1, e2, compressLoop]
      simp only [hs, i, Res.bind]
      rw [if_neg]
      unfold keeps
      have : ¬ (0 : K) > 1 / 10 ^ 9 := by rw [gt_iff_lt, not_lt]; positivity
      simp only [abs_zero]
      rw [if_neg this, decide_eq_true_eq]
      exact this
  obtain ⟨k, rfl⟩ : ∃ k, n = k + 2 := ⟨n - 2, by omega⟩
  have hcl : ∃ e, compress (K := K) ⟨List.replicate (k + 2) v, some (Sampling.fill dt (k + 2) 0), some label⟩
      = .ok ⟨[v, v], some [0, e], some label⟩ := by
    have hlast : (Sampling.fill dt (k + 2) 0).getLast? = some (((k + 1 : Nat) : K) * dt) := by
      rw [List.getLast?_eq_getElem?, hfl, hget _ _ _ (by omega)]; simp
    have hprev : (Sampling.fill dt (k + 2) 0).dropLast.getLast? = some ((k : K) * dt) := by
      rw [List.getLast?_eq_getElem?, List.length_dropLast, hfl, List.getElem?_dropLast, hfl, if_pos (by omega),
        hget _ _ _ (by omega)]; simp
    rw [compress_eq _ (Sampling.fill dt (k + 2) 0) v _ _ (by simp) rfl (by simp [List.replicate]) hlast hprev]
    have hfill : Sampling.fill dt (k + 2) 0 ++ [((k + 1 : Nat) : K) * dt + (((k + 1 : Nat) : K) * dt - (k : K) * dt)]
        = Sampling.fill dt (k + 3) 0 := by
      apply List.ext_getElem?
      intro i
      rcases Nat.lt_trichotomy i (k + 2) with h | h | h
      · rw [List.getElem?_append_left (by rw [hfl]; exact h), hget _ _ _ h, hget _ _ _ (by omega)]
      · subst h
        rw [List.getElem?_append_right (by rw [hfl]), hfl, hget _ _ _ (by omega)]
        simp; ring
      · rw [List.getElem?_eq_none (by simp [hfl]; omega), List.getElem?_eq_none (by rw [hfl]; omega)]
    have hrep : List.replicate (k + 2) v ++ [v] = List.replicate (k + 3) v := by
      rw [show [v] = List.replicate 1 v from rfl, List.replicate_append_replicate]
    simp only
    rw [hfill, hrep]
    have e1 : List.replicate (k + 3) v = v :: v :: List.replicate (k + 1) v := rfl
    have e1' : List.replicate (k + 1 + 1) v = v :: List.replicate (k + 1) v := rfl
    have e2 : Sampling.fill dt (k + 3) 0 = 0 :: (0 + dt) :: Sampling.fill dt (k + 1) (0 + dt + dt) := rfl
    have e2' : Sampling.fill dt (k + 1 + 1) (0 + dt) = (0 + dt) :: Sampling.fill dt (k + 1) (0 + dt + dt) := rfl
    have hs : slopeOf v 0 v (0 + dt) = .val 0 := by
      unfold slopeOf; rw [if_neg (by linarith)]; simp
    have i := hloop (k + 1) (0 + dt)
    rw [e1', e2'] at i
    rw [e1, e2, compressLoop]
    simp only [hs, i, Res.bind]
    rw [if_pos (by rfl)]
    exact ⟨_, rfl⟩
  obtain ⟨e, hc⟩ := hcl
  unfold basicProcessed
  simp only [forLabel, hsm, if_true, hc, Res.bind, guessLabel]
  rw [mean, if_neg (by simp [List.replicate])]
  have ho : ∃ o, offsetOf [v, v] label = .ok o := by
    rcases hl with rfl | rfl
    · exact ⟨_, rfl⟩
    · exact ⟨_, rfl⟩
  obtain ⟨o, ho⟩ := ho
  have hnc : ¬ label = .custom := by rcases hl with rfl | rfl <;> simp
  have hg : guessDuty (K := K) ⟨[v, v], some [0, e], some label⟩ label (k + 2) = .ub := by
    rcases hl with rfl | rfl <;> simp [guessDuty, dutyOfLabel, reached, fractionOf, at', Res.bind]
  simp only [ho, maxElement, minElement, hnc, if_false, hg]

theorem sum_sq_ge (l : List K) : l.sum * l.sum ≤ (l.length : K) * (l.map fun d => d * d).sum := by
  induction l with
  | nil => simp
  | cons x l ih =>
    simp only [List.sum_cons, List.length_cons, List.map_cons]
    push_cast
    rcases Nat.eq_zero_or_pos l.length with h | h
    · have : l = [] := List.length_eq_zero_iff.mp h
      subst this; simp
    · have hn : (0 : K) < (l.length : K) := by exact_mod_cast h
      have hsq : 0 ≤ ((l.length : K) * x - l.sum) * ((l.length : K) * x - l.sum) := mul_self_nonneg _
      have key : 2 * l.sum * x ≤ (l.map fun d => d * d).sum + (l.length : K) * (x * x) := by
        have : (l.length : K) * (2 * l.sum * x) ≤ (l.length : K) * ((l.map fun d => d * d).sum + (l.length : K) * (x * x)) := by
          nlinarith
        exact le_of_mul_le_mul_left this hn
      nlinarith

theorem root_mono (rt : K → K) (h : IsRoot rt) (x y : K) (hx : 0 ≤ x) (hy : 0 ≤ y) (hle : x ≤ y * y) : rt x ≤ y := by
  by_contra hc
  push Not at hc
  have h1 := h.sq x hx
  nlinarith

theorem root_ge (rt : K → K) (h : IsRoot rt) (x y : K) (hx : 0 ≤ x) (hy : 0 ≤ y) (hle : y * y ≤ x) : y ≤ rt x := by
  by_contra hc
  push Not at hc
  have h1 := h.sq x hx
  have h2 := h.nonneg x hx
  nlinarith

/-- C131: the root mean square of the values is at least the magnitude of their mean and at most any bound of their
magnitudes. -/
theorem rms_bounds (rt : K → K) (hrt : IsRoot rt) (data : List K) (b : K) (hne : data ≠ []) (hb : ∀ d ∈ data, |d| ≤ b) :
    ∃ r m, rmsOf rt data = .ok r ∧ mean data = .ok m ∧ |m| ≤ r ∧ r ≤ b := by
  have hn : 0 < data.length := List.length_pos_of_ne_nil hne
  have hnK : (0 : K) < (data.length : K) := by exact_mod_cast hn
  have hsum : ∀ l : List K, 0 ≤ (l.map fun d => d * d).sum := by
    intro l
    induction l with
    | nil => simp
    | cons x l ih => simp only [List.map_cons, List.sum_cons]; have := mul_self_nonneg x; linarith
  have hms : 0 ≤ (data.map fun d => d * d).sum / (data.length : K) := div_nonneg (hsum data) hnK.le
  refine ⟨_, _, by rw [rmsOf, if_neg hne], by rw [mean, if_neg hne], ?_, ?_⟩
  · apply root_ge rt hrt _ _ hms (abs_nonneg _)
    rw [abs_mul_abs_self, le_div_iff₀ hnK, show data.sum / (data.length : K) * (data.sum / (data.length : K))
      * (data.length : K) = data.sum * data.sum / (data.length : K) by field_simp, div_le_iff₀ hnK]
    have := sum_sq_ge data
    linarith
  · have hb0 : 0 ≤ b := by
      obtain ⟨x, hx⟩ := List.exists_mem_of_ne_nil data hne
      exact (abs_nonneg x).trans (hb x hx)
    apply root_mono rt hrt _ _ hms hb0
    rw [div_le_iff₀ hnK]
    have gen : ∀ l : List K, (∀ d ∈ l, |d| ≤ b) → (l.map fun d => d * d).sum ≤ b * b * (l.length : K) := by
      intro l
      induction l with
      | nil => intro _; simp
      | cons x l ih =>
        intro h
        have i := ih fun d hd => h d (List.mem_cons_of_mem _ hd)
        simp only [List.map_cons, List.sum_cons, List.length_cons]
        push_cast
        have hx : x * x ≤ b * b := by
          rw [← abs_mul_abs_self x]
          exact mul_self_le_mul_self (abs_nonneg x) (h x (by simp))
        nlinarith
    exact gen data hb

/-- C131: the average and the root mean square of processed data need not agree: the one is taken from the corners,
the other from the samples. A pulse between two samples has an average and no root mean square at all (all roots
taken are of zero). -/
theorem rms_below_average :
    ∃ p, processed (K := ℚ) (fun x => x) (fun x => x) 6 [0, 0] [0, 1]
        ⟨[0, 1, 1, 0, 0], some [0, 0, 1 / 16, 1 / 16, 1], none⟩ true none 8 = .ok p ∧
      p.rms = some 0 ∧ p.average = some (1 / 16) := by
  refine ⟨?p, ?_, ?_⟩
  · exact ⟨.custom, 0, some 0, some 0, some 0, some 0, some 1, some (1 / 16), some 0, some 0, some 0, some 0⟩
  · decide +kernel
  · decide +kernel

theorem powerSums_bounds (fl fh : K) (h0 : 0 ≤ fl) : ∀ (A F : List K), A.length = F.length →
    (∀ f ∈ F, fl ≤ f ∧ f ≤ fh) → ∃ p q, powerSums A F = .ok (p, q) ∧ 0 ≤ q ∧ fl * fl * q ≤ p ∧ p ≤ fh * fh * q
  | [], F, _, _ => ⟨0, 0, by simp [powerSums], le_refl _, by simp, by simp⟩
  | a :: A, [], h, _ => by simp at h
  | a :: A, f :: F, h, hF => by
    obtain ⟨p, q, e, hq, h1, h2⟩ := powerSums_bounds fl fh h0 A F (by simpa using h)
      fun x hx => hF x (List.mem_cons_of_mem _ hx)
    obtain ⟨l, u⟩ := hF f (by simp)
    have ha : 0 ≤ a ^ 2 := sq_nonneg a
    have m1 : fl * fl ≤ f ^ 2 := by rw [pow_two]; exact mul_self_le_mul_self h0 l
    have m2 : f ^ 2 ≤ fh * fh := by rw [pow_two]; exact mul_self_le_mul_self (h0.trans l) u
    refine ⟨a ^ 2 * f ^ 2 + p, a ^ 2 + q, by rw [powerSums, e]; rfl, by linarith, ?_, ?_⟩
    · have := mul_le_mul_of_nonneg_left m1 ha
      nlinarith
    · have := mul_le_mul_of_nonneg_left m2 ha
      nlinarith

/-- C131: an effective frequency lies between the lowest and the highest frequency of the harmonics, unless all the
amplitudes are zero, when it is zero. -/
theorem effective_frequency_between (rt : K → K) (hrt : IsRoot rt) (A F : List K) (fl fh : K) (h0 : 0 ≤ fl)
    (hl : A.length = F.length) (hF : ∀ f ∈ F, fl ≤ f ∧ f ≤ fh) (hA : ∃ a ∈ A, a ≠ 0) :
    ∃ e, effectiveFrequency rt A F = .ok e ∧ fl ≤ e ∧ e ≤ fh := by
  obtain ⟨p, q, e, hq, h1, h2⟩ := powerSums_bounds fl fh h0 A F hl hF
  have hq0 : 0 < q := by
    have gen : ∀ (A F : List K) (p q : K), powerSums A F = .ok (p, q) → (∃ a ∈ A, a ≠ 0) → 0 < q := by
      intro A
      induction A with
      | nil => intro F p q _ h; simp at h
      | cons a A ih =>
        intro F p q h hex
        rcases F with _ | ⟨f, F⟩
        · simp [powerSums] at h
        · rw [powerSums] at h
          cases hr : powerSums A F with
          | throws => rw [hr] at h; simp [Res.bind] at h
          | nan => rw [hr] at h; simp [Res.bind] at h
          | ub => rw [hr] at h; simp [Res.bind] at h
          | ok c =>
            obtain ⟨p', q'⟩ := c
            rw [hr] at h
            simp only [Res.bind, Res.ok.injEq, Prod.mk.injEq] at h
            have hnn : ∀ (A F : List K) (p q : K), powerSums A F = .ok (p, q) → 0 ≤ q := by
              intro A
              induction A with
              | nil => intro F p q h; simp [powerSums] at h; rw [h.2]
              | cons a A ih =>
                intro F p q h
                rcases F with _ | ⟨f, F⟩
                · simp [powerSums] at h
                · rw [powerSums] at h
                  cases hr : powerSums A F with
                  | throws => rw [hr] at h; simp [Res.bind] at h
                  | nan => rw [hr] at h; simp [Res.bind] at h
                  | ub => rw [hr] at h; simp [Res.bind] at h
                  | ok c =>
                    obtain ⟨p', q'⟩ := c
                    rw [hr] at h
                    simp only [Res.bind, Res.ok.injEq, Prod.mk.injEq] at h
                    have := ih F p' q' hr
                    rw [← h.2]; positivity
            have hq' := hnn A F p' q' hr
            obtain ⟨x, hx, hx0⟩ := hex
            rcases List.mem_cons.mp hx with rfl | hx
            · have : 0 < x ^ 2 := by positivity
              rw [← h.2]; linarith
            · have := ih F p' q' hr ⟨x, hx, hx0⟩
              rw [← h.2]; positivity
    exact gen A F p q e hA
  have hfh : 0 ≤ fh := by
    obtain ⟨a, ha, _⟩ := hA
    rcases F with _ | ⟨f, F⟩
    · simp at hl; rw [hl] at ha; simp at ha
    · exact h0.trans ((hF f (by simp)).1.trans (hF f (by simp)).2)
  have hp : 0 ≤ p := le_trans (mul_nonneg (mul_nonneg h0 h0) hq) h1
  refine ⟨rt (p / q), ?_, ?_, ?_⟩
  · unfold effectiveFrequency; rw [e]; simp only [Res.bind]; rw [if_pos hq0]
  · exact root_ge rt hrt _ _ (div_nonneg hp hq) h0 (by rw [le_div_iff₀ hq0]; exact h1)
  · exact root_mono rt hrt _ _ (div_nonneg hp hq) hfh (by rw [div_le_iff₀ hq0]; exact h2)

/-- C131: with the direct component left out the effective frequency is no lower. -/
theorem ac_effective_frequency_ge (rt : K → K) (hrt : IsRoot rt) (a0 : K) (A F : List K) (e1 e2 : K)
    (hl : A.length = F.length) (h1 : effectiveFrequency rt (a0 :: A) (0 :: F) = .ok e1)
    (h2 : effectiveFrequency rt A F = .ok e2) : e1 ≤ e2 := by
  have hps : ∀ (A F : List K), A.length = F.length → ∃ p q, powerSums A F = .ok (p, q) ∧ 0 ≤ p ∧ 0 ≤ q ∧ (q = 0 → p = 0) := by
    intro A
    induction A with
    | nil => intro F _; exact ⟨0, 0, by simp [powerSums], le_refl _, le_refl _, fun _ => rfl⟩
    | cons a A ih =>
      intro F h
      rcases F with _ | ⟨f, F⟩
      · simp at h
      · obtain ⟨p, q, e, hp, hq, hz⟩ := ih F (by simpa using h)
        refine ⟨a ^ 2 * f ^ 2 + p, a ^ 2 + q, by rw [powerSums, e]; rfl, by positivity, by positivity, ?_⟩
        intro h0
        have ha : a ^ 2 = 0 := by nlinarith [sq_nonneg a]
        rw [ha, hz (by linarith [sq_nonneg a])]; simp
  obtain ⟨p, q, e, hp, hq, hz⟩ := hps A F hl
  unfold effectiveFrequency at h1 h2
  rw [powerSums, e] at h1
  rw [e] at h2
  simp only [Res.bind, Res.ok.injEq] at h1 h2
  have hx : a0 ^ 2 * (0 : K) ^ 2 + p = p := by ring
  rw [hx] at h1
  by_cases hq0 : q > 0
  · rw [if_pos hq0] at h2
    have : a0 ^ 2 + q > 0 := by positivity
    rw [if_pos this] at h1
    rw [← h1, ← h2]
    apply root_mono rt hrt _ _ (by positivity) (hrt.nonneg _ (by positivity))
    rw [hrt.sq _ (by positivity)]
    apply div_le_div_of_nonneg_left hp hq0
    linarith [sq_nonneg a0]
  · have hq' : q = 0 := le_antisymm (not_lt.mp hq0) hq
    have hp' := hz hq'
    rw [if_neg hq0] at h2
    rw [← h2, ← h1, hp', zero_div]
    split_ifs with hc
    · exact root_mono rt hrt _ _ (le_refl _) (le_refl _) (by simp)
    · exact le_refl _

/-- C131: the total harmonic distortion is not negative, and multiplying the harmonics by a positive number does not
change it. -/
theorem thd_scale (rt : K → K) (hrt : IsRoot rt) (a0 a1 s : K) (rest : List K) (hs : 0 < s) :
    ∃ t, thdOf rt (a0 :: a1 :: rest) = .ok t ∧ 0 ≤ t ∧
      thdOf rt ((a0 :: a1 :: rest).map (· * s)) = .ok t := by
  have hnn : ∀ l : List K, 0 ≤ (l.map fun a => a ^ 2).sum := by
    intro l
    induction l with
    | nil => simp
    | cons x l ih => simp only [List.map_cons, List.sum_cons]; positivity
  have hsc : ((rest.map (· * s)).map fun a => a ^ 2).sum = (rest.map fun a => a ^ 2).sum * (s * s) := by
    generalize rest = l
    induction l with
    | nil => simp
    | cons x l ih => simp only [List.map_cons, List.sum_cons, ih]; ring
  have hrs : rt ((rest.map fun a => a ^ 2).sum * (s * s)) = rt ((rest.map fun a => a ^ 2).sum) * s := by
    have hx := hnn rest
    generalize (rest.map fun a => a ^ 2).sum = x at hx
    have hxs : 0 ≤ x * (s * s) := by positivity
    apply le_antisymm
    · apply root_mono rt hrt _ _ hxs (mul_nonneg (hrt.nonneg x hx) hs.le)
      have := hrt.sq x hx
      rw [show rt x * s * (rt x * s) = rt x * rt x * (s * s) by ring, this]
    · apply root_ge rt hrt _ _ hxs (mul_nonneg (hrt.nonneg x hx) hs.le)
      have := hrt.sq x hx
      rw [show rt x * s * (rt x * s) = rt x * rt x * (s * s) by ring, this]
  refine ⟨_, rfl, ?_, ?_⟩
  · split_ifs with h
    · exact div_nonneg (hrt.nonneg _ (hnn rest)) (le_of_lt h)
    · exact le_refl _
  · simp only [List.map_cons, thdOf, hsc, hrs]
    by_cases h : a1 > 0
    · rw [if_pos h, if_pos (mul_pos h hs)]
      simp only [Res.ok.injEq]
      field_simp
    · rw [if_neg h, if_neg (by rw [gt_iff_lt, not_lt]; exact mul_nonpos_of_nonpos_of_nonneg (not_lt.mp h) hs.le)]

/-- C131: processed data that are given are kept: their label, offset, peaks, peak to peak and duty cycle are those
given, whatever the waveform, and only average, root mean square, distortion and effective frequencies are made
anew. -/
theorem given_kept (sine rt : K → K) (twoPi : K) (A F : List K) (w : Waveform K) (advanced : Bool) (g p : Processed K)
    (setting : Nat) (h : processed sine rt twoPi A F w advanced (some g) setting = .ok p) :
    p.label = g.label ∧ p.offset = g.offset ∧ p.peakToPeak = g.peakToPeak ∧ p.peak = g.peak ∧
      p.positivePeak = g.positivePeak ∧ p.negativePeak = g.negativePeak ∧ p.dutyCycle = g.dutyCycle := by
  unfold processed at h
  cases h1 : (if w.time.isSome = true ∧ w.data.length < setting then
      (at' F 1).bind fun f => sampled w f none setting else (.ok w : Res (Waveform K))) <;> rw [h1] at h <;>
    simp only [Res.bind, reduceCtorEq] at h
  rename_i s
  cases h2 : (if isSampled w setting = true ∨ w.time = none then mean s.data else average w) <;> rw [h2] at h <;>
    simp only [Res.bind, reduceCtorEq] at h
  cases advanced with
  | false => simp only [Bool.false_eq_true, if_false, Res.ok.injEq] at h; subst h; simp
  | true =>
    simp only [if_true] at h
    cases h3 : effectiveFrequency rt A F <;> rw [h3] at h <;> simp only [Res.bind, reduceCtorEq] at h
    cases h4 : effectiveFrequency rt A.tail F.tail <;> rw [h4] at h <;> simp only [Res.bind, reduceCtorEq] at h
    cases h5 : rmsOf rt s.data <;> rw [h5] at h <;> simp only [Res.bind, reduceCtorEq] at h
    cases h6 : thdOf rt A <;> rw [h6] at h <;> simp only [Res.bind, reduceCtorEq, Res.ok.injEq] at h
    subst h; simp

example : measuredDuty (K := ℚ) ⟨[0, 1, 1, 0, 0, 1, 1, 0], some [0, 0, 1, 1, 2, 2, 3, 3], none⟩ = .ok (2 / 3) := by
  decide +kernel
example : Stepped (K := ℚ) [0, 1, 1, 0, 0, 1, 1, 0] [0, 0, 1, 1, 2, 2, 3, 3] := by simp [Stepped]
example : sineOrCustom (K := ℚ) (fun _ => 0) 6 ⟨[1000, 1001, 1000, 1003, 1000, 1004, 1000], none, none⟩
    = .ok .sinusoidal := by decide +kernel

end Verif.Waveforms
