import Verif.Excitation.Current
import Verif.Waveforms.CalculusProps
import Verif.Waveforms.SampleProps
import Verif.Waveforms.ShapeProps
import Mathlib.Algebra.Order.Field.Rat
import Mathlib.Data.Rat.Floor
import Mathlib.Tactic.NormNum
import Mathlib.Tactic.Ring
import Mathlib.Tactic.FieldSimp

/-! # The magnetizing current and its offset: specification and theorems -/

namespace Verif.Excitation

open Verif.Waveforms (Waveform Label Res WellTimed)

set_option linter.unusedSectionVars false
set_option linter.unusedSimpArgs false

variable {K : Type} [Field K] [LinearOrder K] [IsStrictOrderedRing K] [FloorRing K]

/-! ## Specification -/

/-- A waveform with a time for each of its values, two at least, each later than the one before. -/
structure Increasing (w : Waveform K) (ts : List K) : Prop where
  times : w.time = some ts
  sizes : ts.length = w.data.length
  two : 2 ≤ w.data.length
  ordered : ts.Pairwise (· < ·)

/-- Faraday's law from point to point: the current grows by the voltage at the start of each step, times its length,
over the inductance. -/
def Faraday (voltage current ts : List K) (inductance : K) : Prop :=
  ∀ (k : Nat) (v i j t u : K), voltage[k]? = some v → current[k]? = some i → current[k + 1]? = some j →
    ts[k]? = some t → ts[k + 1]? = some u → inductance * (j - i) = v * (u - t)

/-- `lo` and `hi` are the least and the greatest of some values. -/
def Extremes (l : List K) (lo hi : K) : Prop := lo ∈ l ∧ hi ∈ l ∧ ∀ x ∈ l, lo ≤ x ∧ x ≤ hi

/-! ## Lemmas -/

theorem span_increasing {ts : List K} (h : ts.Pairwise (· < ·)) (h2 : 2 ≤ ts.length) :
    ∃ T, Waveforms.span ts = some T ∧ 0 < T := by
  rcases ts with _ | ⟨a, _ | ⟨b, l⟩⟩
  · simp at h2
  · simp at h2
  · have hlast : ∃ z, (a :: b :: l).getLast? = some z := ⟨_, List.getLast?_eq_some_getLast (by simp)⟩
    obtain ⟨z, hz⟩ := hlast
    refine ⟨z - a, by simp [Waveforms.span, hz], ?_⟩
    have hm : z ∈ b :: l := by
      rw [List.getLast?_cons_cons] at hz
      exact List.mem_of_getLast? hz
    linarith [(List.pairwise_cons.mp h).1 z hm]

theorem Increasing.wellTimed {w : Waveform K} {ts : List K} (h : Increasing w ts) : ∃ T, WellTimed w ts T := by
  obtain ⟨T, hT, hpos⟩ := span_increasing h.ordered (by rw [h.sizes]; exact h.two)
  exact ⟨T, h.times, h.sizes, h.ordered.imp le_of_lt, hT, hpos⟩

theorem bounded (l : List K) : ∃ lo hi : K, ∀ d ∈ l, lo ≤ d ∧ d ≤ hi := by
  induction l with
  | nil => exact ⟨0, 0, by simp⟩
  | cons a l ih =>
    obtain ⟨lo, hi, h⟩ := ih
    refine ⟨min a lo, max a hi, ?_⟩
    intro d hd
    rcases List.mem_cons.mp hd with rfl | hd
    · exact ⟨min_le_left _ _, le_max_left _ _⟩
    · exact ⟨(min_le_right _ _).trans (h d hd).1, (h d hd).2.trans (le_max_right _ _)⟩

theorem average_exists {w : Waveform K} {ts : List K} {T : K} (h : WellTimed w ts T) :
    ∃ a, Waveforms.average w = .ok a := by
  obtain ⟨lo, hi, hb⟩ := bounded w.data
  obtain ⟨a, ha, -⟩ := Waveforms.average_between w ts T lo hi h hb
  exact ⟨a, ha⟩

/-- The running integral grows from point to point by the value at the start times the step. -/
theorem accumulate_steps : ∀ (acc : K) (D T : List K), D.length = T.length →
    ∀ (k : Nat) (v i j t u : K), D[k]? = some v → (acc :: Waveforms.accumulate acc D T)[k]? = some i →
      (acc :: Waveforms.accumulate acc D T)[k + 1]? = some j → T[k]? = some t → T[k + 1]? = some u →
      j - i = v * (u - t)
  | acc, [], T, h, k, v, i, j, t, u, hv, _, _, _, _ => by simp at hv
  | acc, [d], T, h, k, v, i, j, t, u, hv, _, _, _, hu => by
    have : T.length = 1 := by simpa using h.symm
    rw [List.getElem?_eq_none (by omega)] at hu
    simp at hu
  | acc, d0 :: d1 :: ds, [], h, k, v, i, j, t, u, _, _, _, _, _ => by simp at h
  | acc, d0 :: d1 :: ds, [t], h, k, v, i, j, _, u, _, _, _, _, _ => by simp at h
  | acc, d0 :: d1 :: ds, t0 :: t1 :: ts, h, 0, v, i, j, t, u, hv, hi, hj, ht, hu => by
    simp only [Waveforms.accumulate, List.getElem?_cons_zero, List.getElem?_cons_succ, Option.some.injEq, zero_add]
      at hv hi hj ht hu
    rw [← hv, ← hi, ← hj, ← ht, ← hu]; ring
  | acc, d0 :: d1 :: ds, t0 :: t1 :: ts, h, k + 1, v, i, j, t, u, hv, hi, hj, ht, hu => by
    have := accumulate_steps (acc + d0 * (t1 - t0)) (d1 :: ds) (t1 :: ts) (by simpa using h) k v i j t u
    apply this
    · simpa using hv
    · simpa [Waveforms.accumulate] using hi
    · simpa [Waveforms.accumulate] using hj
    · simpa using ht
    · simpa using hu

/-- The integral of a waveform with increasing times keeps every point. -/
theorem integral_increasing (w : Waveform K) (ts : List K) (h : Increasing w ts) :
    ∃ a, Waveforms.average { w with data := 0 :: Waveforms.accumulate 0 w.data ts } = .ok a ∧
      (0 :: Waveforms.accumulate 0 w.data ts).length = w.data.length ∧
      Waveforms.integral w true =
        .ok { w with data := (0 :: Waveforms.accumulate 0 w.data ts).map (· + -a) } := by
  have hlen : (0 :: Waveforms.accumulate 0 w.data ts).length = w.data.length := by
    rw [List.length_cons, Waveforms.accumulate_length 0 w.data ts h.sizes.symm]
    have := h.two; omega
  obtain ⟨T, hT⟩ := h.wellTimed
  have hw : WellTimed { w with data := 0 :: Waveforms.accumulate 0 w.data ts } ts T :=
    ⟨hT.times, by rw [hlen]; exact hT.sizes, hT.ordered, hT.spans, hT.positive⟩
  obtain ⟨a, ha⟩ := average_exists hw
  refine ⟨a, ha, hlen, ?_⟩
  have hm : min w.data.length ts.length = w.data.length := by rw [h.sizes]; exact min_self _
  have ht1 : w.data.take (min w.data.length ts.length) = w.data := by rw [hm]; exact List.take_length
  have ht2 : ts.take (min w.data.length ts.length) = ts := by
    rw [hm, ← h.sizes]; exact List.take_length
  rw [h.times] at ha
  unfold Waveforms.integral
  rw [h.times]
  simp only
  rw [if_neg (by rw [hm]; have := h.two; omega), ht1, ht2]
  simp only [if_true]
  rw [ha]
  simp only [Res.bind, Waveforms.sum]
  rcases hts : ts with _ | ⟨t0, tr⟩
  · have := h.sizes; rw [hts] at this; have := h.two; simp at *; omega
  · simp only [List.map_cons, Waveforms.distinct]
    rw [← hts]
    rw [Waveforms.distinctFrom_strict]
    · simp only [Res.bind, ← hts, h.times]
    · rw [List.length_map, Waveforms.accumulate_length 0 w.data ts h.sizes.symm, ← h.sizes, hts]
      simp
    · rw [← hts]; exact h.ordered

theorem foldlMax (l : List K) : ∀ z : K, z ≤ l.foldl max z ∧ (∀ x ∈ l, x ≤ l.foldl max z) ∧
    (l.foldl max z = z ∨ l.foldl max z ∈ l) := by
  induction l with
  | nil => intro z; simp
  | cons a l ih =>
    intro z
    simp only [List.foldl_cons]
    obtain ⟨h1, h2, h3⟩ := ih (max z a)
    refine ⟨(le_max_left z a).trans h1, ?_, ?_⟩
    · intro x hx
      rcases List.mem_cons.mp hx with rfl | hx
      · exact (le_max_right z x).trans h1
      · exact h2 x hx
    · rcases h3 with h3 | h3
      · rcases max_choice z a with hm | hm
        · left; rw [h3, hm]
        · right; rw [h3, hm]; simp
      · right; exact List.mem_cons_of_mem _ h3

theorem foldlMin (l : List K) : ∀ z : K, l.foldl min z ≤ z ∧ (∀ x ∈ l, l.foldl min z ≤ x) ∧
    (l.foldl min z = z ∨ l.foldl min z ∈ l) := by
  induction l with
  | nil => intro z; simp
  | cons a l ih =>
    intro z
    simp only [List.foldl_cons]
    obtain ⟨h1, h2, h3⟩ := ih (min z a)
    refine ⟨h1.trans (min_le_left z a), ?_, ?_⟩
    · intro x hx
      rcases List.mem_cons.mp hx with rfl | hx
      · exact h1.trans (min_le_right z x)
      · exact h2 x hx
    · rcases h3 with h3 | h3
      · rcases min_choice z a with hm | hm
        · left; rw [h3, hm]
        · right; rw [h3, hm]; simp
      · right; exact List.mem_cons_of_mem _ h3

/-! ## C242: the magnetizing current out of the voltage -/

/-- **C242.** The magnetizing current out of a voltage with increasing times is there at each of the times of the
voltage, obeys Faraday's law from point to point, and its average is the offset given, whatever the point of the period
at which the voltage starts. -/
theorem faraday (voltage : Waveform K) (ts : List K) (inductance dc : K) (h : Increasing voltage ts)
    (hL : 0 < inductance) :
    ∃ s, fromVoltage voltage inductance dc = .ok s ∧ s.time = some ts ∧ s.data.length = voltage.data.length ∧
      Faraday voltage.data s.data ts inductance ∧ Waveforms.average s = .ok dc := by
  obtain ⟨a, ha, hlen, hint⟩ := integral_increasing voltage ts h
  unfold fromVoltage
  rw [hint]
  simp only [Res.bind]
  refine ⟨_, rfl, h.times, ?_, ?_, ?_⟩
  · simp only [Waveforms.sum, Waveforms.multiply, List.length_map]; exact hlen
  · intro k v i j t u hv hi hj ht hu
    simp only [Waveforms.sum, Waveforms.multiply, List.getElem?_map, Option.map_eq_some_iff] at hi hj
    obtain ⟨i2, ⟨i1, ⟨i0, hi0, rfl⟩, rfl⟩, rfl⟩ := hi
    obtain ⟨j2, ⟨j1, ⟨j0, hj0, rfl⟩, rfl⟩, rfl⟩ := hj
    have := accumulate_steps 0 voltage.data ts h.sizes.symm k v i0 j0 t u hv hi0 hj0 ht hu
    rw [← this]
    field_simp
    ring
  · have e1 := Waveforms.average_raised { voltage with data := 0 :: Waveforms.accumulate 0 voltage.data ts } ts (-a)
      h.times (by rw [hlen]; exact h.sizes)
    rw [ha] at e1
    simp only [Res.bind] at e1
    have e2 := Waveforms.average_multiplied
      (Waveforms.sum { voltage with data := 0 :: Waveforms.accumulate 0 voltage.data ts } (-a)) (1 / inductance)
    rw [e1] at e2
    simp only [Res.bind] at e2
    have e3 := Waveforms.average_raised (Waveforms.multiply (Waveforms.sum
      { voltage with data := 0 :: Waveforms.accumulate 0 voltage.data ts } (-a)) (1 / inductance)) ts dc h.times
      (by simp only [Waveforms.sum, Waveforms.multiply, List.length_map]; rw [hlen]; exact h.sizes)
    rw [e2] at e3
    simp only [Res.bind] at e3
    rw [show (a + -a) * (1 / inductance) + dc = dc by ring] at e3
    exact e3

/-- Faraday's law and the average leave only one current. -/
theorem faraday_unique (voltage : List K) (ts : List K) (inductance : K) (hL : inductance ≠ 0) :
    ∀ (x y : List K), x.length = y.length → ts.length = x.length → voltage.length = x.length →
      Faraday voltage x ts inductance → Faraday voltage y ts inductance →
      ∀ (k : Nat) (a b c d : K), x[0]? = some a → y[0]? = some b → x[k]? = some c → y[k]? = some d → c - a = d - b := by
  intro x y hxy htx hvx hx hy k
  induction k with
  | zero =>
    intro a b c d ha hb hc hd
    rw [ha] at hc; rw [hb] at hd
    simp only [Option.some.injEq] at hc hd
    rw [← hc, ← hd]; ring
  | succ k ih =>
    intro a b c d ha hb hc hd
    have hk : k + 1 < x.length := by
      by_contra hn
      rw [List.getElem?_eq_none (by omega)] at hc; simp at hc
    have ex : x[k]? = some x[k] := List.getElem?_eq_getElem (by omega)
    have ey : y[k]? = some (y[k]'(by omega)) := List.getElem?_eq_getElem (by omega)
    have ev : voltage[k]? = some (voltage[k]'(by omega)) := List.getElem?_eq_getElem (by omega)
    have et : ts[k]? = some (ts[k]'(by omega)) := List.getElem?_eq_getElem (by omega)
    have eu : ts[k + 1]? = some (ts[k + 1]'(by omega)) := List.getElem?_eq_getElem (by omega)
    have h1 := hx k _ _ _ _ _ ev ex hc et eu
    have h2 := hy k _ _ _ _ _ ev ey hd et eu
    have h3 := ih a b _ _ ha hb ex ey
    have h4 : inductance * (c - x[k]) = inductance * (d - y[k]'(by omega)) := by rw [h1, h2]
    have h5 := mul_left_cancel₀ hL h4
    linarith

/-- **C242.** The offset in the processed data is the middle of the waveform less the offset given. -/
theorem processed_offset (T : Tools K) (e : Exc K) (voltage : Waveform K) (inductance dc : K) (compress : Bool)
    (s : Signal K) (h : magnetizingCurrent T e voltage inductance compress dc = .ok s) :
    0 < inductance ∧ ∃ (w : Waveform K) (p : Processed K) (lo hi : K),
      magnetizingWaveform T e voltage inductance dc = .ok w ∧ s.processed = some p ∧ Extremes w.data lo hi ∧
      p.offset = (hi + lo) / 2 - dc ∧ (compress = false → s.waveform = some w) := by
  unfold magnetizingCurrent at h
  by_cases hL : inductance ≤ 0
  · rw [if_pos hL] at h; simp at h
  · rw [if_neg hL] at h
    refine ⟨not_le.mp hL, ?_⟩
    cases hw : magnetizingWaveform T e voltage inductance dc with
    | throws => rw [hw] at h; simp [Res.bind] at h
    | nan => rw [hw] at h; simp [Res.bind] at h
    | ub => rw [hw] at h; simp [Res.bind] at h
    | ok w =>
      rw [hw] at h
      simp only [Res.bind] at h
      cases hc : (if compress then Waveforms.compress w else .ok w) with
      | throws => rw [hc] at h; simp at h
      | nan => rw [hc] at h; simp at h
      | ub => rw [hc] at h; simp at h
      | ok c =>
        rw [hc] at h
        simp only at h
        cases hh : T.harmonics w e.frequency with
        | throws => rw [hh] at h; simp at h
        | nan => rw [hh] at h; simp at h
        | ub => rw [hh] at h; simp at h
        | ok hs =>
          rw [hh] at h
          simp only at h
          cases hp : T.process ⟨some c, some hs, none⟩ w none with
          | throws => rw [hp] at h; simp at h
          | nan => rw [hp] at h; simp at h
          | ub => rw [hp] at h; simp at h
          | ok p =>
            rw [hp] at h
            simp only at h
            cases hd : w.data with
            | nil => rw [hd] at h; simp [largest] at h
            | cons a l =>
              rw [hd] at h
              simp only [largest, smallest, Res.ok.injEq] at h
              have hmax : (∀ x ∈ a :: l, x ≤ l.foldl max a) ∧ l.foldl max a ∈ a :: l := by
                obtain ⟨h1, h2, h3⟩ := foldlMax l a
                exact ⟨fun x hx => by rcases List.mem_cons.mp hx with rfl | hx; exacts [h1, h2 x hx],
                  by rcases h3 with h3 | h3 <;> simp [h3]⟩
              have hmin : (∀ x ∈ a :: l, l.foldl min a ≤ x) ∧ l.foldl min a ∈ a :: l := by
                obtain ⟨h1, h2, h3⟩ := foldlMin l a
                exact ⟨fun x hx => by rcases List.mem_cons.mp hx with rfl | hx; exacts [h1, h2 x hx],
                  by rcases h3 with h3 | h3 <;> simp [h3]⟩
              refine ⟨w, _, l.foldl min a, l.foldl max a, rfl, by rw [← h], ?_, rfl, ?_⟩
              · rw [hd]; exact ⟨hmin.2, hmax.2, fun x hx => ⟨hmin.1 x hx, hmax.1 x hx⟩⟩
              · intro hcf
                rw [hcf] at hc
                simp only [Bool.false_eq_true, if_false, Res.ok.injEq] at hc
                rw [← h, hc]

/-- **C242.** With the label of a flyback or of a unipolar triangle in the current, the magnetizing current takes nothing
from the voltage, the inductance or the offset given, and lies between the offset of the current and its offset plus its
peak to peak. -/
theorem ramp_from_current (T : Tools K) (e : Exc K) (voltage : Waveform K) (inductance dc : K) (c : Signal K)
    (p : Processed K) (hc : e.current = some c) (hp : c.processed = some p)
    (hl : p.label = .flybackPrimary ∨ p.label = .flybackSecondary ∨ p.label = .unipolarTriangular) :
    (∀ (voltage' : Waveform K) (inductance' dc' : K), magnetizingWaveform T e voltage inductance dc =
        magnetizingWaveform T e voltage' inductance' dc') ∧
      ∀ (w : Waveform K) (pp : K), p.peakToPeak = some pp → 0 ≤ pp → 0 < e.frequency →
        magnetizingWaveform T e voltage inductance dc = .ok w →
        ∀ x ∈ w.data, p.offset ≤ x ∧ x ≤ p.offset + pp := by
  have hr : isRamp p.label = true := by
    unfold isRamp
    rcases hl with h | h | h <;> simp [h]
  have hdef : ∀ (voltage : Waveform K) (inductance dc : K), magnetizingWaveform T e voltage inductance dc =
      fromRamp T e.frequency c p := by
    intro voltage inductance dc
    simp only [magnetizingWaveform, hc, hp]
    rw [if_pos hr]
  refine ⟨fun v i d => by rw [hdef, hdef], ?_⟩
  intro w pp hpp hpp0 hf hw
  rw [hdef] at hw
  simp only [fromRamp, hpp] at hw
  cases hd : dutyOf T c p with
  | throws => rw [hd] at hw; simp [Res.bind] at hw
  | nan => rw [hd] at hw; simp [Res.bind] at hw
  | ub => rw [hd] at hw; simp [Res.bind] at hw
  | ok d =>
    rw [hd] at hw
    simp only [Res.bind, Waveforms.create, Waveforms.vertices] at hw
    rw [if_neg hf.ne'] at hw
    simp only [lt_irrefl, if_false] at hw
    exact Waveforms.sampled_between _ w _ e.frequency p.offset (p.offset + pp) none T.setting rfl (by
      intro x hx
      simp only [List.mem_cons, List.not_mem_nil, or_false] at hx
      rcases hx with rfl | rfl | rfl <;> constructor <;> linarith) hw

/-- **C242.** With any other label, or no current, it is worked out of the voltage. -/
theorem from_voltage (T : Tools K) (e : Exc K) (voltage : Waveform K) (inductance dc : K)
    (h : e.current = none ∨ ∃ c p, e.current = some c ∧ c.processed = some p ∧ p.label ≠ .flybackPrimary ∧
      p.label ≠ .flybackSecondary ∧ p.label ≠ .unipolarTriangular) :
    magnetizingWaveform T e voltage inductance dc = fromVoltage voltage inductance dc := by
  rcases h with h | ⟨c, p, h, hp, h1, h2, h3⟩
  · simp only [magnetizingWaveform, h]
  · simp only [magnetizingWaveform, h, hp]
    rw [if_neg (by simp [isRamp, h1, h2, h3])]

/-- **C242.** A current without processed data, and no offset asked for, is undefined. -/
theorem unprocessed_undefined (T : Tools K) (e : Exc K) (voltage : Waveform K) (inductance : K) (compress : Bool)
    (c : Signal K) (hL : 0 < inductance) (hc : e.current = some c) (hp : c.processed = none) :
    magnetizingWithOffset T e voltage inductance compress false = .ub := by
  unfold magnetizingWithOffset offsetToAdd
  rw [if_neg (not_le.mpr hL)]
  simp only [Bool.false_eq_true, if_false, Res.bind, magnetizingCurrent]
  rw [if_neg (not_le.mpr hL)]
  simp only [magnetizingWaveform, hc, hp, Res.bind]

example : fromVoltage (K := ℚ) ⟨[1, 1, -1, -1], some [0, 1, 2, 3], none⟩ 2 5 = .ok
    ⟨[5 - 7 / 12, 5 - 1 / 12, 5 + 5 / 12, 5 - 1 / 12], some [0, 1, 2, 3], none⟩ := by decide +kernel
example : Increasing (K := ℚ) ⟨[1, 1, -1, -1], some [0, 1, 2, 3], none⟩ [0, 1, 2, 3] :=
  ⟨rfl, rfl, by decide, by decide +kernel⟩

/-! ## C243: the voltage induced and back -/

/-- The voltage induced, accumulated over the inductance, is the current less its first value. -/
theorem inducedSteps_accumulate (L : K) : ∀ (acc d0 t0 x y last : K) (Ds Ts : List K), Ds.length = Ts.length →
    (t0 :: Ts ++ [y]).Pairwise (· < ·) →
    ∃ q, inducedSteps L last (Waveforms.differences (d0 :: Ds ++ [x])) (Waveforms.differences (t0 :: Ts ++ [y])) = .ok q ∧
      q.length = Ds.length + 1 ∧ Waveforms.accumulate acc q (t0 :: Ts) = Ds.map (fun d => acc + L * (d - d0))
  | acc, d0, t0, x, y, last, [], Ts, h, hT => by
    have : Ts = [] := by simpa using h.symm
    subst this
    have ht : t0 < y := (List.pairwise_cons.mp hT).1 y (by simp)
    refine ⟨[L * (x - d0) / (y - t0)], ?_, by simp, by simp [Waveforms.accumulate]⟩
    simp [Waveforms.differences, inducedSteps, (sub_pos.mpr ht).ne', Res.bind]
  | acc, d0, t0, x, y, last, d1 :: ds, [], h, _ => by simp at h
  | acc, d0, t0, x, y, last, d1 :: ds, t1 :: ts, h, hT => by
    have ht : t0 < t1 := (List.pairwise_cons.mp hT).1 t1 (by simp)
    have hne : t1 - t0 ≠ 0 := (sub_pos.mpr ht).ne'
    obtain ⟨q, e1, e2, e3⟩ := inducedSteps_accumulate L (acc + L * (d1 - d0)) d1 t1 x y (L * (d1 - d0) / (t1 - t0)) ds ts
      (by simpa using h) (List.pairwise_cons.mp hT).2
    refine ⟨L * (d1 - d0) / (t1 - t0) :: q, ?_, by simp [e2], ?_⟩
    · simp only [List.cons_append, Waveforms.differences, inducedSteps] at e1 ⊢
      rw [if_neg hne, e1]; rfl
    · rcases q with _ | ⟨q0, qs⟩
      · simp at e2
      · rw [Waveforms.accumulate, div_mul_cancel₀ _ hne, e3]
        simp only [List.map_cons, List.cons.injEq, true_and]
        exact List.map_congr_left fun d _ => by ring

theorem nextTime_later (isSampled : Bool) (ts : List K) (h2 : 2 ≤ ts.length) (hT : ts.Pairwise (· < ·)) :
    ∃ y, nextTime isSampled ts = .ok y ∧ (ts ++ [y]).Pairwise (· < ·) := by
  have key : ∀ y : K, (∀ t ∈ ts, t < y) → (ts ++ [y]).Pairwise (· < ·) := by
    intro y hy
    rw [List.pairwise_append]
    exact ⟨hT, by simp, fun a ha b hb => by simp only [List.mem_singleton] at hb; rw [hb]; exact hy a ha⟩
  unfold nextTime
  cases isSampled with
  | true =>
    simp only [if_true]
    rcases hr : ts.reverse with _ | ⟨tl, _ | ⟨tp, l⟩⟩
    · have := congrArg List.length hr; simp at this; simp [this] at h2
    · have := congrArg List.length hr; simp at this; omega
    · refine ⟨_, rfl, key _ ?_⟩
      have hts : ts = l.reverse ++ [tp, tl] := by
        have := congrArg List.reverse hr
        simpa using this
      rw [hts] at hT
      have hlt : tp < tl := by
        have := (List.pairwise_append.mp hT).2.1
        simpa using this
      intro t ht
      rw [hts] at ht
      simp only [List.mem_append, List.mem_reverse, List.mem_cons, List.not_mem_nil, or_false] at ht
      rcases ht with ht | rfl | rfl
      · have := (List.pairwise_append.mp hT).2.2 t (List.mem_reverse.mpr ht) tl (by simp)
        linarith
      · linarith
      · linarith
  | false =>
    simp only [Bool.false_eq_true, if_false]
    obtain ⟨T, hsp, hpos⟩ := span_increasing hT h2
    have hlast : ∃ z, ts.getLast? = some z := by
      refine ⟨_, List.getLast?_eq_some_getLast (by intro e; rw [e] at h2; simp at h2)⟩
    obtain ⟨z, hz⟩ := hlast
    rw [hsp, hz]
    refine ⟨_, rfl, key _ ?_⟩
    intro t ht
    have hle : t ≤ z := by
      obtain ⟨l, hl⟩ := List.getLast?_eq_some_iff.mp hz
      rw [hl] at ht hT
      rcases List.mem_append.mp ht with ht | ht
      · exact ((List.pairwise_append.mp hT).2.2 t ht z (by simp)).le
      · simp only [List.mem_singleton] at ht; exact ht.le
    linarith

/-- **C243.** The magnetizing current of the voltage that a sampled or imported current induces in an inductance is that
current, centred on the offset given: only its average is lost. -/
theorem magnetizing_of_induced (setting : Nat) (w : Waveform K) (ts : List K) (inductance dc : K)
    (h : Increasing w ts) (hL : 0 < inductance) :
    ∃ (v : Waveform K) (a : K), inducedSampled setting w inductance = .ok v ∧ v.time = some ts ∧
      Waveforms.average w = .ok a ∧
      fromVoltage v inductance dc = .ok { data := w.data.map (fun i => i - a + dc), time := some ts, label := none } := by
  have hwt := h.times
  rcases hw : w.data with _ | ⟨d0, Ds⟩
  · have := h.two; rw [hw] at this; simp at this
  rcases hts : ts with _ | ⟨t0, Ts⟩
  · have := h.sizes; rw [hts, hw] at this; simp at this
  have hlen : Ds.length = Ts.length := by
    have := h.sizes; rw [hts, hw] at this; simpa using this.symm
  obtain ⟨y, hy, hpw⟩ := nextTime_later (Waveforms.isSampled w setting) ts (by rw [h.sizes]; exact h.two) h.ordered
  obtain ⟨q, hq1, hq2, hq3⟩ := inducedSteps_accumulate inductance 0 d0 t0 d0 y 0 Ds Ts hlen
    (by rw [hts] at hpw; simpa using hpw)
  have hind : inducedSampled setting w inductance = .ok { data := q, time := some ts, label := none } := by
    simp only [inducedSampled, hwt, hw]
    rw [hy]
    simp only [Res.bind]
    rw [hts]
    simp only [List.cons_append] at hq1 ⊢
    rw [hq1]
  have hv : Increasing { data := q, time := some ts, label := none } ts := by
    refine ⟨rfl, ?_, ?_, h.ordered⟩
    · simp only [hq2, hts, List.length_cons, hlen]
    · simp only [hq2]
      have := h.two; rw [hw] at this; simpa using this
  obtain ⟨T, hT⟩ := h.wellTimed
  obtain ⟨a, ha⟩ := average_exists hT
  refine ⟨_, a, hind, by rw [← hts], ha, ?_⟩
  obtain ⟨b, hb, -, hint⟩ := integral_increasing _ ts hv
  simp only at hb hint
  rw [hts, hq3] at hb hint
  have hcum : (0 : K) :: Ds.map (fun d => 0 + inductance * (d - d0)) =
      (w.data.map (· * inductance)).map (· + -(inductance * d0)) := by
    rw [hw]
    simp only [List.map_cons, List.map_map, List.cons.injEq]
    refine ⟨by ring, List.map_congr_left fun d _ => ?_⟩
    simp only [Function.comp]; ring
  rw [hcum] at hb hint
  have e1 := Waveforms.average_multiplied w inductance
  rw [ha] at e1
  simp only [Res.bind] at e1
  have e2 := Waveforms.average_raised (Waveforms.multiply w inductance) ts (-(inductance * d0)) hwt
    (by simp only [Waveforms.multiply, List.length_map]; exact h.sizes)
  rw [e1] at e2
  simp only [Res.bind] at e2
  have hbv : b = a * inductance + -(inductance * d0) := by
    have hsame : Waveforms.average (⟨(w.data.map (· * inductance)).map (· + -(inductance * d0)),
        some (t0 :: Ts), none⟩ : Waveform K) =
        Waveforms.average (Waveforms.sum (Waveforms.multiply w inductance) (-(inductance * d0))) := by
      simp only [Waveforms.average, Waveforms.sum, Waveforms.multiply, hwt, hts]
    rw [hsame, e2] at hb
    simpa using hb.symm
  unfold fromVoltage
  rw [hts, hint]
  simp only [Res.bind, Waveforms.sum, Waveforms.multiply, Res.ok.injEq, List.map_map, Waveform.mk.injEq, and_true]
  rw [← hw]
  apply List.map_congr_left
  intro d _
  simp only [Function.comp]
  rw [hbv]
  field_simp
  ring

example : ∃ v, inducedSampled (K := ℚ) 4 ⟨[0, 2, 3, 1], some [0, 1, 2, 3], none⟩ 2 = .ok v ∧
    v.data = [4, 2, -4, -2] ∧
    fromVoltage v 2 10 = .ok ⟨[10 - 11 / 6, 10 + 1 / 6, 10 + 7 / 6, 10 - 5 / 6], some [0, 1, 2, 3], none⟩ := by
  refine ⟨⟨[4, 2, -4, -2], some [0, 1, 2, 3], none⟩, ?_, rfl, ?_⟩ <;> decide +kernel

/-! ## C244: the offset taken out of the current -/

theorem rippleLoop_spec (threshold : K) : ∀ (data : List K) (lo hi : K), (∀ d ∈ data, threshold < |d|) →
    data.foldl (fun r d => if |d| > threshold then (min r.1 d, max r.2 d) else r) (lo, hi) =
      (data.foldl min lo, data.foldl max hi)
  | [], lo, hi, _ => rfl
  | d :: ds, lo, hi, h => by
    simp only [List.foldl_cons]
    rw [if_pos (h d (by simp))]
    exact rippleLoop_spec threshold ds _ _ (fun x hx => h x (List.mem_cons_of_mem _ hx))

theorem foldl_min_greatest (l : List K) (lo z : K) (hm : lo ∈ l) (hb : ∀ x ∈ l, lo ≤ x) (hz : lo ≤ z) :
    l.foldl min z = lo := by
  obtain ⟨-, h2, h3⟩ := foldlMin l z
  apply le_antisymm (h2 lo hm)
  rcases h3 with h3 | h3
  · rw [h3]; exact hz
  · exact hb _ h3

theorem foldl_max_greatest (l : List K) (hi z : K) (hm : hi ∈ l) (hb : ∀ x ∈ l, x ≤ hi) (hz : z ≤ hi) :
    l.foldl max z = hi := by
  obtain ⟨-, h2, h3⟩ := foldlMax l z
  apply le_antisymm _ (h2 hi hm)
  rcases h3 with h3 | h3
  · rw [h3]; exact hz
  · exact hb _ h3

theorem largest_spec (data : List K) (hi : K) (hm : hi ∈ data) (hb : ∀ x ∈ data, x ≤ hi) : largest data = .ok hi := by
  cases data with
  | nil => simp at hm
  | cons a l =>
    simp only [largest, Res.ok.injEq]
    obtain ⟨h1, h2, h3⟩ := foldlMax l a
    apply le_antisymm
    · rcases h3 with h3 | h3
      · rw [h3]; exact hb a (by simp)
      · exact hb _ (List.mem_cons_of_mem _ h3)
    · rcases List.mem_cons.mp hm with rfl | hm
      · exact h1
      · exact h2 _ hm

/-- The samples of a current that the ripple is worked out of: its own values when it is sampled, and else those it is
sampled to. -/
def Samples (T : Tools K) (w : Waveform K) (frequency : K) (data : List K) : Prop :=
  (Waveforms.isSampled w T.setting = true ∧ data = w.data) ∨
    (Waveforms.isSampled w T.setting = false ∧ 0 < frequency ∧
      ∃ s, Waveforms.sampled w frequency none T.setting = .ok s ∧ s.data = data)

theorem ripple_samples (T : Tools K) (w : Waveform K) (frequency : K) (data : List K) (h : Samples T w frequency data) :
    ripple T w frequency = rippleOf T.huge data := by
  unfold ripple
  rcases h with ⟨h1, h2⟩ | ⟨h1, h2, s, h3, h4⟩
  · rw [if_pos h1, h2]
  · rw [if_neg (by rw [h1]; simp), if_pos h2, h3]
    simp only [Res.bind, h4]

/-- **C244.** A current that stays above a twentieth of its largest value contributes the middle of its range. -/
theorem offset_is_middle (T : Tools K) (e : Exc K) (c : Signal K) (p : Processed K) (w : Waveform K) (data : List K)
    (lo hi : K) (hc : e.current = some c) (hp : c.processed = some p) (hw : c.waveform = some w)
    (hs : Samples T w e.frequency data) (hx : Extremes data lo hi) (hpos : 0 < lo) (hlo : hi / 20 < lo)
    (hhuge : hi ≤ T.huge) (hpeak : p.peak = some hi) :
    offsetToAdd T e true = .ok (e, (hi + lo) / 2) := by
  obtain ⟨hlm, him, hb⟩ := hx
  have hr : rippleOf T.huge data = .ok (hi - lo) := by
    unfold rippleOf
    rw [largest_spec data hi him (fun x hx => (hb x hx).2)]
    simp only [Res.bind, rippleLoop]
    have habs : ∀ d ∈ data, hi * (5 / 100) < |d| := by
      intro d hd
      have := (hb d hd).1
      rw [abs_of_pos (hpos.trans_le this)]
      linarith
    rw [rippleLoop_spec _ data T.huge 0 habs,
      foldl_min_greatest data lo T.huge hlm (fun x hx => (hb x hx).1) (((hb hi him).1).trans hhuge),
      foldl_max_greatest data hi 0 him (fun x hx => (hb x hx).2) (hpos.le.trans (hb hi him).1)]
  unfold offsetToAdd
  simp only [if_true, hc, ensureProcessed, hp, Res.bind, offsetOf, hw]
  rw [ripple_samples T w e.frequency data hs, hr]
  simp only [hpeak, Res.ok.injEq, Prod.mk.injEq]
  refine ⟨?_, by ring⟩
  cases e
  simp_all

/-- **C244.** Without a current, or without an offset asked for, there is none. -/
theorem no_offset (T : Tools K) (e : Exc K) :
    offsetToAdd T e false = .ok (e, 0) ∧ (e.current = none → offsetToAdd T e true = .ok (e, 0)) := by
  refine ⟨rfl, fun h => ?_⟩
  unfold offsetToAdd
  simp only [if_true, h]

/-- **C244.** A current of zero amperes contributes half of the largest number there is. -/
theorem zero_current_offset (T : Tools K) (e : Exc K) (c : Signal K) (p : Processed K) (w : Waveform K) (data : List K)
    (hc : e.current = some c) (hp : c.processed = some p) (hw : c.waveform = some w)
    (hs : Samples T w e.frequency data) (hne : data ≠ []) (hz : ∀ x ∈ data, x = 0) (hpeak : p.peak = some 0) :
    offsetToAdd T e true = .ok (e, T.huge / 2) := by
  have hm : (0 : K) ∈ data := by
    cases data with
    | nil => exact absurd rfl hne
    | cons a l => have := hz a (by simp); simp [this]
  have hr : rippleOf T.huge data = .ok (0 - T.huge) := by
    unfold rippleOf
    rw [largest_spec data 0 hm (fun x hx => (hz x hx).le)]
    simp only [Res.bind, rippleLoop, zero_mul]
    have : ∀ (l : List K) (r : K × K), (∀ x ∈ l, x = 0) →
        l.foldl (fun r d => if |d| > 0 then (min r.1 d, max r.2 d) else r) r = r := by
      intro l
      induction l with
      | nil => intro r _; rfl
      | cons a l ih =>
        intro r h
        simp only [List.foldl_cons]
        rw [h a (by simp), abs_zero, if_neg (lt_irrefl _)]
        exact ih r (fun x hx => h x (List.mem_cons_of_mem _ hx))
    rw [this data _ hz]
  unfold offsetToAdd
  simp only [if_true, hc, ensureProcessed, hp, Res.bind, offsetOf, hw]
  rw [ripple_samples T w e.frequency data hs, hr]
  simp only [hpeak, Res.ok.injEq, Prod.mk.injEq]
  refine ⟨?_, by ring⟩
  cases e
  simp_all

/-- **C244.** A current that is always negative contributes a positive offset: half of its largest magnitude. -/
theorem negative_current_offset (T : Tools K) (e : Exc K) (c : Signal K) (p : Processed K) (w : Waveform K)
    (data : List K) (lo hi : K) (hc : e.current = some c) (hp : c.processed = some p) (hw : c.waveform = some w)
    (hs : Samples T w e.frequency data) (hx : Extremes data lo hi) (hneg : hi < 0) (hhuge : 0 ≤ T.huge)
    (hpeak : p.peak = some (-lo)) :
    offsetToAdd T e true = .ok (e, -lo / 2) ∧ 0 < -lo / 2 := by
  obtain ⟨hlm, him, hb⟩ := hx
  have hlo : lo < 0 := ((hb hi him).1).trans_lt hneg
  have hr : rippleOf T.huge data = .ok (0 - lo) := by
    unfold rippleOf
    rw [largest_spec data hi him (fun x hx => (hb x hx).2)]
    simp only [Res.bind, rippleLoop]
    have habs : ∀ d ∈ data, hi * (5 / 100) < |d| := by
      intro d _
      have := abs_nonneg d
      nlinarith
    have hmax : data.foldl max 0 = 0 := by
      obtain ⟨h1, -, h3⟩ := foldlMax data 0
      rcases h3 with h3 | h3
      · exact h3
      · exact absurd ((hb _ h3).2.trans_lt hneg) (not_lt.mpr h1)
    rw [rippleLoop_spec _ data T.huge 0 habs,
      foldl_min_greatest data lo T.huge hlm (fun x hx => (hb x hx).1) (hlo.le.trans hhuge), hmax]
  refine ⟨?_, by linarith⟩
  unfold offsetToAdd
  simp only [if_true, hc, ensureProcessed, hp, Res.bind, offsetOf, hw]
  rw [ripple_samples T w e.frequency data hs, hr]
  simp only [hpeak, Res.ok.injEq, Prod.mk.injEq]
  refine ⟨?_, by ring⟩
  cases e
  simp_all

/-- Tools for the examples: four points, the largest number is a million. -/
def tools : Tools ℚ :=
  { setting := 4, huge := 1000000, sine := fun _ => 0, twoPi := 6, harmonics := fun _ _ => .ok ⟨[], []⟩,
    process := fun _ _ _ => .ok ⟨.custom, 0, none, none, none, none⟩,
    processAlone := fun _ => .ok ⟨.custom, 0, none, none, none, none⟩, guessDuty := fun _ _ => .ok (1 / 2) }

/-- A current of four samples with the peak given. -/
def sampledCurrent (data : List ℚ) (peak : ℚ) : Exc ℚ :=
  { frequency := 1, voltage := none, magnetizing := none,
    current := some ⟨some ⟨data, some [0, 1 / 4, 1 / 2, 3 / 4], none⟩, none,
      some ⟨.custom, 0, none, some peak, none, none⟩⟩ }

example : offsetToAdd tools (sampledCurrent [4, 5, 6, 5] 6) true = .ok (sampledCurrent [4, 5, 6, 5] 6, 5) := by
  decide +kernel
example : offsetToAdd tools (sampledCurrent [0, 0, 0, 0] 0) true = .ok (sampledCurrent [0, 0, 0, 0] 0, 500000) := by
  decide +kernel
example : offsetToAdd tools (sampledCurrent [-5, -5, -5, -5] 5) true =
    .ok (sampledCurrent [-5, -5, -5, -5] 5, 5 / 2) := by decide +kernel
example : Samples tools ⟨[4, 5, 6, 5], some [0, 1 / 4, 1 / 2, 3 / 4], none⟩ 1 [4, 5, 6, 5] :=
  Or.inl ⟨by decide +kernel, rfl⟩

/-- **C243.** The voltage induced in each interval is the inductance times the change of current over the time it takes; in an interval without
duration it is the one before. -/
theorem inducedSteps_each (L : K) : ∀ (last : K) (ds ts r : List K), inducedSteps L last ds ts = .ok r → r.length = ds.length ∧
    ∀ (i : ℕ) (d t v : K), ds[i]? = some d → ts[i]? = some t → r[i]? = some v →
      (t ≠ 0 → v * t = L * d) ∧ (t = 0 → (last :: r)[i]? = some v)
  | last, [], ts, r, h => by
    simp only [inducedSteps, Res.ok.injEq] at h
    subst h; simp
  | last, _ :: _, [], r, h => by simp [inducedSteps] at h
  | last, d :: ds, t :: ts, r, h => by
    simp only [inducedSteps] at h
    obtain ⟨q, h1, h2⟩ : ∃ q, inducedSteps L (if t = 0 then last else L * d / t) ds ts = .ok q ∧
        Res.ok ((if t = 0 then last else L * d / t) :: q) = Res.ok r := by
      cases hq : inducedSteps L (if t = 0 then last else L * d / t) ds ts with
      | ok q => rw [hq] at h; exact ⟨q, rfl, h⟩
      | _ => rw [hq] at h; simp [Res.bind] at h
    simp only [Res.ok.injEq] at h2
    subst h2
    obtain ⟨i1, i2⟩ := inducedSteps_each L _ ds ts q h1
    refine ⟨by simp [i1], fun i d' t' v hd ht hv => ?_⟩
    cases i with
    | zero =>
      simp only [List.getElem?_cons_zero, Option.some.injEq] at hd ht hv
      subst hd; subst ht; subst hv
      refine ⟨fun h0 => ?_, fun h0 => ?_⟩
      · rw [if_neg h0]; field_simp
      · rw [if_pos h0]; simp
    | succ i =>
      simp only [List.getElem?_cons_succ] at hd ht hv
      obtain ⟨j1, j2⟩ := i2 i d' t' v hd ht hv
      refine ⟨j1, fun h0 => ?_⟩
      rw [List.getElem?_cons_succ]
      exact j2 h0

example : inducedSteps (K := ℚ) 2 0 [1, 3, 1] [1, 0, 2] = .ok [2, 2, 1] := by decide +kernel

end Verif.Excitation
