import Verif.Sweeper.Model
import Verif.Sampling.Props
import Verif.Waveforms.CalculusProps
import Verif.Impedance.Props

/-!
# C169: sweeps
-/

set_option linter.unusedSimpArgs false
set_option linter.unusedSectionVars false

namespace Verif.Sweeper

open Verif.Impedance

/-! ## Specification -/

/-- The curve of a quantity: as many points as values on the axis, each with the quantity there. -/
def Plots (c : Curve) (fs : List ℝ) (quantity : ℝ → Option ℝ) : Prop :=
  c.length = fs.length ∧ ∀ (i : ℕ) (f : ℝ), fs[i]? = some f → c[i]? = some (f, quantity f)

theorem plots_map (fs : List ℝ) (q : ℝ → Option ℝ) : Plots (fs.map fun f => (f, q f)) fs q :=
  ⟨by simp, fun i f h => by simp [h]⟩

theorem plots_congr {c : Curve} {fs : List ℝ} {q q' : ℝ → Option ℝ} (h : Plots c fs q) (e : ∀ f ∈ fs, q f = q' f) : Plots c fs q' :=
  ⟨h.1, fun i f hf => by rw [h.2 i f hf, e f (List.mem_of_getElem? hf)]⟩

/-- An axis from one value to another: as many values as asked for, in increasing order, the first and the last being the ends. -/
def Spans (fs : List ℝ) (start stop : ℝ) (n : ℕ) : Prop :=
  fs.length = n ∧ fs.Pairwise (· < ·) ∧ (2 ≤ n → fs.head? = some start ∧ fs.getLast? = some stop)

/-! ## Axis -/

/-- C169: a sweep is refused exactly when its mode is neither linear nor logarithmic, and otherwise its axis goes from start to stop with
the number of values asked for, in increasing order. -/
theorem axis_spans (mode : String) (start stop : ℝ) (n : ℕ) (h0 : 0 < start) (h1 : start < stop) :
    (axis mode start stop n = none ↔ mode ≠ "linear" ∧ mode ≠ "log") ∧
      ∀ fs, axis mode start stop n = some fs → Spans fs start stop n := by
  constructor
  · unfold axis
    split_ifs with a b
    · simp [a]
    · simp [b]
    · simp [a, b]
  · intro fs h
    unfold axis at h
    split_ifs at h with a b
    · simp only [Option.some.injEq] at h
      subst h
      refine ⟨Sampling.linearSpaced_length _ _ _, Sampling.linearSpaced_increasing _ _ h1 _, fun hn => ?_⟩
      exact Sampling.linearSpaced_ends start stop n hn
    · simp only [Option.some.injEq] at h
      subst h
      refine ⟨Sampling.logarithmicSpaced_length _ _ _, (Sampling.logarithmicSpaced_increasing _ _ h0 h1 _).1, fun hn => ?_⟩
      exact Sampling.logarithmicSpaced_ends start stop h0 (h0.trans h1) n hn

/-- C169: with mode logarithmic, consecutive values of the axis keep the same ratio, whatever the ends. -/
theorem axis_ratio (start stop : ℝ) (n i : ℕ) (h0 : 0 < start) (h1 : 0 < stop) (hi : i + 1 < n) (fs : List ℝ) (x y : ℝ)
    (h : axis "log" start stop n = some fs) (hx : fs[i]? = some x) (hy : fs[i + 1]? = some y) :
    y = x * (stop / start) ^ ((1 : ℝ) / ((n : ℝ) - 1)) := by
  have e : fs = Sampling.logarithmicSpaced start stop n := by simpa [axis] using h.symm
  subst e
  exact Sampling.logarithmicSpaced_ratio start stop h0 h1 n i hi x y hx hy

/-! ## Sweeps that agree with single points -/

/-- C169: sweeps that evaluate each point by itself plot the quantity. -/
theorem each_plots (value : ℝ → Option ℝ) (mode : String) (start stop : ℝ) (n : ℕ) (fs : List ℝ) (h : axis mode start stop n = some fs) :
    ∃ c, sweepEach value mode start stop n = .ok c ∧ Plots c fs value :=
  ⟨_, by simp [sweepEach, h], plots_map _ _⟩

theorem impedance_tanks_only (m m' : Wideband) (t : Tank) (hc : t.core = true) (hm : m.tanks = [t]) (hm' : m'.tanks = [t])
    (f : ℝ) (he : effectivePermeability m f = effectivePermeability m' f) : impedance m f = impedance m' f := by
  simp only [impedance, hm, hm', addTanks, armAt, hc, if_true, he]

/-- C169: for one winding, and any number of points but none, the sweep of impedance plots the magnitude of the impedance calculated at
each single point, whatever the reference frequency and the accuracy asked for. -/
theorem one_winding_plots (mu : Option (ℝ → ℝ × ℝ)) (att : ℝ → ℂ) (t : Tank) (hc : t.core = true) (w : Windings)
    (hw : ∀ r, w.secondaries r = []) (fast : Bool) (mode : String) (start stop : ℝ) (n : ℕ) (hn : 0 < n) (fs : List ℝ)
    (h : axis mode start stop n = some fs) :
    ∃ c, sweepImpedance (wideband mu att t w fast) mode start stop n = .ok c ∧
      Plots c fs fun f => magnitude (impedance (magnetizingModel mu att t) f) := by
  have hl : fs.length = n := by
    unfold axis at h
    split_ifs at h <;> simp only [Option.some.injEq] at h <;> subst h
    · exact Sampling.linearSpaced_length _ _ _
    · exact Sampling.logarithmicSpaced_length _ _ _
  have hlt : fs.length / 2 < fs.length := Nat.div_lt_self (by omega) (by norm_num)
  refine ⟨fs.map fun f => (f, magnitude (impedance (wideband mu att t w fast fs[fs.length / 2]) f)), ?_, ?_⟩
  · simp only [sweepImpedance, h, List.getElem?_eq_getElem hlt]
  · refine plots_congr (plots_map _ _) fun f _ => ?_
    congr 1
    refine impedance_tanks_only _ _ t hc ?_ rfl f ?_
    · simp [wideband, hw, magnetizingModel]
    · simp [wideband, hw, magnetizingModel, effectivePermeability]

/-- C169: whatever the windings, the sweep of common-mode impedance plots the magnitude of the impedance calculated at each single point. -/
theorem common_plots (mu : Option (ℝ → ℝ × ℝ)) (att : ℝ → ℂ) (t : Tank) (mode : String) (start stop : ℝ) (n : ℕ) (fs : List ℝ)
    (h : axis mode start stop n = some fs) :
    ∃ c, sweepCommon (magnetizingModel mu att t) mode start stop n = .ok c ∧
      Plots c fs fun f => magnitude (impedance (magnetizingModel mu att t) f) :=
  ⟨_, by simp [sweepCommon, h], plots_map _ _⟩

/-- C169: the sweep of differential-mode impedance plots what is calculated at each single point when the leakage inductance does not
depend on the frequency. -/
theorem differential_plots (leakage : ℝ → ℝ) (l r c : ℝ) (hl : ∀ f, leakage f = l) (mode : String) (start stop : ℝ) (n : ℕ) (hn : 0 < n)
    (fs : List ℝ) (h : axis mode start stop n = some fs) :
    ∃ cv, sweepDifferential leakage r c mode start stop n = .ok cv ∧
      Plots cv fs fun f => magnitude (differential (leakage f) r c f) := by
  have hl' : fs.length = n := by
    unfold axis at h
    split_ifs at h <;> simp only [Option.some.injEq] at h <;> subst h
    · exact Sampling.linearSpaced_length _ _ _
    · exact Sampling.logarithmicSpaced_length _ _ _
  have hne : fs ≠ [] := by intro e; subst e; simp at hl'; omega
  refine ⟨fs.map fun f => (f, magnitude (differential l r c f)), ?_, ?_⟩
  · simp only [sweepDifferential, h, List.head?_eq_some_head hne, List.getLast?_eq_some_getLast hne, hl]
  · exact plots_congr (plots_map _ _) fun f _ => by rw [hl]

/-- C169: the sweep of differential-mode impedance takes one leakage inductance for the whole curve, that at the geometric mean of its first
and last frequencies. -/
theorem differential_reference (leakage : ℝ → ℝ) (r c : ℝ) (mode : String) (start stop : ℝ) (n : ℕ) (fs : List ℝ)
    (h : axis mode start stop n = some fs) (a b : ℝ) (ha : fs.head? = some a) (hb : fs.getLast? = some b) (hab : 0 ≤ a * b) :
    ∃ (g : ℝ) (cv : Curve), 0 ≤ g ∧ g * g = a * b ∧ sweepDifferential leakage r c mode start stop n = .ok cv ∧
      Plots cv fs fun f => magnitude (differential (leakage g) r c f) :=
  ⟨Real.sqrt (a * b), _, Real.sqrt_nonneg _, Real.mul_self_sqrt hab, by simp only [sweepDifferential, h, ha, hb], plots_map _ _⟩

/-- C169: with several windings the sweep of impedance is not that of single points: a leakage tank without capacitance adds its
resistance and its reactance at every frequency. -/
theorem windings_add (mu : Option (ℝ → ℝ × ℝ)) (att : ℝ → ℂ) (t : Tank) (w : Windings) (fast : Bool) (reference f : ℝ) (s : Secondary)
    (hs : w.secondaries reference = [s]) (hl : 0 < s.leakage) (hc : s.capacitance ≤ 0) (hcore : t.core = true)
    (z : ℂ) (hz : impedance (magnetizingModel mu att t) f = some z)
    (a b : ℝ) (ha : resistanceAt (wideband mu att t w fast reference) f 0 = some a)
    (hb : resistanceAt (wideband mu att t w fast reference) f 1 = some b) :
    impedance (wideband mu att t w fast reference) f = some (z + ⟨a + (if 0 < s.turns then (w.primaryTurns / s.turns) ^ 2 else 1) * b,
      2 * Real.pi * f * s.leakage⟩) := by
  have ht : (wideband mu att t w fast reference).tanks = [t, ⟨s.leakage, s.capacitance, false, 1,
      if 0 < s.turns then (w.primaryTurns / s.turns) ^ 2 else 1⟩] := by
    simp [wideband, hs, leakageTanks, not_le.mpr hl]
  have he : effectivePermeability (wideband mu att t w fast reference) f = effectivePermeability (magnetizingModel mu att t) f := by
    simp [wideband, hs, effectivePermeability, magnetizingModel]
  have hz' : tankAt (((2 * Real.pi * f * t.inductance : ℝ) : ℂ) * ⟨-(effectivePermeability (magnetizingModel mu att t) f).im,
      (effectivePermeability (magnetizingModel mu att t) f).re⟩) (2 * Real.pi * f) t.capacitance = some z := by
    simp only [impedance, magnetizingModel, addTanks, armAt, hcore, if_true] at hz
    simp only [magnetizingModel]
    revert hz
    cases htk : tankAt (((2 * Real.pi * f * t.inductance : ℝ) : ℂ) * ⟨-(effectivePermeability ⟨mu, att, 1, [t], [], [], fun _ _ => 0, false,
      false, fun _ _ => 0, true⟩ f).im, (effectivePermeability ⟨mu, att, 1, [t], [], [], fun _ _ => 0, false,
      false, fun _ _ => 0, true⟩ f).re⟩) (2 * Real.pi * f) t.capacitance with
    | none => simp
    | some z' => simp
  simp only [impedance, ht, addTanks, armAt, hcore, if_true, he, hz', ha, hb]
  simp [tankAt, not_lt.mpr hc]

example : axis "linear" 1 3 3 = some [1, 2, 3] := by
  simp [axis, Sampling.linearSpaced, Sampling.fill]
  norm_num

/-! ## No points -/

/-- C169 (fails): asked for no points, the sweeps of impedance and of differential-mode impedance read an element of an empty vector,
although the others return an empty curve. -/
theorem no_points (build : ℝ → Wideband) (leakage : ℝ → ℝ) (r c : ℝ) (m : Wideband) (value : ℝ → Option ℝ) (mode : String)
    (start stop : ℝ) (hm : mode = "linear" ∨ mode = "log") :
    sweepImpedance build mode start stop 0 = .ub ∧ sweepDifferential leakage r c mode start stop 0 = .ub ∧
      sweepCommon m mode start stop 0 = .ok [] ∧ sweepEach value mode start stop 0 = .ok [] := by
  have h : axis mode start stop 0 = some [] := by
    rcases hm with rfl | rfl
    · simp [axis, Sampling.linearSpaced_one]
    · simp only [axis, Sampling.logarithmicSpaced]
      rw [if_neg (by decide), if_pos trivial]
      rfl
  simp [sweepImpedance, sweepDifferential, sweepCommon, sweepEach, h]

/-! ## Core losses by frequency -/

section losses

variable {K : Type} [Field K] [LinearOrder K] [IsStrictOrderedRing K] [FloorRing K]

/-- C169 (fails): the flux density of a winding alone with a current takes the same values at any two frequencies of the sweep, and has
the period of each. -/
theorem flux_same (w : Waveforms.Waveform K) (n r a f g : K) (b b' : Waveforms.Waveform K)
    (h : sweepFlux w n r a f = .ok b) (h' : sweepFlux w n r a g = .ok b') :
    b.data = b'.data ∧ b.data = w.data.map (fun i => i * n / r / a) ∧
      (∃ ts, b.time = some ts ∧ Waveforms.span ts = some (1 / f)) ∧ ∃ ts, b'.time = some ts ∧ Waveforms.span ts = some (1 / g) := by
  have key : ∀ (f : K) (b : Waveforms.Waveform K), sweepFlux w n r a f = .ok b →
      b.data = w.data.map (fun i => i * n / r / a) ∧ ∃ ts, b.time = some ts ∧ Waveforms.span ts = some (1 / f) := by
    intro f b h
    unfold sweepFlux at h
    cases hs : Waveforms.scaleTime w f with
    | ok v =>
      rw [hs] at h
      simp only [Waveforms.Res.bind, Waveforms.Res.ok.injEq] at h
      obtain ⟨e, _, ht, _⟩ := Waveforms.scaled_period w v f hs
      subst h
      exact ⟨by simp [e], ht⟩
    | throws => rw [hs] at h; simp [Waveforms.Res.bind] at h
    | nan => rw [hs] at h; simp [Waveforms.Res.bind] at h
    | ub => rw [hs] at h; simp [Waveforms.Res.bind] at h
  have k := key f b h
  have k' := key g b' h'
  exact ⟨k.1.trans k'.1.symm, k.1, k.2, k'.2⟩

theorem accumulate_scaled (c : K) : ∀ (ds ts : List K) (acc : K),
    Waveforms.accumulate (acc * c) ds (ts.map fun t => t * c) = (Waveforms.accumulate acc ds ts).map (· * c)
  | [], _, _ => by simp [Waveforms.accumulate]
  | [_], _, _ => by simp [Waveforms.accumulate]
  | _ :: _ :: _, [], _ => by simp [Waveforms.accumulate]
  | _ :: _ :: _, [_], _ => by simp [Waveforms.accumulate]
  | d0 :: d1 :: ds, t0 :: t1 :: ts, acc => by
    have e : acc * c + d0 * (t1 * c - t0 * c) = (acc + d0 * (t1 - t0)) * c := by ring
    have ih := accumulate_scaled c (d1 :: ds) (t1 :: ts) (acc + d0 * (t1 - t0))
    simp only [List.map_cons] at ih
    simp only [List.map_cons, Waveforms.accumulate, e, ih]

/-- C169: the volt-seconds of the same voltage brought to a frequency, which the flux follows, are inversely proportional to it: those at
`f` times `f` are those at `g` times `g`. -/
theorem volt_seconds_fall (v : Waveforms.Waveform K) (f g : K) (a b : Waveforms.Waveform K) (ta tb : List K)
    (ha : Waveforms.scaleTime v f = .ok a) (hb : Waveforms.scaleTime v g = .ok b) (hta : a.time = some ta) (htb : b.time = some tb) :
    (Waveforms.accumulate 0 a.data ta).map (· * f) = (Waveforms.accumulate 0 b.data tb).map (· * g) := by
  have key : ∀ (f : K) (a : Waveforms.Waveform K) (ta : List K), Waveforms.scaleTime v f = .ok a → a.time = some ta →
      ∃ (ts : List K) (p : K), v.time = some ts ∧ Waveforms.span ts = some p ∧
        (Waveforms.accumulate 0 a.data ta).map (· * f) = (Waveforms.accumulate 0 v.data ts).map (· * (1 / p)) := by
    intro f a ta h ht
    have hd := (Waveforms.scaled_period v a f h).1
    unfold Waveforms.scaleTime at h
    rcases htv : v.time with _ | ts
    · rw [htv] at h; simp at h
    rw [htv] at h
    simp only at h
    rcases hp : Waveforms.span ts with _ | p
    · rw [hp] at h; simp at h
    rw [hp] at h
    simp only at h
    by_cases h0 : p = 0 ∨ f = 0
    · rw [if_pos h0] at h; simp at h
    rw [if_neg h0] at h
    simp only [Waveforms.Res.ok.injEq] at h
    push Not at h0
    refine ⟨ts, p, rfl, hp, ?_⟩
    have hta : ta = ts.map fun t => t * (1 / p / f) := by
      rw [← h] at ht
      simp only [Option.some.injEq] at ht
      rw [← ht]
      exact List.map_congr_left fun t _ => by ring
    have e := accumulate_scaled (1 / p / f) v.data ts 0
    rw [zero_mul] at e
    rw [hd, hta, e, List.map_map]
    refine List.map_congr_left fun x _ => ?_
    have := h0.1
    have := h0.2
    simp only [Function.comp]
    field_simp
  obtain ⟨ts, p, h1, h2, h3⟩ := key f a ta ha hta
  obtain ⟨ts', p', h1', h2', h3'⟩ := key g b tb hb htb
  rw [h1, Option.some.injEq] at h1'
  subst h1'
  rw [h2, Option.some.injEq] at h2'
  subst h2'
  rw [h3, h3']

/-- C169 (fails): losses that follow the values of flux density as a power of frequency (Steinmetz) rise with the frequency all along the
sweep of a winding alone with a current. -/
theorem losses_rise (peak : List K → K) (power : K → K) (w : Waveforms.Waveform K) (n r a f g : K)
    (hp : 0 < peak (w.data.map fun i => i * n / r / a)) (hpow : power f < power g) (x y : K)
    (hx : (sweepCoreLosses (fun b f => peak b.data * power f) w n r a [f, g])[0]? = some (.ok x))
    (hy : (sweepCoreLosses (fun b f => peak b.data * power f) w n r a [f, g])[1]? = some (.ok y)) : x < y := by
  simp only [sweepCoreLosses, List.map_cons, List.map_nil, List.getElem?_cons_zero, List.getElem?_cons_succ, Option.some.injEq] at hx hy
  cases hb : sweepFlux w n r a f with
  | ok b =>
    cases hb' : sweepFlux w n r a g with
    | ok b' =>
      rw [hb] at hx
      rw [hb'] at hy
      simp only [Waveforms.Res.bind, Waveforms.Res.ok.injEq] at hx hy
      obtain ⟨e, e', _⟩ := flux_same w n r a f g b b' hb hb'
      rw [← hx, ← hy, ← e, e']
      exact mul_lt_mul_of_pos_left hpow hp
    | throws => rw [hb'] at hy; simp [Waveforms.Res.bind] at hy
    | nan => rw [hb'] at hy; simp [Waveforms.Res.bind] at hy
    | ub => rw [hb'] at hy; simp [Waveforms.Res.bind] at hy
  | throws => rw [hb] at hx; simp [Waveforms.Res.bind] at hx
  | nan => rw [hb] at hx; simp [Waveforms.Res.bind] at hx
  | ub => rw [hb] at hx; simp [Waveforms.Res.bind] at hx

/-- A triangular current at 1 Hz. -/
def triangle : Waveforms.Waveform ℚ := { data := [-1, 1, -1], time := some [0, 1 / 2, 1], label := none }

example : sweepFlux triangle 2 4 3 10 = .ok { data := [-1 / 6, 1 / 6, -1 / 6], time := some [0, 1 / 20, 1 / 10], label := none } := by
  decide +kernel

example : sweepFlux triangle 2 4 3 20 = .ok { data := [-1 / 6, 1 / 6, -1 / 6], time := some [0, 1 / 40, 1 / 20], label := none } := by
  decide +kernel

/-- The volt-seconds of a square wave at two frequencies. -/
example : Waveforms.accumulate (0 : ℚ) [1, 1, -1, -1] [0, 1 / 20, 1 / 20, 1 / 10] = [1 / 20, 1 / 20, 0] ∧
    Waveforms.accumulate (0 : ℚ) [1, 1, -1, -1] [0, 1 / 40, 1 / 40, 1 / 20] = [1 / 40, 1 / 40, 0] := by
  decide +kernel

end losses

end Verif.Sweeper
