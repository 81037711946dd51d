import Verif.Simulator.Sheet
import Mathlib.Algebra.Order.Field.Rat
import Mathlib.Tactic.Linarith
import Mathlib.Tactic.FieldSimp

/-! # The datasheet of a simulated magnetic: specification and theorems -/

namespace Verif.Simulator.Sheet

set_option linter.unusedSimpArgs false
set_option linter.unusedSectionVars false

variable {K : Type} [Field K] [LinearOrder K] [IsStrictOrderedRing K]

/-! ## Specification -/

/-- `(a, b)` are the least and the largest of some values. -/
def Spans (r : K × K) (l : List K) : Prop := (∀ x ∈ l, r.1 ≤ x ∧ x ≤ r.2) ∧ r.1 ∈ l ∧ r.2 ∈ l

/-- The rise of temperature at an operating point, with index `i`, for losses. -/
def riseAt (m : Magnetic K) (i : ℕ) (p : Point K) (core winding : K) : K := m.hotspot i p.ambient core winding - p.ambient

/-- A rise of temperature and a thermal resistance are those of an operating point with core losses, whose rise no other exceeds. -/
def Worst (m : Magnetic K) (points : List (Point K)) (outputs : List (Output K)) (rise : K) (resistance : Option K) : Prop :=
  ∃ (i : ℕ) (p : Point K) (o : Output K) (core : K), points[i]? = some p ∧ outputs[i]? = some o ∧ o.core = some core ∧
    rise = riseAt m i p core (o.winding.getD 0) ∧
    (0 < core + o.winding.getD 0 → ∃ r, resistance = some r ∧ r * (core + o.winding.getD 0) = rise) ∧
    (core + o.winding.getD 0 ≤ 0 → resistance = none) ∧
    ∀ (j : ℕ) (q : Point K) (o' : Output K) (core' : K), points[j]? = some q → outputs[j]? = some o' → o'.core = some core' →
      riseAt m j q core' (o'.winding.getD 0) ≤ rise

/-! ## Lemmas -/

theorem range_some (r : K × K) (l seen : List K) (h : Spans r seen) : ∃ r', range (some r) l = some r' ∧ Spans r' (seen ++ l) := by
  induction l generalizing r seen with
  | nil => exact ⟨r, rfl, by simpa using h⟩
  | cons x xs ih =>
    obtain ⟨a, b⟩ := r
    obtain ⟨h1, h2, h3⟩ := h
    have hs : Spans (min a x, max b x) (seen ++ [x]) := by
      refine ⟨?_, ?_, ?_⟩
      · intro y hy
        rcases List.mem_append.1 hy with hy | hy
        · exact ⟨(min_le_left _ _).trans (h1 y hy).1, (h1 y hy).2.trans (le_max_left _ _)⟩
        · simp only [List.mem_singleton] at hy
          subst hy
          exact ⟨min_le_right _ _, le_max_right _ _⟩
      · rcases min_choice a x with e | e <;> simp only [e, List.mem_append, List.mem_singleton]
        · exact .inl h2
        · exact .inr trivial
      · rcases max_choice b x with e | e <;> simp only [e, List.mem_append, List.mem_singleton]
        · exact .inl h3
        · exact .inr trivial
    obtain ⟨r', h4, h5⟩ := ih (min a x, max b x) (seen ++ [x]) hs
    exact ⟨r', h4, by simpa using h5⟩

theorem range_none (l : List K) : (l = [] → range none l = none) ∧ (l ≠ [] → ∃ r, range none l = some r ∧ Spans r l) := by
  cases l with
  | nil => exact ⟨fun _ => rfl, fun h => absurd rfl h⟩
  | cons x xs =>
    refine ⟨by simp, fun _ => ?_⟩
    obtain ⟨r, h1, h2⟩ := range_some (x, x) xs [x] ⟨by simp, by simp, by simp⟩
    exact ⟨r, h1, h2⟩

/-- The hottest of some operating points, the first of them. -/
def Hottest (b : Point K) (l : List (Point K)) : Prop :=
  ∃ before after, l = before ++ b :: after ∧ (∀ q ∈ before, q.ambient < b.ambient) ∧ ∀ q ∈ after, q.ambient ≤ b.ambient

theorem hottest_some (b : Point K) (l seen : List (Point K)) (h : Hottest b seen) :
    ∃ b', hottest (some b) l = some b' ∧ Hottest b' (seen ++ l) := by
  induction l generalizing b seen with
  | nil => exact ⟨b, rfl, by simpa using h⟩
  | cons p ps ih =>
    obtain ⟨before, after, rfl, h1, h2⟩ := h
    by_cases hp : p.ambient > b.ambient
    · have hs : ∀ q ∈ before ++ b :: after, q.ambient < p.ambient := by
        intro q hq
        simp only [List.mem_append, List.mem_cons] at hq
        rcases hq with hq | rfl | hq
        · exact (h1 q hq).trans hp
        · exact hp
        · exact (h2 q hq).trans_lt hp
      obtain ⟨b', h3, h4⟩ := ih p ((before ++ b :: after) ++ [p]) ⟨before ++ b :: after, [], rfl, hs, by simp⟩
      exact ⟨b', by simp only [hottest]; rw [if_pos hp]; exact h3, by simpa using h4⟩
    · have hs : ∀ q ∈ after ++ [p], q.ambient ≤ b.ambient := by
        intro q hq
        rcases List.mem_append.1 hq with hq | hq
        · exact h2 q hq
        · simp only [List.mem_singleton] at hq
          subst hq
          exact not_lt.1 hp
      obtain ⟨b', h3, h4⟩ := ih b ((before ++ b :: after) ++ [p]) ⟨before, after ++ [p], by simp, h1, hs⟩
      exact ⟨b', by simp only [hottest]; rw [if_neg hp]; exact h3, by simpa using h4⟩

theorem hottest_cons (p : Point K) (ps : List (Point K)) : ∃ b, hottest none (p :: ps) = some b ∧ Hottest b (p :: ps) := by
  obtain ⟨b, h1, h2⟩ := hottest_some p ps [p] ⟨[], [], rfl, by simp, by simp⟩
  exact ⟨b, h1, h2⟩

/-- The worst of pairs of operating points and outputs. -/
def WorstOf (m : Magnetic K) (l : List (Point K × Output K)) (r : K × Option K) : Prop :=
  ∃ (i : ℕ) (p : Point K) (o : Output K) (core : K), l[i]? = some (p, o) ∧ o.core = some core ∧
    r.1 = riseAt m i p core (o.winding.getD 0) ∧
    r.2 = (if core + o.winding.getD 0 > 0 then some (r.1 / (core + o.winding.getD 0)) else none) ∧
    ∀ (j : ℕ) (q : Point K) (o' : Output K) (core' : K), l[j]? = some (q, o') → o'.core = some core' →
      riseAt m j q core' (o'.winding.getD 0) ≤ r.1

/-- What the loop has after some pairs. -/
def Seen (m : Magnetic K) (best : Option (K × Option K)) (l : List (Point K × Output K)) : Prop :=
  (best = none ∧ ∀ (i : ℕ) (p : Point K) (o : Output K), l[i]? = some (p, o) → o.core = none) ∨
    ∃ r, best = some r ∧ WorstOf m l r

theorem append_getElem? {A : Type} (l : List A) (x : A) (i : ℕ) (y : A) :
    (l ++ [x])[i]? = some y ↔ l[i]? = some y ∨ (i = l.length ∧ x = y) := by
  rcases lt_trichotomy i l.length with h | h | h
  · rw [List.getElem?_append_left h]
    constructor
    · exact .inl
    · rintro (h' | ⟨h', -⟩)
      · exact h'
      · omega
  · subst h
    simp
  · rw [List.getElem?_eq_none (by simp; omega), List.getElem?_eq_none (by omega)]
    constructor
    · simp
    · rintro (h' | ⟨h', -⟩)
      · simp at h'
      · omega

theorem worst_seen (m : Magnetic K) (l seen : List (Point K × Output K)) (best : Option (K × Option K)) (h : Seen m best seen) :
    Seen m (worst m best seen.length l) (seen ++ l) := by
  induction l generalizing best seen with
  | nil => simpa [worst] using h
  | cons x l ih =>
    obtain ⟨p, o⟩ := x
    have next : ∀ best', Seen m best' (seen ++ [(p, o)]) → Seen m (worst m best' (seen.length + 1) l) (seen ++ (p, o) :: l) := by
      intro best' h'
      have := ih (seen ++ [(p, o)]) best' h'
      simpa using this
    simp only [worst]
    cases hc : o.core with
    | none =>
      simp only
      apply next
      rcases h with ⟨rfl, h⟩ | ⟨r, rfl, i, q, o', core, h1, h2, h3, h4, h5⟩
      · refine .inl ⟨rfl, fun i q o' hi => ?_⟩
        rcases (append_getElem? _ _ _ _).1 hi with hi | ⟨-, hi⟩
        · exact h i q o' hi
        · simp only [Prod.mk.injEq] at hi
          rw [← hi.2]; exact hc
      · refine .inr ⟨r, rfl, i, q, o', core, (append_getElem? _ _ _ _).2 (.inl h1), h2, h3, h4, fun j q' o'' core' hj hcj => ?_⟩
        rcases (append_getElem? _ _ _ _).1 hj with hj | ⟨-, hj⟩
        · exact h5 j q' o'' core' hj hcj
        · simp only [Prod.mk.injEq] at hj
          rw [← hj.2, hc] at hcj
          simp at hcj
    | some core =>
      simp only
      have new : ∀ (hle : ∀ (j : ℕ) (q : Point K) (o' : Output K) (core' : K), seen[j]? = some (q, o') → o'.core = some core' →
          riseAt m j q core' (o'.winding.getD 0) ≤ m.hotspot seen.length p.ambient core (o.winding.getD 0) - p.ambient),
          Seen m (some (m.hotspot seen.length p.ambient core (o.winding.getD 0) - p.ambient,
            if core + o.winding.getD 0 > 0 then
              some ((m.hotspot seen.length p.ambient core (o.winding.getD 0) - p.ambient) / (core + o.winding.getD 0)) else none))
            (seen ++ [(p, o)]) := by
        intro hle
        refine .inr ⟨_, rfl, seen.length, p, o, core, (append_getElem? _ _ _ _).2 (.inr ⟨rfl, rfl⟩), hc, rfl, rfl,
          fun j q' o'' core' hj hcj => ?_⟩
        rcases (append_getElem? _ _ _ _).1 hj with hj | ⟨rfl, hj'⟩
        · exact hle j q' o'' core' hj hcj
        · simp only [Prod.mk.injEq] at hj'
          obtain ⟨rfl, rfl⟩ := hj'
          rw [hc] at hcj
          simp only [Option.some.injEq] at hcj
          subst hcj
          exact le_rfl
      rcases h with ⟨rfl, h⟩ | ⟨r, rfl, i, q, o', core', h1, h2, h3, h4, h5⟩
      · apply next
        exact new fun j q o' core' hj hcj => by rw [h j q o' hj] at hcj; simp at hcj
      · simp only
        by_cases hr : m.hotspot seen.length p.ambient core (o.winding.getD 0) - p.ambient > r.1
        · rw [if_pos hr]
          apply next
          exact new fun j q o' core' hj hcj => (h5 j q o' core' hj hcj).trans hr.le
        · rw [if_neg hr]
          apply next
          refine .inr ⟨r, rfl, i, q, o', core', (append_getElem? _ _ _ _).2 (.inl h1), h2, h3, h4, fun j q' o'' core'' hj hcj => ?_⟩
          rcases (append_getElem? _ _ _ _).1 hj with hj | ⟨rfl, hj'⟩
          · exact h5 j q' o'' core'' hj hcj
          · simp only [Prod.mk.injEq] at hj'
            obtain ⟨rfl, rfl⟩ := hj'
            rw [hc] at hcj
            simp only [Option.some.injEq] at hcj
            subst hcj
            exact not_lt.1 hr

theorem datasheet_ok {m : Magnetic K} {points : List (Point K)} {outputs : List (Output K)} {d : Datasheet K}
    (h : datasheet m points outputs = .ok d) :
    ∃ p ps o os first hot low high, points = p :: ps ∧ outputs = o :: os ∧ points.length = outputs.length ∧
      (∀ q ∈ points, q.windings ≠ []) ∧ p.windings.head? = some first ∧ hottest none (p :: ps) = some hot ∧
      range none ((p :: ps).map Point.ambient) = some (low, high) ∧
      d = { windings := m.windings
            coupled := decide (m.windings > 1)
            inductance := o.inductance.map Prod.fst
            leakage := (o.inductance.bind Prod.snd).bind fun l => l[1]?
            resistance := if m.windings = 1 ∧ (m.resistances p.ambient).length = 1 then (m.resistances p.ambient).head? else none
            resistances := if m.windings = 1 ∧ (m.resistances p.ambient).length = 1 then none
              else if (m.resistances p.ambient).length = m.windings then some (m.resistances p.ambient) else none
            ratedCurrents := [m.rated]
            turnsRatios := if m.windings > 1 then m.turnsRatios.head?.map fun n => [n] else none
            saturationCurrent := m.saturation hot hot.ambient
            temperature := (low, p.ambient, high)
            rise := (worst m none 0 ((p :: ps).zip (o :: os))).map Prod.fst
            thermalResistance := (worst m none 0 ((p :: ps).zip (o :: os))).bind Prod.snd
            dimensions := m.dimensions
            switchingFrequency := first.1
            inputVoltage := range none ((p :: ps).filterMap fun q => q.windings.head?.bind Prod.snd)
            outputVoltages := outputVoltages m.windings p } := by
  unfold datasheet at h
  split at h
  · simp at h
  · simp at h
  · rename_i p ps o os
    by_cases hl : (p :: ps).length ≠ (o :: os).length
    · rw [if_pos hl] at h; simp at h
    rw [if_neg hl] at h
    by_cases ha : ((p :: ps).any fun q => decide (q.windings = [])) = true
    · rw [if_pos ha] at h; simp at h
    rw [if_neg ha] at h
    split at h
    · rename_i first hot low high e1 e2 e3
      simp only [Res.ok.injEq] at h
      refine ⟨p, ps, o, os, first, hot, low, high, rfl, rfl, by simpa using hl, ?_, e1, e2, e3, h.symm⟩
      intro q hq hw
      exact ha (List.any_eq_true.2 ⟨q, hq, by simpa using hw⟩)
    · simp at h

/-! ## Theorems -/

/-- **C252.** A datasheet is refused if and only if there are no outputs, or not as many as operating points; and of operating points that have windings
nothing is undefined. -/
theorem datasheet_refused (m : Magnetic K) (points : List (Point K)) (outputs : List (Output K)) (hw : ∀ q ∈ points, q.windings ≠ []) :
    (datasheet m points outputs = .throws ↔ outputs = [] ∨ points.length ≠ outputs.length) ∧ datasheet m points outputs ≠ .ub := by
  cases outputs with
  | nil => simp [datasheet]
  | cons o os =>
    cases points with
    | nil => simp [datasheet]
    | cons p ps =>
      simp only [datasheet, reduceCtorEq, false_or]
      by_cases hl : (p :: ps).length ≠ (o :: os).length
      · rw [if_pos hl]; simpa using hl
      rw [if_neg hl]
      have ha : ((p :: ps).any fun q => decide (q.windings = [])) = false := by
        rw [List.any_eq_false]
        intro q hq
        simpa using hw q hq
      rw [ha, if_neg (by simp)]
      obtain ⟨hot, e2, -⟩ := hottest_cons p ps
      obtain ⟨⟨low, high⟩, e3, -⟩ := (range_none ((p :: ps).map Point.ambient)).2 (by simp)
      cases e1 : p.windings with
      | nil => exact absurd e1 (hw p List.mem_cons_self)
      | cons f fs =>
        rw [e2, e3]
        simp only [List.head?_cons, reduceCtorEq, false_iff, ne_eq, not_false_eq_true, and_true]
        exact hl

/-- **C252.** The range of temperatures is that of the ambient temperatures of the operating points, and the nominal one is that of the first. -/
theorem datasheet_temperatures (m : Magnetic K) (points : List (Point K)) (outputs : List (Output K)) (d : Datasheet K)
    (h : datasheet m points outputs = .ok d) : Spans (d.temperature.1, d.temperature.2.2) (points.map Point.ambient) ∧
      points.head?.map Point.ambient = some d.temperature.2.1 := by
  obtain ⟨p, ps, o, os, first, hot, low, high, rfl, rfl, -, -, -, -, e3, rfl⟩ := datasheet_ok h
  obtain ⟨r, h1, h2⟩ := (range_none ((p :: ps).map Point.ambient)).2 (by simp)
  rw [e3] at h1
  simp only [Option.some.injEq] at h1
  subst h1
  exact ⟨h2, rfl⟩

/-- **C252.** The saturation current is that at the hottest operating point, the first of them, at its ambient temperature. -/
theorem datasheet_saturation (m : Magnetic K) (points : List (Point K)) (outputs : List (Output K)) (d : Datasheet K)
    (h : datasheet m points outputs = .ok d) : ∃ p, Hottest p points ∧ d.saturationCurrent = m.saturation p p.ambient := by
  obtain ⟨p, ps, o, os, first, hot, low, high, rfl, rfl, -, -, -, e2, -, rfl⟩ := datasheet_ok h
  obtain ⟨b, h1, h2⟩ := hottest_cons p ps
  rw [e2] at h1
  simp only [Option.some.injEq] at h1
  subst h1
  exact ⟨hot, h2, rfl⟩

/-- **C252.** The rise of temperature is the worst of the operating points with core losses and the thermal resistance is that of the same operating
point, its rise over its losses; there are none when no operating point has core losses. -/
theorem datasheet_worst (m : Magnetic K) (points : List (Point K)) (outputs : List (Output K)) (d : Datasheet K)
    (h : datasheet m points outputs = .ok d) :
    ((∀ o ∈ outputs, o.core = none) → d.rise = none ∧ d.thermalResistance = none) ∧
      ((∃ o ∈ outputs, o.core ≠ none) → ∃ rise, d.rise = some rise ∧ Worst m points outputs rise d.thermalResistance) := by
  obtain ⟨p, ps, o, os, first, hot, low, high, rfl, rfl, hl, -, -, -, -, rfl⟩ := datasheet_ok h
  have hw := worst_seen m ((p :: ps).zip (o :: os)) [] none (.inl ⟨rfl, by simp⟩)
  simp only [List.length_nil, List.nil_append] at hw
  generalize worst m none 0 ((p :: ps).zip (o :: os)) = w at hw
  have zip_iff : ∀ (i : ℕ) (a : Point K) (b : Output K), ((p :: ps).zip (o :: os))[i]? = some (a, b) ↔
      (p :: ps)[i]? = some a ∧ (o :: os)[i]? = some b := by
    intro i a b
    rw [List.getElem?_zip_eq_some]
  have idx : ∀ x ∈ o :: os, ∃ (i : ℕ) (a : Point K), ((p :: ps).zip (o :: os))[i]? = some (a, x) := by
    intro x hx
    obtain ⟨i, hi, rfl⟩ := List.getElem_of_mem hx
    exact ⟨i, (p :: ps)[i]'(by omega), (zip_iff _ _ _).2 ⟨List.getElem?_eq_getElem (by omega), List.getElem?_eq_getElem hi⟩⟩
  constructor
  · intro hno
    rcases hw with ⟨rfl, -⟩ | ⟨r, rfl, i, q, o', core, h1, h2, -⟩
    · exact ⟨rfl, rfl⟩
    · have := hno o' (List.mem_of_getElem? ((zip_iff _ _ _).1 h1).2)
      rw [this] at h2
      simp at h2
  · rintro ⟨x, hx, hcx⟩
    rcases hw with ⟨rfl, h0⟩ | ⟨r, rfl, i, q, o', core, h1, h2, h3, h4, h5⟩
    · obtain ⟨i, a, hi⟩ := idx x hx
      exact absurd (h0 i a x hi) hcx
    · refine ⟨r.1, rfl, i, q, o', core, ((zip_iff _ _ _).1 h1).1, ((zip_iff _ _ _).1 h1).2, h2, h3, ?_, ?_,
        fun j q' o'' core' hj1 hj2 hcj => h5 j q' o'' core' ((zip_iff _ _ _).2 ⟨hj1, hj2⟩) hcj⟩
      · intro hpos
        refine ⟨r.1 / (core + o'.winding.getD 0), ?_, div_mul_cancel₀ _ hpos.ne'⟩
        simp only [Option.bind_some, h4]
        rw [if_pos hpos]
      · intro hneg
        simp only [Option.bind_some, h4]
        rw [if_neg (not_lt.2 hneg)]

/-- **C252.** The range of input voltages is that of the rms of the voltages of the first winding, over the operating points that have it. -/
theorem datasheet_input (m : Magnetic K) (points : List (Point K)) (outputs : List (Output K)) (d : Datasheet K)
    (h : datasheet m points outputs = .ok d) (l : List K) (hl : l = points.filterMap fun q => q.windings.head?.bind Prod.snd) :
    (l = [] → d.inputVoltage = none) ∧ (l ≠ [] → ∃ r, d.inputVoltage = some r ∧ Spans r l) := by
  obtain ⟨p, ps, o, os, first, hot, low, high, rfl, rfl, -, -, -, -, -, rfl⟩ := datasheet_ok h
  subst hl
  exact range_none _

/-- **C252.** What comes from the first operating point and its outputs: the inductance, the leakage to the first secondary, the switching frequency, the
direct current resistance of each winding at its ambient temperature. -/
theorem datasheet_first (m : Magnetic K) (points : List (Point K)) (outputs : List (Output K)) (d : Datasheet K)
    (h : datasheet m points outputs = .ok d) (p : Point K) (o : Output K) (hp : points.head? = some p) (ho : outputs.head? = some o)
    (hr : (m.resistances p.ambient).length = m.windings) :
    d.inductance = o.inductance.map Prod.fst ∧ (∀ (i : K) (l : List K), o.inductance = some (i, some l) → d.leakage = l[1]?) ∧
      p.windings.head?.map Prod.fst = some d.switchingFrequency ∧
      (m.windings = 1 → ∃ r, m.resistances p.ambient = [r] ∧ d.resistance = some r ∧ d.resistances = none) ∧
      (m.windings ≠ 1 → d.resistance = none ∧ d.resistances = some (m.resistances p.ambient)) := by
  obtain ⟨p', ps, o', os, first, hot, low, high, rfl, rfl, -, -, e1, -, -, rfl⟩ := datasheet_ok h
  simp only [List.head?_cons, Option.some.injEq] at hp ho
  subst hp ho
  refine ⟨rfl, fun i l hi => by simp [hi], by simp [e1], fun h1 => ?_, fun h1 => ?_⟩
  · rw [h1] at hr
    obtain ⟨r, hr'⟩ := List.length_eq_one_iff.1 hr
    exact ⟨r, hr', by simp [h1, hr'], by simp [h1, hr']⟩
  · simp [h1, hr]

/-- **C252.** When all secondaries of the first operating point have the rms of their voltages, the output voltages are these, in the order of the
windings. -/
theorem datasheet_outputs_partial (m : Magnetic K) (points : List (Point K)) (outputs : List (Output K)) (d : Datasheet K)
    (h : datasheet m points outputs = .ok d) (p : Point K) (hp : points.head? = some p) (hn : p.windings.length = m.windings)
    (hm : 1 < m.windings) (vs : List K) (hv : p.windings.tail.map Prod.snd = vs.map some) : d.outputVoltages = some vs := by
  obtain ⟨p', ps, o', os, first, hot, low, high, rfl, rfl, -, -, -, -, -, rfl⟩ := datasheet_ok h
  simp only [List.head?_cons, Option.some.injEq] at hp
  subst hp
  have hf : p'.windings.tail.filterMap Prod.snd = vs := by
    have : p'.windings.tail.filterMap Prod.snd = (p'.windings.tail.map Prod.snd).filterMap id := by
      rw [List.filterMap_map]; rfl
    rw [this, hv, List.filterMap_map]
    simp
  have hne : vs ≠ [] := by
    intro e
    have := congrArg List.length hv
    simp only [List.length_map, List.length_tail, e, List.length_nil] at this
    omega
  simp only [outputVoltages]
  rw [if_pos ⟨hm, hn⟩]
  simp only [hf]
  rw [if_neg hne]

/-- **C253.** Building the datasheet keeps all else that the manufacturer says of the magnetic, and replaces the datasheet there was. -/
theorem attached {I D : Type} (default : I) (info : Option (Info D I)) (d : D) :
    (attach default info d).datasheet = some d ∧ (∀ i, info = some i → (attach default info d).rest = i.rest) ∧
      (info = none → (attach default info d).rest = default) := by
  cases info <;> simp [attach]

/-- **C253.** Building it again is the same as building it once. -/
theorem attached_again {I D : Type} (default : I) (info : Option (Info D I)) (d d' : D) :
    attach default (some (attach default info d)) d' = attach default info d' := by
  cases info <;> rfl

/-- The frequencies of the curve. -/
theorem frequencyAt_eq (f : ℝ) (hf : 0 < f) (i : ℕ) : frequencyAt f i = f * (10 : ℝ) ^ ((i : ℝ) / 10 - 3) := by
  have h1 : f * 100 / (f / 1000) = (10 : ℝ) ^ (5 : ℝ) := by
    have : (10 : ℝ) ^ (5 : ℝ) = 100000 := by norm_num
    rw [this]; field_simp; norm_num
  have h2 : Real.logb 10 (f * 100 / (f / 1000)) = 5 := by
    rw [h1, Real.logb_rpow (by norm_num) (by norm_num)]
  have h3 : (10 : ℝ) ^ ((i : ℝ) / 10 - 3) = (10 : ℝ) ^ ((i : ℝ) / 10) / 1000 := by
    rw [Real.rpow_sub (by norm_num)]
    norm_num
  unfold frequencyAt
  rw [h2, h3]
  have h4 : (5 : ℝ) / ((numberPoints : ℝ) - 1) * (i : ℝ) = (i : ℝ) / 10 := by
    simp only [numberPoints]; push_cast; ring
  rw [h4]
  ring

theorem largest_some (b : ℝ) (l : List (ℝ × ℝ)) :
    ∃ x, largest (some b) l = some x ∧ b ≤ x ∧ (∀ p ∈ l, p.2 ≤ x) ∧ (x = b ∨ ∃ p ∈ l, p.2 = x) := by
  induction l generalizing b with
  | nil => exact ⟨b, rfl, le_rfl, by simp, .inl rfl⟩
  | cons p l ih =>
    obtain ⟨x, h1, h2, h3, h4⟩ := ih (max b p.2)
    refine ⟨x, h1, (le_max_left _ _).trans h2, ?_, ?_⟩
    · intro q hq
      rcases List.mem_cons.1 hq with rfl | hq
      · exact (le_max_right _ _).trans h2
      · exact h3 q hq
    · rcases h4 with rfl | ⟨q, hq, rfl⟩
      · rcases max_choice b p.2 with e | e
        · exact .inl e
        · exact .inr ⟨p, List.mem_cons_self, e.symm⟩
      · exact .inr ⟨q, List.mem_cons_of_mem _ hq, rfl⟩

/-- **C252.** The curve of impedance has 51 points at increasing frequencies, ten per decade, from a thousandth of the self-resonant frequency to a hundred
times it, and one of them is the self-resonant frequency itself. -/
theorem curve_frequencies (magnitude : ℝ → ℝ) (f : ℝ) (hf : 0 < f) :
    (curve magnitude f).length = 51 ∧ (∀ p ∈ curve magnitude f, p.2 = magnitude p.1) ∧
      (curve magnitude f)[0]?.map Prod.fst = some (f / 1000) ∧ (curve magnitude f)[50]?.map Prod.fst = some (f * 100) ∧
      (curve magnitude f)[30]?.map Prod.fst = some f ∧
      (∀ i, i + 10 < 51 → (curve magnitude f)[i + 10]?.map Prod.fst = (curve magnitude f)[i]?.map fun p => 10 * p.1) ∧
      ((curve magnitude f).map Prod.fst).Pairwise (· < ·) := by
  have get : ∀ i, i < 51 → (curve magnitude f)[i]? = some (frequencyAt f i, magnitude (frequencyAt f i)) := by
    intro i hi
    simp [curve, numberPoints, hi]
  refine ⟨by simp [curve, numberPoints], ?_, ?_, ?_, ?_, ?_, ?_⟩
  · intro p hp
    simp only [curve, List.mem_map] at hp
    obtain ⟨i, -, rfl⟩ := hp
    rfl
  · rw [get 0 (by norm_num)]
    simp only [Option.map_some, frequencyAt_eq f hf, Option.some.injEq]
    rw [Real.rpow_sub (by norm_num)]
    norm_num
    ring
  · rw [get 50 (by norm_num)]
    simp only [Option.map_some, frequencyAt_eq f hf, Option.some.injEq]
    norm_num
  · rw [get 30 (by norm_num)]
    simp only [Option.map_some, frequencyAt_eq f hf, Option.some.injEq]
    norm_num
  · intro i hi
    rw [get (i + 10) hi, get i (by omega)]
    simp only [Option.map_some, frequencyAt_eq f hf, Option.some.injEq]
    have : ((i + 10 : ℕ) : ℝ) / 10 - 3 = ((i : ℝ) / 10 - 3) + 1 := by push_cast; ring
    rw [this, Real.rpow_add (by norm_num), Real.rpow_one]
    ring
  · have : (curve magnitude f).map Prod.fst = (List.range 51).map (frequencyAt f) := by
      simp [curve, numberPoints, Function.comp_def]
    rw [this, List.pairwise_map]
    refine List.pairwise_lt_range.imp fun {a b} hab => ?_
    rw [frequencyAt_eq f hf, frequencyAt_eq f hf]
    refine mul_lt_mul_of_pos_left (Real.rpow_lt_rpow_of_exponent_lt (by norm_num) ?_) hf
    have : (a : ℝ) < (b : ℝ) := by exact_mod_cast hab
    linarith

/-- **C252.** The maximum impedance is the largest of the magnitudes of the curve. -/
theorem curve_largest (magnitude : ℝ → ℝ) (f : ℝ) : ∃ x, largest none (curve magnitude f) = some x ∧
    (∀ p ∈ curve magnitude f, p.2 ≤ x) ∧ ∃ p ∈ curve magnitude f, p.2 = x := by
  have hne : curve magnitude f ≠ [] := by
    intro h
    have := congrArg List.length h
    simp [curve, numberPoints] at this
  cases hc : curve magnitude f with
  | nil => exact absurd hc hne
  | cons p l =>
    obtain ⟨x, h1, h2, h3, h4⟩ := largest_some p.2 l
    refine ⟨x, h1, ?_, ?_⟩
    · intro q hq
      rcases List.mem_cons.1 hq with rfl | hq
      · exact h2
      · exact h3 q hq
    · rcases h4 with rfl | ⟨q, hq, rfl⟩
      · exact ⟨p, List.mem_cons_self, rfl⟩
      · exact ⟨q, List.mem_cons_of_mem _ hq, rfl⟩

/-! ## A case -/

/-- Three windings; the rise of temperature is four times the losses. -/
def magnetic : Magnetic ℚ where
  windings := 3
  resistances := fun t => [t / 100, t / 50, t / 25]
  rated := 2
  turnsRatios := [4, 8]
  saturation := fun p t => 10 - t / 100 + p.windings.length
  hotspot := fun _ t c w => t + 4 * (c + w)
  dimensions := (1, 2, 3)

/-- The second winding has no voltage. -/
def points : List (Point ℚ) := [⟨25, [(1000, some 12), (1000, none), (1000, some 5)]⟩, ⟨60, [(1000, some 10), (1000, none), (1000, some 5)]⟩]
/-- Their outputs. -/
def outputs : List (Output ℚ) := [⟨some (7, some [0, 2, 3]), some 1, some 2⟩, ⟨none, some 1, none⟩]

/-- **C252.** The output voltages of a datasheet do not say which winding each one is of: when a secondary has no rms of its voltage, those after it take
its place. -/
theorem outputs_shift : ∃ d, datasheet magnetic points outputs = .ok d ∧ d.outputVoltages = some [5] ∧
    (points.head?.bind fun p => p.windings[1]?) = some (1000, none) := by
  refine ⟨_, rfl, ?_, ?_⟩ <;> decide +kernel

example : datasheet magnetic points outputs = .ok
    { windings := 3, coupled := true, inductance := some 7, leakage := some 2, resistance := none,
      resistances := some [1 / 4, 1 / 2, 1], ratedCurrents := [2], turnsRatios := some [4], saturationCurrent := 62 / 5,
      temperature := (25, 25, 60), rise := some 12, thermalResistance := some 4, dimensions := (1, 2, 3), switchingFrequency := 1000,
      inputVoltage := some (10, 12), outputVoltages := some [5] } := by decide +kernel

example : datasheet magnetic points [] = .throws ∧ datasheet magnetic (points.take 1) outputs = .throws :=
  ⟨by decide +kernel, by decide +kernel⟩

end Verif.Simulator.Sheet
