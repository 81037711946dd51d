import Mathlib.Tactic.Linarith
import Mathlib.Tactic.Ring
import Mathlib.Tactic.NormNum
import Mathlib.Tactic.Positivity
import Mathlib.Algebra.Order.Field.Rat
import Verif.Bobbin.Model

/-!
# What a bobbin answers about its windows (C181) and faces (C182)
-/

namespace Verif.Bobbin

set_option linter.unusedSectionVars false
set_option linter.unusedSimpArgs false

variable {K : Type} [Field K] [LinearOrder K] [IsStrictOrderedRing K]

/-! ## The specification -/

/-- Window `i` of a processed bobbin. -/
def Spec.HasWindow (b : Bobbin K) (i : ℕ) (p : Desc K) (w : Window K) : Prop := b.processed = some p ∧ p.windows[i]? = some w

/-- A window is round only if it says so. -/
def Spec.isRound (w : Window K) : Prop := w.shape = some .round

/-- The two dimensions of a window: across and along, or the radius and the angle. -/
def Spec.Measures (w : Window K) (x y : K) : Prop :=
  (Spec.isRound w → w.radialHeight = some x ∧ w.angle = some y) ∧ (¬ Spec.isRound w → w.width = some x ∧ w.height = some y)

/-! ## Lemmas -/

theorem shape_of_window (toroid : String → Option Bool) (b : Bobbin K) (i : ℕ) (p : Desc K) (w : Window K) (h : Spec.HasWindow b i p w) :
    (Spec.isRound w → windowShape toroid b i = .value .round) ∧ (¬ Spec.isRound w → windowShape toroid b i = .value .rectangular) := by
  unfold windowShape Spec.isRound
  rw [h.1]
  simp only [h.2]
  rcases w.shape with _ | (_ | _) <;> simp

theorem raw_of_window (b : Bobbin K) (i : ℕ) (p : Desc K) (w : Window K) (h : Spec.HasWindow b i p w) : rawWindow b i = .value w := by
  unfold rawWindow
  rw [h.1]
  simp only [Outcome.deref, Outcome.bind, h.2]

/-! ## Windows -/

/-- C181. A window that says nothing of its shape is rectangular. The dimensions answered are those of the window, its width and height or
its radius and angle by its shape. -/
theorem dimensions_answered (toroid : String → Option Bool) (b : Bobbin K) (i : ℕ) (p : Desc K) (w : Window K) (h : Spec.HasWindow b i p w)
    (x y : K) (hm : Spec.Measures w x y) :
    windowDimensions toroid b i = .value (x, y) ∧ windowWidth toroid b i = .value x ∧
      (¬ Spec.isRound w → windowHeight toroid b i = .value y) ∧ (Spec.isRound w → windowHeight toroid b i = .value x) := by
  obtain ⟨h1, h2⟩ := shape_of_window toroid b i p w h
  have hr := raw_of_window b i p w h
  by_cases hs : Spec.isRound w
  · obtain ⟨ha, hb⟩ := hm.1 hs
    refine ⟨?_, ?_, fun hn => absurd hs hn, fun _ => ?_⟩
    · simp only [windowDimensions, h1 hs, Outcome.bind, hr, ha, hb, Outcome.take]
    · simp only [windowWidth, h1 hs, Outcome.bind, hr, ha, hb, Outcome.take]
    · simp only [windowHeight, h1 hs, Outcome.bind, hr, ha, hb, Outcome.take]
  · obtain ⟨ha, hb⟩ := hm.2 hs
    refine ⟨?_, ?_, fun _ => ?_, fun hn => absurd hn hs⟩
    · simp only [windowDimensions, h2 hs, Outcome.bind, hr, ha, hb, Outcome.take]
    · simp only [windowWidth, h2 hs, Outcome.bind, hr, ha, hb, Outcome.take]
    · simp only [windowHeight, h2 hs, Outcome.bind, hr, ha, hb, Outcome.take]

/-- C181. The area answered is the one stored, or that of the rectangle or of the sector when none is. -/
theorem area_answered (π : K) (toroid : String → Option Bool) (b : Bobbin K) (i : ℕ) (p : Desc K) (w : Window K) (h : Spec.HasWindow b i p w)
    (x y : K) (hm : Spec.Measures w x y) :
    (∀ a : K, w.area = some a → windowArea π toroid b i = .value a) ∧
      (w.area = none → ¬ Spec.isRound w → windowArea π toroid b i = .value (x * y)) ∧
      (w.area = none → Spec.isRound w → windowArea π toroid b i = .value (π * x ^ 2 * y / 360)) := by
  obtain ⟨h1, h2⟩ := shape_of_window toroid b i p w h
  refine ⟨fun a ha => ?_, fun ha hs => ?_, fun ha hs => ?_⟩
  · simp only [windowArea, h.1, h.2, ha]
  · obtain ⟨hx, hy⟩ := hm.2 hs
    simp only [windowArea, h.1, h.2, ha, h2 hs, Outcome.bind, hx, hy, Outcome.take]
  · obtain ⟨hx, hy⟩ := hm.1 hs
    simp only [windowArea, h.1, h.2, ha, h1 hs, Outcome.bind, hx, hy, Outcome.take]

/-- C181. A thing fits exactly when it is smaller than the window in that direction, and around a round window when it is shorter than half
of its perimeter; so whatever is smaller than something that fits also fits. -/
theorem fits_answered (π : K) (toroid : String → Option Bool) (b : Bobbin K) (i : ℕ) (p : Desc K) (w : Window K) (h : Spec.HasWindow b i p w)
    (x y : K) (hm : Spec.Measures w x y) (size : K) :
    fits π toroid b size true i = .value (decide (size < x)) ∧
      (¬ Spec.isRound w → fits π toroid b size false i = .value (decide (size < y))) ∧
      (Spec.isRound w → fits π toroid b size false i = .value (decide (size < π * x))) ∧
      ∀ (less : K) (horizontal : Bool), less ≤ size → fits π toroid b size horizontal i = .value true →
        fits π toroid b less horizontal i = .value true := by
  obtain ⟨h1, h2⟩ := shape_of_window toroid b i p w h
  have hd := (dimensions_answered toroid b i p w h x y hm).1
  have key : ∀ s : K, fits π toroid b s true i = .value (decide (s < x)) ∧
      (¬ Spec.isRound w → fits π toroid b s false i = .value (decide (s < y))) ∧
      (Spec.isRound w → fits π toroid b s false i = .value (decide (s < π * x))) := by
    intro s
    refine ⟨?_, fun hs => ?_, fun hs => ?_⟩
    · by_cases hs : Spec.isRound w
      · simp only [fits, h1 hs, Outcome.bind, hd]
      · simp only [fits, h2 hs, Outcome.bind, hd]
    · simp only [fits, h2 hs, Outcome.bind, hd]
    · simp only [fits, h1 hs, Outcome.bind, hd]
  obtain ⟨k1, k2, k3⟩ := key size
  refine ⟨k1, k2, k3, fun less horizontal hle hf => ?_⟩
  obtain ⟨l1, l2, l3⟩ := key less
  cases horizontal with
  | true =>
    rw [k1] at hf
    have := of_decide_eq_true (Outcome.value.inj hf)
    rw [l1, decide_eq_true (lt_of_le_of_lt hle this)]
  | false =>
    by_cases hs : Spec.isRound w
    · rw [k3 hs] at hf
      have := of_decide_eq_true (Outcome.value.inj hf)
      rw [l3 hs, decide_eq_true (lt_of_le_of_lt hle this)]
    · rw [k2 hs] at hf
      have := of_decide_eq_true (Outcome.value.inj hf)
      rw [l2 hs, decide_eq_true (lt_of_le_of_lt hle this)]

/-- C181. Asking for a window that a processed bobbin does not have is refused, and so is turning it. -/
theorem no_such_window (π : K) (toroid : String → Option Bool) (b : Bobbin K) (i : ℕ) (p : Desc K) (hp : b.processed = some p)
    (hi : p.windows.length ≤ i) (o : Orientation) (size : K) (horizontal : Bool) :
    windowShape toroid b i = .throws .noSuchWindow ∧ windowDimensions toroid b i = .throws .noSuchWindow ∧
      windowArea π toroid b i = .throws .noSuchWindow ∧ sectionsOrientation toroid b i = .throws .noSuchWindow ∧
      sectionsAlignment toroid b i = .throws .noSuchWindow ∧ getOrientation b i = .throws .noSuchWindow ∧
      setOrientation b o i = (b, .throws .noSuchWindow) ∧ fits π toroid b size horizontal i = .throws .noSuchWindow := by
  have hn : p.windows[i]? = none := List.getElem?_eq_none hi
  have hs : windowShape toroid b i = .throws .noSuchWindow := by simp only [windowShape, hp, hn]
  refine ⟨hs, ?_, ?_, ?_, ?_, ?_, ?_, ?_⟩
  · simp only [windowDimensions, hs, Outcome.bind]
  · simp only [windowArea, hp, hn]
  · simp only [sectionsOrientation, hp, hn]
  · simp only [sectionsAlignment, hp, hn]
  · simp only [getOrientation, hp, hn]
  · simp only [setOrientation, hp, hn]
  · simp only [fits, hs, Outcome.bind]

/-- C181, against the code. The coordinates of a window that is not there are not refused. -/
theorem coordinates_unchecked (b : Bobbin K) (i : ℕ) (p : Desc K) (hp : b.processed = some p) (hi : p.windows.length ≤ i) :
    windowCoordinates b i = .undefined := by
  simp only [windowCoordinates, rawWindow, hp, Outcome.deref, Outcome.bind, List.getElem?_eq_none hi]

/-- C181, against the code. A bobbin that has not been processed answers for the shape of its window, and refuses to turn it or to say how
thick it is, but its area, coordinates, dimensions and sections are read from a description that is not there. -/
theorem unprocessed_undefined (π : K) (toroid : String → Option Bool) (b : Bobbin K) (i : ℕ) (o : Orientation) (f : Func K) (round : Bool)
    (hp : b.processed = none) (hf : b.functional = some f) (ht : toroid f.shape = some round) :
    windowShape toroid b i = .value (if round then .round else .rectangular) ∧ thicknesses b = .throws .notProcessed ∧
      setOrientation b o i = (b, .throws .notProcessed) ∧ getOrientation b i = .value none ∧ columnWidth b = .throws .notProcessed ∧
      windowArea π toroid b i = .undefined ∧ windowCoordinates b i = .undefined ∧ windowDimensions toroid b i = .undefined ∧
      sectionsOrientation toroid b i = .undefined ∧ sectionsAlignment toroid b i = .undefined := by
  have hs : windowShape toroid b i = .value (if round then .round else .rectangular) := by
    simp only [windowShape, hp, hf, ht]
    cases round <;> rfl
  have hr : rawWindow b i = .undefined := by simp only [rawWindow, hp, Outcome.deref, Outcome.bind]
  refine ⟨hs, ?_, ?_, ?_, ?_, ?_, ?_, ?_, ?_, ?_⟩
  · simp only [thicknesses, hp]
  · simp only [setOrientation, hp]
  · simp only [getOrientation, hp]
  · simp only [columnWidth, hp]
  · simp only [windowArea, hp]
  · simp only [windowCoordinates, hr, Outcome.bind]
  · cases round <;> simp [windowDimensions, hs, Outcome.bind, hr]
  · simp only [sectionsOrientation, hp]
  · simp only [sectionsAlignment, hp]

/-! ## Turning the sections of a window -/

/-- C181. The orientation given to a window is the one it answers, and nothing else of that window or any other changes. -/
theorem orientation_set (toroid : String → Option Bool) (b : Bobbin K) (i : ℕ) (p : Desc K) (w : Window K) (h : Spec.HasWindow b i p w)
    (o : Orientation) :
    (setOrientation b o i).2 = .value () ∧ getOrientation (setOrientation b o i).1 i = .value (some o) ∧
      sectionsOrientation toroid (setOrientation b o i).1 i = .value o ∧
      (∀ j, j ≠ i → getOrientation (setOrientation b o i).1 j = getOrientation b j) ∧
      (setOrientation b o i).1.functional = b.functional ∧
      ∃ p', Spec.HasWindow (setOrientation b o i).1 i p' { w with orientation := some o } ∧
        { p' with windows := p.windows } = p ∧ p'.windows.length = p.windows.length ∧ ∀ j, j ≠ i → p'.windows[j]? = p.windows[j]? := by
  have hi : i < p.windows.length := by
    by_contra hn
    have := h.2
    rw [List.getElem?_eq_none (not_lt.mp hn)] at this
    cases this
  have hset : setOrientation b o i =
      ({ b with processed := some { p with windows := p.windows.set i { w with orientation := some o } } }, .value ()) := by
    simp only [setOrientation, h.1, h.2]
  have hget : (p.windows.set i { w with orientation := some o })[i]? = some { w with orientation := some o } := by
    rw [List.getElem?_set_self hi]
  rw [hset]
  refine ⟨rfl, ?_, ?_, fun j hj => ?_, rfl, _, ⟨rfl, hget⟩, rfl, by simp, fun j hj => ?_⟩
  · simp only [getOrientation, hget]
  · simp only [sectionsOrientation, hget]
  · simp only [getOrientation, h.1]
    rw [List.getElem?_set_ne (Ne.symm hj)]
  · exact List.getElem?_set_ne (Ne.symm hj)

/-- C181. The last of two orientations is the one that stays, and giving a window the one it has changes nothing. -/
theorem orientation_last (b : Bobbin K) (i : ℕ) (first last : Orientation) :
    (setOrientation (setOrientation b first i).1 last i) = setOrientation b last i ∧
      ∀ (p : Desc K) (w : Window K), Spec.HasWindow b i p w → w.orientation = some first → (setOrientation b first i).1 = b := by
  constructor
  · unfold setOrientation
    cases hp : b.processed with
    | none => simp [hp]
    | some p =>
      simp only
      cases hw : p.windows[i]? with
      | none => simp [hp, hw]
      | some w =>
        have hi : i < p.windows.length := by
          by_contra hn
          rw [List.getElem?_eq_none (not_lt.mp hn)] at hw
          cases hw
        simp only
        rw [List.getElem?_set_self hi]
        simp only [List.set_set]
  · intro p w h ho
    obtain ⟨hp, hw⟩ := h
    have hs : p.windows.set i { w with orientation := some first } = p.windows := by
      apply List.ext_getElem?
      intro j
      by_cases hj : j = i
      · subst hj
        have hi : j < p.windows.length := by
          by_contra hn
          rw [List.getElem?_eq_none (not_lt.mp hn)] at hw
          cases hw
        rw [List.getElem?_set_self hi, hw, ← ho]
      · rw [List.getElem?_set_ne (Ne.symm hj)]
    simp only [setOrientation, hp, hw, hs]
    cases b
    simp_all

/-- C181, in part. A window that says nothing of how its sections go takes the default of its own shape, as long as it is the first one or
has the shape of the first. What is missing: it is the shape of the first window that decides, see `default_of_first`. -/
theorem sections_default_partial (toroid : String → Option Bool) (b : Bobbin K) (i : ℕ) (p : Desc K) (w w0 : Window K)
    (h : Spec.HasWindow b i p w) (h0 : Spec.HasWindow b 0 p w0) (hs : Spec.isRound w ↔ Spec.isRound w0) :
    (∀ o, w.orientation = some o → sectionsOrientation toroid b i = .value o) ∧
      (w.orientation = none → Spec.isRound w → sectionsOrientation toroid b i = .value .contiguous) ∧
      (w.orientation = none → ¬ Spec.isRound w → sectionsOrientation toroid b i = .value .overlapping) ∧
      (∀ a, w.alignment = some a → sectionsAlignment toroid b i = .value a) ∧
      (w.alignment = none → Spec.isRound w → sectionsAlignment toroid b i = .value .spread) ∧
      (w.alignment = none → ¬ Spec.isRound w → sectionsAlignment toroid b i = .value .innerOrTop) := by
  obtain ⟨h1, h2⟩ := shape_of_window toroid b 0 p w0 h0
  refine ⟨fun o ho => ?_, fun ho hr => ?_, fun ho hr => ?_, fun o ho => ?_, fun ho hr => ?_, fun ho hr => ?_⟩
  · simp only [sectionsOrientation, h.1, h.2, ho]
  · simp only [sectionsOrientation, h.1, h.2, ho, h1 (hs.mp hr), Outcome.bind]
  · simp only [sectionsOrientation, h.1, h.2, ho, h2 (fun h => hr (hs.mpr h)), Outcome.bind]
  · simp only [sectionsAlignment, h.1, h.2, ho]
  · simp only [sectionsAlignment, h.1, h.2, ho, h1 (hs.mp hr), Outcome.bind]
  · simp only [sectionsAlignment, h.1, h.2, ho, h2 (fun h => hr (hs.mpr h)), Outcome.bind]

/-- A bobbin with a rectangular window, a round one, and no defaults. -/
def mixed : Bobbin ℚ :=
  { processed := some
      { columnShape := .round, columnThickness := 1, wallThickness := 1, columnWidth := some 6, columnDepth := some 6
        windows := [{ width := some 10, height := some 20, coordinates := some [11, 0] },
                    { shape := some .round, radialHeight := some 5, angle := some 360, coordinates := some [5, 0] }] } }

/-- C181, against the code. A round window after a rectangular one is given the defaults of a rectangular one. -/
theorem default_of_first : windowShape (fun _ => none) mixed 1 = .value .round ∧
    sectionsOrientation (fun _ => none) mixed 1 = .value .overlapping ∧ sectionsAlignment (fun _ => none) mixed 1 = .value .innerOrTop := by
  decide +kernel

example : ∃ (p : Desc ℚ) (w : Window ℚ), Spec.HasWindow mixed 1 p w ∧ Spec.Measures w 5 360 :=
  ⟨_, _, ⟨rfl, rfl⟩, fun _ => ⟨rfl, rfl⟩, fun h => absurd rfl h⟩

/-! ## Faces -/

/-- C182. The faces of a bobbin around a rectangular column: the column faces its window along its height, and a yoke does across its width;
outside, the yoke reaches over the wall. All are as deep as the core, both yokes are equal, and the bottom of the column is as its top. -/
theorem faces_rectangular (π : K) (toroid : String → Option Bool) (b : Bobbin K) (i : ℕ) (p : Desc K) (w : Window K) (h : Spec.HasWindow b i p w)
    (x y c depth : K) (hm : Spec.Measures w x y) (hr : ¬ Spec.isRound w) (hc : p.columnWidth = some c) (hs : p.columnShape = .rectangular) (top : Bool) :
    columnRightFace π toroid b depth i = .value (y * depth) ∧ columnTopFace π b depth = .value (p.wallThickness * depth) ∧
      columnBottomFace π b depth = columnTopFace π b depth ∧ yokeInteriorFace π toroid b depth top i = .value (x * depth) ∧
      yokeExteriorFace π toroid b depth top i = .value ((x + p.wallThickness) * depth) := by
  obtain ⟨-, h1, h2, -⟩ := dimensions_answered toroid b i p w h x y hm
  have hcw : columnWidth b = .value c := by simp only [columnWidth, h.1, hc, Outcome.take]
  refine ⟨?_, ?_, rfl, ?_, ?_⟩
  · simp only [columnRightFace, h.1, h2 hr, Outcome.bind, if_pos hs]
  · simp only [columnTopFace, h.1, if_pos hs]
  · simp only [yokeInteriorFace, h.1, h1, hcw, Outcome.bind, if_pos hs]
  · simp only [yokeExteriorFace, h.1, h1, hcw, Outcome.bind, if_pos hs]

/-- C182. The faces of a bobbin around a column that is not rectangular: half of its cylinder, the whole disc, and half of the ring from
the column to the end of the window, or of the wall. -/
theorem faces_round (π : K) (toroid : String → Option Bool) (b : Bobbin K) (i : ℕ) (p : Desc K) (w : Window K) (h : Spec.HasWindow b i p w)
    (x y c depth : K) (hm : Spec.Measures w x y) (hr : ¬ Spec.isRound w) (hc : p.columnWidth = some c) (hs : p.columnShape ≠ .rectangular) (top : Bool) :
    (∃ a, columnRightFace π toroid b depth i = .value a ∧ 2 * a = 2 * π * c * y) ∧
      columnTopFace π b depth = .value (π * c ^ 2) ∧ columnBottomFace π b depth = columnTopFace π b depth ∧
      (∃ a, yokeInteriorFace π toroid b depth top i = .value a ∧ 2 * a = π * (c + x) ^ 2 - π * c ^ 2) ∧
      (∃ a, yokeExteriorFace π toroid b depth top i = .value a ∧ 2 * a = π * (c + x + p.wallThickness) ^ 2 - π * c ^ 2) := by
  obtain ⟨-, h1, h2, -⟩ := dimensions_answered toroid b i p w h x y hm
  have hcw : columnWidth b = .value c := by simp only [columnWidth, h.1, hc, Outcome.take]
  refine ⟨⟨π * c * y, ?_, by ring⟩, ?_, rfl, ⟨1 / 2 * π * ((c + x) * (c + x) - c * c), ?_, by ring⟩,
    ⟨1 / 2 * π * ((c + x + p.wallThickness) * (c + x + p.wallThickness) - c * c), ?_, by ring⟩⟩
  · simp only [columnRightFace, h.1, h2 hr, hcw, Outcome.bind, if_neg hs]
  · simp only [columnTopFace, h.1, if_neg hs, hcw, Outcome.bind]
    congr 1
    ring
  · simp only [yokeInteriorFace, h.1, h1, hcw, Outcome.bind, if_neg hs]
  · simp only [yokeExteriorFace, h.1, h1, hcw, Outcome.bind, if_neg hs]

/-- C182. With dimensions that are not negative no face is negative, and the outside of a yoke is at least its inside. -/
theorem faces_ordered (π : K) (toroid : String → Option Bool) (b : Bobbin K) (i : ℕ) (p : Desc K) (w : Window K) (h : Spec.HasWindow b i p w)
    (x y c depth : K) (hm : Spec.Measures w x y) (hr : ¬ Spec.isRound w) (hc : p.columnWidth = some c) (top : Bool) (hπ : 0 < π)
    (hx : 0 ≤ x) (hy : 0 ≤ y) (hc0 : 0 ≤ c) (hd : 0 ≤ depth) (hw : 0 ≤ p.wallThickness) :
    ∃ right above inside outside : K, columnRightFace π toroid b depth i = .value right ∧ columnTopFace π b depth = .value above ∧
      yokeInteriorFace π toroid b depth top i = .value inside ∧ yokeExteriorFace π toroid b depth top i = .value outside ∧
      0 ≤ right ∧ 0 ≤ above ∧ 0 ≤ inside ∧ inside ≤ outside ∧ 0 ≤ yokeRightFace p.wallThickness depth ∧
      2 * yokeRightFace p.wallThickness depth = p.wallThickness * depth := by
  have hyr : 0 ≤ yokeRightFace p.wallThickness depth ∧ 2 * yokeRightFace p.wallThickness depth = p.wallThickness * depth := by
    unfold yokeRightFace
    exact ⟨by positivity, by ring⟩
  by_cases hs : p.columnShape = .rectangular
  · obtain ⟨h1, h2, -, h3, h4⟩ := faces_rectangular π toroid b i p w h x y c depth hm hr hc hs top
    exact ⟨_, _, _, _, h1, h2, h3, h4, by positivity, by positivity, by positivity, by nlinarith [mul_nonneg hw hd], hyr⟩
  · obtain ⟨⟨a1, h1, e1⟩, h2, -, ⟨a3, h3, e3⟩, ⟨a4, h4, e4⟩⟩ := faces_round π toroid b i p w h x y c depth hm hr hc hs top
    refine ⟨a1, _, a3, a4, h1, h2, h3, h4, ?_, by positivity, ?_, ?_, hyr⟩
    · have : 0 ≤ 2 * π * c * y := by positivity
      linarith
    · have : 0 ≤ π * (x * x + 2 * c * x) := by positivity
      nlinarith
    · have : 0 ≤ π * (p.wallThickness * p.wallThickness + 2 * (c + x) * p.wallThickness) := by positivity
      nlinarith

/-- C182. The extremes of a bobbin with a rectangular window: twice from the middle to the end of its window, and the window with a wall at
each end. A bobbin that has not been processed is, first. -/
theorem extremes_rectangular (π : K) (toroid : String → Option Bool) (b : Bobbin K) (p : Desc K) (w : Window K) (h : Spec.HasWindow b 0 p w)
    (x y c d : K) (hm : Spec.Measures w x y) (hr : ¬ Spec.isRound w) (hc : p.columnWidth = some c) (hd : p.columnDepth = some d) :
    maximumDimensions π toroid b = (b, .value (2 * (c + x), p.wallThickness + y + p.wallThickness, 2 * (d + x))) := by
  have hdim := (dimensions_answered toroid b 0 p w h x y hm).1
  have hshape := (shape_of_window toroid b 0 p w h).2 hr
  simp only [maximumDimensions, h.1, Option.isSome_some, if_true, Outcome.bind, Outcome.take, hdim, hshape, hc, hd, Outcome.deref]
  congr 3
  ring_nf

/-- C182, against the code. The extremes of the bobbin of a toroid are answered as nothing. -/
theorem extremes_round_zero (π : K) (toroid : String → Option Bool) (b : Bobbin K) (p : Desc K) (w : Window K) (h : Spec.HasWindow b 0 p w)
    (x y : K) (hm : Spec.Measures w x y) (hr : Spec.isRound w) : maximumDimensions π toroid b = (b, .value (0, 0, 0)) := by
  have hdim := (dimensions_answered toroid b 0 p w h x y hm).1
  have hshape := (shape_of_window toroid b 0 p w h).1 hr
  simp only [maximumDimensions, h.1, Option.isSome_some, if_true, Outcome.bind, Outcome.take, hdim, hshape]

/-- C182, against the code. The depth of the column of a processed bobbin of a family with a rectangular column is never written, and it is
read for its extremes; the families with a round column write it. Whether the generated class gives it an initial value is not in the
repository: the model takes it as not written. -/
theorem depth_never_written (π : K) (d : String → Option K) (family : Family) :
    (family ∈ [Family.e, .er, .el, .p, .u, .efd] → (processFamily π family d).columnDepth = none) ∧
      (family ∈ [Family.rm, .ep, .etd, .pm, .pq, .ec] → ∃ c, (processFamily π family d).columnDepth = some c ∧
        (processFamily π family d).columnWidth = some c) := by
  cases family <;> simp [processFamily, processE, processRm, processEp, processEtd, processPm, processPq, processEfd, processT, rectangularDesc]

/-- The dimensions of a bobbin of family E, in millimetres. -/
def dimensionsE : String → Option ℚ := fun key =>
  if key = "e" then some 30 else if key = "f" then some 10 else if key = "s1" then some 1 else if key = "s2" then some 1
  else if key = "l2" then some 20 else none

/-- C182, against the code. So the extremes of a bobbin of family E are not defined. -/
theorem extremes_undefined : (maximumDimensions 3 (fun _ => none)
    { functional := some { family := .e, shape := "E 30", dimensions := dimensionsE } }).2 = .undefined := by
  decide +kernel

example : ∃ (p : Desc ℚ) (w : Window ℚ), Spec.HasWindow mixed 0 p w ∧ Spec.Measures w 10 20 ∧ ¬ Spec.isRound w ∧ p.columnWidth = some 6 ∧
    p.columnDepth = some 6 ∧ p.columnShape ≠ .rectangular :=
  ⟨_, _, ⟨rfl, rfl⟩, ⟨(fun h => nomatch h), fun _ => ⟨rfl, rfl⟩⟩, (fun h => nomatch h), rfl, rfl, by decide⟩

example : (maximumDimensions 3 (fun _ => none) mixed).2 = .value (32, 22, 32) ∧
    yokeInteriorFace 3 (fun _ => none) mixed 7 true 0 = .value 330 ∧ yokeExteriorFace 3 (fun _ => none) mixed 7 true 0 = .value (759 / 2) := by
  decide +kernel

end Verif.Bobbin
