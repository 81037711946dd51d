import Mathlib.Tactic.Linarith
import Mathlib.Tactic.Ring
import Mathlib.Tactic.FieldSimp
import Mathlib.Tactic.NormNum
import Mathlib.Tactic.Positivity
import Mathlib.Algebra.Order.Field.Rat
import Verif.Bobbin.Model

/-!
# Bobbins made for a core (C178) and the window the catalogue leads to (C179)
-/

namespace Verif.Bobbin

set_option linter.unusedSectionVars false
set_option linter.unusedSimpArgs false

variable {K : Type} [Field K] [LinearOrder K] [IsStrictOrderedRing K]

/-! ## The specification -/

/-- What is left of an extent once something of a thickness is taken off it: nothing if it is thicker than the extent. -/
def Spec.Left (extent taken left : K) : Prop := (taken ≤ extent ∧ left + taken = extent) ∨ (extent < taken ∧ left = 0)

/-- A window of a bobbin inside the window of its core: the bobbin takes its column off the width and a wall off each end of the height,
the window starts where the column ends, on the side of the window of the core, and goes with the column and the order of that one. -/
structure Spec.Lined (wall thick edge : K) (right : Prop) (c : CoreWindow K) (w : Window K) (width height : K) : Prop where
  width_eq : w.width = some width
  height_eq : w.height = some height
  area_eq : w.area = some (width * height)
  shape_eq : w.shape = some .rectangular
  column_eq : w.column = c.column
  order_eq : w.order = c.order
  across : ∃ W : K, c.width = some W ∧ Spec.Left W thick width
  along : ∃ H : K, c.height = some H ∧ Spec.Left H (2 * wall) height
  place : ∃ x : K, w.coordinates = some [x, 0, 0] ∧ (right → x - width / 2 = edge) ∧ (¬ right → -x - width / 2 = edge)

/-- Whether window `i` of a core is on the right: the first always, and any other unless its centre is to the left. -/
def Spec.onTheRight (i : ℕ) (c : CoreWindow K) : Prop :=
  i = 0 ∨ ∃ (x : K) (l : List K), c.coordinates = some (x :: l) ∧ 0 ≤ x

/-! ## Lemmas -/

theorem bind_value {α β : Type} {o : Outcome α} {f : α → Outcome β} {b : β} (h : o.bind f = .value b) :
    ∃ a, o = .value a ∧ f a = .value b := by
  cases o with
  | value a => exact ⟨a, rfl, h⟩
  | throws e => cases h
  | undefined => cases h

theorem take_value {α : Type} {o : Option α} {a : α} (h : Outcome.take o = .value a) : o = some a := by
  cases o with
  | none => cases h
  | some x => cases h; rfl

theorem deref_value {α : Type} {o : Option α} {a : α} (h : Outcome.deref o = .value a) : o = some a := by
  cases o with
  | none => cases h
  | some x => cases h; rfl

theorem left_max (extent taken : K) (h : 0 ≤ taken) : Spec.Left extent taken (max 0 (extent - taken)) ∧
    (0 ≤ extent → max 0 (extent - taken) ≤ extent) := by
  rcases le_total taken extent with h' | h'
  · refine ⟨Or.inl ⟨h', ?_⟩, fun _ => ?_⟩
    · rw [max_eq_right (by linarith)]; ring
    · rw [max_eq_right (by linarith)]; linarith
  · refine ⟨?_, fun he => ?_⟩
    · rw [max_eq_left (by linarith)]
      rcases h'.lt_or_eq with h'' | h''
      · exact Or.inr ⟨h'', rfl⟩
      · exact Or.inl ⟨h''.ge, by rw [h'']; ring⟩
    · rw [max_eq_left (by linarith)]; exact he

theorem signOf_value {i : ℕ} {c : CoreWindow K} {s : K} (h : signOf i c = .value s) :
    (Spec.onTheRight i c ∧ s = 1) ∨ (¬ Spec.onTheRight i c ∧ s = -1) := by
  unfold signOf at h
  by_cases hi : i = 0
  · rw [if_pos hi] at h
    cases h
    exact Or.inl ⟨Or.inl hi, rfl⟩
  · rw [if_neg hi] at h
    unfold mirror at h
    obtain ⟨l, hl, h⟩ := bind_value h
    obtain ⟨x, hx, h⟩ := bind_value h
    have hl := take_value hl
    have hx := deref_value hx
    cases l with
    | nil => cases hx
    | cons y l =>
      simp only [List.head?_cons, Option.some.injEq] at hx
      subst hx
      by_cases hn : y < 0
      · rw [if_pos hn] at h
        cases h
        refine Or.inr ⟨?_, rfl⟩
        rintro (h0 | ⟨z, l', hz, hz'⟩)
        · exact hi h0
        · rw [hl] at hz
          cases hz
          exact absurd hn (not_lt.mpr hz')
      · rw [if_neg hn] at h
        cases h
        exact Or.inl ⟨Or.inr ⟨y, l, hl, not_lt.mp hn⟩, rfl⟩

theorem quickRectangular_value {column : CoreColumn K} {wall thick : K} (hw : 0 ≤ wall) (ht : 0 ≤ thick) {i : ℕ} {c : CoreWindow K}
    {r : Window K × Bool} (h : quickRectangular column wall thick i c = .value r) :
    r.2 = false ∧ ∃ width height : K, Spec.Lined wall thick (column.width / 2 + thick) (Spec.onTheRight i c) c r.1 width height ∧
      0 ≤ width ∧ 0 ≤ height ∧ width ≤ 1 ∧ height ≤ 1 := by
  unfold quickRectangular at h
  obtain ⟨W, hW, h1⟩ := bind_value h
  obtain ⟨H, hH, h2⟩ := bind_value h1
  obtain ⟨s, hs, h3⟩ := bind_value h2
  obtain ⟨x, hx, h4⟩ := bind_value h3
  obtain ⟨y, hy, h5⟩ := bind_value h4
  replace hx := take_value hx
  replace hy := take_value hy
  clear h h1 h2 h3 h4
  by_cases hx' : x < 0 ∨ 1 < x
  · rw [if_pos hx'] at h5; cases h5
  rw [if_neg hx'] at h5
  by_cases hy' : y < 0 ∨ 1 < y
  · rw [if_pos hy'] at h5; cases h5
  rw [if_neg hy'] at h5
  push Not at hx' hy'
  by_cases hf : max 0 (W - thick) < 0 ∨ 1 < max 0 (W - thick) ∨ max 0 (H - wall * 2) < 0 ∨ 1 < max 0 (H - wall * 2)
  · exfalso
    rw [if_pos hf] at hx hy
    obtain rfl := Option.some.inj hx
    obtain rfl := Option.some.inj hy
    rcases hf with hf | hf | hf | hf
    · exact absurd hf (not_lt.mpr (le_max_left _ _))
    · exact absurd hf (not_lt.mpr (max_le zero_le_one (by linarith [hx'.2])))
    · exact absurd hf (not_lt.mpr (le_max_left _ _))
    · exact absurd hf (not_lt.mpr (max_le zero_le_one (by linarith [hy'.2])))
  · rw [if_neg hf] at hx hy h5
    obtain rfl := Option.some.inj hx
    obtain rfl := Option.some.inj hy
    obtain rfl : r = _ := (Outcome.value.inj h5).symm
    refine ⟨rfl, _, _, ⟨rfl, rfl, rfl, rfl, rfl, rfl, ⟨W, take_value hW, (left_max W thick ht).1⟩,
      ⟨H, take_value hH, ?_⟩, ⟨_, rfl, ?_, ?_⟩⟩, hx'.1, hy'.1, hx'.2, hy'.2⟩
    · have := (left_max H (2 * wall) (by linarith)).1
      rwa [mul_comm wall 2]
    · intro hr
      rcases signOf_value hs with ⟨-, rfl⟩ | ⟨hn, -⟩
      · ring
      · exact absurd hr hn
    · intro hn
      rcases signOf_value hs with ⟨hr, -⟩ | ⟨-, rfl⟩
      · exact absurd hr hn
      · ring

theorem quickWindows_rectangular {π : K} {column : CoreColumn K} {wall thick : K} (hw : 0 ≤ wall) (ht : 0 ≤ thick) :
    ∀ {ws : List (CoreWindow K)} {i : ℕ} {r : List (Window K) × Bool}, quickWindows π false column wall thick i ws = .value r →
      r.2 = false ∧ r.1.length = ws.length ∧ ∀ (j : ℕ) (c : CoreWindow K), ws[j]? = some c →
        ∃ (w : Window K) (width height : K), r.1[j]? = some w ∧
          Spec.Lined wall thick (column.width / 2 + thick) (Spec.onTheRight (i + j) c) c w width height ∧
          0 ≤ width ∧ 0 ≤ height ∧ width ≤ 1 ∧ height ≤ 1
  | [], i, r, h => by
    simp only [quickWindows] at h
    cases h
    simp
  | c :: ws, i, r, h => by
    simp only [quickWindows, Bool.false_eq_true, if_false] at h
    obtain ⟨made, hm, h⟩ := bind_value h
    obtain ⟨rest, hr, h⟩ := bind_value h
    obtain rfl : r = _ := (Outcome.value.inj h).symm
    obtain ⟨hf, width, height, hl⟩ := quickRectangular_value hw ht hm
    obtain ⟨hf', hlen, hall⟩ := quickWindows_rectangular hw ht hr
    refine ⟨by simp [hf, hf'], by simp [hlen], fun j c' hj => ?_⟩
    cases j with
    | zero =>
      simp only [List.getElem?_cons_zero, Option.some.injEq] at hj
      subst hj
      exact ⟨made.1, width, height, rfl, hl⟩
    | succ j =>
      simp only [List.getElem?_cons_succ] at hj
      obtain ⟨w, wd, ht', h1, h2⟩ := hall j c' hj
      refine ⟨w, wd, ht', by simpa using h1, ?_⟩
      rwa [Nat.add_right_comm, Nat.add_assoc] at h2

/-! ## Bobbins made for a core -/

/-- C178. The bobbin made for a core that is not a toroid, with thicknesses that are not negative, lines every window of the core: it takes
its column off the width and its walls off the height, starts where the column ends and is on the side of the core's. The thicknesses
asked for are those it declares, and its column is that of the core with the thickness around. -/
theorem quick_lines_core (π : K) (core : Core K) (wall thick : K) (hw : 0 ≤ wall) (ht : 0 ≤ thick) (hr : core.toroid = false) (b : Bobbin K)
    (h : quickBobbin π (some core) wall thick = .value b) :
    ∃ (p : Desc K) (column : CoreColumn K) (edge : K), b.processed = some p ∧ core.columns.head? = some column ∧
      p.columnShape = column.shape ∧ p.columnThickness = thick ∧ p.wallThickness = wall ∧ p.columnWidth = some edge ∧
      edge - thick = column.width / 2 ∧ (∃ depth : K, p.columnDepth = some depth ∧ depth - thick = column.depth / 2) ∧
      p.windows.length = core.windows.length ∧ p.windows ≠ [] ∧
      ∀ (i : ℕ) (c : CoreWindow K), core.windows[i]? = some c → ∃ (w : Window K) (width height : K), p.windows[i]? = some w ∧
        Spec.Lined wall thick edge (Spec.onTheRight i c) c w width height ∧ 0 ≤ width ∧ 0 ≤ height ∧ width ≤ 1 ∧ height ≤ 1 := by
  unfold quickBobbin at h
  simp only [hr, Bool.false_eq_true, if_false, Bool.not_false, Bool.true_and, Bool.false_or] at h
  obtain ⟨column, hc, h⟩ := bind_value h
  obtain ⟨made, hm, h⟩ := bind_value h
  obtain ⟨x, hx, h⟩ := bind_value h
  obtain rfl := (Outcome.value.inj h).symm
  obtain ⟨hf, hlen, hall⟩ := quickWindows_rectangular hw ht hm
  refine ⟨_, column, _, rfl, deref_value hc, rfl, by simp [hf], by simp [hf], rfl, by ring, ⟨_, rfl, by ring⟩, hlen, ?_, fun i c hi => ?_⟩
  · rintro hn
    simp only at hn
    simp [windowCoordinates, rawWindow, Outcome.deref, Outcome.bind, hn] at hx
  · obtain ⟨w, wd, hg, h1, h2⟩ := hall i c hi
    exact ⟨w, wd, hg, h1, by simpa using h2⟩

/-- C178. Such a bobbin is made whenever the core has a column and windows of at most a metre, placed if there are several. -/
theorem quick_made (π : K) (core : Core K) (wall thick : K) (hw : 0 ≤ wall) (ht : 0 ≤ thick) (hr : core.toroid = false)
    (hc : core.columns ≠ []) (hn : core.windows ≠ [])
    (hall : ∀ c ∈ core.windows, ∃ (W H x : K) (l : List K), c.width = some W ∧ c.height = some H ∧ c.coordinates = some (x :: l) ∧ W ≤ 1 ∧ H ≤ 1) :
    ∃ b : Bobbin K, quickBobbin π (some core) wall thick = .value b := by
  obtain ⟨column, cs, hcs⟩ := List.exists_cons_of_ne_nil hc
  have key : ∀ (ws : List (CoreWindow K)) (i : ℕ), (∀ c ∈ ws, c ∈ core.windows) →
      ∃ r, quickWindows π false column wall thick i ws = .value r ∧ (ws ≠ [] → ∃ w l, r.1 = w :: l ∧ w.coordinates.isSome) := by
    intro ws
    induction ws with
    | nil => intro i _; exact ⟨_, rfl, fun h => absurd rfl h⟩
    | cons c ws ih =>
      intro i hmem
      obtain ⟨r, hr', -⟩ := ih (i + 1) fun c hc => hmem c (List.mem_cons_of_mem _ hc)
      obtain ⟨W, H, x, l, hW, hH, hx, hW1, hH1⟩ := hall c (hmem c List.mem_cons_self)
      have hs : ∃ s, signOf i c = .value s := by
        unfold signOf mirror
        by_cases hi : i = 0
        · exact ⟨1, by rw [if_pos hi]⟩
        · exact ⟨_, by rw [if_neg hi, hx]; rfl⟩
      obtain ⟨s, hs⟩ := hs
      have hb1 : max 0 (W - thick) ≤ 1 := max_le zero_le_one (by linarith)
      have hb2 : max 0 (H - wall * 2) ≤ 1 := max_le zero_le_one (by linarith)
      have hb3 : (0 : K) ≤ max 0 (W - thick) := le_max_left _ _
      have hb4 : (0 : K) ≤ max 0 (H - wall * 2) := le_max_left _ _
      have hq : ∃ m, quickRectangular column wall thick i c = .value m ∧ m.1.coordinates.isSome := by
        unfold quickRectangular
        rw [hW, hH, hs]
        simp only [Outcome.take, Outcome.bind]
        rw [if_neg (by push Not; exact ⟨hb3, hb1, hb4, hb2⟩)]
        simp only
        rw [if_neg (by push Not; exact ⟨hb3, hb1⟩), if_neg (by push Not; exact ⟨hb4, hb2⟩)]
        exact ⟨_, rfl, rfl⟩
      obtain ⟨m, hm, hm'⟩ := hq
      refine ⟨(m.1 :: r.1, m.2 || r.2), ?_, fun _ => ⟨m.1, r.1, rfl, hm'⟩⟩
      simp only [quickWindows, Bool.false_eq_true, if_false]
      rw [hm]
      simp only [Outcome.bind]
      rw [hr']
  obtain ⟨r, hq, hne⟩ := key core.windows 0 fun c h => h
  obtain ⟨w, l, hl, hs⟩ := hne hn
  obtain ⟨x, hx⟩ := Option.isSome_iff_exists.mp hs
  unfold quickBobbin
  simp only [hr, Bool.false_eq_true, if_false, hcs, List.head?_cons, Outcome.deref, Outcome.bind]
  rw [hq]
  simp only [windowCoordinates, rawWindow, Outcome.deref, Outcome.bind, hl, List.getElem?_cons_zero, hx, Outcome.take]
  exact ⟨_, rfl⟩

theorem quickWindows_round {π : K} {column : CoreColumn K} {wall thick : K} :
    ∀ {ws : List (CoreWindow K)} {i : ℕ} {r : List (Window K) × Bool}, quickWindows π true column wall thick i ws = .value r →
      r.2 = false ∧ r.1.length = ws.length ∧ ∀ (j : ℕ) (c : CoreWindow K), ws[j]? = some c →
        ∃ (w : Window K) (radial angle : K), r.1[j]? = some w ∧ c.radialHeight = some radial ∧ c.angle = some angle ∧
          0 ≤ radial ∧ radial ≤ 1 ∧ 0 ≤ angle ∧ angle ≤ 360 ∧
          w = { radialHeight := some radial, angle := some angle, area := some (π * radial ^ 2 * angle / 360)
                coordinates := some [radial, 0, 0], shape := some .round, column := c.column, order := c.order }
  | [], i, r, h => by
    simp only [quickWindows] at h
    cases h
    simp
  | c :: ws, i, r, h => by
    simp only [quickWindows, if_true] at h
    obtain ⟨made, hm, h⟩ := bind_value h
    obtain ⟨w, hw, hm⟩ := bind_value hm
    obtain rfl := (Outcome.value.inj hm).symm
    obtain ⟨rest, hr, h⟩ := bind_value h
    obtain rfl : r = _ := (Outcome.value.inj h).symm
    obtain ⟨hf', hlen, hall⟩ := quickWindows_round hr
    refine ⟨by simp [hf'], by simp [hlen], fun j c' hj => ?_⟩
    cases j with
    | zero =>
      simp only [List.getElem?_cons_zero, Option.some.injEq] at hj
      subst hj
      unfold quickRound at hw
      obtain ⟨ra, hra, hw⟩ := bind_value hw
      obtain ⟨an, han, hw⟩ := bind_value hw
      by_cases h1 : ra < 0 ∨ 1 < ra
      · rw [if_pos h1] at hw; cases hw
      rw [if_neg h1] at hw
      by_cases h2 : an < 0 ∨ 360 < an
      · rw [if_pos h2] at hw; cases hw
      rw [if_neg h2] at hw
      push Not at h1 h2
      exact ⟨w, ra, an, rfl, take_value hra, take_value han, h1.1, h1.2, h2.1, h2.2, (Outcome.value.inj hw).symm⟩
    | succ j =>
      simp only [List.getElem?_cons_succ] at hj
      exact hall j c' hj

/-- C178. The bobbin of a toroid keeps the bore of its core and takes nothing off it; its coating, once, is around the column, and cancels
when the thickness is taken off the width. -/
theorem quick_toroid (π : K) (core : Core K) (wall thick : K) (hr : core.toroid = true) (b : Bobbin K)
    (h : quickBobbin π (some core) wall thick = .value b) :
    ∃ (p : Desc K) (column : CoreColumn K) (edge depth : K), b.processed = some p ∧ core.columns.head? = some column ∧
      p.wallThickness = 0 ∧ (core.coating = none → p.columnThickness = thick) ∧
      (∀ coating : K, core.coating = some coating → p.columnThickness = thick + coating) ∧ p.columnWidth = some edge ∧
      edge - p.columnThickness = column.width / 2 ∧ p.columnDepth = some depth ∧ depth - p.columnThickness = column.depth / 2 ∧
      p.windows.length = core.windows.length ∧
      ∀ (i : ℕ) (c : CoreWindow K), core.windows[i]? = some c → ∃ (w : Window K) (radial angle : K), p.windows[i]? = some w ∧
        c.radialHeight = some radial ∧ c.angle = some angle ∧ w.radialHeight = some radial ∧ w.angle = some angle ∧
        w.shape = some .round ∧ w.area = some (π * radial ^ 2 * angle / 360) ∧ w.column = c.column ∧ w.order = c.order ∧
        0 ≤ radial ∧ radial ≤ 1 ∧ 0 ≤ angle ∧ angle ≤ 360 := by
  unfold quickBobbin at h
  simp only [hr, if_true, Bool.not_true, Bool.false_and, Bool.true_or, Bool.false_eq_true, if_false] at h
  obtain ⟨column, hc, h⟩ := bind_value h
  obtain ⟨made, hm, h⟩ := bind_value h
  obtain ⟨x, hx, h⟩ := bind_value h
  obtain rfl := (Outcome.value.inj h).symm
  obtain ⟨hf, hlen, hall⟩ := quickWindows_round hm
  refine ⟨_, column, _, _, rfl, deref_value hc, rfl, fun hn => by simp [hn], fun co hco => by simp [hco], rfl, by ring, rfl, by ring, hlen,
    fun i c hi => ?_⟩
  obtain ⟨w, ra, an, hw, h1, h2, h3, h4, h5, h6, rfl⟩ := hall i c hi
  exact ⟨_, ra, an, hw, h1, h2, rfl, rfl, rfl, rfl, rfl, rfl, h3, h4, h5, h6⟩

/-- C178. A bobbin made from dimensions alone has its window where its column ends. -/
theorem quick_by_dimensions (height width : K) (shape : ColumnShape) :
    ∃ (p : Desc K) (w : Window K) (edge x : K), (quickByDimensions height width shape).processed = some p ∧ p.windows = [w] ∧
      w.width = some width ∧ w.height = some height ∧ w.area = some (width * height) ∧ w.coordinates = some [x, 0, 0] ∧
      p.columnWidth = some edge ∧ x - width / 2 = edge ∧ p.columnShape = shape :=
  ⟨_, _, _, _, rfl, rfl, rfl, rfl, congrArg some (mul_comm _ _), rfl, rfl, by ring, rfl⟩

/-- A core with two windows of 10 by 20 mm, one at each side of a column of 12 mm. -/
def coreTwo : Core ℚ :=
  { toroid := false
    coating := none
    windows := [{ width := some (1 / 100), height := some (2 / 100), coordinates := some [11 / 1000, 0] },
                { width := some (1 / 100), height := some (2 / 100), coordinates := some [-11 / 1000, 0], column := some 0 }]
    columns := [{ shape := .round, width := 12 / 1000, depth := 12 / 1000 }] }

/-- The abscissae of the windows of what a call ends in. -/
def places : Outcome (Bobbin ℚ) → List (Option ℚ)
  | .value b => match b.processed with
    | some p => p.windows.map fun w => w.coordinates.bind List.head?
    | none => []
  | _ => []

example : places (quickBobbin 3 (some coreTwo) (1 / 1000) (1 / 1000)) = [some (23 / 2000), some (-(23 / 2000))] := by
  decide +kernel

/-- A coated toroid. -/
def coreRing : Core ℚ :=
  { toroid := true
    coating := some (1 / 10000)
    windows := [{ radialHeight := some (1 / 100), angle := some 360 }]
    columns := [{ shape := .rectangular, width := 5 / 1000, depth := 8 / 1000 }] }

example : places (quickBobbin 3 (some coreRing) 0 0) = [some (1 / 100)] := by decide +kernel

/-- The areas of the windows, and both thicknesses with the width of the column, of what a call ends in. -/
def summary : Outcome (Bobbin ℚ) → Option (List (Option ℚ) × ℚ × ℚ × Option ℚ)
  | .value b => b.processed.map fun p => (p.windows.map Window.area, p.columnThickness, p.wallThickness, p.columnWidth)
  | _ => none

/-- C178, against the code. A column thicker than the window makes a bobbin with nothing left to wind in: it is not refused, although
`process_data` refuses such a bobbin. -/
theorem nothing_left_accepted : ∃ (core : Core ℚ) (wall thick : ℚ), 0 ≤ wall ∧ 0 ≤ thick ∧
    summary (quickBobbin 3 (some core) wall thick) = some ([some 0, some 0], 1 / 50, 0, some (26 / 1000)) :=
  ⟨coreTwo, 0, 1 / 50, by decide +kernel, by decide +kernel, by decide +kernel⟩

/-- C178, against the code. With a negative thickness the windows may be kept as those of the core: both thicknesses are then declared
zero, but the width of the column still has the negative one in it, and the windows have no area. -/
theorem negative_thickness_inconsistent : ∃ (core : Core ℚ) (wall thick : ℚ),
    summary (quickBobbin 3 (some core) wall thick) = some ([none, none], 0, 0, some (6 / 1000 - 1)) :=
  ⟨coreTwo, 0, -1, by decide +kernel⟩

/-! ## The window the catalogue leads to -/

theorem physical_bounds (x : K) : 0 ≤ physical x ∧ physical x ≤ 999 / 1000 := by
  unfold physical
  exact ⟨le_max_left _ _, max_le (by norm_num) (min_le_right _ _)⟩

/-- C179. Whatever the catalogue, the bobbin for a window fits inside it with some thickness at both sides, none of them more than a fifth
over the other; the thinner of both is that of the proportions of the catalogue, and the other one is never thicker than those make it. -/
theorem window_from_catalogue (t : Tables K) (w h : K) (hw : 0 < w) (hh : 0 < h) :
    ∃ column wall rawColumn rawWall : K, dimensionsFor t w h = (w - column, h - 2 * wall) ∧
      rawColumn = w - physical (t.proportionWidth (saturate t.coreWidth w)) * w ∧
      2 * rawWall = h - physical (t.proportionHeight (saturate t.coreHeight h)) * h ∧
      0 < column ∧ column ≤ w ∧ 0 < wall ∧ 2 * wall ≤ h ∧ column ≤ 6 / 5 * wall ∧ wall ≤ 6 / 5 * column ∧
      min column wall = min rawColumn rawWall ∧ column = min rawColumn (6 / 5 * min rawColumn rawWall) ∧
      wall = min rawWall (6 / 5 * min rawColumn rawWall) := by
  obtain ⟨hp0, hp1⟩ := physical_bounds (t.proportionWidth (saturate t.coreWidth w))
  obtain ⟨hq0, hq1⟩ := physical_bounds (t.proportionHeight (saturate t.coreHeight h))
  unfold dimensionsFor
  generalize physical (t.proportionWidth (saturate t.coreWidth w)) = p at *
  generalize physical (t.proportionHeight (saturate t.coreHeight h)) = q at *
  have hc : 0 < w - p * w := by nlinarith
  have hc' : w - p * w ≤ w := by nlinarith
  have hl : 0 < (h - q * h) / 2 := by nlinarith
  have hl' : (h - q * h) / 2 ≤ h / 2 := by nlinarith
  refine ⟨min (w - p * w) (6 / 5 * min (w - p * w) ((h - q * h) / 2)), min ((h - q * h) / 2) (6 / 5 * min (w - p * w) ((h - q * h) / 2)),
    w - p * w, (h - q * h) / 2, ?_, rfl, by ring, ?_⟩
  · simp only
    generalize min (w - p * w) ((h - q * h) / 2) = m
    congr 1
    · by_cases hcase : m * (6 / 5) < w - p * w
      · rw [if_pos hcase, min_eq_right (by linarith)]; ring
      · rw [if_neg hcase, min_eq_left (by linarith [not_lt.mp hcase])]; ring
    · by_cases hcase : m * (6 / 5) < (h - q * h) / 2
      · rw [if_pos hcase, min_eq_right (by linarith)]; ring
      · rw [if_neg hcase, min_eq_left (by linarith [not_lt.mp hcase])]; ring
  · generalize w - p * w = a at *
    generalize (h - q * h) / 2 = b at *
    rcases le_total a b with hab | hab
    · rw [min_eq_left hab]
      have h1 : min a (6 / 5 * a) = a := min_eq_left (by linarith)
      rw [h1]
      rcases le_total b (6 / 5 * a) with h2 | h2
      · rw [min_eq_left h2, min_eq_left hab]
        exact ⟨hc, hc', hl, by linarith, by linarith, by linarith, rfl, rfl, rfl⟩
      · rw [min_eq_right h2, min_eq_left (by linarith)]
        exact ⟨hc, hc', by linarith, by linarith, by linarith, by linarith, rfl, rfl, rfl⟩
    · rw [min_eq_right hab]
      have h1 : min b (6 / 5 * b) = b := min_eq_left (by linarith)
      rw [h1]
      rcases le_total a (6 / 5 * b) with h2 | h2
      · rw [min_eq_left h2, min_eq_right hab]
        exact ⟨hc, hc', hl, by linarith, by linarith, by linarith, rfl, rfl, rfl⟩
      · rw [min_eq_right h2, min_eq_right (by linarith)]
        exact ⟨by linarith, by linarith, hl, by linarith, by linarith, by linarith, rfl, rfl, rfl⟩

theorem saturate_cases (lo hi : K) (hlh : lo ≤ hi) (x : K) :
    (x ≤ lo → saturate (lo, hi) x = lo) ∧ (hi ≤ x → saturate (lo, hi) x = hi) ∧ (lo ≤ x → x ≤ hi → saturate (lo, hi) x = x) := by
  unfold saturate
  refine ⟨fun h => ?_, fun h => ?_, fun h h' => ?_⟩
  · simp only; rw [max_eq_right h, min_eq_left hlh]
  · simp only; rw [max_eq_left (hlh.trans h), min_eq_right h]
  · simp only; rw [max_eq_left h, min_eq_left h']

/-- C179. A window inside the limits of the catalogue is given the average of both filling factors; outside of them, that of the nearest
limit. -/
theorem filling_outside (t : Tables K) (lo hi lo' hi' : K) (hb : t.bobbinWidth = (lo, hi)) (hb' : t.bobbinHeight = (lo', hi')) (hl : lo ≤ hi)
    (hl' : lo' ≤ hi') (width height : K) :
    (lo ≤ width → width ≤ hi → lo' ≤ height → height ≤ hi' →
      fillingFactor t width height = (t.fillingWidth width + t.fillingHeight height) / 2) ∧
    (width ≤ lo → fillingFactor t width height = fillingFactor t lo height) ∧
    (hi ≤ width → fillingFactor t width height = fillingFactor t hi height) ∧
    (height ≤ lo' → fillingFactor t width height = fillingFactor t width lo') ∧
    (hi' ≤ height → fillingFactor t width height = fillingFactor t width hi') := by
  unfold fillingFactor
  rw [hb, hb']
  obtain ⟨a1, a2, a3⟩ := saturate_cases lo hi hl width
  obtain ⟨b1, b2, b3⟩ := saturate_cases lo' hi' hl' height
  refine ⟨fun h1 h2 h3 h4 => by rw [a3 h1 h2, b3 h3 h4], fun h => ?_, fun h => ?_, fun h => ?_, fun h => ?_⟩
  · rw [a1 h, (saturate_cases lo hi hl lo).1 le_rfl]
  · rw [a2 h, (saturate_cases lo hi hl hi).2.1 le_rfl]
  · rw [b1 h, (saturate_cases lo' hi' hl' lo').1 le_rfl]
  · rw [b2 h, (saturate_cases lo' hi' hl' hi').2.1 le_rfl]

/-- C179. A core whose window is wider than any of the catalogue is given a bobbin with the proportion of the widest, and so with the
narrowest and with heights; inside the limits the proportion is that of the spline. -/
theorem proportion_outside (t : Tables K) (lo hi lo' hi' : K) (hb : t.coreWidth = (lo, hi)) (hb' : t.coreHeight = (lo', hi')) (hl : lo ≤ hi)
    (hl' : lo' ≤ hi') (w h : K) :
    (w ≤ lo → t.proportionWidth (saturate t.coreWidth w) = t.proportionWidth lo) ∧
    (hi ≤ w → t.proportionWidth (saturate t.coreWidth w) = t.proportionWidth hi) ∧
    (lo ≤ w → w ≤ hi → t.proportionWidth (saturate t.coreWidth w) = t.proportionWidth w) ∧
    (h ≤ lo' → t.proportionHeight (saturate t.coreHeight h) = t.proportionHeight lo') ∧
    (hi' ≤ h → t.proportionHeight (saturate t.coreHeight h) = t.proportionHeight hi') ∧
    (lo' ≤ h → h ≤ hi' → t.proportionHeight (saturate t.coreHeight h) = t.proportionHeight h) := by
  rw [hb, hb']
  obtain ⟨a1, a2, a3⟩ := saturate_cases lo hi hl w
  obtain ⟨b1, b2, b3⟩ := saturate_cases lo' hi' hl' h
  exact ⟨fun h => by rw [a1 h], fun h => by rw [a2 h], fun h h' => by rw [a3 h h'], fun h => by rw [b1 h], fun h => by rw [b2 h],
    fun h h' => by rw [b3 h h']⟩

/-- C179. The filling factor is between the least and the largest that the splines give. -/
theorem filling_between (t : Tables K) (least largest : K)
    (h : ∀ x, least ≤ t.fillingWidth x ∧ t.fillingWidth x ≤ largest ∧ least ≤ t.fillingHeight x ∧ t.fillingHeight x ≤ largest) (width height : K) :
    least ≤ fillingFactor t width height ∧ fillingFactor t width height ≤ largest := by
  unfold fillingFactor
  have h1 := h (saturate t.bobbinWidth width)
  have h2 := h (saturate t.bobbinHeight height)
  constructor <;> linarith [h1.1, h1.2.1, h2.2.2.1, h2.2.2.2]

theorem floored_ge (least : Option K) (x : K) : x ≤ floored least x ∧ (∀ l, least = some l → l ≤ floored least x) ∧
    (floored least x = x ∨ least = some (floored least x)) := by
  unfold floored
  cases least with
  | none => simp
  | some l =>
    simp only
    by_cases h : x < l
    · rw [if_pos h]; exact ⟨h.le, fun l' hl => (Option.some.inj hl).ge, Or.inr rfl⟩
    · rw [if_neg h]; exact ⟨le_rfl, fun l' hl => by rw [← Option.some.inj hl]; exact not_lt.mp h, Or.inl rfl⟩

/-- C178, C179. The bobbin made for a core that is not a toroid, without being told its thicknesses, has walls and a column of positive
thickness, at least those of the thinnest bobbin of the catalogue, and lines all of the windows of the core as any other; with null
dimensions it has none. It is never refused for a thin wall. -/
theorem quick_for_core (π : K) (t : Tables K) (core : Core K) (hr : core.toroid = false) (c : CoreWindow K) (W H : K)
    (hc : core.windows.head? = some c) (hW : c.width = some W) (hH : c.height = some H) (hW0 : 0 < W) (hH0 : 0 < H) :
    quickFor π t core true = quickBobbin π (some core) 0 0 ∧
      ∃ wall thick : K, quickFor π t core false = quickBobbin π (some core) wall thick ∧ 0 < wall ∧ 0 < thick ∧
        (∀ l, t.leastWall = some l → l ≤ wall) ∧ (∀ l, t.leastColumn = some l → l ≤ thick) ∧
        (t.leastWall = some wall ∨ H - 2 * wall = (dimensionsFor t W H).2) ∧
        (t.leastColumn = some thick ∨ W - thick = (dimensionsFor t W H).1) := by
  refine ⟨by simp [quickFor, hc, Outcome.deref, Outcome.bind], ?_⟩
  obtain ⟨column, wall, rc, rw', hd, -, -, h1, -, h2, -⟩ := window_from_catalogue t W H hW0 hH0
  obtain ⟨hw1, hw2, hw3⟩ := floored_ge t.leastWall ((H - (dimensionsFor t W H).2) / 2)
  obtain ⟨hc1, hc2, hc3⟩ := floored_ge t.leastColumn (W - (dimensionsFor t W H).1)
  have e1 : (H - (dimensionsFor t W H).2) / 2 = wall := by rw [hd]; ring
  have e2 : W - (dimensionsFor t W H).1 = column := by rw [hd]; ring
  refine ⟨_, _, ?_, lt_of_lt_of_le (by rw [e1]; exact h2) hw1, lt_of_lt_of_le (by rw [e2]; exact h1) hc1, hw2, hc2, ?_, ?_⟩
  · unfold quickFor
    simp only [hc, Outcome.deref, Outcome.bind, hr, Bool.not_false, Bool.and_self, if_true, hW, hH, Outcome.take]
    rw [if_neg (not_le.mpr (lt_of_lt_of_le (by rw [e1]; exact h2) hw1))]
  · rcases hw3 with h | h
    · right; rw [h]; ring
    · left; exact h
  · rcases hc3 with h | h
    · right; rw [h]; ring
    · left; exact h

/-- C178. A toroid is given no thickness of its own. -/
theorem quick_for_toroid (π : K) (t : Tables K) (core : Core K) (hr : core.toroid = true) (null : Bool) (hc : core.windows ≠ []) :
    quickFor π t core null = quickBobbin π (some core) 0 0 := by
  obtain ⟨c, cs, hcs⟩ := List.exists_cons_of_ne_nil hc
  simp [quickFor, hcs, Outcome.deref, Outcome.bind, hr]

/-- Tables with the proportions of a bobbin that leaves nine tenths of the width and four fifths of the height. -/
def tables : Tables ℚ :=
  { fillingWidth := fun _ => 1 / 2, fillingHeight := fun _ => 2 / 5, proportionWidth := fun _ => 9 / 10, proportionHeight := fun _ => 4 / 5
    bobbinWidth := (1, 2), bobbinHeight := (1, 2), coreWidth := (1, 2), coreHeight := (1, 2), leastWall := some (1 / 10000), leastColumn := none }

/-- The column takes a tenth of the 10 mm, and the walls would take 2 mm each: they are left at a fifth over the column. -/
example : dimensionsFor tables (1 / 100) (2 / 100) = (9 / 1000, 176 / 10000) := by decide +kernel

example : places (quickFor 3 tables coreTwo false) = [some (23 / 2000), some (-(23 / 2000))] := by decide +kernel

end Verif.Bobbin
