import Verif.Faces.Model
import Mathlib.Data.Rat.Floor
import Mathlib.Algebra.Order.Floor.Ring
import Mathlib.Tactic.Linarith
import Mathlib.Tactic.FieldSimp
import Mathlib.Tactic.Ring
import Mathlib.Tactic.Positivity
import Mathlib.Tactic.GCongr
import Mathlib.Tactic.NormNum

/-! # Properties of faces and of the air around them -/

namespace Verif.Faces

set_option linter.unusedVariables false
set_option linter.unusedSectionVars false
set_option linter.unusedSimpArgs false

section
variable {K : Type} [Field K] [LinearOrder K] [IsStrictOrderedRing K]

/-! ## C379: resistances -/

/-- **C379.** The resistance between two faces is the same from both. -/
theorem touching_comm (a b : Face K) (contact : K) : touching a b contact = touching b a contact := by
  unfold touching
  split_ifs
  · rfl
  · exact add_comm _ _

theorem conduction_eq {l k a : K} (hl : 0 ≤ l) (hk : 0 < k) (ha : 0 < a) : conduction l k a = l / (k * a) := by
  unfold conduction
  by_cases h : l ≤ 0
  · rw [if_pos h, le_antisymm h hl, zero_div]
  · rw [if_neg h, if_neg (not_or.mpr ⟨not_le.mpr hk, not_le.mpr ha⟩)]

/-- **C379.** Two faces that touch resist in series: the resistance times the area of contact is the sum of what each face
resists by area. -/
theorem touching_series {a b : Face K} {contact : K} (ha : 0 ≤ a.length) (hb : 0 ≤ b.length) (hka : 0 < a.conductivity)
    (hkb : 0 < b.conductivity) (hc : 0 < contact) :
    touching a b contact * contact = a.length / a.conductivity + b.length / b.conductivity := by
  unfold touching
  rw [if_neg (not_le.mpr hc), conduction_eq ha hka hc, conduction_eq hb hkb hc]
  field_simp

example : touching (K := ℚ) ⟨1, 2, 4, 1⟩ ⟨1, 3, 6, 1⟩ 2 * 2 = 1 := by decide +kernel

theorem conduction_antitone {l k a a' : K} (ha : 0 < a) (h : a ≤ a') : conduction l k a' ≤ conduction l k a := by
  unfold conduction
  by_cases hl : l ≤ 0
  · rw [if_pos hl, if_pos hl]
  · rw [if_neg hl, if_neg hl]
    by_cases hk : k ≤ 0
    · rw [if_pos (Or.inl hk), if_pos (Or.inl hk)]
    · push Not at hl hk
      rw [if_neg (not_or.mpr ⟨not_le.mpr hk, not_le.mpr (lt_of_lt_of_le ha h)⟩),
        if_neg (not_or.mpr ⟨not_le.mpr hk, not_le.mpr ha⟩)]
      gcongr

/-- **C379.** Faces that touch over a larger area resist no more. -/
theorem touching_antitone (x y : Face K) {a a' : K} (ha : 0 < a) (h : a ≤ a') : touching x y a' ≤ touching x y a := by
  unfold touching
  rw [if_neg (not_le.mpr ha), if_neg (not_le.mpr (lt_of_lt_of_le ha h))]
  exact add_le_add (conduction_antitone ha h) (conduction_antitone ha h)

/-- **C379.** Coatings add their resistance to that between two faces, in whatever order they are taken. -/
theorem joined_coated {a b : Face K} {ca cb : Option (K × K)} :
    joined a b ca cb = joined b a cb ca ∧ (touching a b (min a.area b.area) ≤ joined a b ca cb) := by
  have pos : ∀ (c : Option (K × K)) (x : K), 0 ≤ coated c x := by
    intro c x
    cases c with
    | none => exact le_refl _
    | some p =>
      show 0 ≤ coating p.1 p.2 x
      unfold coating
      by_cases h : x ≤ 0
      · rw [if_pos h]
      · rw [if_neg h]
        by_cases h' : p.1 ≤ 0 ∨ p.2 ≤ 0
        · rw [if_pos h']
        · rw [if_neg h']
          push Not at h h'
          have := h'.1
          have := h'.2
          positivity
  unfold joined
  rw [min_comm b.area a.area, touching_comm b a]
  refine ⟨by ring, ?_⟩
  have h1 := pos ca (min a.area b.area)
  have h2 := pos cb (min a.area b.area)
  linarith

/-- Specification: what a coating resists by area. -/
def resists (c : Option (K × K)) : K :=
  match c with
  | none => 0
  | some p => p.1 / p.2

/-- **C379.** Two segments of a toroid and their coatings resist in series: the resistance times the smaller area is the sum of what
each of them resists by area. -/
theorem joined_series {a b : Face K} {ca cb : Option (K × K)} (ha : 0 ≤ a.length) (hb : 0 ≤ b.length) (hka : 0 < a.conductivity)
    (hkb : 0 < b.conductivity) (hc : 0 < min a.area b.area) (hca : ∀ p ∈ ca, 0 < p.1 ∧ 0 < p.2) (hcb : ∀ p ∈ cb, 0 < p.1 ∧ 0 < p.2) :
    joined a b ca cb * min a.area b.area =
      a.length / a.conductivity + b.length / b.conductivity + resists ca + resists cb := by
  have key : ∀ c : Option (K × K), (∀ p ∈ c, 0 < p.1 ∧ 0 < p.2) → coated c (min a.area b.area) * min a.area b.area = resists c := by
    intro c h
    cases c with
    | none => simp [coated, resists]
    | some p =>
      obtain ⟨h1, h2⟩ := h p rfl
      simp only [coated, coating, resists]
      rw [if_neg (not_le.mpr hc), if_neg (not_or.mpr ⟨not_le.mpr h1, not_le.mpr h2⟩)]
      have := h2.ne'
      have := hc.ne'
      field_simp
  unfold joined
  rw [add_mul, add_mul, touching_series ha hb hka hkb hc, key ca hca, key cb hcb]

example : ∀ p ∈ some ((1 : ℚ) / 10000, (1 : ℚ) / 5), 0 < p.1 ∧ 0 < p.2 := by
  intro p hp
  cases hp
  norm_num

/-- **C379.** Convection at an exposed face carries its coefficient times the area that is exposed. -/
theorem convection_exact {f : Face K} {h : K} (hh : 0 < h) (ha : 0 < f.area * f.exposed) :
    convection f h * (h * (f.area * f.exposed)) = 1 := by
  unfold convection
  rw [if_neg (not_or.mpr ⟨not_le.mpr hh, not_le.mpr ha⟩)]
  exact one_div_mul_cancel (mul_pos hh ha).ne'

/-- **C379.** A face that is more exposed, or in air that cools more, resists no more. -/
theorem convection_antitone {f g : Face K} {h h' : K} (hh : 0 < h) (ha : 0 < f.area * f.exposed) (hle : h ≤ h')
    (hf : f.area * f.exposed ≤ g.area * g.exposed) : convection g h' ≤ convection f h := by
  unfold convection
  rw [if_neg (not_or.mpr ⟨not_le.mpr hh, not_le.mpr ha⟩),
    if_neg (not_or.mpr ⟨not_le.mpr (lt_of_lt_of_le hh hle), not_le.mpr (lt_of_lt_of_le ha hf)⟩)]
  have := lt_of_lt_of_le hh hle
  gcongr

example : convection (K := ℚ) ⟨2, 0, 0, 1⟩ 5 ≤ convection ⟨2, 0, 0, 1 / 2⟩ 4 := by decide +kernel

/-! ## C380: turns around a column -/

/-- Specification: the surface of a wire of a rectangular section and some length, without its ends. -/
def surface (width height length : K) : K := 2 * (width + height) * length

/-- Specification: a turn of which all of the length is of the column, straight or bent: its inner face is not nearer the axis
than the least radius, nor nearer the wall of the column. -/
def Outside (shape : Columns.Shape) (width inner : K) : Prop :=
  match shape with
  | .round => 1 / 10 ^ 6 ≤ inner
  | .oblong => 1 / 10 ^ 6 ≤ inner
  | _ => 1 / 10 ^ 6 ≤ inner ∧ 1 / 10 ^ 6 ≤ inner - width

theorem turnLength_eq {pi : K} {shape : Columns.Shape} {w d r : K} (h : Outside shape w r) (hs : shape ≠ .other) :
    Columns.rawLength pi ⟨shape, w, d, 0⟩ r = some (turnLength pi shape w d r) := by
  cases shape with
  | round => simp only [Outside] at h; simp [Columns.rawLength, Columns.radius, turnLength, least, max_eq_left (by simpa using h)]
  | oblong => simp only [Outside] at h; simp [Columns.rawLength, Columns.radius, turnLength, least, max_eq_left (by simpa using h)]
  | rectangular =>
    simp only [Outside] at h
    have h1 : max r least = r := max_eq_left h.1
    have h2 : max (r - w) least = r - w := max_eq_left h.2
    simp [Columns.rawLength, Columns.radius, turnLength, h1, h2]
  | irregular =>
    simp only [Outside] at h
    have h1 : max r least = r := max_eq_left h.1
    have h2 : max (r - w) least = r - w := max_eq_left h.2
    simp [Columns.rawLength, Columns.radius, turnLength, h1, h2]
  | other => exact absurd rfl hs

/-- **C380.** The length of a turn is that it is wound with. -/
theorem length_of_coil {pi : K} {shape : Columns.Shape} {w d r : K} (h : Outside shape w r) (hs : shape ≠ .other)
    (hl : 0 ≤ turnLength pi shape w d r) :
    Columns.turnLength pi ⟨shape, w, d, 0⟩ r = some (some (turnLength pi shape w d r)) := by
  unfold Columns.turnLength
  rw [turnLength_eq h hs]
  simp [not_lt.mpr hl]

theorem outside_mono {shape : Columns.Shape} {w a b : K} (h : Outside shape w a) (hab : a ≤ b) : Outside shape w b := by
  cases shape <;> simp only [Outside] at h ⊢ <;> first | exact le_trans h hab | exact ⟨le_trans h.1 hab, by linarith [h.2]⟩

theorem linear {pi : K} {shape : Columns.Shape} {w d r : K} (h : Outside shape w r) :
    ∃ c : K, ∀ x : K, Outside shape w x → turnLength pi shape w d x = 2 * pi * x + c := by
  cases shape with
  | round => exact ⟨0, fun x hx => by simp only [Outside] at hx; simp only [turnLength, least, max_eq_left hx]; ring⟩
  | oblong => exact ⟨4 * (d - w), fun x hx => by simp only [Outside] at hx; simp only [turnLength, least, max_eq_left hx]⟩
  | rectangular =>
    exact ⟨4 * d + 4 * w - 2 * pi * w, fun x hx => by
      simp only [Outside] at hx; simp only [turnLength, least, max_eq_left hx.1, max_eq_left hx.2]; ring⟩
  | irregular =>
    exact ⟨4 * d + 4 * w - 2 * pi * w, fun x hx => by
      simp only [Outside] at hx; simp only [turnLength, least, max_eq_left hx.1, max_eq_left hx.2]; ring⟩
  | other =>
    exact ⟨4 * d + 4 * w - 2 * pi * w, fun x hx => by
      simp only [Outside] at hx; simp only [turnLength, least, max_eq_left hx.1, max_eq_left hx.2]; ring⟩

/-- **C380.** The faces of a turn around a column have together the surface of its wire, as long as the turn is at its centre.
Partial: the turn is right of the axis and off the wall of the column (see `left_of_axis`). -/
theorem faces_add_up_partial {pi : K} {shape : Columns.Shape} {w d ww wh c : K} (hw : 0 ≤ ww) (h : Outside shape w (c - ww / 2)) :
    (columnFaces pi shape w d ww wh c).total = surface ww wh (turnLength pi shape w d c) := by
  obtain ⟨k, hk⟩ := linear (pi := pi) (d := d) h
  have h2 : Outside shape w c := outside_mono h (by linarith)
  have h3 : Outside shape w (c + ww / 2) := outside_mono h (by linarith)
  simp only [Areas.total, columnFaces, surface, hk _ h, hk _ h2, hk _ h3]
  ring

/-- **C380.** The face towards the axis is not larger than that away from it. -/
theorem inner_smaller {pi : K} {shape : Columns.Shape} {w d ww wh c : K} (hpi : 0 ≤ pi) (hw : 0 ≤ ww) (hh : 0 ≤ wh) :
    (columnFaces pi shape w d ww wh c).inner ≤ (columnFaces pi shape w d ww wh c).outer := by
  have h : c - ww / 2 ≤ c + ww / 2 := by linarith
  have hm : max (c - ww / 2) least ≤ max (c + ww / 2) least := max_le_max_right _ h
  have hm' : max (max (c - ww / 2) least - w) least ≤ max (max (c + ww / 2) least - w) least :=
    max_le_max_right _ (by linarith)
  cases shape <;> simp only [columnFaces, turnLength] <;> gcongr

/-- **C380.** Turns left of the axis have next to no surface, wherever they are: their faces are as long as a circle of a
thousandth of a millimetre of radius. -/
theorem left_of_axis {pi : K} {w d ww wh c : K} (hw : 0 ≤ ww) (h : c ≤ -(ww / 2)) :
    (columnFaces pi .round w d ww wh c).total = surface ww wh (2 * pi * (1 / 10 ^ 6)) := by
  have hl : (0 : K) ≤ least := by unfold least; positivity
  have h1 : max (c - ww / 2) least = least := max_eq_right (by linarith)
  have h2 : max c least = least := max_eq_right (by linarith)
  have h3 : max (c + ww / 2) least = least := max_eq_right (by linarith)
  simp only [Areas.total, columnFaces, surface, turnLength, h1, h2, h3]
  unfold least
  ring

example : Outside (K := ℚ) .round 0 (5 / 1000 - 1 / 2000) := by simp only [Outside]; norm_num

example : (columnFaces (K := ℚ) (22 / 7) .round 0 0 (1 / 1000) (1 / 1000) (7 / 1000)).total = 4 / 1000 * (44 / 1000) ∧
    (columnFaces (K := ℚ) (22 / 7) .round 0 0 (1 / 1000) (1 / 1000) (-7 / 1000)).total * 7000 = 4 / 1000 * (44 / 1000) :=
  ⟨by decide +kernel, by decide +kernel⟩

/-! ## C381: turns of a toroid -/

/-- **C381.** The faces of half of a turn of a toroid have the surface of half of its wire. Partial: only where the place of the
half is not known, which the program does not do but for turns at the axis (see `length_ignored`); `turn`: the length of the
turn. -/
theorem halves_add_up_partial {pi ww wh turn centre : K} (hpi : 0 < pi) (hw : 0 ≤ ww) (hc : centre ≤ 0)
    (hi : 1 / 10 ^ 6 ≤ turn / (2 * pi) - ww / 2) :
    2 * (toroidFaces pi ww wh turn centre).total = surface ww wh turn := by
  have hr : centreRadius pi turn centre = turn / (2 * pi) := if_neg (not_lt.mpr hc)
  have h1 : max (turn / (2 * pi) - ww / 2) least = turn / (2 * pi) - ww / 2 := max_eq_left hi
  have h2 : max (turn / (2 * pi) + ww / 2) least = turn / (2 * pi) + ww / 2 :=
    max_eq_left (le_trans hi (by linarith))
  simp only [Areas.total, toroidFaces, surface, hr, h1, h2]
  field_simp
  ring

/-- **C381.** Where the place of a half is known its faces do not depend on the length of the turn. -/
theorem length_ignored {pi ww wh centre : K} (hc : 0 < centre) (turn turn' : K) :
    toroidFaces pi ww wh turn centre = toroidFaces pi ww wh turn' centre := by
  have hr : ∀ t : K, centreRadius pi t centre = centre := fun t => if_pos hc
  simp only [toroidFaces, hr]

/-- **C381.** They are those of a wire as long as half of a circle around the axis of the toroid through that place. -/
theorem halves_by_radius {pi ww wh turn centre : K} (hw : 0 ≤ ww) (hi : 1 / 10 ^ 6 ≤ centre - ww / 2) :
    (toroidFaces pi ww wh turn centre).total = surface ww wh (pi * centre) := by
  have hc : 0 < centre := by
    have : (0 : K) < 1 / 10 ^ 6 := by positivity
    linarith
  have hr : centreRadius pi turn centre = centre := if_pos hc
  have h1 : max (centre - ww / 2) least = centre - ww / 2 := max_eq_left hi
  have h2 : max (centre + ww / 2) least = centre + ww / 2 := max_eq_left (le_trans hi (by linarith))
  simp only [Areas.total, toroidFaces, surface, hr, h1, h2]
  ring

/-- **C381.** A turn of 30 mm of a toroid, 7 mm from its axis inside and 14 mm outside, has the surface of one of 66 mm. -/
theorem toroid_surface_wrong :
    (toroidFaces (K := ℚ) (22 / 7) (1 / 1000) (1 / 1000) (30 / 1000) (7 / 1000)).total +
      (toroidFaces (K := ℚ) (22 / 7) (1 / 1000) (1 / 1000) (30 / 1000) (14 / 1000)).total =
      surface (1 / 1000) (1 / 1000) (66 / 1000) := by decide +kernel

example : (1 : ℚ) / 10 ^ 6 ≤ 44 / 1000 / (2 * (22 / 7)) - 1 / 1000 / 2 := by decide +kernel

/-! ## C382: exposure -/

/-- **C382.** The exposed part is between nothing and everything. -/
theorem exposure_range (l : K) (ws : List K) : 0 ≤ exposure l ws ∧ exposure l ws ≤ 1 := by
  unfold exposure
  split_ifs
  · exact ⟨zero_le_one, le_refl _⟩
  · exact ⟨le_max_left _ _, max_le zero_le_one (min_le_left _ _)⟩

theorem exposure_eq {l : K} {ws : List K} (hl : 0 < l) (hw : ∀ w ∈ ws, 0 ≤ w) :
    exposure l ws = max 0 (1 - ws.sum / l) := by
  have hs : 0 ≤ ws.sum := List.sum_nonneg hw
  unfold exposure
  rw [if_neg (not_le.mpr hl)]
  by_cases h : l ≤ ws.sum
  · have h1 : max 0 (l - ws.sum) = 0 := max_eq_left (by linarith)
    have h2 : 1 ≤ ws.sum / l := (one_le_div hl).mpr h
    rw [h1, zero_div, min_eq_right zero_le_one, max_self, max_eq_left (by linarith)]
  · push Not at h
    have h1 : max 0 (l - ws.sum) = l - ws.sum := max_eq_right (by linarith)
    have h2 : (l - ws.sum) / l = 1 - ws.sum / l := by field_simp
    have h3 : ws.sum / l ≤ 1 := (div_le_one hl).mpr h.le
    have h4 : 0 ≤ ws.sum / l := div_nonneg hs hl.le
    rw [h1, h2, min_eq_right (by linarith)]

/-- **C382.** Turns that fit on a face leave exposed what they do not cover. -/
theorem exposure_exact {l : K} {ws : List K} (hl : 0 < l) (hw : ∀ w ∈ ws, 0 ≤ w) (hf : ws.sum ≤ l) :
    exposure l ws * l = l - ws.sum := by
  rw [exposure_eq hl hw, max_eq_right (by have := (div_le_one hl).mpr hf; linarith)]
  field_simp

/-- **C382.** A face is covered exactly when its turns are as wide as it. -/
theorem exposure_covered {l : K} {ws : List K} (hl : 0 < l) (hw : ∀ w ∈ ws, 0 ≤ w) : exposure l ws = 0 ↔ l ≤ ws.sum := by
  rw [exposure_eq hl hw]
  constructor
  · intro h
    have h1 : 1 - ws.sum / l ≤ 0 := by
      have := le_max_right 0 (1 - ws.sum / l)
      rwa [h] at this
    exact (one_le_div hl).mp (by linarith)
  · intro h
    exact max_eq_left (by have := (one_le_div hl).mpr h; linarith)

/-- **C382.** The order of the turns does not matter. -/
theorem exposure_perm {l : K} {ws vs : List K} (h : ws.Perm vs) : exposure l ws = exposure l vs := by
  unfold exposure
  rw [h.sum_eq]

/-- **C382.** One turn more exposes no more. -/
theorem exposure_antitone {l w : K} {ws : List K} (hl : 0 < l) (hw : ∀ x ∈ w :: ws, 0 ≤ x) :
    exposure l (w :: ws) ≤ exposure l ws := by
  have h0 : 0 ≤ w := hw w (by simp)
  rw [exposure_eq hl hw, exposure_eq hl (fun x hx => hw x (by simp [hx]))]
  apply max_le_max_left
  rw [List.sum_cons]
  have : ws.sum / l ≤ (w + ws.sum) / l := by gcongr; linarith
  linarith

example : exposure (K := ℚ) 10 [3, 4] = 3 / 10 ∧ exposure (K := ℚ) 10 [3, 4, 5] = 0 := ⟨by decide +kernel, by decide +kernel⟩

/-! ## C383: turns of the segments of a toroid -/

/-- **C383.** Every turn is counted in a segment. -/
theorem counted_somewhere [FloorRing K] {step a : K} {n : Nat} (hs : 0 < step) (ha : 0 ≤ a) (hn : a < n * step) :
    ∃ i : Nat, i < n ∧ counted ((n : K) * step) step ((i : K) * step) a = true := by
  have hd : 0 ≤ a / step := div_nonneg ha hs.le
  have hf : 0 ≤ ⌊a / step⌋ := Int.floor_nonneg.mpr hd
  obtain ⟨i, hi⟩ := Int.eq_ofNat_of_zero_le hf
  have h1 : (i : K) ≤ a / step := by
    have := Int.floor_le (a / step)
    rw [hi] at this
    exact_mod_cast this
  have h2 : a / step < (i : K) + 1 := by
    have := Int.lt_floor_add_one (a / step)
    rw [hi] at this
    exact_mod_cast this
  have h3 : (i : K) * step ≤ a := (le_div_iff₀ hs).mp h1
  have h4 : a < ((i : K) + 1) * step := (div_lt_iff₀ hs).mp h2
  refine ⟨i, ?_, ?_⟩
  · have h5 : (i : K) * step < n * step := lt_of_le_of_lt h3 hn
    have h6 : (i : K) < n := lt_of_mul_lt_mul_right h5 hs.le
    exact_mod_cast h6
  · unfold counted
    rw [if_pos ⟨by linarith, by linarith⟩]

/-- **C383.** The angle by which a turn is counted is its own but for whole turns, and between none and a whole one; so a turn at any angle
between minus one and one whole turn is counted in a segment. -/
theorem turn_somewhere [FloorRing K] {step : K} {n : Nat} (hs : 0 < step) {a : K} (h1 : -((n : K) * step) ≤ a) (h2 : a < (n : K) * step) :
    (∃ k : ℤ, positive ((n : K) * step) a = a + k * ((n : K) * step)) ∧ 0 ≤ positive ((n : K) * step) a ∧
      positive ((n : K) * step) a < (n : K) * step ∧
      ∃ i : Nat, i < n ∧ counted ((n : K) * step) step ((i : K) * step) (positive ((n : K) * step) a) = true := by
  have hr : 0 ≤ positive ((n : K) * step) a ∧ positive ((n : K) * step) a < (n : K) * step := by
    unfold positive
    by_cases h : a < 0
    · rw [if_pos h]; exact ⟨by linarith, by linarith⟩
    · rw [if_neg h]; exact ⟨not_lt.1 h, h2⟩
  refine ⟨?_, hr.1, hr.2, counted_somewhere hs hr.1 hr.2⟩
  unfold positive
  by_cases h : a < 0
  · exact ⟨1, by rw [if_pos h]; simp⟩
  · exact ⟨0, by rw [if_neg h]; simp⟩

example : -((8 : ℚ) * 45) ≤ -170 ∧ (-170 : ℚ) < 8 * 45 := by norm_num

/-- **C383.** A turn covers only the segment it is in. Partial: it is farther than a tenth of a segment from the borders (see
`counted_twice`). -/
theorem counted_once_partial {step a : K} {n i : Nat} (hs : 0 < step) (hi : i < n) (h1 : (i : K) * step + step / 10 ≤ a)
    (h2 : a < ((i : K) + 1) * step - step / 10) {j : Nat} (hj : j < n) :
    counted ((n : K) * step) step ((j : K) * step) a = true ↔ j = i := by
  have hik : (i : K) + 1 ≤ n := by exact_mod_cast hi
  have hjk : (j : K) + 1 ≤ n := by exact_mod_cast hj
  have hj0 : (0 : K) ≤ j := Nat.cast_nonneg j
  have hi0 : (0 : K) ≤ i := Nat.cast_nonneg i
  have m1 : ((i : K) + 1) * step ≤ n * step := mul_le_mul_of_nonneg_right hik hs.le
  have m2 : ((j : K) + 1) * step ≤ n * step := mul_le_mul_of_nonneg_right hjk hs.le
  have m3 : 0 ≤ (i : K) * step := mul_nonneg hi0 hs.le
  have m4 : 0 ≤ (j : K) * step := mul_nonneg hj0 hs.le
  constructor
  · intro h
    unfold counted at h
    split_ifs at h with c1 c2
    · rcases Nat.lt_trichotomy j i with hl | he | hg
      · exfalso
        have : (j : K) + 1 ≤ i := by exact_mod_cast hl
        have := mul_le_mul_of_nonneg_right this hs.le
        linarith [c1.2]
      · exact he
      · exfalso
        have : (i : K) + 1 ≤ j := by exact_mod_cast hg
        have := mul_le_mul_of_nonneg_right this hs.le
        linarith [c1.1]
    · exfalso
      linarith [c2.2]
    · exfalso
      have c3 := of_decide_eq_true h
      linarith [c3.2]
  · rintro rfl
    unfold counted
    rw [if_pos ⟨by linarith, by linarith⟩]

/-- **C383.** A turn near the border of two segments covers both: of eight segments of 45 degrees, a turn at 47 degrees covers
the first two. -/
theorem counted_twice : counted (360 : ℚ) 45 0 47 = true ∧ counted (360 : ℚ) 45 45 47 = true := ⟨by decide +kernel, by decide +kernel⟩

/-- **C383.** A turn wound over another one covers the core again: it leaves two tenths exposed of six. -/
theorem stacked_turns :
    segmentExposure (K := ℚ) 360 45 (10 / 45) 0 [⟨20, 9, 4⟩] = 6 / 10 ∧
      segmentExposure (K := ℚ) 360 45 (10 / 45) 0 [⟨20, 9, 4⟩, ⟨20, 5, 4⟩] = 2 / 10 := ⟨by decide +kernel, by decide +kernel⟩

example : (2 : ℚ) * 45 + 45 / 10 ≤ 100 ∧ (100 : ℚ) < (2 + 1) * 45 - 45 / 10 := ⟨by decide +kernel, by decide +kernel⟩

end

/-! ## C384: still air -/

theorem prandtl_pos (t : ℝ) : 0 < prandtl t := lt_of_lt_of_le (by norm_num) (le_max_left _ _)

theorem viscosity_pos {t : ℝ} (h : 0 < kelvin t) : 0 < viscosity t := by
  unfold viscosity
  have : 0 < (kelvin t / 273.15) ^ (1.5 : ℝ) := Real.rpow_pos_of_pos (by positivity) _
  positivity

theorem airConductivity_pos {t : ℝ} (h : 0 < kelvin t) : 0 < airConductivity t := by
  unfold kelvin at h
  unfold airConductivity
  norm_num at h ⊢
  linarith

theorem rayleigh_nonneg {film d l : ℝ} (h : 0 < kelvin film) (hd : 0 ≤ d) (hl : 0 ≤ l) : 0 ≤ rayleigh film d l := by
  unfold rayleigh
  have := prandtl_pos film
  have := viscosity_pos h
  positivity

theorem rayleigh_mono {film d d' l : ℝ} (h : 0 < kelvin film) (hl : 0 ≤ l) (hd : d ≤ d') : rayleigh film d l ≤ rayleigh film d' l := by
  unfold rayleigh
  have := prandtl_pos film
  have := viscosity_pos h
  gcongr

theorem quarter_third {x : ℝ} (h : 10 ^ 7 ≤ x) : (0.54 : ℝ) * x ^ (1 / 4 : ℝ) ≤ 0.15 * x ^ (1 / 3 : ℝ) := by
  have hx : 0 < x := lt_of_lt_of_le (by positivity) h
  have h1 : x ^ (1 / 3 : ℝ) = x ^ (1 / 4 : ℝ) * x ^ (1 / 12 : ℝ) := by rw [← Real.rpow_add hx]; norm_num
  have h2 : (3.6 : ℝ) ≤ x ^ (1 / 12 : ℝ) := by
    have e3 : (3.6 : ℝ) ^ (12 : ℝ) ≤ x := by
      refine le_trans ?_ h
      norm_num
    calc (3.6 : ℝ) = ((3.6 : ℝ) ^ (12 : ℝ)) ^ (1 / 12 : ℝ) := by rw [← Real.rpow_mul (by norm_num)]; norm_num
      _ ≤ _ := Real.rpow_le_rpow (by positivity) e3 (by norm_num)
  have hq : (0 : ℝ) ≤ x ^ (1 / 4 : ℝ) := Real.rpow_nonneg hx.le _
  rw [h1]
  nlinarith

theorem correlation_mono (f : Facing) {pr ra ra' : ℝ} (hp : 0 < pr) (h0 : 0 ≤ ra) (h : ra ≤ ra') :
    correlation f pr ra ≤ correlation f pr ra' := by
  have h0' : 0 ≤ ra' := le_trans h0 h
  have p6 : ra ^ (1 / 6 : ℝ) ≤ ra' ^ (1 / 6 : ℝ) := Real.rpow_le_rpow h0 h (by norm_num)
  have p4 : ra ^ (1 / 4 : ℝ) ≤ ra' ^ (1 / 4 : ℝ) := Real.rpow_le_rpow h0 h (by norm_num)
  have p3 : ra ^ (1 / 3 : ℝ) ≤ ra' ^ (1 / 3 : ℝ) := Real.rpow_le_rpow h0 h (by norm_num)
  have q6 : 0 ≤ ra ^ (1 / 6 : ℝ) := Real.rpow_nonneg h0 _
  cases f with
  | vertical =>
    simp only [correlation]
    have ht : 0 < (1 + (0.492 / pr) ^ (9 / 16 : ℝ)) ^ (8 / 27 : ℝ) := by
      apply Real.rpow_pos_of_pos
      have : 0 ≤ (0.492 / pr) ^ (9 / 16 : ℝ) := Real.rpow_nonneg (by positivity) _
      linarith
    gcongr
  | up =>
    simp only [correlation]
    split_ifs with c1 c2 c2
    · gcongr
    · push Not at c2
      have hb : ra ^ (1 / 4 : ℝ) ≤ ra' ^ (1 / 4 : ℝ) := p4
      have := quarter_third c2
      linarith
    · exfalso; push Not at c1; linarith
    · gcongr
  | down =>
    simp only [correlation]
    gcongr

/-- **C384.** In still air a surface sheds at least what air that does not move conducts. -/
theorem still_conducts {s a l : ℝ} (f : Facing) (h : 0 < kelvin ((s + a) / 2)) (hl : 0 < l) :
    airConductivity ((s + a) / 2) / l ≤ still s a l f := by
  have hk := airConductivity_pos h
  unfold still
  gcongr
  exact le_mul_of_one_le_left hk.le (le_max_right _ _)

/-- **C384.** The number of Prandtl of air is between 0.68 and 0.72 at every temperature, and does not grow with it. -/
theorem prandtl_range {t t' : ℝ} (h : t ≤ t') : 0.68 ≤ prandtl t ∧ prandtl t ≤ 0.72 ∧ prandtl t' ≤ prandtl t := by
  unfold prandtl
  have e : (0.68 : ℝ) = 0.680 ∧ (0.72 : ℝ) = 0.720 := ⟨by norm_num, by norm_num⟩
  rw [e.1, e.2]
  exact ⟨le_max_left _ _, max_le (by norm_num) (min_le_left _ _), max_le_max_left _ (min_le_min_left _ (by linarith))⟩

/-- **C384.** It does not matter which of surface and air is hotter. -/
theorem still_symmetric (s a l : ℝ) (f : Facing) : still s a l f = still a s l f := by
  unfold still
  rw [add_comm s a, abs_sub_comm s a]

/-- **C384.** About the same mean temperature, a larger difference cools no less, for surfaces of any orientation: also over the
change of correlation. -/
theorem still_mono {s a s' a' l : ℝ} (f : Facing) (h : 0 < kelvin ((s + a) / 2)) (hl : 0 < l) (hm : s + a = s' + a')
    (hd : |s - a| ≤ |s' - a'|) : still s a l f ≤ still s' a' l f := by
  have hk := airConductivity_pos h
  unfold still
  rw [← hm]
  have hδ : (if |s - a| < 0.1 then 0.1 else |s - a|) ≤ (if |s' - a'| < 0.1 then 0.1 else |s' - a'|) := by
    split_ifs with c1 c2 c2
    · exact le_refl _
    · exact not_lt.mp c2
    · exact absurd (lt_of_le_of_lt hd c2) c1
    · exact hd
  have h0 : 0 ≤ (if |s - a| < 0.1 then 0.1 else |s - a|) := by
    split_ifs
    · norm_num
    · exact abs_nonneg _
  have := correlation_mono f (prandtl_pos ((s + a) / 2)) (rayleigh_nonneg h h0 hl.le) (rayleigh_mono h hl.le hδ)
  gcongr

/-- **C384.** A surface that looks up cools no less than one that looks down. -/
theorem up_cools_more {s a l : ℝ} (h : 0 < kelvin ((s + a) / 2)) (hl : 0 < l) : still s a l .down ≤ still s a l .up := by
  have hk := airConductivity_pos h
  unfold still
  have h0 : 0 ≤ (if |s - a| < 0.1 then 0.1 else |s - a|) := by
    split_ifs
    · norm_num
    · exact abs_nonneg _
  have hr := rayleigh_nonneg h h0 hl.le
  have : ∀ (p r : ℝ), 0 ≤ r → correlation .down p r ≤ correlation .up p r := by
    intro p r hr
    have hq : 0 ≤ r ^ (1 / 4 : ℝ) := Real.rpow_nonneg hr _
    simp only [correlation]
    split_ifs with c
    · linarith
    · have := quarter_third (not_lt.mp c)
      linarith
  have := this (prandtl ((s + a) / 2)) _ hr
  gcongr

example : 0 < kelvin ((100 + 25) / 2) := by unfold kelvin; norm_num

/-! ## C385: moving air -/

theorem half_million {x : ℝ} (h : 5e5 ≤ x) : (0.664 : ℝ) * x ^ (1 / 2 : ℝ) ≤ 0.037 * x ^ (4 / 5 : ℝ) := by
  have hx : 0 < x := lt_of_lt_of_le (by norm_num) h
  have h1 : x ^ (4 / 5 : ℝ) = x ^ (1 / 2 : ℝ) * x ^ (3 / 10 : ℝ) := by rw [← Real.rpow_add hx]; norm_num
  have h2 : (18 : ℝ) ≤ x ^ (3 / 10 : ℝ) := by
    have e : x ^ (3 / 10 : ℝ) = (x ^ (3 : ℝ)) ^ (10 : ℝ)⁻¹ := by rw [← Real.rpow_mul hx.le]; norm_num
    have e3 : (18 : ℝ) ^ (10 : ℝ) ≤ x ^ (3 : ℝ) := by
      have : (5e5 : ℝ) ^ (3 : ℝ) ≤ x ^ (3 : ℝ) := Real.rpow_le_rpow (by norm_num) h (by norm_num)
      refine le_trans ?_ this
      norm_num
    rw [e]
    calc (18 : ℝ) = ((18 : ℝ) ^ (10 : ℝ)) ^ (10 : ℝ)⁻¹ := by rw [← Real.rpow_mul (by norm_num)]; norm_num
      _ ≤ _ := Real.rpow_le_rpow (by positivity) e3 (by norm_num)
  have hq : (0 : ℝ) ≤ x ^ (1 / 2 : ℝ) := Real.rpow_nonneg hx.le _
  rw [h1]
  nlinarith

theorem flow_mono {re re' pr : ℝ} (hp : 0 ≤ pr) (h0 : 0 ≤ re) (h : re ≤ re') : flow re pr ≤ flow re' pr := by
  have p2 : re ^ (1 / 2 : ℝ) ≤ re' ^ (1 / 2 : ℝ) := Real.rpow_le_rpow h0 h (by norm_num)
  have p5 : re ^ (4 / 5 : ℝ) ≤ re' ^ (4 / 5 : ℝ) := Real.rpow_le_rpow h0 h (by norm_num)
  have hq : 0 ≤ pr ^ (1 / 3 : ℝ) := Real.rpow_nonneg hp _
  unfold flow
  split_ifs with c1 c2 c2
  · gcongr
  · have := half_million (not_lt.mp c2)
    apply mul_le_mul_of_nonneg_right _ hq
    linarith
  · exact absurd (lt_of_le_of_lt h c2) c1
  · gcongr

/-- **C385.** Air that moves faster cools no less, also where the flow becomes turbulent. -/
theorem moving_mono {v v' l t : ℝ} (ht : 0 < kelvin t) (hl : 0 < l) (hv : 0 < v) (h : v ≤ v') : moving v l t ≤ moving v' l t := by
  have hk := airConductivity_pos ht
  have hn := viscosity_pos ht
  have hp := prandtl_pos t
  unfold moving
  rw [if_neg (not_le.mpr hv), if_neg (not_le.mpr (lt_of_lt_of_le hv h))]
  have : flow (v * l / viscosity t) (prandtl t) ≤ flow (v' * l / viscosity t) (prandtl t) := by
    apply flow_mono hp.le (by positivity)
    gcongr
  gcongr

/-- **C385.** Air said not to move cools as still air does, a surface 20 degrees hotter than it. -/
theorem moving_stopped {v l t : ℝ} (hv : v ≤ 0) : moving v l t = still (t + 20) t l .vertical := if_pos hv

/-- **C385.** Air that moves slowly enough cools less than that said not to move. -/
theorem slow_below_stopped {v l t : ℝ} (ht : 0 < kelvin t) (hl : 0 < l) (hv : 0 < v) (hr : v * l / viscosity t ≤ 1) :
    moving v l t < moving 0 l t := by
  have hk := airConductivity_pos ht
  have hn := viscosity_pos ht
  have hp := prandtl_pos t
  have hf : 0 < kelvin ((t + 20 + t) / 2) := by unfold kelvin at ht ⊢; linarith
  have h1 := still_conducts (f := .vertical) hf hl
  have h2 : airConductivity t < airConductivity ((t + 20 + t) / 2) := by unfold airConductivity; norm_num; linarith
  have hr0 : 0 ≤ v * l / viscosity t := by positivity
  have h3 : flow (v * l / viscosity t) (prandtl t) ≤ 1 := by
    unfold flow
    rw [if_pos (by norm_num at hr ⊢; linarith)]
    have a1 : (v * l / viscosity t) ^ (1 / 2 : ℝ) ≤ 1 := Real.rpow_le_one hr0 hr (by norm_num)
    have a2 : prandtl t ^ (1 / 3 : ℝ) ≤ 1 := by
      apply Real.rpow_le_one hp.le _ (by norm_num)
      unfold prandtl
      apply max_le (by norm_num)
      exact le_trans (min_le_left _ _) (by norm_num)
    have b1 : 0 ≤ (v * l / viscosity t) ^ (1 / 2 : ℝ) := Real.rpow_nonneg hr0 _
    have b2 : 0 ≤ prandtl t ^ (1 / 3 : ℝ) := Real.rpow_nonneg hp.le _
    calc 0.664 * (v * l / viscosity t) ^ (1 / 2 : ℝ) * prandtl t ^ (1 / 3 : ℝ) ≤ 1 * 1 * 1 := by gcongr; norm_num
      _ = 1 := by norm_num
  rw [moving_stopped (le_refl 0)]
  refine lt_of_lt_of_le ?_ h1
  unfold moving
  rw [if_neg (not_le.mpr hv)]
  apply div_lt_div_of_pos_right _ hl
  calc _ ≤ 1 * airConductivity t := by gcongr
    _ < _ := by rw [one_mul]; exact h2

example : ∃ v : ℝ, 0 < v ∧ v * 0.01 / viscosity 25 ≤ 1 := by
  have h : 0 < viscosity 25 := viscosity_pos (by unfold kelvin; norm_num)
  exact ⟨viscosity 25, h, by rw [div_le_one h]; linarith⟩

end Verif.Faces
