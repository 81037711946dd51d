import Mathlib.Tactic.Ring
import Mathlib.Tactic.Linarith
import Mathlib.Tactic.LinearCombination
import Mathlib.Tactic.NormNum
import Mathlib.Tactic.FieldSimp
import Mathlib.Tactic.Positivity
import Mathlib.Algebra.BigOperators.Group.List.Basic
import Mathlib.Algebra.Order.Ring.Rat
import Mathlib.Data.Rat.Floor
import Verif.FlatMesh.Model

/-! # Properties of the meshes of flat wires -/

set_option linter.unusedSimpArgs false
set_option linter.unusedVariables false
set_option linter.unusedSectionVars false

namespace Verif.FlatMesh

variable {K : Type} [Field K] [LinearOrder K] [IsStrictOrderedRing K] [FloorRing K]

theorem samples_bounds (w : Wire K) : 8 ≤ samples w ∧ samples w ≤ 32 := by
  unfold samples
  constructor
  · exact le_min (by norm_num) (le_max_left _ _)
  · exact min_le_left _ _

/-- **C434.** Between eight and thirty-two samples divide the wide face into equal parts, each at the middle of its part, and
so inside the face and as far on one side of the middle as on the other. -/
theorem sample_spec {w : Wire K} (h : 0 < w.wide) :
    8 ≤ samples w ∧ samples w ≤ 32 ∧ ∀ i < samples w,
      offset w i - (-(w.wide / 2) + i * (w.wide / samples w)) = w.wide / samples w / 2 ∧
      -(w.wide / 2) + (i + 1) * (w.wide / samples w) - offset w i = w.wide / samples w / 2 ∧
      -(w.wide / 2) < offset w i ∧ offset w i < w.wide / 2 ∧ offset w (samples w - 1 - i) = -offset w i := by
  obtain ⟨h8, h32⟩ := samples_bounds w
  refine ⟨h8, h32, fun i hi => ?_⟩
  have hn : (0 : K) < samples w := by exact_mod_cast (by omega : 0 < samples w)
  have hs : 0 < w.wide / samples w := div_pos h hn
  have hw : (samples w : K) * (w.wide / samples w) = w.wide := by field_simp
  have hi' : (i : K) + 1 ≤ samples w := by exact_mod_cast hi
  have hi0 : (0 : K) ≤ i := Nat.cast_nonneg i
  have hsub : ((samples w - 1 - i : Nat) : K) = samples w - 1 - i := by
    rw [Nat.cast_sub (by omega), Nat.cast_sub (by omega), Nat.cast_one]
  unfold offset
  rw [hsub]
  generalize hst : w.wide / (samples w : K) = s at hs hw
  have hm := mul_le_mul_of_nonneg_right hi' hs.le
  have hm0 := mul_nonneg hi0 hs.le
  refine ⟨by ring, by ring, by linarith, by linarith, ?_⟩
  linear_combination hw

/-- **C434.** The parts are nearly as wide as the wire is thick, when it is from eight to thirty-two times as wide: their
number differs from the ratio by no more than a half. -/
theorem sample_count {w : Wire K} (h0 : 8 ≤ w.wide / w.thin) (h1 : w.wide / w.thin ≤ 32) :
    |(samples w : K) - w.wide / w.thin| ≤ 1 / 2 := by
  have hr := Round.round_near (w.wide / w.thin)
  obtain ⟨ha, hb⟩ := abs_le.mp hr
  have h8 : 8 ≤ Round.round (w.wide / w.thin) := by
    have : (7 : K) < Round.round (w.wide / w.thin) := by linarith
    have : (7 : ℤ) < Round.round (w.wide / w.thin) := by exact_mod_cast this
    omega
  have h32 : Round.round (w.wide / w.thin) ≤ 32 := by
    have : (Round.round (w.wide / w.thin) : K) < 33 := by linarith
    have : Round.round (w.wide / w.thin) < (33 : ℤ) := by exact_mod_cast this
    omega
  have e : ((samples w : Nat) : ℤ) = Round.round (w.wide / w.thin) := by unfold samples; omega
  have e' : (samples w : K) = (Round.round (w.wide / w.thin) : K) := by
    rw [← e]; push_cast; rfl
  rw [e']
  exact hr

/-- **C434.** The field of a flat turn is computed at the middles of its faces and, with fringing, at its samples along the
wide face; and at the same points about its second crossing, if it has one and the core is no toroid. -/
theorem induced_spec (fringing : Bool) (w : Wire K) (x y : K) (toroid : Option Bool) (others : Option (List (List K)))
    (s : Spot K) :
    s ∈ induced fringing w x y toroid others ↔
      ∃ u v, ((u = x ∧ v = y) ∨ (toroid = some false ∧ ∃ r rs, others = some ((u :: v :: r) :: rs))) ∧ s.length = none ∧
        ((s.label = some .right ∧ s.x = u + w.width / 2 ∧ s.y = v) ∨ (s.label = some .left ∧ s.x = u - w.width / 2 ∧ s.y = v) ∨
         (s.label = some .top ∧ s.x = u ∧ s.y = v + w.height / 2) ∨ (s.label = some .bottom ∧ s.x = u ∧ s.y = v - w.height / 2) ∨
         (fringing = true ∧ s.label = some .sample ∧ ∃ i < samples w,
           if w.kind = .foil then s.x = u ∧ s.y = v + offset w i else s.x = u + offset w i ∧ s.y = v)) := by
  have hc : ∀ u v, s ∈ cluster fringing w u v ↔ s.length = none ∧
        ((s.label = some .right ∧ s.x = u + w.width / 2 ∧ s.y = v) ∨ (s.label = some .left ∧ s.x = u - w.width / 2 ∧ s.y = v) ∨
         (s.label = some .top ∧ s.x = u ∧ s.y = v + w.height / 2) ∨ (s.label = some .bottom ∧ s.x = u ∧ s.y = v - w.height / 2) ∨
         (fringing = true ∧ s.label = some .sample ∧ ∃ i < samples w,
           if w.kind = .foil then s.x = u ∧ s.y = v + offset w i else s.x = u + offset w i ∧ s.y = v)) := by
    intro u v
    obtain ⟨sx, sy, sl, sn⟩ := s
    unfold cluster
    by_cases hk : w.kind = .foil <;> cases fringing <;>
      simp only [sample, hk, if_true, if_false, Bool.false_eq_true, List.append_nil, List.mem_append, List.mem_cons,
        List.not_mem_nil, or_false, List.mem_map, List.mem_range, Spot.mk.injEq, false_and, true_and, reduceCtorEq] <;>
      constructor
    all_goals first
      | (rintro (⟨rfl, rfl, rfl, rfl⟩ | ⟨rfl, rfl, rfl, rfl⟩ | ⟨rfl, rfl, rfl, rfl⟩ | ⟨rfl, rfl, rfl, rfl⟩) <;> simp; done)
      | (rintro ⟨rfl, ⟨rfl, rfl, rfl⟩ | ⟨rfl, rfl, rfl⟩ | ⟨rfl, rfl, rfl⟩ | ⟨rfl, rfl, rfl⟩⟩ <;> simp; done)
      | (rintro ((⟨rfl, rfl, rfl, rfl⟩ | ⟨rfl, rfl, rfl, rfl⟩ | ⟨rfl, rfl, rfl, rfl⟩ | ⟨rfl, rfl, rfl, rfl⟩) |
            ⟨i, hi, rfl, rfl, rfl, rfl⟩)
         · simp
         · simp
         · simp
         · simp
         · exact ⟨rfl, .inr (.inr (.inr (.inr ⟨rfl, i, hi, rfl, rfl⟩)))⟩)
      | (rintro ⟨rfl, ⟨rfl, rfl, rfl⟩ | ⟨rfl, rfl, rfl⟩ | ⟨rfl, rfl, rfl⟩ | ⟨rfl, rfl, rfl⟩ | ⟨rfl, i, hi, rfl, rfl⟩⟩
         · simp
         · simp
         · simp
         · simp
         · exact .inr ⟨i, hi, rfl, rfl, rfl, rfl⟩)
  have h2 : ∀ u v, secondCrossing toroid others = some (u, v) ↔
      toroid = some false ∧ ∃ r rs, others = some ((u :: v :: r) :: rs) := by
    intro u v
    unfold secondCrossing
    split
    · rename_i a b r rs
      simp only [Option.some.injEq, Prod.mk.injEq, true_and]
      constructor
      · rintro ⟨rfl, rfl⟩; exact ⟨r, rs, rfl⟩
      · rintro ⟨r', rs', e⟩
        simp only [List.cons.injEq] at e
        exact ⟨e.1.1, e.1.2.1⟩
    · rename_i hne
      refine iff_of_false (by simp) ?_
      rintro ⟨rfl, r, rs, rfl⟩
      exact hne u v r rs rfl rfl
  unfold induced
  rw [List.mem_append, hc]
  constructor
  · rintro (h | h)
    · exact ⟨x, y, .inl ⟨rfl, rfl⟩, h⟩
    · cases hs : secondCrossing toroid others with
      | none => rw [hs] at h; simp at h
      | some q =>
        rw [hs] at h
        exact ⟨q.1, q.2, .inr ((h2 q.1 q.2).mp hs), (hc _ _).mp h⟩
  · rintro ⟨u, v, ⟨rfl, rfl⟩ | hq, h⟩
    · exact .inl h
    · right
      rw [(h2 u v).mpr hq]
      exact (hc _ _).mpr h

/-- **C437.** The points at which the field of a round turn is computed share its length: with a second crossing half each,
and otherwise there is one for the whole turn. -/
theorem lengths_shared (x y length : K) (toroid : Option Bool) (others : Option (List (List K))) :
    (∃ q, secondCrossing toroid others = some q ∧ centred x y length toroid others =
        [⟨x, y, some .centre, some (length / 2)⟩, ⟨q.1, q.2, some .secondary, some (length / 2)⟩] ∧
        ((centred x y length toroid others).filterMap (·.length)).sum = length) ∨
      (secondCrossing toroid others = none ∧ centred x y length toroid others = [⟨x, y, some .centre, none⟩]) := by
  cases h : secondCrossing toroid others with
  | none => right; exact ⟨rfl, by unfold centred; rw [h]⟩
  | some q =>
    left
    refine ⟨q, rfl, by unfold centred; rw [h], ?_⟩
    unfold centred
    rw [h]
    simp

theorem depth_eq {w : Wire K} (h : 0 < w.thin) : depth w = min (99 / 100 * w.thin) (1 / 100 * w.wide + 66 / 100 * w.thin) := by
  unfold depth
  rw [min_mul_of_nonneg _ _ h.le]
  congr 1
  rw [add_mul, mul_assoc, div_mul_cancel₀ _ h.ne']

theorem depth_pos {w : Wire K} (h : 0 < w.thin) (hw : 0 < w.wide) : 0 < depth w := by
  rw [depth_eq h]
  exact lt_min (by linarith) (by linarith)

theorem depth_half {w : Wire K} (h : 0 < w.thin) : depth w ≤ w.wide / 2 ↔ 66 * w.thin ≤ 49 * w.wide := by
  rw [depth_eq h, min_le_iff]
  constructor
  · rintro (g | g) <;> linarith
  · intro g; right; linarith

theorem depth_whole {w : Wire K} (h : 0 < w.thin) : depth w ≤ w.wide ↔ 2 * w.thin ≤ 3 * w.wide := by
  rw [depth_eq h, min_le_iff]
  constructor
  · rintro (g | g) <;> linarith
  · intro g; right; linarith

/-- **C435.** The conductors of a rectangular or planar turn are on its middle line, as far from the middle on the left as on
the right. They are inside the wire exactly if its width is at least two thirds of its height, and that labelled right is not left
of the middle exactly if it is at least 66/49 of it. -/
theorem sides_partial {w : Wire K} (hk : w.kind = .flat) (hw : 0 < w.width) (hh : 0 < w.height) (x y : K) (length : Option K) :
    ∃ r l, inducing w x y length = [⟨r, y, some .right, length⟩, ⟨l, y, some .left, length⟩] ∧ r - x = x - l ∧
      ((x - w.width / 2 ≤ r ∧ r ≤ x + w.width / 2 ∧ x - w.width / 2 ≤ l ∧ l ≤ x + w.width / 2) ↔ 2 * w.height ≤ 3 * w.width) ∧
      ((l ≤ x ∧ x ≤ r) ↔ 66 * w.height ≤ 49 * w.width) := by
  have ew : w.wide = w.width := by unfold Wire.wide; rw [hk]; rfl
  have et : w.thin = w.height := by unfold Wire.thin; rw [hk]; rfl
  have hd := depth_pos (w := w) (by rw [et]; exact hh) (by rw [ew]; exact hw)
  have h1 := depth_half (w := w) (by rw [et]; exact hh)
  have h2 := depth_whole (w := w) (by rw [et]; exact hh)
  rw [ew, et] at h1 h2
  refine ⟨x + w.width / 2 - depth w, x - w.width / 2 + depth w, by unfold inducing; rw [hk], by ring, ?_, ?_⟩
  · rw [← h2]
    constructor
    · rintro ⟨a, b, c, d⟩; linarith
    · intro g; refine ⟨?_, ?_, ?_, ?_⟩ <;> linarith
  · rw [← h1]
    constructor
    · rintro ⟨a, b⟩; linarith
    · intro g; constructor <;> linarith

/-- **C435.** The conductors of a foil, above and below the middle, likewise with its height for the width. -/
theorem foil_sides_partial {w : Wire K} (hk : w.kind = .foil) (hw : 0 < w.width) (hh : 0 < w.height) (x y : K)
    (length : Option K) :
    ∃ t b, inducing w x y length = [⟨x, t, some .top, length⟩, ⟨x, b, some .bottom, length⟩] ∧ t - y = y - b ∧
      ((y - w.height / 2 ≤ t ∧ t ≤ y + w.height / 2 ∧ y - w.height / 2 ≤ b ∧ b ≤ y + w.height / 2) ↔ 2 * w.width ≤ 3 * w.height) ∧
      ((b ≤ y ∧ y ≤ t) ↔ 66 * w.width ≤ 49 * w.height) := by
  have ew : w.wide = w.height := by unfold Wire.wide; rw [hk]; rfl
  have et : w.thin = w.width := by unfold Wire.thin; rw [hk]; rfl
  have hd := depth_pos (w := w) (by rw [et]; exact hw) (by rw [ew]; exact hh)
  have h1 := depth_half (w := w) (by rw [et]; exact hw)
  have h2 := depth_whole (w := w) (by rw [et]; exact hw)
  rw [ew, et] at h1 h2
  refine ⟨y + w.height / 2 - depth w, y - w.height / 2 + depth w, by unfold inducing; rw [hk], by ring, ?_, ?_⟩
  · rw [← h2]
    constructor
    · rintro ⟨a, b, c, d⟩; linarith
    · intro g; refine ⟨?_, ?_, ?_, ?_⟩ <;> linarith
  · rw [← h1]
    constructor
    · rintro ⟨a, b⟩; linarith
    · intro g; constructor <;> linarith

/-- **C435.** The conductor labelled right of a rectangular wire five wide and four high is left of the middle. -/
theorem right_is_left : ∃ r l : Spot ℚ, inducing ⟨.flat, 5, 4⟩ 0 0 none = [r, l] ∧ r.label = some .right ∧ l.label = some .left ∧
    r.x < 0 ∧ 0 < l.x :=
  ⟨⟨-19 / 100 , 0, some .right, none⟩, ⟨19 / 100, 0, some .left, none⟩, by decide +kernel, rfl, rfl, by decide +kernel,
    by decide +kernel⟩

example : inducing (K := ℚ) ⟨.flat, 10, 2⟩ 0 0 none =
    [⟨358 / 100, 0, some .right, none⟩, ⟨-358 / 100, 0, some .left, none⟩] := by decide +kernel

/-- **C436.** The field of a flat turn assumes the depth at which the mesh has put its conductors exactly if the wire is
square. -/
theorem assumed_iff {w : Wire K} (hw : 0 < w.width) (hh : 0 < w.height) : assumed w = depth w ↔ w.width = w.height := by
  by_cases hk : w.kind = .foil
  · have ew : w.wide = w.height := by unfold Wire.wide; rw [if_pos hk]
    have et : w.thin = w.width := by unfold Wire.thin; rw [if_pos hk]
    have ha : assumed w = 1 / 100 * w.width + 66 / 100 * w.height := by
      unfold assumed
      simp only [if_pos hk]
      rw [add_mul, mul_assoc, div_mul_cancel₀ _ hh.ne']
    rw [ha, depth_eq (by rw [et]; exact hw), ew, et]
    constructor
    · intro e
      rcases min_choice (99 / 100 * w.width) (1 / 100 * w.height + 66 / 100 * w.width) with g | g
      · have := min_le_right (99 / 100 * w.width) (1 / 100 * w.height + 66 / 100 * w.width)
        rw [g] at e this
        linarith
      · rw [g] at e; linarith
    · intro e
      rw [e, min_eq_right (by linarith)]
  · have ew : w.wide = w.width := by unfold Wire.wide; rw [if_neg hk]
    have et : w.thin = w.height := by unfold Wire.thin; rw [if_neg hk]
    have ha : assumed w = 1 / 100 * w.height + 66 / 100 * w.width := by
      unfold assumed
      simp only [if_neg hk]
      rw [add_mul, mul_assoc, div_mul_cancel₀ _ hw.ne']
    rw [ha, depth_eq (by rw [et]; exact hh), ew, et]
    constructor
    · intro e
      rcases min_choice (99 / 100 * w.height) (1 / 100 * w.width + 66 / 100 * w.height) with g | g
      · have := min_le_right (99 / 100 * w.height) (1 / 100 * w.width + 66 / 100 * w.height)
        rw [g] at e this
        linarith
      · rw [g] at e; linarith
    · intro e
      rw [e, min_eq_right (by linarith)]

/-- **C436.** Of a square wire it does. -/
theorem assumed_partial {w : Wire K} (hw : 0 < w.width) (h : w.width = w.height) : assumed w = depth w :=
  (assumed_iff hw (h ▸ hw)).mpr h

/-- **C436.** Of a planar track five wide and one tenth high the mesh has a depth of 99/1000, and the field assumes 3301/1000,
more than half of the width. -/
theorem other_depth : depth (K := ℚ) ⟨.flat, 5, 1 / 10⟩ = 99 / 1000 ∧ assumed (K := ℚ) ⟨.flat, 5, 1 / 10⟩ = 3301 / 1000 :=
  ⟨by decide +kernel, by decide +kernel⟩

end Verif.FlatMesh
