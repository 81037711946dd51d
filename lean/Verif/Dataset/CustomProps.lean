import Verif.Dataset.Custom
import Mathlib.Tactic.Linarith
import Mathlib.Tactic.Positivity
import Mathlib.Tactic.FieldSimp
import Mathlib.Tactic.NormNum

/-! # Properties of the shapes made to measure -/

namespace Verif.Dataset

/-- The area product of a shape scaled by `s`: a product of two areas. -/
def scaledProduct (reference s : ℝ) : ℝ := reference * s ^ 4

theorem root_fourth (x : ℝ) (hx : 0 < x) : (x ^ (1 / 4 : ℝ)) ^ 4 = x := by
  rw [← Real.rpow_natCast, ← Real.rpow_mul hx.le]
  norm_num

theorem fourth_lt {a b : ℝ} (ha : 0 ≤ a) (h : a < b) : a ^ 4 < b ^ 4 := pow_lt_pow_left₀ h ha (by norm_num)

/-- **C327.** A shape made to measure has exactly the area product required if that of the shape it is made of is neither less
than an eighty-first of it nor more than sixteen times it. -/
theorem custom_exact (required reference : ℝ) (hr : 0 < required) (hf : 0 < reference)
    (h1 : reference ≤ 16 * required) (h2 : required ≤ 81 * reference) :
    scaledProduct reference (factor required reference) = required := by
  have hq : 0 < required / reference := by positivity
  set x := (required / reference) ^ (1 / 4 : ℝ) with hx
  have hx0 : 0 < x := Real.rpow_pos_of_pos hq _
  have h4 : x ^ 4 = required / reference := root_fourth _ hq
  have hle : x ≤ 3 := by
    by_contra hc
    have := fourth_lt (by norm_num) (not_le.mp hc)
    rw [h4, lt_div_iff₀ hf] at this
    norm_num at this
    linarith
  have hge : 1 / 2 ≤ x := by
    by_contra hc
    have := fourth_lt hx0.le (not_le.mp hc)
    rw [h4, div_lt_iff₀ hf] at this
    norm_num at this
    linarith
  unfold scaledProduct factor
  rw [← hx, min_eq_right hle, max_eq_right hge, h4]
  field_simp

example : scaledProduct 2 (factor 32 2) = 32 := custom_exact 32 2 (by norm_num) (by norm_num) (by norm_num) (by norm_num)

/-- **C327.** Beyond that it falls short of what is required, at three times the size; before it, it is larger than required, at
half the size. -/
theorem custom_clamped (required reference : ℝ) (hr : 0 < required) (hf : 0 < reference) :
    (81 * reference < required → factor required reference = 3 ∧ scaledProduct reference (factor required reference) < required) ∧
    (16 * required < reference → factor required reference = 1 / 2 ∧
      required < scaledProduct reference (factor required reference)) := by
  have hq : 0 < required / reference := by positivity
  have hx0 : 0 < (required / reference) ^ (1 / 4 : ℝ) := Real.rpow_pos_of_pos hq _
  have h4 : ((required / reference) ^ (1 / 4 : ℝ)) ^ 4 = required / reference := root_fourth _ hq
  constructor
  · intro h
    have hge : 3 ≤ (required / reference) ^ (1 / 4 : ℝ) := by
      by_contra hc
      have := fourth_lt hx0.le (not_le.mp hc)
      rw [h4, div_lt_iff₀ hf] at this
      norm_num at this
      linarith
    have e : factor required reference = 3 := by
      unfold factor
      rw [min_eq_left hge, max_eq_right (by norm_num)]
    refine ⟨e, ?_⟩
    rw [e]
    unfold scaledProduct
    norm_num
    linarith
  · intro h
    have hle : (required / reference) ^ (1 / 4 : ℝ) ≤ 1 / 2 := by
      by_contra hc
      have := fourth_lt (by norm_num) (not_le.mp hc)
      rw [h4, lt_div_iff₀ hf] at this
      norm_num at this
      linarith
    have e : factor required reference = 1 / 2 := by
      unfold factor
      rw [min_eq_right (by linarith), max_eq_left hle]
    refine ⟨e, ?_⟩
    rw [e]
    unfold scaledProduct
    norm_num
    linarith

/-- A dimension whose values, those there are, stand in order. -/
def Ordered : Dimension → Prop
  | .tolerance n a b => (∀ x ∈ a, ∀ y ∈ n, x ≤ y) ∧ (∀ y ∈ n, ∀ z ∈ b, y ≤ z) ∧ (∀ x ∈ a, ∀ z ∈ b, x ≤ z)
  | .alone _ => True

/-- **C327.** Scaling keeps the tolerances in order, and keeps which dimensions there are. -/
theorem scaled_ordered (required reference : ℝ) (shape : Shape) (dims : List (String × Dimension))
    (hd : shape.dimensions = some dims) (ho : ∀ d ∈ dims, Ordered d.2) :
    ∃ dims' : List (String × Dimension), (scaleShape (factor required reference) shape).dimensions = some dims' ∧
      dims'.map (·.1) = dims.map (·.1) ∧ (∀ d ∈ dims', Ordered d.2) ∧
      (scaleShape (factor required reference) shape).name = some ("Custom " ++ shape.name.getD "unknown") := by
  have hs : 0 ≤ factor required reference := by
    unfold factor
    exact le_trans (by norm_num) (le_max_left _ _)
  refine ⟨dims.map fun d => (d.1, scaleDimension (factor required reference) d.2), by simp [scaleShape, hd], ?_, ?_,
    by simp [scaleShape, hd]⟩
  · rw [List.map_map]; rfl
  · intro d hm
    obtain ⟨e, he, rfl⟩ := List.mem_map.mp hm
    have := ho e he
    cases hv : e.2 with
    | alone v => simp only [scaleDimension]; trivial
    | tolerance n a b =>
      rw [hv] at this
      obtain ⟨h1, h2, h3⟩ := this
      simp only [scaleDimension, Ordered, Option.mem_def, Option.map_eq_some_iff]
      refine ⟨?_, ?_, ?_⟩
      · rintro _ ⟨x, hx, rfl⟩ _ ⟨y, hy, rfl⟩
        exact mul_le_mul_of_nonneg_right (h1 x hx y hy) hs
      · rintro _ ⟨x, hx, rfl⟩ _ ⟨y, hy, rfl⟩
        exact mul_le_mul_of_nonneg_right (h2 x hx y hy) hs
      · rintro _ ⟨x, hx, rfl⟩ _ ⟨y, hy, rfl⟩
        exact mul_le_mul_of_nonneg_right (h3 x hx y hy) hs

/-- **C327.** A shape without dimensions is given back as it came, under its own name. -/
theorem scaled_undimensioned (s : ℝ) (shape : Shape) (h : shape.dimensions = none) : scaleShape s shape = shape := by
  simp [scaleShape, h]

end Verif.Dataset
