import Mathlib.Analysis.SpecialFunctions.Trigonometric.Bounds
import Mathlib.Algebra.Order.BigOperators.Group.Finset
import Mathlib.Tactic.Positivity
import Mathlib.Tactic.FieldSimp

/-!
# Capacitance of a turn to the core

C149: `StrayCapacitance::calculate_turn_to_core_capacitance` (StrayCapacitance.cpp 1472-1514), over the real numbers.
-/

namespace Verif.StrayCapacitance

open Finset (range sum_congr sum_nonneg sum_le_sum mul_sum)
open Real

/-- The angle of a step (1501-1502). -/
noncomputable def angle (k : Nat) : ℝ := π / 2 * (k : ℝ) / 400

/-- `phiOverSin` (1503). -/
noncomputable def spread (phi : ℝ) : ℝ := if phi < 1 / 10 ^ 9 then 1 else phi / sin phi

/-- The weight of a step (1507). -/
noncomputable def weight (k : Nat) : ℝ := if k = 0 ∨ k = 400 then 1 / 2 else 1

/-- The thickness of a layer over its permittivity (1495-1496). -/
noncomputable def layerTerm (thickness permittivity : ℝ) : ℝ := if permittivity > 0 then thickness / permittivity else 0

/-- What a field line crosses (1504-1505). -/
noncomputable def path (radius gap terms : ℝ) (k : Nat) : ℝ :=
  terms + spread (angle k) * (gap + radius * (1 - cos (angle k)))

/-- The value of a step (1506). -/
noncomputable def step (radius gap terms : ℝ) (k : Nat) : ℝ :=
  if path radius gap terms k > 0 then 1 / path radius gap terms k else 0

/-- `vacuumPermittivity` (Constants.h 16). -/
noncomputable def vacuum : ℝ := 8.8541878128 / 10 ^ 12

/-- The function (1472-1514): radius and length of the turn, thickness and permittivity of its coating, gap to the core, thickness and
permittivity of the coating of the core. -/
noncomputable def turnToCore (radius length wireThickness wirePermittivity gap coreThickness corePermittivity : ℝ) : ℝ :=
  if radius ≤ 0 ∨ length ≤ 0 then 0
  else
    let terms := layerTerm wireThickness wirePermittivity + layerTerm coreThickness corePermittivity
    vacuum * length * radius * ((∑ k ∈ range 401, weight k * step radius gap terms k) * (π / 2 / 400) * 2)

/-! ## Lemmas -/

theorem vacuum_pos : 0 < vacuum := by unfold vacuum; norm_num

theorem weight_pos (k : Nat) : 0 < weight k := by unfold weight; split <;> norm_num

theorem angle_nonneg (k : Nat) : 0 ≤ angle k := by
  unfold angle
  have := pi_pos
  positivity

theorem angle_le {k : Nat} (hk : k < 401) : angle k ≤ π / 2 := by
  unfold angle
  have h : (k : ℝ) ≤ 400 := by exact_mod_cast Nat.lt_succ_iff.mp hk
  have := pi_pos
  rw [div_le_iff₀ (by norm_num)]
  nlinarith

theorem spread_ge {phi : ℝ} (h0 : 0 ≤ phi) (h1 : phi ≤ π / 2) : 1 ≤ spread phi := by
  unfold spread
  split
  · exact le_refl _
  · rename_i h
    push Not at h
    have hp : 0 < phi := lt_of_lt_of_le (by norm_num) h
    have hs : 0 < sin phi := sin_pos_of_pos_of_lt_pi hp (by linarith [pi_pos])
    rw [le_div_iff₀ hs, one_mul]
    exact le_of_lt (sin_lt hp)

theorem step_nonneg (radius gap terms : ℝ) (k : Nat) : 0 ≤ step radius gap terms k := by
  unfold step
  split
  · rename_i h
    positivity
  · exact le_refl _

theorem path_ge {radius gap terms : ℝ} (hr : 0 < radius) (hg : 0 ≤ gap) {k : Nat} (hk : k < 401) :
    terms + gap ≤ path radius gap terms k := by
  unfold path
  have h1 := spread_ge (angle_nonneg k) (angle_le hk)
  have h2 : 0 ≤ radius * (1 - cos (angle k)) := mul_nonneg (le_of_lt hr) (by linarith [cos_le_one (angle k)])
  nlinarith

theorem path_mono {radius gap gap' terms terms' : ℝ} (hg : gap ≤ gap') (ht : terms ≤ terms') {k : Nat}
    (hk : k < 401) : path radius gap terms k ≤ path radius gap' terms' k := by
  unfold path
  have h1 := spread_ge (angle_nonneg k) (angle_le hk)
  nlinarith

theorem step_antitone {radius gap gap' terms terms' : ℝ} (hr : 0 < radius) (hg0 : 0 ≤ gap) (hpos : 0 < terms + gap)
    (hg : gap ≤ gap') (ht : terms ≤ terms') {k : Nat} (hk : k < 401) :
    step radius gap' terms' k ≤ step radius gap terms k := by
  have p : 0 < path radius gap terms k := lt_of_lt_of_le hpos (path_ge hr hg0 hk)
  have q := path_mono (radius := radius) hg ht hk
  unfold step
  rw [if_pos p, if_pos (lt_of_lt_of_le p q)]
  exact one_div_le_one_div_of_le p q

theorem sum_weight : ∑ k ∈ range 401, weight k = 400 := by
  rw [Finset.sum_range_succ, Finset.sum_range_succ']
  have e : ∀ k ∈ range 399, weight (k + 1) = 1 := by
    intro k hk
    have := Finset.mem_range.mp hk
    unfold weight
    rw [if_neg]
    rintro (h | h) <;> omega
  rw [sum_congr rfl e]
  unfold weight
  simp
  norm_num

theorem layerTerm_mono {t t' p : ℝ} (h : t ≤ t') : layerTerm t p ≤ layerTerm t' p := by
  unfold layerTerm
  split
  · rename_i hp
    exact div_le_div_of_nonneg_right h (le_of_lt hp)
  · exact le_refl _

theorem layerTerm_nonneg {t p : ℝ} (h : 0 ≤ t) : 0 ≤ layerTerm t p := by
  unfold layerTerm
  split
  · rename_i hp
    exact div_nonneg h (le_of_lt hp)
  · exact le_refl _

/-! ## C149 -/

/-- C149: it is not negative, whatever is given. -/
theorem turn_to_core_nonneg (r l tw pw g tc pc : ℝ) : 0 ≤ turnToCore r l tw pw g tc pc := by
  unfold turnToCore
  split
  · exact le_refl _
  · rename_i h
    push Not at h
    simp only []
    have : 0 ≤ ∑ k ∈ range 401, weight k * step r g (layerTerm tw pw + layerTerm tc pc) k :=
      sum_nonneg fun k _ => mul_nonneg (le_of_lt (weight_pos k)) (step_nonneg _ _ _ _)
    have := vacuum_pos
    have := pi_pos
    have := h.1
    have := h.2
    positivity

/-- C149: it is proportional to the length of the turn. -/
theorem turn_to_core_length {l c : ℝ} (hc : 0 < c) (r tw pw g tc pc : ℝ) :
    turnToCore r (c * l) tw pw g tc pc = c * turnToCore r l tw pw g tc pc := by
  unfold turnToCore
  by_cases h : r ≤ 0 ∨ l ≤ 0
  · rw [if_pos h, if_pos, mul_zero]
    rcases h with h | h
    · exact Or.inl h
    · exact Or.inr (by nlinarith)
  · rw [if_neg h, if_neg]
    · simp only []
      ring
    · push Not at h ⊢
      exact ⟨h.1, mul_pos hc h.2⟩

/-- C149: further from the core, or with thicker coatings, it is less, as long as there is anything between the wire and the core in the
nearer case. -/
theorem turn_to_core_antitone {r l tw tw' pw g g' tc tc' pc : ℝ} (hg0 : 0 ≤ g) (htw : 0 ≤ tw) (htc : 0 ≤ tc)
    (hpos : 0 < layerTerm tw pw + layerTerm tc pc + g) (hg : g ≤ g') (hw : tw ≤ tw') (hc : tc ≤ tc') :
    turnToCore r l tw' pw g' tc' pc ≤ turnToCore r l tw pw g tc pc := by
  unfold turnToCore
  by_cases h : r ≤ 0 ∨ l ≤ 0
  · rw [if_pos h, if_pos h]
  · rw [if_neg h, if_neg h]
    push Not at h
    simp only []
    have hv := vacuum_pos
    have hp := pi_pos
    have h1 := h.1
    have h2 := h.2
    have hle : ∑ k ∈ range 401, weight k * step r g' (layerTerm tw' pw + layerTerm tc' pc) k ≤
        ∑ k ∈ range 401, weight k * step r g (layerTerm tw pw + layerTerm tc pc) k := by
      apply sum_le_sum
      intro k hk
      apply mul_le_mul_of_nonneg_left _ (le_of_lt (weight_pos k))
      exact step_antitone h1 hg0 hpos hg (add_le_add (layerTerm_mono hw) (layerTerm_mono hc)) (Finset.mem_range.mp hk)
    apply mul_le_mul_of_nonneg_left _ (by positivity)
    apply mul_le_mul_of_nonneg_right _ (by norm_num)
    apply mul_le_mul_of_nonneg_right hle (by positivity)

/-- C149: it is no more than that of a plate as wide as half the perimeter of the wire, at the distance of the nearest point. -/
theorem turn_to_core_le_plate {r l tw pw g tc pc : ℝ} (hr : 0 < r) (hl : 0 < l) (hg0 : 0 ≤ g)
    (hpos : 0 < layerTerm tw pw + layerTerm tc pc + g) :
    turnToCore r l tw pw g tc pc ≤ vacuum * (π * r * l) / (layerTerm tw pw + layerTerm tc pc + g) := by
  unfold turnToCore
  rw [if_neg (by push Not; exact ⟨hr, hl⟩)]
  simp only []
  generalize layerTerm tw pw + layerTerm tc pc = terms at *
  have hv := vacuum_pos
  have hp := pi_pos
  have hle : ∑ k ∈ range 401, weight k * step r g terms k ≤ 400 * (1 / (terms + g)) := by
    rw [← sum_weight, Finset.sum_mul]
    apply sum_le_sum
    intro k hk
    apply mul_le_mul_of_nonneg_left _ (le_of_lt (weight_pos k))
    have pg := path_ge (terms := terms) hr hg0 (Finset.mem_range.mp hk)
    unfold step
    rw [if_pos (lt_of_lt_of_le hpos pg)]
    exact one_div_le_one_div_of_le hpos pg
  calc vacuum * l * r * ((∑ k ∈ range 401, weight k * step r g terms k) * (π / 2 / 400) * 2)
      ≤ vacuum * l * r * ((400 * (1 / (terms + g))) * (π / 2 / 400) * 2) := by
        apply mul_le_mul_of_nonneg_left _ (by positivity)
        apply mul_le_mul_of_nonneg_right _ (by norm_num)
        apply mul_le_mul_of_nonneg_right hle (by positivity)
    _ = vacuum * (π * r * l) / (terms + g) := by
        field_simp

/-- C149 needs something between the wire and the core: for a bare wire which touches a bare core the nearest direction is left out, and
taking the wire away from the core makes the capacitance larger. -/
theorem touching_is_less {r l pw pc : ℝ} (hr : 0 < r) (hl : 0 < l) :
    ∃ g, 0 < g ∧ turnToCore r l 0 pw 0 0 pc < turnToCore r l 0 pw g 0 pc := by
  have hz : ∀ p : ℝ, layerTerm 0 p = 0 := by intro p; unfold layerTerm; split <;> simp
  have hv := vacuum_pos
  have hp := pi_pos
  -- without the nearest direction, everything is finite
  let S : ℝ := ∑ k ∈ range 400, weight (k + 1) * step r 0 0 (k + 1)
  have hS : 0 ≤ S := sum_nonneg fun k _ => mul_nonneg (le_of_lt (weight_pos _)) (step_nonneg _ _ _ _)
  refine ⟨1 / (2 * (S + 1)), by positivity, ?_⟩
  unfold turnToCore
  rw [if_neg (by push Not; exact ⟨hr, hl⟩), if_neg (by push Not; exact ⟨hr, hl⟩)]
  simp only [hz, add_zero]
  have a0 : angle 0 = 0 := by unfold angle; simp
  have s0 : spread 0 = 1 := by unfold spread; rw [if_pos (by norm_num)]
  have z0 : step r 0 0 0 = 0 := by
    unfold step path
    rw [a0, s0]
    simp
  have z1 : step r (1 / (2 * (S + 1))) 0 0 = 2 * (S + 1) := by
    unfold step path
    rw [a0, s0]
    simp only [cos_zero, sub_self, mul_zero, add_zero, one_mul, zero_add]
    rw [if_pos (by positivity), one_div_one_div]
  have w0 : weight 0 = 1 / 2 := by unfold weight; simp
  have lhs : ∑ k ∈ range 401, weight k * step r 0 0 k = S := by
    rw [Finset.sum_range_succ', z0, mul_zero, add_zero]
  have rhs : S + 1 ≤ ∑ k ∈ range 401, weight k * step r (1 / (2 * (S + 1))) 0 k := by
    rw [Finset.sum_range_succ', z1, w0]
    have : 0 ≤ ∑ k ∈ range 400, weight (k + 1) * step r (1 / (2 * (S + 1))) 0 (k + 1) :=
      sum_nonneg fun k _ => mul_nonneg (le_of_lt (weight_pos _)) (step_nonneg _ _ _ _)
    linarith
  rw [lhs]
  apply mul_lt_mul_of_pos_left _ (by positivity)
  apply mul_lt_mul_of_pos_right _ (by norm_num)
  apply mul_lt_mul_of_pos_right _ (by positivity)
  linarith

/-- A coated wire meets the hypotheses. -/
example : 0 < layerTerm (1 / 100000) 3 + layerTerm 0 1 + 0 := by
  unfold layerTerm
  norm_num

end Verif.StrayCapacitance
