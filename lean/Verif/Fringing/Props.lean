import Mathlib.Tactic.Ring
import Mathlib.Tactic.Linarith
import Mathlib.Tactic.NormNum
import Mathlib.Tactic.FieldSimp
import Mathlib.Tactic.Positivity
import Verif.Fringing.Model

/-! # Properties of the field of a gap -/

set_option linter.unusedSimpArgs false
set_option linter.unusedVariables false

namespace Verif.Fringing

/-- **C448.** To the right of its edge the axial field of a gap is against that of the gap and weaker than nine tenths of it. -/
theorem axial_right_partial {dx dy half field v : ℝ} (hx : 0 < dx) (hh : 0 < half) (hf : 0 < field) (h : axial dx dy half field = some v) :
    -(9 / 10 * field) < v ∧ v < 0 := by
  have hp := Real.pi_pos
  unfold axial at h
  simp only at h
  split_ifs at h with h0 h1
  · simp only [Option.some.injEq] at h
    have hb : 0 < dx ^ 2 + dy ^ 2 - half ^ 2 := sub_pos.mpr h1
    have ha : 0 < Real.arctan (dx * half / (dx ^ 2 + dy ^ 2 - half ^ 2)) := Real.arctan_pos.mpr (by positivity)
    have ha2 := Real.arctan_lt_pi_div_two (dx * half / (dx ^ 2 + dy ^ 2 - half ^ 2))
    generalize Real.arctan (dx * half / (dx ^ 2 + dy ^ 2 - half ^ 2)) = t at *
    have e : v = -(9 / 10 * field) * (t / Real.pi) := by rw [← h]; ring
    have t0 : 0 < t / Real.pi := div_pos ha hp
    have t1 : t / Real.pi < 1 := (div_lt_one hp).mpr (by linarith)
    rw [e]
    constructor <;> nlinarith
  · simp only [Option.some.injEq] at h
    have hb : dx ^ 2 + dy ^ 2 - half ^ 2 < 0 := lt_of_le_of_ne (sub_nonpos.mpr (not_lt.mp h1)) h0
    have ha : Real.arctan (dx * half / (dx ^ 2 + dy ^ 2 - half ^ 2)) < 0 :=
      Real.arctan_lt_zero.mpr (div_neg_of_pos_of_neg (mul_pos hx hh) hb)
    have ha2 := Real.neg_pi_div_two_lt_arctan (dx * half / (dx ^ 2 + dy ^ 2 - half ^ 2))
    generalize Real.arctan (dx * half / (dx ^ 2 + dy ^ 2 - half ^ 2)) = t at *
    have e : v = -(9 / 10 * field) * ((t + Real.pi) / Real.pi) := by rw [← h]; ring
    have t0 : 0 < (t + Real.pi) / Real.pi := div_pos (by linarith) hp
    have t1 : (t + Real.pi) / Real.pi < 1 := (div_lt_one hp).mpr (by linarith)
    rw [e]
    constructor <;> nlinarith

/-- **C448.** To the left of its edge, where the window of a lateral gap is, it is along that of the gap farther than half the length of the gap from
the middle of the edge, but against it, and stronger than nine tenths of it, nearer. -/
theorem axial_left {dx dy half field : ℝ} (hx : dx < 0) (hh : 0 < half) (hf : 0 < field) :
    (half ^ 2 < dx ^ 2 + dy ^ 2 → ∃ v, axial dx dy half field = some v ∧ 0 < v) ∧
    (dx ^ 2 + dy ^ 2 < half ^ 2 → ∃ v, axial dx dy half field = some v ∧ v < -(9 / 10 * field)) := by
  have hp := Real.pi_pos
  constructor
  · intro h1
    have hb : 0 < dx ^ 2 + dy ^ 2 - half ^ 2 := sub_pos.mpr h1
    refine ⟨_, by simp only [axial, if_pos h1, if_neg hb.ne']; rfl, ?_⟩
    have ha : Real.arctan (dx * half / (dx ^ 2 + dy ^ 2 - half ^ 2)) < 0 :=
      Real.arctan_lt_zero.mpr (div_neg_of_neg_of_pos (mul_neg_of_neg_of_pos hx hh) hb)
    have hc : -(9 / 10) * field / Real.pi < 0 := div_neg_of_neg_of_pos (by linarith) hp
    exact mul_pos_of_neg_of_neg hc (by linarith)
  · intro h1
    have hb : dx ^ 2 + dy ^ 2 - half ^ 2 < 0 := sub_neg.mpr h1
    refine ⟨_, by simp only [axial, if_neg (not_lt.mpr h1.le), if_neg hb.ne]; rfl, ?_⟩
    have ha : 0 < Real.arctan (dx * half / (dx ^ 2 + dy ^ 2 - half ^ 2)) :=
      Real.arctan_pos.mpr (div_pos_of_neg_of_neg (mul_neg_of_neg_of_pos hx hh) hb)
    generalize Real.arctan (dx * half / (dx ^ 2 + dy ^ 2 - half ^ 2)) = t at *
    have e : -(9 / 10) * field / Real.pi * (t + 1 * Real.pi) = -(9 / 10 * field) * (1 + t / Real.pi) := by field_simp; ring
    rw [e]
    have : 0 < t / Real.pi := div_pos ha hp
    nlinarith

/-- **C448.** Points beyond the right side of a central column are to the right of the edge of its gaps, points before the left side of a lateral
one to the left. -/
theorem edge_sides {gap width point : ℝ} :
    (gap = 0 → (0 < fromEdge gap width point ↔ width / 2 < point)) ∧
    (gap ≠ 0 → (fromEdge gap width point < 0 ↔ point < gap - width / 2)) := by
  constructor
  · intro h
    unfold fromEdge
    rw [if_pos h, h, zero_add, sub_pos]
  · intro h
    unfold fromEdge
    rw [if_neg h, sub_neg]

/-- **C449.** The radial field of a gap is opposite above and below its middle, and the same on both sides of its edge. -/
theorem radial_mirror {dx dy half field v : ℝ} (h : radial dx dy half field = some v) :
    radial dx (-dy) half field = some (-v) ∧ radial (-dx) dy half field = some v := by
  unfold radial at *
  simp only at *
  have e1 : dx ^ 2 + (-dy - half) ^ 2 = dx ^ 2 + (dy + half) ^ 2 := by ring
  have e2 : dx ^ 2 + (-dy + half) ^ 2 = dx ^ 2 + (dy - half) ^ 2 := by ring
  have e3 : (-dx) ^ 2 = dx ^ 2 := by ring
  rw [e1, e2, e3]
  refine ⟨?_, h⟩
  split_ifs at h with h0
  rw [if_neg (fun c => h0 c.symm)]
  simp only [Option.some.injEq] at h ⊢
  push Not at h0
  rw [Real.log_div h0.2 h0.1, ← h, Real.log_div h0.1 h0.2]
  ring

/-- **C449.** It points away from the edge above the middle of the gap. -/
theorem radial_sign {dx dy half field v : ℝ} (hy : 0 < dy) (hh : 0 < half) (hf : 0 < field) (h : radial dx dy half field = some v) : 0 < v := by
  have hp := Real.pi_pos
  unfold radial at h
  simp only at h
  split_ifs at h with h0
  simp only [Option.some.injEq] at h
  push Not at h0
  have ht : 0 < dx ^ 2 + (dy - half) ^ 2 := lt_of_le_of_ne (by positivity) (Ne.symm h0.1)
  have hb : 0 < dx ^ 2 + (dy + half) ^ 2 := lt_of_le_of_ne (by positivity) (Ne.symm h0.2)
  have hl : Real.log ((dx ^ 2 + (dy - half) ^ 2) / (dx ^ 2 + (dy + half) ^ 2)) < 0 :=
    Real.log_neg (div_pos ht hb) ((div_lt_one hb).mpr (by nlinarith))
  rw [← h]
  exact mul_pos_of_neg_of_neg (by rw [div_div]; exact div_neg_of_neg_of_pos (by linarith) (by positivity)) hl

/-- A lateral gap at 10 of width 4 and length 2, seen from 7.5: at half a unit to the left of its edge, within half its length. -/
example : fromEdge 10 4 (15 / 2) = -(1 / 2) ∧ ∃ v, axial (-(1 / 2)) 0 1 100 = some v ∧ v < -90 := by
  refine ⟨by unfold fromEdge; norm_num, ?_⟩
  obtain ⟨v, h1, h2⟩ := (axial_left (dx := -(1 / 2)) (dy := 0) (half := 1) (field := 100) (by norm_num) (by norm_num) (by norm_num)).2
    (by norm_num)
  exact ⟨v, h1, by linarith⟩

example : ∃ v, radial 1 1 1 100 = some v ∧ 0 < v := by
  have : ∃ v, radial 1 1 1 100 = some v := ⟨_, by simp only [radial]; rw [if_neg (by norm_num)]⟩
  obtain ⟨v, h⟩ := this
  exact ⟨v, h, radial_sign (by norm_num) (by norm_num) (by norm_num) h⟩

end Verif.Fringing
