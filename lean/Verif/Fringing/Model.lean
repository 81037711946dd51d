import Mathlib.Analysis.SpecialFunctions.Trigonometric.Arctan
import Mathlib.Analysis.SpecialFunctions.Log.Basic

/-! # The field of a gap in the model of Roshen

Models `MagneticFieldStrengthRoshenModel::get_magnetic_field_strength_between_gap_and_point`
(src/physical_models/MagneticField.cpp:1329-1363) over the reals. Copies of the point and of the index of its turn are left out. -/

namespace Verif.Fringing

/-- The distance of a point from the edge of a gap along the first axis (src/physical_models/MagneticField.cpp:1330-1336): the right edge of a
gap at zero, the left edge of any other. -/
noncomputable def fromEdge (gap width point : ℝ) : ℝ :=
  open Classical in
  if gap = 0 then point - (gap + width / 2) else point - (gap - width / 2)

/-- The radial field (src/physical_models/MagneticField.cpp:1338-1342), from the distances to the edge and half the length of the gap; for points
that are at neither end of the edge, where a logarithm of zero or a quotient by zero arises (`none`). -/
noncomputable def radial (dx dy half field : ℝ) : Option ℝ :=
  open Classical in
  let top := dx ^ 2 + (dy - half) ^ 2
  let bottom := dx ^ 2 + (dy + half) ^ 2
  if top = 0 ∨ bottom = 0 then none
  else some (-(9 / 10) * field / 2 / Real.pi * Real.log (top / bottom))

/-- The axial field (src/physical_models/MagneticField.cpp:1344-1353), for points that are not at half the length from the middle of the edge,
where a quotient by zero arises (`none`). -/
noncomputable def axial (dx dy half field : ℝ) : Option ℝ :=
  open Classical in
  let m : ℝ := if half ^ 2 < dx ^ 2 + dy ^ 2 then 0 else 1
  let below := dx ^ 2 + dy ^ 2 - half ^ 2
  if below = 0 then none
  else some (-(9 / 10) * field / Real.pi * (Real.arctan (dx * half / below) + m * Real.pi))

end Verif.Fringing
