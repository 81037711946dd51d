import Mathlib.Analysis.SpecialFunctions.Complex.Arg
import Verif.Filters.Basic

/-! # The field of a conductor

Models the field that a conductor of round or Litz wire, or one without a wire, makes at a point, in the models of Binns and
Lawrenson, of Lammeraner and of Dowell (src/physical_models/MagneticField.cpp). A place and a field are complex numbers, with the first
component as the real part; numbers are real. Copies of numbers, lengths and labels are left out. -/

namespace Verif.LineField

open Verif.Filters

/-- The field of a line current in the model of Binns and Lawrenson (src/physical_models/MagneticField.cpp:999-1000, 1015-1017,
1025-1027). -/
noncomputable def line (current : ℝ) (inducing induced : ℂ) : ℂ :=
  let dx := inducing.re - induced.re
  let dy := inducing.im - induced.im
  ⟨-current * dy / (2 * Real.pi * (dy ^ 2 + dx ^ 2)), current * dx / (2 * Real.pi * (dy ^ 2 + dx ^ 2))⟩

/-- The turn of a field by the rotation of its conductor, in degrees (src/physical_models/MagneticField.cpp:1137-1145). Adding a full
turn to negative angles (1139-1141) changes neither cosine nor sine and is left out. -/
noncomputable def turned (rotation : ℝ) (h : ℂ) : ℂ :=
  let total := Complex.arg h + rotation / 180 * Real.pi
  ⟨‖h‖ * Real.cos total, ‖h‖ * Real.sin total⟩

/-- `MagneticFieldStrengthBinnsLawrensonModel::get_magnetic_field_strength_between_two_points`
(src/physical_models/MagneticField.cpp:995-1162) of round and Litz wires with their radius, or without a wire. At the place of a conductor
without a wire the quotient is not a number and it throws. -/
noncomputable def binns (radius rotation : Option ℝ) (current : ℝ) (inducing induced : ℂ) : Outcome ℂ :=
  open Classical in
  let plain : Outcome ℂ :=
    match radius with
    | some r => if ‖inducing - induced‖ < r then .value 0 else if inducing = induced then .throws else .value (line current inducing induced)
    | none => if inducing = induced then .throws else .value (line current inducing induced)
  match rotation with
  | none => plain
  | some a => plain.bind fun h => .value (turned a h)

/-- `MagneticFieldStrengthLammeranerModel::get_magnetic_field_strength_between_two_points`
(src/physical_models/MagneticField.cpp:1211-1269) of round and Litz wires with their radius, or without a wire, for two places that
differ. The length is one if there is none (1215-1218). -/
noncomputable def lammeraner (radius length : Option ℝ) (current : ℝ) (inducing induced : ℂ) : ℂ :=
  open Classical in
  let d := induced - inducing
  let l := length.getD 1
  let size := -current / 2 / Real.pi / ‖d‖ * l / Real.sqrt (l ^ 2 + ‖d‖ ^ 2)
  let field : ℂ := ⟨size * Real.cos (Complex.arg d + Real.pi / 2), size * Real.sin (Complex.arg d + Real.pi / 2)⟩
  match radius with
  | some r => if ‖d‖ < r then 0 else field
  | none => field

/-- `MagneticFieldStrengthDowellModel::get_magnetic_field_strength_between_two_points`
(src/physical_models/MagneticField.cpp:1174-1209). -/
noncomputable def dowell (breadth current : ℝ) (inducing induced : ℂ) : Outcome ℂ :=
  open Classical in
  if breadth ≤ 0 then .throws
  else if inducing.re < induced.re then .value ⟨0, current / breadth⟩
  else if induced.re < inducing.re then .value ⟨0, 0⟩
  else .value ⟨0, current / breadth / 2⟩

end Verif.LineField
