import Mathlib.Algebra.Order.Field.Basic
import Mathlib.Algebra.Order.Group.Abs

/-!
# The magnetizing inductance at an operating point
(src/physical_models/MagnetizingInductance.cpp:342-629, src/processors/Inputs.cpp:453-669, 3264-3286)

For the families that are not drums. Doubles are exact numbers. Signals are whatever they are: they are taken as standardised and sampled already, so
that none of the checks of sizes fails, and the harmonics below the switching frequency (lines 546-556) are not modelled. Nor are windings that are
placed around other columns (578-607) nor the inductance of the air (618-621). Exceptions of what is calculated elsewhere are not expressed.
-/

namespace Verif.Magnetizing.Bias

variable {K S : Type}

/-- The operating point, as far as it matters: voltage, current and magnetizing current of the first excitation and how many excitations there are. -/
structure Point (S : Type) where
  count : ℕ
  voltage : Option S
  current : Option S
  magnetizing : Option S
  deriving DecidableEq

/-- The core and the coil, and what is calculated elsewhere.
* `turns` and `windings`: of the coil; `toroidal`: the core.
* `choke` and `chokeCurrent`: whether the currents are those of a common mode choke (src/processors/Inputs.cpp:509-575), for the current of the first
  winding, those of the others being given, and the magnetizing current then (616-669).
* `flyback` and `multiportCurrent`: whether the current has the labels of one of the windings of a flyback and no winding is on the side of the
  first one (src/processors/Inputs.cpp:472-503), and the magnetizing current then (577-614).
* `sameSide`: whether all windings are on the same side of the isolation (src/processors/Inputs.cpp:459-470).
* `fromVoltage`: the magnetizing current for a voltage, with the current if there is one, and an inductance
  (src/physical_models/MagnetizingInductance.cpp:505-523).
* `induced`: the voltage that a current induces in an inductance (src/processors/Inputs.cpp:850-930).
* `offset`: of the processed magnetizing current.
* `permeability`: of the material with a bias, or without; `reluctance`: of the core with a permeability. -/
structure World (K S : Type) where
  turns : K
  area : K
  vacuum : K
  windings : ℕ
  toroidal : Bool
  choke : S → Bool
  chokeCurrent : S → S
  flyback : S → Bool
  multiportCurrent : S → S
  sameSide : Bool
  fromVoltage : Option S → S → K → S
  induced : S → K → S
  offset : S → K
  permeability : Option K → K
  reluctance : K → K

/-- What comes out: an inductance and the operating point that is left, an exception with it, or undefined behaviour. -/
inductive Out (K S : Type) where
  | ok (inductance : K) (left : Point S)
  | thrown (left : Point S)
  | undefined
  deriving DecidableEq

variable [Field K]

/-- The inductance of turns on a reluctance (src/physical_models/MagnetizingInductance.cpp:422, 431, 562). -/
def inductanceOf (w : World K S) (permeability : K) : K := w.turns ^ 2 / w.reluctance permeability

/-- The bias for a magnetizing current, a reluctance and a permeability (src/physical_models/MagnetizingInductance.cpp:539-545,
src/physical_models/MagneticField.cpp:47-48, 78-79, 109-110). -/
def bias (w : World K S) (magnetizing : S) (reluctance permeability : K) : K :=
  w.offset magnetizing * w.turns / reluctance / w.area / (permeability * w.vacuum)

/-- The magnetizing current of an operating point whose voltage is there, or whose magnetizing current is not
(src/physical_models/MagnetizingInductance.cpp:482-527). `none` in the first place is undefined behaviour, in the second an exception. -/
def source (w : World K S) (p : Point S) (voltage : S) : Option (Option S) :=
  match p.current with
  | some c =>
    if w.windings = 1 then some (some c)
    else if (2 ≤ p.count ∧ p.count ≤ 4 ∧ w.choke c = true) ∧ w.toroidal = true then some (some (w.chokeCurrent c))
    else if 2 ≤ p.count ∧ (w.sameSide = true ∨ w.flyback c = true) then some (some (w.multiportCurrent c))
    else some (some (w.fromVoltage (some c) voltage (inductanceOf w (w.permeability none))))
  | none =>
    if 2 ≤ p.count ∧ p.count ≤ 4 then some none
    else if 2 ≤ p.count then none
    else some (some (w.fromVoltage none voltage (inductanceOf w (w.permeability none))))

/-- The permeability and what it leads to (src/physical_models/MagnetizingInductance.cpp:539-562): both loops are left after their first round, since
`externalTimeout` and `internalTimeout` are one (424, 427). -/
def corrected (w : World K S) (magnetizing : S) : K :=
  inductanceOf w (w.permeability (some (bias w magnetizing (w.reluctance (w.permeability none)) (w.permeability none))))

/-- Models `calculate_inductance_and_magnetic_flux_density` (src/physical_models/MagnetizingInductance.cpp:342-629) with an operating point: the inductance
and what is left of it. -/
def calculate (w : World K S) (p : Point S) : Out K S :=
  if p.count = 0 then .ok (inductanceOf w (w.permeability none)) p
  else
    match p.voltage with
    | none =>
      match p.current with
      | none => .thrown p
      | some c =>
        .ok (corrected w (p.magnetizing.getD c))
          { p with magnetizing := some (p.magnetizing.getD c), voltage := some (w.induced c (corrected w (p.magnetizing.getD c))) }
    | some v =>
      match source w p v with
      | none => .undefined
      | some none => .thrown p
      | some (some m) => .ok (corrected w m) { p with magnetizing := some m }

/-- Models the same without an operating point. -/
def calculateAlone (w : World K S) : K := inductanceOf w (w.permeability none)

end Verif.Magnetizing.Bias
