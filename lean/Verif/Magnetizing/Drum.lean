import Mathlib.Analysis.SpecialFunctions.Trigonometric.Inverse
import Mathlib.Analysis.SpecialFunctions.Log.Basic
import Mathlib.Analysis.SpecialFunctions.Sqrt

/-!
# The inductance of drums
(src/physical_models/MagnetizingInductance.cpp:49-220, 245-339)

Doubles are real numbers.
-/

namespace Verif.Magnetizing.Drum

/-- What is thrown: `InvalidInputException` with `INVALID_CORE_DATA`. -/
inductive Err where
  | missing (dimension : String)
  | gapped
  | constants
  | noCoating
  | nameOnly
  | notMagneticEpoxy
  | noShellMaterial
  | materials (count : ℕ)
  | other
  deriving DecidableEq

/-- Models `open_core_axial_demagnetizing_factor` (src/physical_models/MagnetizingInductance.cpp:68-79), `m` the height over the diameter. -/
noncomputable def demagnetizing (m : ℝ) : ℝ :=
  if |m - 1| < 1 / 10000 then 1 / 3
  else if m > 1 then 1 / (m * m - 1) * (m / √(m * m - 1) * Real.log (m + √(m * m - 1)) - 1)
  else 1 / (1 - m * m) * (1 - m * Real.arccos m / √(1 - m * m))

/-- The dimensions of a drum that are used: diameter of the flanges, height, diameter of the post, of its bore and height of the groove. -/
structure Sizes where
  flange : ℝ
  height : ℝ
  post : ℝ
  bore : ℝ
  groove : ℝ

/-- The area of the flanges (src/physical_models/MagnetizingInductance.cpp:112). -/
noncomputable def envelopeArea (s : Sizes) : ℝ := Real.pi / 4 * s.flange ^ 2

/-- The area of the post (src/physical_models/MagnetizingInductance.cpp:113). -/
noncomputable def postArea (s : Sizes) : ℝ := Real.pi / 4 * (s.post ^ 2 - s.bore ^ 2)

/-- The permeability of a rod (src/physical_models/MagnetizingInductance.cpp:114). -/
noncomputable def rodPermeability (factor permeability : ℝ) : ℝ := permeability / (1 + factor * (permeability - 1))

/-- The upper of the two inductances (src/physical_models/MagnetizingInductance.cpp:116). -/
noncomputable def upper (vacuum permeability turns : ℝ) (s : Sizes) : ℝ :=
  vacuum * rodPermeability (demagnetizing (s.height / s.flange)) permeability * envelopeArea s / s.groove * turns ^ 2

/-- The lower of the two inductances (src/physical_models/MagnetizingInductance.cpp:117-119). -/
noncomputable def lower (vacuum permeability turns : ℝ) (s : Sizes) : ℝ :=
  turns ^ 2 / (demagnetizing (s.height / s.flange) * s.height / (vacuum * envelopeArea s) + s.height / (vacuum * permeability * postArea s))

/-- The inductance of an open core (src/physical_models/MagnetizingInductance.cpp:121). -/
noncomputable def openInductance (vacuum permeability turns : ℝ) (s : Sizes) : ℝ :=
  √(upper vacuum permeability turns s * lower vacuum permeability turns s)

/-- The first dimension that is not there (src/physical_models/MagnetizingInductance.cpp:83-88). -/
def firstMissing (dimensions : String → Option ℝ) : Option String :=
  ["A", "B", "C", "D", "E", "F"].find? fun name => (dimensions name).isNone

/-- The dimensions that are used (src/physical_models/MagnetizingInductance.cpp:100-107). -/
noncomputable def sizes (dimensions : String → Option ℝ) : Sizes where
  flange := if 0 < (dimensions "A2").getD 0 then √((dimensions "A").getD 0 * (dimensions "A2").getD 0) else (dimensions "A").getD 0
  height := (dimensions "B").getD 0
  post := (dimensions "C").getD 0
  bore := (dimensions "H").getD 0
  groove := (dimensions "E").getD 0

/-- A gap: whether it is residual, and its length. -/
structure Gap where
  residual : Bool
  length : ℝ

open Classical in
/-- Models `calculate_open_core_magnetizing_inductance` (src/physical_models/MagnetizingInductance.cpp:81-122). `permeability` is that of the material at
the temperature. -/
noncomputable def openCore (vacuum permeability turns : ℝ) (dimensions : String → Option ℝ) (gaps : List Gap) : Except Err ℝ :=
  match firstMissing dimensions with
  | some name => .error (.missing name)
  | none =>
    if ∃ g ∈ gaps, g.residual = false ∧ g.length > 1 / 1000000 then .error .gapped
    else .ok (openInductance vacuum permeability turns (sizes dimensions))

/-- The inductance of two materials one after the other and what is between them (src/physical_models/MagnetizingInductance.cpp:163-164, 214-219). -/
noncomputable def sectioned (vacuum first firstPermeability second secondPermeability clearance turns : ℝ) : ℝ :=
  turns ^ 2 / ((first / firstPermeability + second / secondPermeability) / vacuum + clearance)

/-- The coating of a core: none, a name, or a coating with its type and the name of its material, where they are given. -/
inductive Coating where
  | none
  | named
  | explicit (type : Option String) (material : Option String)

/-- The name of the material of the shell (src/physical_models/MagnetizingInductance.cpp:140-158). A material that is not a name counts as none. -/
def shellName : Coating → Except Err String
  | .none => .error .noCoating
  | .named => .error .nameOnly
  | .explicit type material =>
    if type = some "magneticEpoxy" then
      match material with
      | some name => .ok name
      | .none => .error .noShellMaterial
    else .error .notMagneticEpoxy

/-- Models `calculate_semishielded_drum_magnetizing_inductance` (src/physical_models/MagnetizingInductance.cpp:129-165). `constants` are those of the
two sections; `permeability` is that of a material by its name. There is nothing between the two sections. -/
noncomputable def semishielded (vacuum turns : ℝ) (constants : Option (ℝ × ℝ)) (drum : Except Err ℝ) (coating : Coating)
    (permeability : String → Except Err ℝ) : Except Err ℝ :=
  match constants with
  | .none => .error .constants
  | some c => drum.bind fun d => (shellName coating).bind fun name => (permeability name).map fun p => sectioned vacuum c.1 d c.2 p 0 turns

/-- Models `calculate_drum_ring_magnetizing_inductance` (src/physical_models/MagnetizingInductance.cpp:198-220). `clearance` is the reluctance of the
gaps between drum and ring. -/
noncomputable def drumRing (vacuum turns : ℝ) (constants : Option (ℝ × ℝ)) (drum ring clearance : ℝ) : Except Err ℝ :=
  match constants with
  | .none => .error .constants
  | some c => .ok (sectioned vacuum c.1 drum c.2 ring clearance turns)

/-- Models `resolve_drum_ring_ring_material` (src/physical_models/MagnetizingInductance.cpp:179-190), in a list of materials. -/
def ringMaterial {M : Type} : List M → Except Err (Option M)
  | [_] => .ok .none
  | [_, ring] => .ok (some ring)
  | materials => .error (.materials materials.length)

/-- The families that are told apart. -/
inductive Family where
  | semishielded
  | ring
  | drum
  | other
  deriving DecidableEq

/-- Which way the inductance is calculated. -/
inductive Way (M : Type) where
  | semishielded
  | drumRing (material : M)
  | openCore
  | closed
  deriving DecidableEq

/-- The way that is taken (src/physical_models/MagnetizingInductance.cpp:263, 290-292, 318). -/
def way {M : Type} (family : Family) (materials : List M) : Except Err (Way M) :=
  match family with
  | .semishielded => .ok .semishielded
  | .ring => (ringMaterial materials).map fun ring => ring.elim .closed .drumRing
  | .drum => .ok .openCore
  | .other => .ok .closed

/-- An inductance with its tolerance: minimum, nominal, maximum. -/
structure Tolerance where
  minimum : ℝ
  nominal : ℝ
  maximum : ℝ

/-- What is answered for an inductance (src/physical_models/MagnetizingInductance.cpp:270-274, 300-302, 325-328). -/
noncomputable def tolerance (isOpen : Bool) (inductance : ℝ) : Tolerance :=
  if isOpen then ⟨inductance * (88 / 100), inductance, inductance * (112 / 100)⟩ else ⟨inductance * (8 / 10), inductance, inductance * (12 / 10)⟩

end Verif.Magnetizing.Drum
