import Verif.Adviser.Model
import Verif.Maxima.Model
import Mathlib.Data.List.Sort

/-!
# The materials tried by the core adviser

Model of src/advisers/CoreAdviserMaterials.cpp, and of what materials are for (`check_material_application`, `guess_material_application`,
src/constructive_models/Core.cpp 2150-2244).

Numbers are an ordered field.  The losses of a material and its complex permeability are given: they may be a number, not-a-number, or an exception.
-/

namespace Verif.Materials

open Verif.Maxima (Point Out)

/-- `MagneticApplication`. -/
inductive Application
  | power | signal | suppression
  deriving DecidableEq, Repr

/-- `VolumetricCoreLossesMethodType`, as far as it is told apart here. -/
inductive Method
  | steinmetz | lossFactor | other
  deriving DecidableEq, Repr

/-- A material of the catalogue. -/
structure Material where
  name : String
  maker : String
  /-- whether it is a ferrite: nothing in this file looks at it -/
  ferrite : Bool
  /-- `get_application` -/
  tags : Option (List Application)
  /-- whether it has complex permeability -/
  complex : Bool
  /-- `InitialPermeability::has_frequency_dependency` -/
  derivable : Bool
  /-- `get_available_core_losses_methods` (src/constructive_models/Core.cpp 2150-2165) -/
  methods : List Method
  deriving DecidableEq, Repr

/-- Whether the tags have an application (src/constructive_models/Core.cpp 2229-2234). -/
def tagged (m : Material) (a : Application) : Bool :=
  match m.tags with
  | none => false
  | some ts => ts.contains a

/-- The loop over the methods (src/constructive_models/Core.cpp 2266-2277). -/
def byMethods (a : Application) : List Method → Bool
  | [] => false
  | k :: ks => if k = .lossFactor then (if a = .signal then true else byMethods a ks) else if a = .power then true else byMethods a ks

/-- `Core::check_material_application` (src/constructive_models/Core.cpp 2210-2279). -/
def suits (m : Material) (a : Application) : Bool :=
  if a = .suppression ∧ m.tags.isSome then
    if !m.complex && !m.derivable then false else if tagged m .suppression then true else tagged m .signal
  else if m.tags.isSome && tagged m a then true
  else if m.complex && decide (a = .suppression) then true
  else byMethods a m.methods

/-- `Core::guess_material_application` (src/constructive_models/Core.cpp 2189-2203). -/
def guess (m : Material) : Application :=
  match m.tags with
  | some (a :: _) => a
  | _ => if m.methods.contains .lossFactor then (if m.complex then .suppression else .signal) else .power

/-- `Core::resolve_material_application` (src/constructive_models/Core.cpp 2175-2182): the material left behind and the answer. -/
def resolve (m : Material) : Material × Application :=
  match m.tags with
  | some (a :: _) => (m, a)
  | _ => ({ m with tags := some [guess m] }, guess m)

/-- `get_core_material_names` (src/support/Utils.cpp 762-781), with the materials in place of their names. -/
def ofMaker (catalogue : List Material) (maker : Option String) : List Material :=
  match maker with
  | none => catalogue
  | some k => catalogue.filter fun m => decide (m.maker = k ∨ k = "")

/-- `gather_ferrite_materials_for_application` (src/advisers/CoreAdviserMaterials.cpp 128-148), and the same for powder (46-60). -/
def candidates (catalogue : List Material) (preferred : String) (a : Application) : List Material :=
  (if ofMaker catalogue (some preferred) = [] then ofMaker catalogue none else ofMaker catalogue (some preferred)).filter fun m => suits m a

/-- What a physical model answers. -/
inductive Val (K : Type) where
  | num (k : K)
  | nan
  | throws
  deriving DecidableEq, Repr

variable {K : Type}

/-- The physical models at the temperature of the inputs: losses of a sinusoidal flux density with the reference peak, given its offset and frequency,
and absolute value of the complex permeability at a frequency. -/
structure Env (K : Type) where
  steinmetz : Material → K → K → Val K
  proprietary : Material → K → K → Val K
  permeability : Material → K → Val K

/-- The losses at an operating point (src/advisers/CoreAdviserMaterials.cpp 76-87 and 206-217). -/
def lossesAt (env : Env K) (m : Material) (offset frequency : K) : Val K :=
  if .steinmetz ∈ m.methods then env.steinmetz m offset frequency else env.proprietary m offset frequency

section
variable [Field K] [LinearOrder K]

/-- The sum of some values: an exception leaves the material out (src/advisers/CoreAdviserMaterials.cpp 90-99, 220-227 and 261-268). -/
def total : List (Val K) → Val K
  | [] => .num 0
  | v :: vs =>
    match v, total vs with
    | _, .throws => .throws
    | .throws, _ => .throws
    | .nan, _ => .nan
    | _, .nan => .nan
    | .num a, .num b => .num (a + b)

/-- A value divided by the number of operating points (src/advisers/CoreAdviserMaterials.cpp 100 and 228). -/
def over (n : ℕ) : Val K → Val K
  | .num a => if n = 0 then .nan else .num (a / n)
  | v => v

/-- The materials that can be evaluated, with their value; nothing is not-a-number. -/
def evaluate (f : Material → Val K) : List Material → List (Material × Option K)
  | [] => []
  | m :: ms =>
    match f m with
    | .throws => evaluate f ms
    | .nan => (m, none) :: evaluate f ms
    | .num k => (m, some k) :: evaluate f ms

/-- The value of an evaluation that is a number. -/
def key (p : Material × Option K) : K := p.2.getD 0

/-- `stable_sort` (src/advisers/CoreAdviserMaterials.cpp 104-106, 232-234 and 275-277): with not-a-number among several values the comparison is not an
order, which is undefined behaviour. -/
def sorted (le : K → K → Prop) [DecidableRel le] (l : List (Material × Option K)) : Out (List Material) :=
  if l.length ≤ 1 then .ok (l.map Prod.fst)
  else if l.any (fun p => p.2.isNone) then .undefined
  else .ok ((l.insertionSort fun p q => le (key p) (key q)).map Prod.fst)

/-- The frequency of the first winding of an operating point (src/advisers/CoreAdviserMaterials.cpp 76 and 206).  The first of none is undefined
behaviour (see `ferriteRanking`; for powder the code has thrown before, where it asks for a direct current). -/
def frequencyOf (p : Point K) : K := (p.windings.map fun e => e.frequency).headD 0

/-- The average losses of a material (src/advisers/CoreAdviserMaterials.cpp 73-100 and 203-228). -/
def averageLosses (env : Env K) (offset : K) (ps : List (Point K)) (m : Material) : Val K :=
  over ps.length (total (ps.map fun p => lossesAt env m offset (frequencyOf p)))

/-- The total permeability of a material at the frequencies of the required impedances (src/advisers/CoreAdviserMaterials.cpp 253-260). -/
def totalPermeability (env : Env K) (fs : List K) (m : Material) : Val K := total (fs.map fun f => env.permeability m f)

/-- `should_include_powder` (src/advisers/CoreAdviserMaterials.cpp 25-39). -/
def includePowder (allowed : Bool) (a : Application) (ps : List (Point K)) : Out Bool :=
  if allowed = false then .ok false
  else if a ≠ .power then .ok false
  else (Maxima.currentBias 0 ps).bind fun b => .ok (decide (b > 1 / 1000))

/-- A magnetic as far as its material goes: name of its core, name of its material, and its reference if it has manufacturer information. -/
structure Magnetic where
  core : Option String
  material : String
  info : Option (Option String)
  deriving DecidableEq, Repr

/-- `Magnetic::get_reference` (src/constructive_models/Magnetic.cpp 44-51). -/
def reference (m : Magnetic) : String :=
  match m.info with
  | some (some r) => r
  | _ => "Custom component made with OpenMagnetic"

/-- A copy with another material (src/advisers/CoreAdviserMaterials.cpp 111-118 and 173-180). -/
def assign (w : Material) (m : Magnetic) : Magnetic :=
  { core := some (w.name ++ " " ++ m.core.getD "unnamed")
    material := w.name
    info := m.info.map fun _ => some (w.name ++ " " ++ reference m) }

/-- Whether the material of a magnetic is the placeholder (src/advisers/CoreAdviserMaterials.cpp 162; its name in src/Defaults.h 197). -/
def isDummy (m : Magnetic) : Bool := decide (m.material = "Dummy")

/-- The ranking of powder materials (src/advisers/CoreAdviserMaterials.cpp 44-106): the largest direct current of the first winding is handed as the
offset of the flux density. -/
def powderRanking (env : Env K) (catalogue : List Material) (preferred : String) (a : Application) (ps : List (Point K)) : Out (List Material) :=
  (Maxima.temperature ps).bind fun _ => (Maxima.currentBias 0 ps).bind fun b =>
    sorted (· ≤ ·) (evaluate (averageLosses env b ps) (candidates catalogue preferred a))

/-- `add_powder_materials` (src/advisers/CoreAdviserMaterials.cpp 41-123, with ten materials, src/Defaults.h 126). -/
def addPowder (env : Env K) (catalogue : List Material) (preferred : String) (a : Application) (ps : List (Point K)) (l : List (Magnetic × K)) :
    Out (List (Magnetic × K)) :=
  (powderRanking env catalogue preferred a ps).bind fun ms => .ok (l.flatMap fun p => (ms.take 10).map fun w => (assign w p.1, p.2))

/-- The ranking of ferrites by losses (src/advisers/CoreAdviserMaterials.cpp 187-234).  Simplified: an operating point without windings is undefined
behaviour if there are candidates, although the code would not get to it if all of them threw before. -/
def ferriteRanking (env : Env K) (catalogue : List Material) (preferred : String) (a : Application) (ps : List (Point K)) : Out (List Material) :=
  (Maxima.temperature ps).bind fun _ =>
    if candidates catalogue preferred a ≠ [] ∧ ps.any (fun p => p.windings.isEmpty) then .undefined
    else sorted (· ≤ ·) (evaluate (averageLosses env 0 ps) (candidates catalogue preferred a))

/-- `add_ferrite_materials_by_losses` (src/advisers/CoreAdviserMaterials.cpp 187-237, with two materials, src/Defaults.h 127). -/
def addFerriteByLosses (env : Env K) (catalogue : List Material) (preferred : String) (a : Application) (ps : List (Point K)) (l : List (Magnetic × K)) :
    Out (List (Magnetic × K)) :=
  (ferriteRanking env catalogue preferred a ps).bind fun ms => .ok (Adviser.fanOut isDummy assign ms 2 l)

/-- The ranking of ferrites by impedance (src/advisers/CoreAdviserMaterials.cpp 239-277). -/
def impedanceRanking (env : Env K) (catalogue : List Material) (preferred : String) (a : Application) (required : Option (List K)) :
    Out (List Material) :=
  match required with
  | none => .throws
  | some fs => sorted (· ≥ ·) (evaluate (totalPermeability env fs) (candidates catalogue preferred a))

/-- `add_ferrite_materials_by_impedance` (src/advisers/CoreAdviserMaterials.cpp 239-280). -/
def addFerriteByImpedance (env : Env K) (catalogue : List Material) (preferred : String) (a : Application) (required : Option (List K))
    (l : List (Magnetic × K)) : Out (List (Magnetic × K)) :=
  (impedanceRanking env catalogue preferred a required).bind fun ms => .ok (Adviser.fanOut isDummy assign ms 2 l)

end

end Verif.Materials
