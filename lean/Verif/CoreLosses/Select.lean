import Mathlib.Order.Basic
import Mathlib.Data.Rat.Defs
import Mathlib.Algebra.Order.Ring.Rat

/-!
# Core losses: which model and which data (src/physical_models/CoreLosses.cpp, CoreLosses.h)

What a material says about its losses, the models it has data for, the one that is used, and the coefficients taken
from its data. Numbers are those of any linear order.
-/

namespace Verif.CoreLosses

/-- The exceptions of these functions. -/
inductive Err
  | modelNotAvailable
  | materialDataMissing
  | calculationInvalidInput
  | calculationError
  | runtime
  | nanResult
  | diverged
  | notImplemented
  | tooFewPoints
  | sameFrequency
  | sameFluxDensity
  deriving DecidableEq, Repr

/-- What a function does: an answer, a number that is not one (NaN or infinite), an exception, undefined behaviour. -/
inductive Res (α : Type)
  | ok (a : α)
  | nan
  | throws (e : Err)
  | ub
  deriving DecidableEq, Repr

namespace Res

def bind {α β : Type} (r : Res α) (f : α → Res β) : Res β :=
  match r with
  | ok a => f a
  | nan => nan
  | throws e => throws e
  | ub => ub

end Res

/-- `VolumetricCoreLossesMethodType`, as far as CoreLosses.cpp 60-76 tells them apart. -/
inductive Method
  | steinmetz
  | roshen
  | magnetics
  | micrometals
  | poco
  | tdg
  | lossFactor
  deriving DecidableEq, Repr

/-- `CoreLossesModels` (Models.h 35-46). -/
inductive Model
  | proprietary
  | steinmetz
  | igse
  | cigse
  | barg
  | roshen
  | albach
  | nse
  | mse
  | lossFactor
  deriving DecidableEq, Repr

/-- An entry of the volumetric losses: the data of a method, or measured points (CoreLosses.cpp 53, 391). -/
inductive Entry (D : Type)
  | data (m : Method) (d : D)
  | points
  deriving DecidableEq, Repr

/-- What a material says of its losses: entries by variant, and by variant whether an entry of the mass losses is
Magnetec's (CoreLosses.cpp 46-95). -/
structure Material (D : Type) where
  volumetric : List (List Char × List (Entry D))
  mass : Option (List (List Char × List Bool))

variable {D : Type}

/-- The methods of all variants (CoreLosses.cpp 48-58). -/
def methodsOf (m : Material D) : List Method :=
  m.volumetric.flatMap fun v => v.2.filterMap fun
    | .data a _ => some a
    | .points => none

/-- There are mass losses of Magnetec's (CoreLosses.cpp 79-95; `has_magnetec_mass_method` 2381-2396). -/
def hasMass (m : Material D) : Bool :=
  match m.mass with
  | none => false
  | some l => l.any fun v => v.2.any id

/-- `CoreLossesModel::get_methods` (CoreLosses.cpp 34-98), of the data of a material. -/
def models (m : Material D) : List Model :=
  (if Method.steinmetz ∈ methodsOf m then [.steinmetz, .igse, .cigse, .barg, .albach, .mse] else []) ++
  (if Method.roshen ∈ methodsOf m then [.roshen] else []) ++
  (if Method.magnetics ∈ methodsOf m ∨ Method.micrometals ∈ methodsOf m ∨ Method.poco ∈ methodsOf m ∨ Method.tdg ∈ methodsOf m then
    [.proprietary] else []) ++
  (if Method.lossFactor ∈ methodsOf m then [.lossFactor] else []) ++
  (if hasMass m then [.proprietary] else [])

/-- The models tried, in order, once one is preferred (Settings.cpp 884-886; CoreLosses.h 572-576). -/
def preference (preferred : Model) : List Model := [preferred, .proprietary, .lossFactor, .steinmetz, .roshen]

/-- `CoreLosses::get_core_losses_model` (CoreLosses.cpp 100-115). -/
def choose (order : List Model) (m : Material D) : Res Model :=
  match order.find? fun x => decide (x ∈ models m) with
  | some x => .ok x
  | none => .throws .modelNotAvailable

/-- The key of the variant that is read (CoreLosses.cpp 405). -/
def default : List Char := ['d', 'e', 'f', 'a', 'u', 'l', 't']

/-- The data of a method in a list of entries (CoreLosses.cpp 408-419). -/
def dataIn (a : Method) : List (Entry D) → Option D
  | [] => none
  | .data b d :: l => if b = a then some d else dataIn a l
  | .points :: l => dataIn a l

/-- `CoreLossesModel::get_method_data` (CoreLosses.cpp 400-422). -/
def methodData (m : Material D) (a : Method) : Res D :=
  match (m.volumetric.filter fun v => v.1 = default).findSome? fun v => dataIn a v.2 with
  | some d => .ok d
  | none => .throws .materialDataMissing

/-- Methods of manufacturers (CoreLosses.cpp 2369-2372). -/
def isProprietary : Method → Bool
  | .micrometals | .magnetics | .poco | .tdg => true
  | _ => false

/-- `get_proprietary_volumetric_method` (CoreLosses.cpp 2361-2379): the first of any variant. -/
def proprietaryMethod (m : Material D) : Option Method := (methodsOf m).find? isProprietary

/-- `usesVolumetricLosses` (CoreLosses.h 96-106). -/
def usesVolumetric (m : Material D) : Res Bool :=
  if m.volumetric.length ≠ 0 then .ok true else if m.mass.isNone then .throws .runtime else .ok false

/-- What losses are calculated from: the data of a method by volume, or Magnetec's formula by mass. -/
inductive Source (D : Type)
  | volume (a : Method) (d : D)
  | mass
  deriving DecidableEq, Repr

/-- The data of a method as a source. -/
def fromData (m : Material D) (a : Method) : Res (Source D) := (methodData m a).bind fun d => .ok (.volume a d)

/-- The data a model takes for the losses of a core: `get_core_losses` of the family of Steinmetz and of the manufacturers
(CoreLosses.cpp 810-840, with 435-438, 2417-2460, 2519-2525 and CoreLosses.h 220-224), of Roshen (1840-1845, 1900) and of the
loss factor (2651-2656, 2705). Data that are set by `set_steinmetz_datum` are not modelled. -/
def source (x : Model) (m : Material D) : Res (Source D) :=
  match x with
  | .roshen => fromData m .roshen
  | .lossFactor => fromData m .lossFactor
  | .proprietary => (usesVolumetric m).bind fun v =>
      if v then
        match proprietaryMethod m with
        | some a => fromData m a
        | none => .throws .materialDataMissing
      else if hasMass m then .ok .mass else .throws .materialDataMissing
  | _ => (usesVolumetric m).bind fun v => if v then fromData m .steinmetz else .throws .runtime

/-! ## Coefficients by frequency -/

/-- `SteinmetzCoreLossesMethodRangeDatum`. -/
structure Datum (K : Type) where
  k : K
  alpha : K
  beta : K
  ct0 : Option K
  ct1 : Option K
  ct2 : Option K
  lowest : Option K
  highest : Option K
  deriving DecidableEq, Repr

variable {K : Type} [LinearOrder K]

/-- The loop over the ranges and what follows it (CoreLosses.cpp 443-473): the lowest and the highest found so far. -/
def pick (f : K) : List (Datum K) → K × Option (Datum K) → K × Option (Datum K) → Res (Datum K)
  | [], lo, hi =>
    match lo.2, hi.2 with
    | some a, some b => if f < lo.1 then .ok a else if f > hi.1 then .ok b else .throws .calculationInvalidInput
    | some a, none => if f < lo.1 then .ok a else .throws .calculationInvalidInput
    | none, some b => if f > hi.1 then .ok b else .throws .calculationInvalidInput
    | none, none => .throws .calculationInvalidInput
  | d :: l, lo, hi =>
    match d.lowest, d.highest with
    | some a, some b =>
      if a ≤ f ∧ f ≤ b then .ok d
      else pick f l (if lo.1 > a then (a, some d) else lo) (if hi.1 < b then (b, some d) else hi)
    | _, _ => .throws .materialDataMissing

/-- `get_steinmetz_coefficients` (CoreLosses.cpp 424-474), of the ranges; `top` is the 100 MHz of line 439 and `zero` the 0 of
line 441. -/
def coefficients (top zero : K) (ranges : List (Datum K)) (f : K) : Res (Datum K) := pick f ranges (top, none) (zero, none)

end Verif.CoreLosses
