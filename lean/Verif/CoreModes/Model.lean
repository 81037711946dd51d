import Mathlib.Data.List.Basic

/-!
# What the core adviser searches in each mode

Models `get_advised_core` with weights, with and without constraints (`src/advisers/CoreAdviser.cpp:142-264`), the tags of
results taken from the other catalogue (51-66) and the check that the inputs are processed (291-320). The searches
through cores and through shapes are parameters, and so is what the constraints accept (C06 is about them). Loading of
catalogues is not modelled here.
-/

namespace Verif.CoreModes

/-- `CoreAdviserModes`. -/
inductive Mode where
  | available
  | standard
  | custom
deriving DecidableEq

/-- A shape of the catalogue, with its name if it has one. -/
structure Shape (F : Type) where
  name : Option String
  family : F
deriving DecidableEq

/-- A result: the reference in the manufacturer information, if there is any, the name of the core and the score. -/
structure Result where
  reference : Option (Option String)
  coreName : Option String
  score : Int
deriving DecidableEq

/-- `kAvailableFallbackTag` (src/advisers/CoreAdviser.cpp:51-52). -/
def tagText : String := " [advised from available-cores catalogue: no standard core met this spec]"

/-- The tag of one result (src/advisers/CoreAdviser.cpp:55-64). -/
def tag (r : Result) : Result :=
  { r with
    reference := r.reference.map fun n => some (n.getD "unnamed" ++ tagText)
    coreName := some (r.coreName.getD "unnamed" ++ tagText) }

/-- What a request finds: the catalogues, the shapes made for it, the searches, and whether it is for power. -/
structure World (C F : Type) where
  cores : List C
  shapes : List (Shape F)
  customs : List (Shape F)
  searchCores : List C → List Result
  searchShapes : List (Shape F) → List Result
  power : Bool

/-- The loop over the catalogue of shapes without constraints, with the names seen (src/advisers/CoreAdviser.cpp:219-229);
`none` when a shape has no name. The catalogue has a shape once for its name and once for each alias. -/
def distinct {F : Type} : List String → List (Shape F) → Option (List (Shape F))
  | _, [] => some []
  | seen, s :: ss =>
    if s.name.getD "" = "" then none
    else if s.name.getD "" ∈ seen then distinct seen ss
    else (distinct (s.name.getD "" :: seen) ss).map (s :: ·)

/-- The loop with constraints (src/advisers/CoreAdviser.cpp:172-182). -/
def trimmed {F : Type} (accepts : F → Bool) : List String → List (Shape F) → List (Shape F)
  | _, [] => []
  | seen, s :: ss =>
    if accepts s.family = false then trimmed accepts seen ss
    else if s.name.getD "" = "" ∨ s.name.getD "" ∈ seen then trimmed accepts seen ss
    else s :: trimmed accepts (s.name.getD "" :: seen) ss

/-- Models `get_advised_core` with weights (src/advisers/CoreAdviser.cpp:197-264); `none` is the exception. -/
def advise {C F : Type} (w : World C F) : Mode → Option (List Result)
  | .available => some (w.searchCores w.cores)
  | .standard => (distinct [] w.shapes).map fun shapes =>
    if w.searchShapes shapes ≠ [] ∨ w.power = false then w.searchShapes shapes
    else (w.searchCores w.cores).map tag
  | .custom => some (w.searchShapes w.customs)

/-- Constraints: whether there is any at all, the families of shapes and the cores they accept. -/
structure Constraints (C F : Type) where
  given : Bool
  family : F → Bool
  core : C → Bool

/-- Models `get_advised_core` with constraints (src/advisers/CoreAdviser.cpp:142-195). -/
def adviseWith {C F : Type} (w : World C F) (c : Constraints C F) (m : Mode) : Option (List Result) :=
  if c.given = false then advise w m
  else match m with
    | .available => some (w.searchCores (w.cores.filter c.core))
    | .standard => some (w.searchShapes (trimmed c.family [] w.shapes))
    | .custom => advise w .custom

/-! ## Inputs that are not processed -/

/-- The processed data of a current. -/
structure Processed where
  effectiveFrequency : Bool
  rms : Bool
deriving DecidableEq

/-- An excitation: no current, or a current with or without processed data. -/
abbrev Excitation := Option (Option Processed)

/-- What is told to be missing (src/advisers/CoreAdviser.cpp:309-317). -/
inductive Missing where
  | block
  | effectiveFrequency
  | rms
deriving DecidableEq

/-- What one excitation lacks (src/advisers/CoreAdviser.cpp:297-317). -/
def lacks : Excitation → Option Missing
  | none => none
  | some none => some .block
  | some (some p) => if p.effectiveFrequency = false then some .effectiveFrequency else if p.rms = false then some .rms else none

/-- The loop over the windings of one operating point (src/advisers/CoreAdviser.cpp:295-318). -/
def checkWindings : Nat → List Excitation → Option (Nat × Missing)
  | _, [] => none
  | i, e :: es => match lacks e with
    | some m => some (i, m)
    | none => checkWindings (i + 1) es

/-- Models `throw_if_inputs_are_not_processed` (src/advisers/CoreAdviser.cpp:291-320): the operating point, the winding and
what the exception names. -/
def check : Nat → List (List Excitation) → Option (Nat × Nat × Missing)
  | _, [] => none
  | i, p :: ps => match checkWindings 0 p with
    | some x => some (i, x)
    | none => check (i + 1) ps

end Verif.CoreModes
