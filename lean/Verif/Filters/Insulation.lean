import Verif.Filters.Basic
import Verif.Patterns.Model

/-!
# The filter by solid insulation (src/advisers/MagneticFilter.cpp:159-271)

What `InsulationCoordinator::get_solid_insulation_requirements_for_wires` answers for a pattern and a number of repetitions is given; it is modelled in
`Verif.WireRequirements`.
-/

namespace Verif.Filters.Insulation

variable {K : Type} [Field K] [LinearOrder K]

/-- What is read of the coating of a wire. -/
structure Coating (K : Type) where
  insulated : Bool
  breakdown : Option K
  grade : Option ℤ
  layers : Option ℤ
  deriving DecidableEq

/-- The types of wire that are told apart. -/
inductive Kind
  | sheet
  | litz
  | other
  deriving DecidableEq

/-- A wire: `sheet` is a foil or a planar wire. -/
structure Wire (K : Type) where
  kind : Kind
  outer : Option (Coating K)
  strand : Option (Coating K)
  deriving DecidableEq

/-- `WireSolidInsulationRequirements`. -/
structure Req (K : Type) where
  breakdown : K
  minGrade : Option ℤ
  maxGrade : Option ℤ
  minLayers : Option ℤ
  maxLayers : Option ℤ
  deriving DecidableEq

/-- Is the minimum of grade or layers broken? (src/advisers/MagneticFilter.cpp:221-233) -/
def underMinimum (r : Req K) (c : Coating K) : Bool :=
  match r.minGrade, c.grade with
  | some m, some g => decide (g < m)
  | _, _ => match r.minLayers, c.layers with
    | some m, some l => decide (l < m)
    | _, _ => r.minLayers.isSome || r.minGrade.isSome

/-- Is the maximum of grade or layers broken? (src/advisers/MagneticFilter.cpp:251-263) -/
def overMaximum (r : Req K) (c : Coating K) : Bool :=
  match r.maxGrade, c.grade with
  | some m, some g => decide (g > m)
  | _, _ => match r.maxLayers, c.layers with
    | some m, some l => decide (l > m)
    | _, _ => r.maxLayers.isSome || r.maxGrade.isSome

/-- The coating that is looked at (src/advisers/MagneticFilter.cpp:201-210): that of a strand for a litz wire, of which `.value()` is taken. `none`: the wire
has no coating. -/
def looked (w : Wire K) : Outcome (Option (Coating K)) :=
  match w.outer with
  | none => .value none
  | some c => if w.kind = .litz then (Outcome.take w.strand).bind fun s => .value (some s) else .value (some c)

/-- One wire (src/advisers/MagneticFilter.cpp:194-271). -/
def wire (w : Wire K) (r : Req K) : Outcome (Bool × K) :=
  if w.kind = .sheet then .value (true, 0)
  else (looked w).bind fun
    | none => .value (false, 0)
    | some c => match c.breakdown with
      | none => .value (false, 0)
      | some v =>
        if v < r.breakdown then .value (false, 0)
        else if underMinimum r c then .value (false, 0)
        else if (r.maxLayers.isSome || r.maxGrade.isSome) && (w.outer.map (·.insulated)).getD false then .value (false, 0)
        else if overMaximum r c then .value (false, 0)
        else .value (true, if r.breakdown > 0 then r.breakdown - v else 0)

/-- The loop over the windings with one combination of requirements (src/advisers/MagneticFilter.cpp:174-181), from the state it has. The requirement of a
winding is read without looking at how many there are. -/
def combination (rs : List (Req K)) : ℕ → List (Wire K) → Bool → K → Outcome (Bool × K)
  | _, [], valid, score => .value (valid, score)
  | i, w :: ws, valid, score => (Outcome.index rs[i]?).bind fun r => (wire w r).bind fun a => combination rs (i + 1) ws (valid && a.1) (score + a.2)

/-- The loop over the combinations of one pattern (src/advisers/MagneticFilter.cpp:172-188): the first one that is valid ends the search. -/
def combinations (ws : List (Wire K)) : List (List (Req K)) → Outcome (Option K)
  | [] => .value none
  | rs :: rest => (combination rs 0 ws true 0).bind fun a => if a.1 then .value (some (max 0 a.2)) else combinations ws rest

/-- The combinations of what was tried, one after another (src/advisers/MagneticFilter.cpp:166-190). -/
def search (ws : List (Wire K)) (required : List ℕ → ℕ → List (List (Req K))) : List (List ℕ × ℕ) → Outcome (Answer K)
  | [] => .value rejected
  | t :: ts => (combinations ws (required t.1 t.2)).bind fun
    | some s => .value ⟨true, .num s⟩
    | none => search ws required ts

/-- `MagneticFilterSolidInsulationRequirements::evaluate_magnetic` (src/advisers/MagneticFilter.cpp:159-192), with the patterns and repetitions of the
coil. What would go wrong in a pattern after the one that ends the search is not told apart: the pattern and repetitions of all are found first. -/
def filter (ws : List (Wire K)) (required : List ℕ → ℕ → List (List (Req K))) (physical : List ℕ) (patterns : List (List ℕ)) (repetitions : List ℕ) :
    Outcome (Answer K) :=
  (Patterns.tried physical patterns repetitions).bind fun ts => search ws required ts

end Verif.Filters.Insulation
