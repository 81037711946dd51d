import Verif.Scoring.Model

/-! # Model of the cross-referencer of core materials (src/advisers/CoreMaterialCrossReferencer.cpp)

Numbers are an ordered field. What the getters of a material give for a dimension at a temperature (the initial
permeability, the interpolated remanence, the average losses, ...) is a parameter of the material: a number, NaN, or an
exception. The scored values and the log are not modelled. -/

namespace Verif.MaterialRef

variable {K : Type} [Field K] [LinearOrder K] [IsStrictOrderedRing K]

/-- Models `CoreMaterialCrossReferencerFilters`, in the order of the pipeline
(src/advisers/CoreMaterialCrossReferencer.cpp:458-473). -/
inductive Dimension where
  | permeability
  | remanence
  | coerciveForce
  | saturation
  | curie
  | losses
  | resistivity
  deriving DecidableEq, Repr

/-- What a getter of a material gives (src/constructive_models/Core.cpp:1922-1985, 1998-2002, 2032-2036;
src/advisers/CoreMaterialCrossReferencer.cpp:237-291). -/
inductive Reading (K : Type) where
  | number (x : K)
  | nan
  | raises

/-- A core material: its name, its manufacturer, its application as guessed by `guess_material_application`, its
type, and the readings of the seven dimensions at a temperature. -/
structure Material (K : Type) where
  name : String
  manufacturer : String
  application : Nat
  type : Nat
  reading : K → Dimension → Reading K

/-- The map `_scorings` of the object (src/advisers/CoreMaterialCrossReferencer.h:33). -/
abbrev Memo (K : Type) := Dimension → String → Option K

/-- `(*_scorings)[filter][name] = scoring` (src/advisers/CrossReferencerCommon.h:236). -/
def Memo.record (m : Memo K) (d : Dimension) (n : String) (s : K) : Memo K :=
  fun d' n' => if d' = d ∧ n' = n then some s else m d' n'

/-- Outcome of a filter, of the pipeline or of a call. -/
inductive Outcome (α : Type) where
  | ok (a : α)
  | raised
  /-- undefined behaviour, or a total that is not a number -/
  | undefined

/-- The end of a filter: normalise and sort when something is left
(src/advisers/CoreMaterialCrossReferencer.cpp:85-88, 228-231). All the dimensions are inverted and linear
(src/advisers/CoreMaterialCrossReferencer.h:24-32). -/
def rescore (weight : K) (kept : List (Material K × K)) (scores : List K) : Outcome (List (Material K × K)) :=
  match kept with
  | [] => .ok []
  | _ :: _ =>
    match Scoring.crossNormalize id weight true false kept (scores.map Scoring.Num.fin) with
    | .ok r => .ok r
    | _ => .undefined

/-- The loop of the five filters that score every candidate
(src/advisers/CoreMaterialCrossReferencer.cpp:70-79, 163-172, 379-388). `ref = none`: the reading of the reference is NaN.
A distance that is NaN makes `add_scoring` throw (src/advisers/CrossReferencerCommon.h:229-233). The scores recorded
before an exception stay. -/
def plainLoop (temp : K) (d : Dimension) (ref : Option K) : Memo K → List (Material K × K) → Memo K × Option (List K)
  | m, [] => (m, some [])
  | m, (c, _) :: l =>
    match c.reading temp d, ref with
    | .number x, some r =>
      let rest := plainLoop temp d ref (m.record d c.name |r - x|) l
      (rest.1, rest.2.map (|r - x| :: ·))
    | _, _ => (m, none)

/-- The end of a filter that scores every candidate. -/
def plainEnd (weight : K) (ranked : List (Material K × K)) (r : Memo K × Option (List K)) :
    Memo K × Outcome (List (Material K × K)) :=
  match r.2 with
  | some scores => (r.1, rescore weight ranked scores)
  | none => (r.1, .raised)

/-- Models the filters by initial permeability, remanence, coercive force, saturation and resistivity
(src/advisers/CoreMaterialCrossReferencer.cpp:59-89, 91-120, 122-151, 153-182, 369-398). -/
def plainFilter (temp : K) (reference : Material K) (weight : K) (d : Dimension) (m : Memo K)
    (ranked : List (Material K × K)) : Memo K × Outcome (List (Material K × K)) :=
  if weight ≤ 0 then (m, .ok ranked)
  else
    match reference.reading temp d with
    | .raises => (m, .raised)
    | .nan => plainEnd weight ranked (plainLoop temp d none m ranked)
    | .number r => plainEnd weight ranked (plainLoop temp d (some r) m ranked)

/-- The loop of the two filters that cull the candidates whose reading is NaN
(src/advisers/CoreMaterialCrossReferencer.cpp:205-222, 326-346). `none`: a getter threw. -/
def cullLoop (temp : K) (d : Dimension) (r : K) :
    Memo K → List (Material K × K) → Memo K × Option (List (Material K × K) × List K)
  | m, [] => (m, some ([], []))
  | m, (c, t) :: l =>
    match c.reading temp d with
    | .number x =>
      let rest := cullLoop temp d r (m.record d c.name |r - x|) l
      (rest.1, rest.2.map (fun p : List (Material K × K) × List K => ((c, t) :: p.1, |r - x| :: p.2)))
    | .nan => cullLoop temp d r m l
    | .raises => (m, none)

/-- The end of a filter that culls. -/
def cullEnd (weight : K) (r : Memo K × Option (List (Material K × K) × List K)) :
    Memo K × Outcome (List (Material K × K)) :=
  match r.2 with
  | some p => (r.1, rescore weight p.1 p.2)
  | none => (r.1, .raised)

/-- Models the filters by Curie temperature and by volumetric losses
(src/advisers/CoreMaterialCrossReferencer.cpp:184-232, 293-367). -/
def cullFilter (temp : K) (reference : Material K) (weight : K) (d : Dimension) (m : Memo K)
    (ranked : List (Material K × K)) : Memo K × Outcome (List (Material K × K)) :=
  if weight ≤ 0 then (m, .ok ranked)
  else
    match reference.reading temp d with
    | .raises => (m, .raised)
    | .nan => (m, .ok ranked)
    | .number r => cullEnd weight (cullLoop temp d r m ranked)

/-- Whether the filter of the dimension culls. -/
def Dimension.culls : Dimension → Bool
  | .curie => true
  | .losses => true
  | _ => false

/-- One step of the pipeline (src/advisers/CoreMaterialCrossReferencer.cpp:458-473). -/
def step (temp : K) (reference : Material K) (weights : Dimension → K) (d : Dimension) (m : Memo K)
    (ranked : List (Material K × K)) : Memo K × Outcome (List (Material K × K)) :=
  if d.culls then cullFilter temp reference (weights d) d m ranked
  else plainFilter temp reference (weights d) d m ranked

/-- Models `run_cross_referencer_pipeline` (src/advisers/CrossReferencerCommon.h:305-319), without the log. -/
def pipeline (temp : K) (reference : Material K) (weights : Dimension → K) :
    List Dimension → Memo K → List (Material K × K) → Memo K × Outcome (List (Material K × K))
  | [], m, ranked => (m, .ok ranked)
  | d :: ds, m, ranked =>
    match step temp reference weights d m ranked with
    | (m', .ok ranked') => pipeline temp reference weights ds m' ranked'
    | (m', .raised) => (m', .raised)
    | (m', .undefined) => (m', .undefined)

/-- The steps (src/advisers/CoreMaterialCrossReferencer.cpp:458-473). -/
def dimensions : List Dimension :=
  [.permeability, .remanence, .coerciveForce, .saturation, .curie, .losses, .resistivity]

/-- The gate of `apply_filters` (src/advisers/CoreMaterialCrossReferencer.cpp:446-455). `allow`:
`get_core_cross_referencer_allow_different_core_material_type`. -/
def comparable (allow : Bool) (reference c : Material K) : Bool :=
  decide (c.application = reference.application) && (allow || decide (c.type = reference.type))

/-- The candidates taken from the catalogue (src/advisers/CoreMaterialCrossReferencer.cpp:414-420). The catalogue is keyed
by the name of the material (src/support/Utils.cpp:327-337). -/
def eligible (only : Option String) (reference c : Material K) : Bool :=
  decide (c.name ≠ reference.name) &&
    (match only with
    | none => true
    | some n => decide (c.manufacturer = n))

/-- `if (size > n) resize(n)` (src/advisers/CoreMaterialCrossReferencer.cpp:476-478). -/
def cut (n : Nat) (l : List (Material K × K)) : List (Material K × K) := if n < l.length then l.take n else l

/-- The candidates that enter the pipeline, with no score. -/
def entrants (catalogue : List (Material K)) (allow : Bool) (only : Option String) (reference : Material K) :
    List (Material K × K) :=
  ((catalogue.filter (eligible only reference)).filter (comparable allow reference)).map (fun c => (c, 0))

/-- The end of `apply_filters`. -/
def finish (n : Nat) (r : Memo K × Outcome (List (Material K × K))) : Memo K × Outcome (List (Material K × K)) :=
  match r.2 with
  | .ok l => (r.1, .ok (cut n l))
  | .raised => (r.1, .raised)
  | .undefined => (r.1, .undefined)

/-- A cross-referencer: the weights, the manufacturer, and what it has recorded. -/
structure Session (K : Type) where
  weights : Dimension → K
  only : Option String
  memo : Memo K

/-- A fresh object (src/advisers/CoreMaterialCrossReferencer.h:35-49). -/
def fresh : Session K where
  weights := fun d => match d with
    | .permeability => 1 / 2
    | .remanence => 1 / 100
    | .coerciveForce => 1 / 100
    | .saturation => 1
    | .curie => 1 / 100
    | .losses => 1
    | .resistivity => 1 / 5
  only := none
  memo := fun _ _ => none

/-- Models `get_cross_referenced_core_material` with weights (src/advisers/CoreMaterialCrossReferencer.cpp:404-424). A
dimension missing from the map of weights counts 0 (`weights[F::...]`, 460-472). -/
def queryWith (catalogue : List (Material K)) (allow : Bool) (weights : Dimension → K) (reference : Material K) (temp : K)
    (n : Nat) (s : Session K) : Session K × Outcome (List (Material K × K)) :=
  let r := finish n (pipeline temp reference weights dimensions s.memo (entrants catalogue allow s.only reference))
  (⟨weights, s.only, r.1⟩, r.2)

/-- Models `get_cross_referenced_core_material` without weights (src/advisers/CoreMaterialCrossReferencer.cpp:400-402): the
weights of the object, which are those of the last call that gave any. -/
def query (catalogue : List (Material K)) (allow : Bool) (reference : Material K) (temp : K) (n : Nat) (s : Session K) :
    Session K × Outcome (List (Material K × K)) :=
  queryWith catalogue allow s.weights reference temp n s

/-- Models `use_only_manufacturer` (src/advisers/CoreMaterialCrossReferencer.h:65-67). -/
def restrict (n : String) (s : Session K) : Session K := { s with only := some n }

/-- The names that `get_scorings` lists for a dimension: those recorded
(src/advisers/CoreMaterialCrossReferencer.cpp:28-37, src/advisers/CrossReferencerCommon.h:148-204). -/
def listed (s : Session K) (d : Dimension) (n : String) : Prop := (s.memo d n).isSome

end Verif.MaterialRef
