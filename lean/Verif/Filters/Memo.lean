import Verif.Filters.Basic

/-!
# Filters that remember: the fringing factor and the area product
(src/advisers/MagneticFilter.cpp:409-462, src/physical_models/Reluctance.cpp:921-1002, src/advisers/MagneticFilterArea.cpp:104-267)
-/

namespace Verif.Filters.Memo

variable {K : Type} [Field K] [LinearOrder K]

/-! ## The gap of a fringing factor -/

/-- The first two neighbours between which the factor crosses `limit` (src/physical_models/Reluctance.cpp:962-969). -/
def crossing (limit : K) : List (K × K) → Option ((K × K) × (K × K))
  | a :: b :: rest => if (a.2 - limit) * (b.2 - limit) > 0 then crossing limit (b :: rest) else some (a, b)
  | _ => none

/-- The bisection between them (src/physical_models/Reluctance.cpp:970-986). `lowerFactor` is the factor at `lower` as it is kept. -/
def bisect (factor : K → K) (limit width : K) : ℕ → K → K → K → K
  | 0, lower, upper, _ => (lower + upper) / 2
  | left + 1, lower, upper, lowerFactor =>
    if upper - lower > width then
      let middle := (lower + upper) / 2
      if abs (factor middle - limit) / limit < 1 / 1000 then middle
      else if (lowerFactor - limit) * (factor middle - limit) ≤ 0 then bisect factor limit width left lower middle lowerFactor
      else bisect factor limit width left middle upper (factor middle)
    else (lower + upper) / 2

/-- The point whose factor is the closest, the first of equals (src/physical_models/Reluctance.cpp:992-1001), from the best so far. -/
def closest (limit : K) (best : K × K) : List (K × K) → K
  | [] => best.1
  | p :: rest => if abs (p.2 - limit) < abs (best.2 - limit) then closest limit p rest else closest limit best rest

/-- The search of `get_gapping_by_fringing_factor` (src/physical_models/Reluctance.cpp:950-1001). `points` are the lengths that are scanned, the first
of which is `minimum`, and `factor` the fringing factor of the core with a gap of that length. -/
def gapOfFactor (factor : K → K) (limit minimum : K) (points : List K) : K :=
  let scanned := (minimum :: points).map fun g : K => (g, factor g)
  match crossing limit scanned with
  | some (a, b) => bisect factor limit (minimum / 10) 100 a.1 b.1 a.2
  | none => closest limit (minimum, factor minimum) scanned

/-- What the filter by fringing factor reads of a core. `gaps` are whether each is residual, and its length. -/
structure Core (K : Type) where
  toroid : Bool
  shape : String
  stacked : ℕ
  gaps : List (Bool × K)
  deriving DecidableEq

/-- The key of the cache (src/advisers/MagneticFilter.cpp:428-436). The limit of the factor, also in the key, is that of the filter and does not change
here. -/
abbrev Key := String × ℕ × ℕ

/-- The key of a core (src/advisers/MagneticFilter.cpp:428-436). -/
def keyOf (c : Core K) : Key := (c.shape, c.stacked, c.gaps.length)

/-- `_fringingFactorCache`, the last written first. -/
abbrev Cache (K : Type) := List (Key × K)

/-- `MagneticFilterFringingFactor::evaluate_magnetic` (src/advisers/MagneticFilter.cpp:409-462): is the core kept, and the cache that is left. `maximum` is
what `get_gapping_by_fringing_factor` answers. The score is always one. -/
def fringing (maximum : Core K → Outcome K) (cache : Cache K) (c : Core K) : Outcome (Bool × Cache K) :=
  if c.toroid then .value (true, cache)
  else match c.gaps with
    | [] => .value (true, cache)
    | gap :: _ =>
      if c.shape = "" then (maximum c).bind fun m => .value (decide (gap.2 ≤ m), cache)
      else match cache.lookup (keyOf c) with
        | some m => .value (decide (gap.2 ≤ m), cache)
        | none => (maximum c).bind fun m => .value (decide (gap.2 ≤ m), (keyOf c, m) :: cache)

/-- A filter that is asked for one core after another. An exception leaves the cache as it was and the next core is asked for (the exception is kept
as the answer for that one). -/
def fringingRun (maximum : Core K → Outcome K) : Cache K → List (Core K) → List (Outcome Bool)
  | _, [] => []
  | cache, c :: cs => match fringing maximum cache c with
    | .value (b, cache') => .value b :: fringingRun maximum cache' cs
    | .throws => .throws :: fringingRun maximum cache cs
    | .undefined => .undefined :: fringingRun maximum cache cs

/-! ## The area product -/

/-- An operating point as the filter by area product sees it: `power` is the precalculation of the constructor
(src/advisers/MagneticFilterArea.cpp:53-92), `utilization` the share of the window that is copper. -/
structure Point (K : Type) where
  power : K
  utilization : K
  deriving DecidableEq

/-- `_materialScaledMagneticFluxDensities`. -/
abbrev Fluxes (K : Type) := List (String × K)

/-- The flux density of an operating point (src/advisers/MagneticFilterArea.cpp:195-223), with what is remembered of each material. `none`: the model of
losses threw, and the core is rejected. -/
def fluxAt (material : String) (measured : Option K) (memory : Fluxes K) : Option (K × Fluxes K) :=
  match memory.lookup material with
  | some b => some (b, memory)
  | none => measured.map fun b => (b, (material, b) :: memory)

/-- How the loop over the operating points ends: the largest area product required, a rejection or an exception. -/
inductive Ended (K : Type)
  | required (x : K)
  | refused
  | threw
  deriving DecidableEq

/-- The loop over the operating points (src/advisers/MagneticFilterArea.cpp:174-241). `measure` is the flux density at each, by its index. A flux of zero
throws; one of not a number is not expressed. A utilization of zero throws here as there, where the requirement is infinite, since a division by zero is
zero here. -/
def requiredLoop (material : String) (measure : ℕ → Option K) : ℕ → List (Point K) → K → Fluxes K → Ended K × Fluxes K
  | _, [], most, memory => (.required most, memory)
  | i, p :: ps, most, memory =>
    match fluxAt material (measure i) memory with
    | none => (.refused, memory)
    | some (b, memory') =>
      if b = 0 then (.threw, memory')
      else
        let required := p.power / (p.utilization * b)
        if required = 0 then (.threw, memory')
        else requiredLoop material measure (i + 1) ps (max most required) memory'

/-- `MagneticFilterAreaProduct::evaluate_magnetic` from the area product of the core on (src/advisers/MagneticFilterArea.cpp:165-249), for a material that
is not the dummy one. `threshold` is `coreAdviserThresholdValidity`. -/
def areaProduct (threshold area : K) (material : String) (measure : ℕ → Option K) (points : List (Point K)) (memory : Fluxes K) :
    Outcome (Answer K) × Fluxes K :=
  match requiredLoop material measure 0 points 0 memory with
  | (.refused, m) => (.value rejected, m)
  | (.threw, m) => (.throws, m)
  | (.required x, m) => if x > 1 then (.throws, m) else (.value ⟨decide (x * threshold ≤ area), .num (abs (area - x))⟩, m)

/-- A filter that is asked for one core after another: each with its area product, its material and its flux densities. -/
def areaRun (threshold : K) (points : List (Point K)) : Fluxes K → List (K × String × (ℕ → Option K)) → List (Outcome (Answer K))
  | _, [] => []
  | memory, (area, material, measure) :: rest =>
    (areaProduct threshold area material measure points memory).1 ::
      areaRun threshold points (areaProduct threshold area material measure points memory).2 rest

end Verif.Filters.Memo
