import Verif.Filters.Basic

/-!
# The filters that go over the operating points and the windings

Sources: src/advisers/MagneticFilterPhysical.cpp, MagneticFilter.cpp, MagneticFilterGeometry.cpp, MagneticFilterEnergyCost.cpp,
MagneticFilterImpedance.cpp, MagneticFilterAdvanced.cpp and MagneticFilterInternal.h, all in /repo.
-/

namespace Verif.Filters.Gates

open Verif.Requirements

variable {K : Type} [Field K] [LinearOrder K]

/-! ## Inductor or transformer -/

/-- What decides it: the isolation sides of the requirements, the topology (only whether `is_energy_storing_topology` holds of it,
MagneticFilterInternal.h:37-100) and the inductance. -/
structure Design (K : Type) where
  sides : Option (List ℕ)
  topology : Option Bool
  inductance : Dim K

/-- `windings_on_single_isolation_side` (MagneticFilterInternal.h:109-119). -/
def singleSide : Option (List ℕ) → Bool
  | none => false
  | some [] => false
  | some [_] => false
  | some (a :: b :: rest) => (b :: rest).all (· == a)

/-- A minimum, and neither a nominal nor a maximum (MagneticFilterInternal.h:144-146). -/
def minimumOnly (d : Dim K) : Bool := d.minimum.isSome && d.nominal.isNone && d.maximum.isNone

/-- `is_inductor` (MagneticFilterInternal.h:134-148). -/
def isInductor (d : Design K) : Bool :=
  if singleSide d.sides then true
  else match d.topology with
    | some storing => storing
    | none => !minimumOnly d.inductance

/-- `isTransformer` of `MagneticFilterMagnetizingInductance` (MagneticFilter.cpp:334-347), which decides it again. -/
def isTransformer (d : Design K) : Bool :=
  if singleSide d.sides then false
  else match d.topology with
    | some storing => !storing
    | none => minimumOnly d.inductance

/-! ## Saturation -/

/-- What the filter by saturation reads of an operating point. `voltage`: there is a processed peak of voltage, `voltSeconds` what
`calculate_max_volt_seconds` answers then. `inductorFlux`: the peak of the flux density calculated with the current, `none` if it
comes without one. -/
structure SatPoint (K : Type) where
  voltage : Option K
  waveform : Bool
  induced : Outcome K
  voltSeconds : K
  fromVoltSeconds : K → Outcome K
  fromVoltage : K → Outcome K
  inductorFlux : Outcome (Option K)
  fluxSaturation : K
  symmetric : Bool
  currentPeak : Option K
  saturationCurrent : Outcome K

/-- The peak of the flux density of a transformer (MagneticFilterPhysical.cpp:75-128). `turns` are those of the first winding. -/
def transformerFlux (turns : K) (p : SatPoint K) : Outcome K :=
  match p.voltage with
  | some v => if 0 < p.voltSeconds ∧ 0 < turns then p.fromVoltSeconds p.voltSeconds else p.fromVoltage v
  | none => if p.waveform then p.induced.bind p.fromVoltage else .throws

/-- The peak of the flux density at an operating point (lines 72-153); `none` is when the filter leaves with `{false, 0.0}` (149-151). -/
def fluxOf (inductor : Bool) (turns : K) (p : SatPoint K) : Outcome (Option K) :=
  if inductor then p.inductorFlux else (transformerFlux turns p).bind fun b => .value (some b)

/-- One operating point (lines 47-254): `none` when it rejects, what it adds to the score when it does not. `tagged` is whether the
requirements say it is a common mode choke (lines 180-185). -/
def satPoint (inductor tagged : Bool) (margin turns : K) (p : SatPoint K) : Outcome (Option K) :=
  (fluxOf inductor turns p).bind fun
    | none => .value none
    | some b =>
      if tagged && p.symmetric then .value (some 0)
      else if p.fluxSaturation < b * margin then .value none
      else
        let ratio := if 0 < p.fluxSaturation then b / p.fluxSaturation else 1
        if inductor = false then .value (some ratio)
        else match p.currentPeak with
          | none => .throws
          | some i => p.saturationCurrent.bind fun s =>
            if s < margin * i then .value none
            else .value (some (ratio + (if 0 < s then margin * i / s else 1)))

/-- A filter that adds up what its elements give and leaves at the first that rejects. -/
def addUp {α : Type} (f : α → Outcome (Option K)) : List α → K → Outcome (Option K)
  | [], acc => .value (some acc)
  | a :: rest, acc => (f a).bind fun
    | none => .value none
    | some x => addUp f rest (acc + x)

/-- The end of such a filter: `scoring /= n` and `{true, scoring}`, or `{false, 0.0}`. -/
def close (n : ℕ) (o : Outcome (Option K)) : Outcome (Answer K) :=
  o.bind fun
    | none => .value rejected
    | some s => .value ⟨true, mean s n⟩

/-- `MagneticFilterSaturation::evaluate_magnetic` (MagneticFilterPhysical.cpp:22-259), without the cache it fills for the temperature. -/
def saturation (inductor tagged : Bool) (margin turns : K) (ps : List (SatPoint K)) : Outcome (Answer K) :=
  close ps.length (addUp (satPoint inductor tagged margin turns) ps 0)

/-! ## Current densities -/

/-- A winding at an operating point: the density of its current in one conductor when it has a current, and its parallels (at least one). -/
structure Excited (K : Type) where
  density : Option K
  parallels : ℕ

/-- One winding (MagneticFilterPhysical.cpp:271-285, 304-318). -/
def densityOf (limit : K) (e : Excited K) : Outcome (Option K) :=
  match e.density with
  | none => .throws
  | some d => if limit < d / e.parallels then .value none else .value (some (d / e.parallels / limit))

/-- The first `n` excitations of an operating point; a missing one is read outside the vector. -/
def excitations {α : Type} (n : ℕ) (es : List α) : Outcome (List α) := if es.length < n then .undefined else .value (es.take n)

/-- The loop of the operating points and, in each, of the windings (lines 269-287). The reads of one operating point happen as its windings are
reached: a winding that rejects or throws before the missing one hides it. -/
def densityPoint (limit : K) (windings : ℕ) (es : List (Excited K)) (acc : K) : Outcome (Option K) :=
  (addUp (densityOf limit) (es.take windings) acc).bind fun
    | none => .value none
    | some s => if es.length < windings then .undefined else .value (some s)

/-- All the operating points. -/
def densityPoints (limit : K) (windings : ℕ) : List (List (Excited K)) → K → Outcome (Option K)
  | [], acc => .value (some acc)
  | es :: rest, acc => (densityPoint limit windings es acc).bind fun
    | none => .value none
    | some s => densityPoints limit windings rest s

/-- `MagneticFilterDcCurrentDensity` and `MagneticFilterEffectiveCurrentDensity` (MagneticFilterPhysical.cpp:261-325): only the density and
the limit are different. -/
def density (limit : K) (windings : ℕ) (ops : List (List (Excited K))) : Outcome (Answer K) :=
  match ops with
  | [] => .value ⟨true, .nan⟩
  | first :: _ =>
    if windings = first.length then close ops.length (densityPoints limit windings ops 0) else .value rejected

/-! ## Turns ratios -/

/-- `check_requirement` and the distance, for a pair of a requirement and a turns ratio (MagneticFilterGeometry.cpp:99-114). -/
def ratioOf (th : K) (rv : Dim K × K) : Outcome (Option K) :=
  match check th rv.1 rv.2 with
  | none => .throws
  | some false => .value none
  | some true =>
    match resolve rv.1 .nominal with
    | none => .throws
    | some r => .value (some (abs (r - rv.2)))

/-- `MagneticFilterTurnsRatios::evaluate_magnetic` (MagneticFilterGeometry.cpp:91-117), given the turns ratios of the magnetic. -/
def turnsRatios (th : K) (required : List (Dim K)) (ratios : List K) : Outcome (Answer K) :=
  if required = [] then .value ⟨true, .num 0⟩
  else if ratios.length = required.length then
    (addUp (ratioOf th) (required.zip ratios) 0).bind fun
      | none => .value rejected
      | some s => .value ⟨true, .num s⟩
  else .value rejected

/-! ## Magnetizing inductance -/

/-- The inductance the filter finds at an operating point, and the energy that comes in the same output; an exception of the model is caught
(MagneticFilter.cpp:363-365). -/
structure LPoint (K : Type) where
  atRest : Option (K × Option K)
  excited : Option (K × Option K)

/-- The outputs of an operating point, as far as the filters write them: the magnetizing inductance and the energy of the core
inside it, and the leakage. -/
structure Out (K : Type) where
  inductance : Option K
  energy : Option K
  leakage : Option K
  deriving DecidableEq

/-- `Outputs()`. -/
def noOut : Out K := ⟨none, none, none⟩

/-- `while (outputs->size() < index + 1) outputs->push_back(Outputs())`, then the entry at `index` rewritten (MagneticFilter.cpp:376-386). -/
def writeOut (outputs : List (Out K)) (index : ℕ) (f : Out K → Out K) : List (Out K) :=
  let padded := outputs ++ List.replicate (index + 1 - outputs.length) noOut
  padded.modify index f

/-- The loop of the operating points (MagneticFilter.cpp:349-388). `none` in the value: it leaves with `{false, 0}`. -/
def inductanceLoop (th : K) (required : Dim K) (transformer : Bool) :
    ℕ → List (LPoint K) → Bool → K → List (Out K) → Outcome (Option (Bool × K)) × List (Out K)
  | _, [], valid, acc, outs => (.value (some (valid, acc)), outs)
  | index, p :: rest, valid, acc, outs =>
    match (if transformer then p.atRest else p.excited) with
    | none => (.value none, outs)
    | some (l, e) =>
      match resolve required .nominal with
      | none => (.throws, outs)
      | some r =>
        match check th required l with
        | none => (.throws, outs)
        | some true =>
          inductanceLoop th required transformer (index + 1) rest valid (acc + abs (r - l))
            (writeOut outs index fun o => { o with inductance := some l, energy := e })
        | some false => inductanceLoop th required transformer (index + 1) rest false (acc + abs (r - l)) outs

/-- `MagneticFilterMagnetizingInductance::evaluate_magnetic` (MagneticFilter.cpp:275-393). `suppression`: the topology is a choke or the application
is interference suppression (lines 308-319). With it are the outputs it leaves. -/
def magnetizingInductance (th : K) (d : Design K) (suppression : Bool) (ps : List (LPoint K)) (outs : List (Out K)) :
    Outcome (Answer K) × List (Out K) :=
  let r := d.inductance
  if r.minimum.isNone && r.nominal.isNone && r.maximum.isNone then (.value ⟨true, .num 0⟩, outs)
  else if (match r.nominal with | some n => decide (n ≤ 0) | none => false) && r.minimum.isNone && r.maximum.isNone then
    (.value ⟨true, .num 0⟩, outs)
  else if suppression then (.value ⟨true, .num 0⟩, outs)
  else
    match inductanceLoop th r (isTransformer d) 0 ps true 0 outs with
    | (.value none, o) => (.value rejected, o)
    | (.value (some (v, s)), o) => (.value ⟨v, mean s ps.length⟩, o)
    | (.throws, o) => (.throws, o)
    | (.undefined, o) => (.undefined, o)

/-! ## Energy -/

/-- The loop of `MagneticFilterEnergyStored::evaluate_magnetic` (MagneticFilterEnergyCost.cpp:34-60). `threshold` is
`coreAdviserThresholdValidity`; `energies` is what the core can store at each operating point. -/
def energyLoop (threshold required : K) : ℕ → List K → K → List (Out K) → (Bool × K) × List (Out K)
  | _, [], total, outs => ((true, total), outs)
  | index, e :: rest, total, outs =>
    if required * threshold ≤ max total e then
      energyLoop threshold required (index + 1) rest (max total e)
        (writeOut outs index fun o => { o with inductance := none, energy := some e })
    else ((false, max total e), outs)

/-- `MagneticFilterEnergyStored::evaluate_magnetic` (MagneticFilterEnergyCost.cpp:29-63). -/
def energyStored (threshold required : K) (energies : List K) (outs : List (Out K)) : Answer K × List (Out K) :=
  let r := energyLoop threshold required 0 energies 0 outs
  (⟨r.1.1, .num r.1.2⟩, r.2)

/-! ## Impedance -/

/-- `MagneticFilterImpedance::evaluate_magnetic` (MagneticFilterImpedance.cpp:357-425), without the outputs. A requirement is the magnitude
required and the magnitude the model answers; `log` is `std::log10`. -/
def impedanceLoop (log : K → K) : List (K × K) → Bool → K → Bool × K
  | [], valid, acc => (valid, acc)
  | (zReq, zAct) :: rest, valid, acc =>
    impedanceLoop log rest (if zAct < zReq then false else valid) (acc + log (if 0 < zReq then max (zAct / zReq) 1 else 1))

/-- The whole filter; `none` when there is no requirement. -/
def impedance (log : K → K) : Option (List (K × K)) → Answer K
  | none => ⟨true, .num 0⟩
  | some zs => let r := impedanceLoop log zs true 0; ⟨r.1, mean r.2 zs.length⟩

/-! ## Filters that only score -/

/-- A filter that adds the scores of the windings and divides by their number: `MagneticFilterEffectiveResistance` and
`MagneticFilterProximityFactor` (MagneticFilterImpedance.cpp:288-307, 320-340). `excited` is how many excitations the first operating point
has, `none` without operating points. -/
def perWinding (excited : Option ℕ) (scores : List K) : Answer K :=
  match excited with
  | some n => if scores.length = n then ⟨true, mean scores.sum scores.length⟩ else rejected
  | none => ⟨true, mean scores.sum scores.length⟩

/-- The score of `MagneticFilterProximityFactor` for one winding (MagneticFilterImpedance.cpp:342-355). -/
def proximityFactor (dimension skinDepth : K) (conductors : Option ℕ) (parallels turns : ℕ) : K :=
  dimension / skinDepth * ((conductors.getD 1 : K) * parallels * turns) ^ 2

/-- `MagneticFilterTurnCount::evaluate_magnetic` (MagneticFilterGeometry.cpp:45-89). `width` is that of the processed description. -/
def turnCount (turns : List ℕ) (width : Option K) : Answer K :=
  let total : K := ((turns.sum : ℕ) : K)
  if total ≤ 0 then ⟨true, .num 0⟩
  else match width with
    | none => ⟨true, .num total⟩
    | some w => if w ≤ 0 then ⟨true, .num total⟩ else ⟨true, .num (total * w)⟩

/-- Families the filter by dimensions cares about (MagneticFilterGeometry.cpp:34-37). -/
inductive Family
  | planarE | planarEl | planarEr | lp | other
  deriving DecidableEq

/-- `MagneticFilterDimensions::evaluate_magnetic` (MagneticFilterGeometry.cpp:11-43). `column` is the depth of the first column, `layers` the
widths of the layers if the coil has them; `wound` is whether the inputs ask for wound wire. -/
def dimensions (width height depth column : K) (layers : Option (List K)) (wound : Bool) (family : Family) : Answer K :=
  let d := match layers with
    | none => depth
    | some ls => max depth (ls.foldl (fun acc l => acc + l * 2) column)
  ⟨!(wound && decide (family ≠ .other)), .num (width * height * d)⟩

/-! ## Magnetomotive force -/

/-- A layer of the coil: `none` if it is insulation; otherwise the winding of its first partial winding, the proportions of its parallels
there, and how many partial windings it has. -/
structure Layer (K : Type) where
  winding : ℕ
  proportions : List K
  partials : ℕ

/-- What a layer adds (MagneticFilterAdvanced.cpp:49-64). `physical` rounds the turns of each parallel and adds them up. -/
def layerForce (physical : ℕ → List K → ℤ) (primary : ℕ → Bool) (currents : ℕ → K) (l : Layer K) : K :=
  let n := physical l.winding l.proportions * l.partials
  if primary l.winding then n * currents l.winding else -(n * currents l.winding)

/-- The forces after each layer, starting from zero (lines 44-70). -/
def forces (physical : ℕ → List K → ℤ) (primary : ℕ → Bool) (currents : ℕ → K) : K → List (Option (Layer K)) → List K
  | f, [] => [f]
  | f, none :: rest => f :: forces physical primary currents f rest
  | f, some l :: rest => f :: forces physical primary currents (f + layerForce physical primary currents l) rest

/-- The largest and the smallest of a list that is not empty. -/
def maxOf (x : K) (xs : List K) : K := xs.foldl max x
/-- The smallest. -/
def minOf (x : K) (xs : List K) : K := xs.foldl min x

/-- The force of an operating point (lines 72-74). -/
def pointForce (fs : List K) : K := match fs with
  | [] => 0
  | f :: rest => max (abs (maxOf f rest)) (abs (minOf f rest))

/-- `MagnetomotiveForce::evaluate_magnetic` (MagneticFilterAdvanced.cpp:18-79), once the windings match the first operating point, every operating
point has the root mean square of every winding and the coil has layers. `ops` are the currents of one parallel by operating point. -/
def magnetomotiveForce (physical : ℕ → List K → ℤ) (primary : ℕ → Bool) (layers : List (Option (Layer K))) (ops : List (ℕ → K)) : K :=
  ops.foldl (fun m currents => max m (pointForce (forces physical primary currents 0 layers))) 0

end Verif.Filters.Gates
