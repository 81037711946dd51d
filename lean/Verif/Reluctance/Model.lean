import Mathlib.Analysis.SpecialFunctions.Log.Basic
import Mathlib.Analysis.SpecialFunctions.Pow.Real
import Mathlib.Analysis.Real.Pi.Bounds

/-!
# The reluctance of a gap, and the magnetic energy it stores

The eight gap models of `Reluctance.cpp`, the clearance of drums with a ring, the energy of `MagneticEnergy.cpp`, and the
saturation that a reluctance model remembers between calls.

Numbers are reals. Where the code would answer an infinity or a not-a-number value, the outcome is `notFinite`. Areas and
sections that are not positive are not excluded here, and every theorem that needs them positive says so.
-/

namespace Verif.Reluctance

/-- What a call does: it answers, throws, answers an infinity or a not-a-number value, or has no defined behaviour. -/
inductive Res (α : Type) where
  | ok (a : α)
  | throws
  | notFinite
  | ub

/-- `vacuumPermeability` (Constants.h 15). -/
noncomputable def mu0 : ℝ := 125663706212 / 10 ^ 17

/-- `ReluctanceModels`, with an enumerator for each model of `ReluctanceModel::factory` (Reluctance.cpp 887-916). -/
inductive Kind where
  | zhang | partridge | effectiveArea | effectiveLength | muehlethaler | stenglein | balakrishnan | classic
  deriving DecidableEq, Repr

/-- A gap. Of the shape only whether it is round is read, and of the section its width and depth, which are given as a pair: a
list of fewer than two dimensions is not modelled. Of the coordinates only the second is read. -/
structure Gap where
  length : ℝ
  area : Option ℝ
  round : Option Bool
  dims : Option (ℝ × ℝ)
  normal : Option ℝ
  parallel : Option ℝ
  y : Option ℝ

/-- What a gap model answers (`AirGapReluctanceOutput`); the origin, always a simulation, is left out. -/
structure Answer where
  reluctance : ℝ
  factor : ℝ
  energy : ℝ
  method : String

/-- `ReluctanceModel::get_gap_maximum_storable_energy` (Reluctance.h 46-60), for the area of the gap and the saturation that the
model remembers. -/
noncomputable def storable (saturation length area factor : ℝ) : ℝ :=
  0.5 / mu0 * length * area / factor * saturation ^ 2

/-- The answer of a model for what it calculated, with the energy (as in Reluctance.cpp 337-344). -/
noncomputable def answer (saturation : ℝ) (g : Gap) (area reluctance factor : ℝ) (method : String) : Answer :=
  ⟨reluctance, factor, storable saturation g.length area factor, method⟩

/-- The perimeter of the section of a gap (Reluctance.cpp 313-318). -/
noncomputable def perimeter (round : Bool) (w d : ℝ) : ℝ :=
  if round then Real.pi * w else w * 2 + d * 2

/-- The reluctance of Zhang (Reluctance.cpp 309, 320-333) of a gap with length. The fringing reluctance is written as its
inverse, which is zero where the logarithm is zero, that is, next to a normal surface, where the code divides by zero and
inverts the infinity. With positive area and section neither reluctance is zero, so the exceptions of 325-331 are not met. -/
noncomputable def zhangReluctance (length area p h : ℝ) : ℝ :=
  1 / (1 / (length / (mu0 * area)) + mu0 * p * Real.log ((2 * h + length) / length) / Real.pi)

/-- `ReluctanceZhangModel::get_gap_reluctance` (Reluctance.cpp 264-345). -/
noncomputable def zhang (saturation : ℝ) (g : Gap) : Res Answer :=
  match g.area, g.round, g.dims, g.normal with
  | some area, some round, some (w, d), some h =>
    if h < 0 then .throws
    else if g.length > 0 then
      let r := zhangReluctance g.length area (perimeter round w d) h
      .ok (answer saturation g area r (g.length / (mu0 * area * r)) "Zhang")
    else .ok (answer saturation g area 0 1 "Zhang")
  | _, _, _, _ => .throws

/-- What the permeability multiplies in the denominator of the basic reluctance (Reluctance.cpp 369). -/
noncomputable def basicTerm (l w h : ℝ) : ℝ := w / 2 / l + 2 / Real.pi * (1 + Real.log (Real.pi * h / 4 / l))

/-- `ReluctanceMuehlethalerModel::get_basic_reluctance` (Reluctance.cpp 366-370). -/
noncomputable def basicReluctance (l w h : ℝ) : ℝ := 1 / mu0 / basicTerm l w h

/-- `ReluctanceMuehlethalerModel::get_reluctance_type_1` (Reluctance.cpp 388-391). -/
noncomputable def type1 (l w h : ℝ) : ℝ :=
  1 / (1 / (basicReluctance l w h + basicReluctance l w h) + 1 / (basicReluctance l w h + basicReluctance l w h))

/-- `gammaR`, `gammaX` and `gammaY` (Reluctance.cpp 435-436, 450-453). -/
noncomputable def gamma (length w h : ℝ) : ℝ := type1 (length / 2) w h / (length / mu0 / w)

/-- `ReluctanceMuehlethalerModel::get_gap_reluctance` (Reluctance.cpp 414-467). The area is not looked for, and is read by the
energy (Reluctance.h 49). A gap without length divides zero by zero. At a normal surface the logarithm is of zero, and the factor
is infinite. Where the term of the denominator is zero the reluctance is infinite. -/
noncomputable def muehlethaler (saturation : ℝ) (g : Gap) : Res Answer :=
  match g.round, g.dims, g.normal with
  | some round, some (w, d), some h =>
    match g.area with
    | none => .ub
    | some area =>
      if g.length ≤ 0 ∨ h ≤ 0 then .notFinite
      else if round then
        if basicTerm (g.length / 2) (w / 2) h = 0 then .notFinite
        else
          let r := gamma g.length (w / 2) h
          .ok (answer saturation g area (r ^ 2 * g.length / (mu0 * Real.pi * (w / 2) ^ 2)) (1 / r) "Muehlethaler")
      else
        if basicTerm (g.length / 2) w h = 0 ∨ basicTerm (g.length / 2) d h = 0 then .notFinite
        else
          let r := gamma g.length w h * gamma g.length d h
          .ok (answer saturation g area (r * g.length / (mu0 * d * w)) (1 / r) "Muehlethaler")
  | _, _, _ => .throws

/-- The fringing factor by area (Reluctance.cpp 505-517). -/
noncomputable def areaFactor (length : ℝ) (round : Bool) (w d : ℝ) : ℝ :=
  if length > 0 then
    if round then (1 + length / w) ^ 2 else (d + length) * (w + length) / (d * w)
  else 1

/-- `ReluctanceEffectiveAreaModel::get_gap_reluctance` (Reluctance.cpp 489-529). -/
noncomputable def effectiveArea (saturation : ℝ) (g : Gap) : Res Answer :=
  match g.area, g.round, g.dims with
  | some area, some round, some (w, d) =>
    let f := areaFactor g.length round w d
    .ok (answer saturation g area (g.length / (mu0 * area * f)) f "EffectiveArea")
  | _, _, _ => .throws

/-- The fringing factor by length (Reluctance.cpp 568-579). -/
noncomputable def lengthFactor (length : ℝ) (round : Bool) (w d : ℝ) : ℝ :=
  if length > 0 then
    if round then (1 + length / w) ^ 2 else (1 + length / d) * (1 + length / w)
  else 1

/-- `ReluctanceEffectiveLengthModel::get_gap_reluctance` (Reluctance.cpp 552-591). -/
noncomputable def effectiveLength (saturation : ℝ) (g : Gap) : Res Answer :=
  match g.area, g.round, g.dims with
  | some area, some round, some (w, d) =>
    let f := lengthFactor g.length round w d
    .ok (answer saturation g area (g.length / (mu0 * area * f)) f "EffectiveLength")
  | _, _, _ => .throws

/-- The fringing factor of Partridge (Reluctance.cpp 632-636). -/
noncomputable def partridgeFactor (length area h : ℝ) : ℝ :=
  if length > 0 then 1 + length / Real.sqrt area * Real.log (2 * 2 * h / length) else 1

/-- `ReluctancePartridgeModel::get_gap_reluctance` (Reluctance.cpp 616-660). With length, a distance of zero gives a factor that
is infinite and negative, which is refused, and a negative distance one that is not a number, which is not. -/
noncomputable def partridge (saturation : ℝ) (g : Gap) : Res Answer :=
  match g.area, g.dims, g.normal with
  | some area, some _, some h =>
    if g.length > 0 ∧ h = 0 then .throws
    else if g.length > 0 ∧ h < 0 then .notFinite
    else
      let f := partridgeFactor g.length area h
      if f ≤ 0 then .throws
      else .ok (answer saturation g area (g.length / (mu0 * area * f)) f "Partridge")
  | _, _, _ => .throws

/-- `u`, `v` and `w` of Stenglein, and `alpha` (Reluctance.h 193-201). -/
noncomputable def alpha (rx l1 lg : ℝ) : ℝ :=
  (42.7 * rx / l1 - 50.2) * (lg / l1) ^ 2 + (-55.4 * rx / l1 + 71.6) * lg / l1 + (0.88 * rx / l1 - 0.80)

/-- `aux1_lg` and `aux1_l1` (Reluctance.cpp 736-737); `rx` and `rc` are both half the width. -/
noncomputable def aux1 (rc x : ℝ) : ℝ := 1 + 2 / Real.sqrt Real.pi * x / (2 * rc) * Real.log (2.1 * rc / x)

/-- `aux2` (Reluctance.cpp 723-724, 738). -/
noncomputable def aux2 (rc parallel : ℝ) : ℝ :=
  1 / 6 * ((rc + parallel) ^ 2 + 2 * (rc + parallel) * (rc + 0.001) + 3 * (rc + 0.001) ^ 2) / rc ^ 2

/-- `gamma` of Stenglein (Reluctance.cpp 740). -/
noncomputable def stengleinGamma (rc parallel l1 lg : ℝ) : ℝ :=
  aux1 rc lg + (aux2 rc parallel - aux1 rc l1) * (lg / l1) ^ (2 * Real.pi)

/-- The fringing factor of Stenglein (Reluctance.cpp 719-743). -/
noncomputable def stengleinFactor (length w h parallel y : ℝ) : ℝ :=
  if length > 0 then
    alpha (w / 2) (h * 2) length * (y / (h * 2)) ^ 2 + stengleinGamma (w / 2) parallel (h * 2) length
  else 1

/-- `ReluctanceStengleinModel::get_gap_reluctance` (Reluctance.cpp 692-755). A distance of zero is divided by, and the logarithm
of a negative one is not a number. -/
noncomputable def stenglein (saturation : ℝ) (g : Gap) : Res Answer :=
  match g.area, g.round, g.dims, g.normal, g.y, g.parallel with
  | some area, some _, some (w, _), some h, some y, some p =>
    if g.length > 0 ∧ h ≤ 0 then .notFinite
    else
      let f := stengleinFactor g.length w h p y
      if f = 0 then .notFinite
      else .ok (answer saturation g area (g.length / (mu0 * area * f)) f "Stenglein")
  | _, _, _, _, _, _ => .throws

/-- `ReluctanceClassicModel::get_gap_reluctance` (Reluctance.cpp 780-800). -/
noncomputable def classic (saturation : ℝ) (g : Gap) : Res Answer :=
  match g.area with
  | some area => .ok (answer saturation g area (g.length / (mu0 * area)) 1 "Classic")
  | none => .throws

/-- `permeance` (Reluctance.cpp 856-858). -/
noncomputable def permeance (length area d h : ℝ) : ℝ :=
  area / length + 2 * d / Real.pi * (1 + Real.log (Real.pi * h / (2 * length)))

/-- `ReluctanceBalakrishnanModel::get_gap_reluctance` (Reluctance.cpp 830-879). A gap without length has an infinite permeance, so
no reluctance, unless it is at a normal surface too, where the permeance is not a number, as it is for a negative distance; with
length, a distance of zero makes it infinite and negative, which is refused. A negative length is not modelled: it answers as a
gap with none. -/
noncomputable def balakrishnan (saturation : ℝ) (g : Gap) : Res Answer :=
  match g.area, g.normal, g.dims with
  | some area, some h, some (_, d) =>
    if h < 0 ∨ (h = 0 ∧ g.length ≤ 0) then .notFinite
    else if g.length ≤ 0 then .ok (answer saturation g area 0 1 "Balakrishnan")
    else if h = 0 then .throws
    else if permeance g.length area d h ≤ 0 then .throws
    else
      let r := 1 / (mu0 * permeance g.length area d h)
      .ok (answer saturation g area r (g.length / (mu0 * area * r)) "Balakrishnan")
  | _, _, _ => .throws

/-- `get_gap_reluctance` of the model that `ReluctanceModel::factory` makes (Reluctance.cpp 887-916). -/
noncomputable def gapReluctance : Kind → ℝ → Gap → Res Answer
  | .zhang => zhang
  | .partridge => partridge
  | .effectiveArea => effectiveArea
  | .effectiveLength => effectiveLength
  | .muehlethaler => muehlethaler
  | .stenglein => stenglein
  | .balakrishnan => balakrishnan
  | .classic => classic

/-! ## The clearance of a drum with a ring -/

/-- The dimensions of a drum with a ring that are read (Reluctance.cpp 123-128, 136). A dimension that is missing is read as zero
by the code, which is not modelled. -/
structure DrumRing where
  a : ℝ
  b : ℝ
  d : ℝ
  f : ℝ
  j : ℝ
  k : ℝ
  l : ℝ

/-- The fringe term of the basic block, not below zero (Reluctance.cpp 146-149). At a distance of zero the logarithm is infinite
and negative. A negative distance, for which it is not a number, is told apart by `clearance`. -/
noncomputable def fringeTerm (length h : ℝ) : ℝ :=
  if h = 0 then 0 else max (2 / Real.pi * (1 + Real.log (Real.pi * h / (4 * (length / 2))))) 0

/-- `basicReluctance` of the clearance (Reluctance.cpp 145-151). -/
noncomputable def clearanceBlock (length flange h : ℝ) : ℝ :=
  1 / mu0 / (flange / (2 * (length / 2)) + fringeTerm length h)

/-- The flange that a clearance faces (Reluctance.cpp 135-136). -/
noncomputable def flangeOf (s : DrumRing) (y : ℝ) : ℝ := if y ≥ 0 then s.d else s.f

/-- `escapeGroove` and `escapeOuter` (Reluctance.cpp 139-140). -/
noncomputable def escapes (s : DrumRing) (flange : ℝ) : ℝ × ℝ :=
  ((s.b + s.l) / 2 - flange, max ((s.l - s.b) / 2) 0 + (s.j - s.k) / 2)

/-- `sigma` (Reluctance.cpp 154-157). -/
noncomputable def sigma (s : DrumRing) (length flange : ℝ) : ℝ :=
  1 / (1 / (2 * clearanceBlock length flange (escapes s flange).1) + 1 / (2 * clearanceBlock length flange (escapes s flange).2)) /
    (length / (mu0 * flange))

/-- `ReluctanceModel::get_annular_clearance_gap_reluctance` (Reluctance.cpp 120-172). -/
noncomputable def clearance (saturation : ℝ) (s : DrumRing) (g : Gap) : Res Answer :=
  match g.area, g.y with
  | some area, some y =>
    let flange := flangeOf s y
    if g.length ≤ 0 ∨ (escapes s flange).1 < 0 ∨ (escapes s flange).2 < 0 then .notFinite
    else
      let r := sigma s g.length flange
      .ok (answer saturation g area (r * g.length / (mu0 * (Real.pi * (s.a + s.k) / 2) * flange)) (1 / r) "AnnularClearance")
  | _, _ => .throws

/-! ## The gaps of a core -/

/-- One gap after another, stopping at the first that does not answer. -/
def Res.mapM {α β : Type} (f : α → Res β) : List α → Res (List β)
  | [] => .ok []
  | a :: rest => match f a with
    | .ok b => match Res.mapM f rest with
      | .ok l => .ok (b :: l)
      | .throws => .throws
      | .notFinite => .notFinite
      | .ub => .ub
    | .throws => .throws
    | .notFinite => .notFinite
    | .ub => .ub

/-- What `get_gapping_reluctance` reports of the gaps, apart from their reluctance (Reluctance.cpp 214-215, 227-232). The name of
the method is that of the base class (Reluctance.h 25), whose function this is: the names that the models give themselves
(as in Reluctance.h 182) are other members, not read here. -/
structure Gapping where
  factor : ℝ
  energy : ℝ
  gaps : List Answer
  method : String

/-- `ReluctanceModel::get_gapping_reluctance` (Reluctance.cpp 174-236) for gaps that have coordinates, of a core that is not a drum
with a ring. How the reluctances are combined is in `Verif.Network`. A gap that answers an infinity or a not-a-number value ends
it here, where the code goes on. -/
noncomputable def gapping (k : Kind) (saturation : ℝ) (gaps : List Gap) : Res Gapping :=
  match Res.mapM (gapReluctance k saturation) gaps with
  | .ok l => .ok ⟨l.foldl (fun m a => max m a.factor) 1, l.foldl (fun e a => e + a.energy) 0, l, "Default"⟩
  | .throws => .throws
  | .notFinite => .notFinite
  | .ub => .ub

/-- A core: its gaps, and its saturation at a temperature, already with the proportion that may be used
(Core.cpp 1865-1898). -/
structure CoreCase where
  gaps : List Gap
  saturation : ℝ → ℝ

/-- The question put to a reluctance model: the reluctance of a core at a temperature or without an operating point, which takes
25 degrees (Core.cpp 1896-1898); that of a core with a permeability; or that of the gaps of a core. -/
inductive Question where
  | atPoint (c : CoreCase) (temperature : Option ℝ)
  | withPermeability (c : CoreCase)
  | gapsOf (c : CoreCase)

/-- The core that is asked about. -/
def Question.core : Question → CoreCase
  | .atPoint c _ => c
  | .withPermeability c => c
  | .gapsOf c => c

/-- The saturation remembered when the gaps are looked at (Reluctance.cpp 66, 73, 81-83, 102-105, 174). -/
def remembers (saturation : ℝ) : Question → ℝ
  | .atPoint c t => c.saturation (t.getD 25)
  | .withPermeability _ => saturation
  | .gapsOf _ => saturation

/-- What a reluctance model remembers before any question (Reluctance.h 24). -/
noncomputable def fresh : ℝ := 0.4

/-- A question put to a model that remembers a saturation, with what it remembers afterwards: `get_core_reluctance`
(Reluctance.cpp 81-112) and `get_gapping_reluctance`. Only what is said of the gaps is modelled, and the exceptions of the
material of the core are not. -/
noncomputable def ask (k : Kind) (saturation : ℝ) (q : Question) : ℝ × Res Gapping :=
  (remembers saturation q, gapping k (remembers saturation q) q.core.gaps)

/-- What a model remembers after some questions. -/
noncomputable def after (k : Kind) (qs : List Question) : ℝ := qs.foldl (fun s q => (ask k s q).1) fresh

/-! ## Magnetic energy -/

/-- `MagneticEnergy::get_ungapped_core_maximum_magnetic_energy` (MagneticEnergy.cpp 34-45), for the saturation and permeability of
the material at the temperature, and the effective volume. -/
noncomputable def ungappedEnergy (saturation permeability volume : ℝ) : ℝ :=
  0.5 / (mu0 * permeability) * volume * saturation ^ 2

/-- `MagneticEnergy::get_relative_permeability_by_magnetic_energy` (MagneticEnergy.cpp 47-55). -/
noncomputable def permeabilityByEnergy (saturation volume energy : ℝ) : ℝ :=
  0.5 / (mu0 * energy) * volume * saturation ^ 2

/-- `MagneticEnergy::get_gap_maximum_magnetic_energy` (MagneticEnergy.cpp 57-81), with the model of the gap. The area is read
before the model is called, without looking whether there is one (60). -/
noncomputable def gapEnergy (k : Kind) (g : Gap) (saturation : ℝ) (factor : Option ℝ) : Res ℝ :=
  match g.area with
  | none => .ub
  | some area => match factor with
    | some f => .ok (0.5 / mu0 * g.length * area / f * saturation ^ 2)
    | none => match gapReluctance k fresh g with
      | .ok a => .ok (0.5 / mu0 * g.length * area / a.factor * saturation ^ 2)
      | .throws => .throws
      | .notFinite => .notFinite
      | .ub => .ub

/-- `MagneticEnergy::calculate_gap_length_by_magnetic_energy` (MagneticEnergy.cpp 83-100). -/
noncomputable def lengthByEnergy (k : Kind) (g : Gap) (saturation energy : ℝ) : Res ℝ :=
  match g.area with
  | none => .ub
  | some area => match gapReluctance k fresh g with
    | .ok a => .ok (2 * energy * mu0 * a.factor / (area * saturation ^ 2))
    | .throws => .throws
    | .notFinite => .notFinite
    | .ub => .ub

/-- `MagneticEnergy::calculate_gap_length_by_saturation_constraint` (MagneticEnergy.cpp 102-126), for the effective area of the
core. -/
noncomputable def lengthBySaturation (k : Kind) (g : Gap) (effectiveArea target inductance peak : ℝ) : Res ℝ :=
  match g.area with
  | none => .ub
  | some area => match gapReluctance k fresh g with
    | .ok a => .ok (inductance * peak ^ 2 * mu0 * area * a.factor / (target ^ 2 * effectiveArea ^ 2))
    | .throws => .throws
    | .notFinite => .notFinite
    | .ub => .ub

/-- `maximumProportionMagneticFluxDensitySaturation` (Defaults.h 23). -/
noncomputable def proportionOfSaturation : ℝ := 0.7

/-- `Core::get_magnetic_flux_density_saturation` (Core.cpp 1865-1886), for the saturation read from the material. -/
noncomputable def saturationFor (material : ℝ) (proportion : Bool) : ℝ :=
  if proportion then proportionOfSaturation * material else material

/-- The energy of the gaps is added to that of the core (MagneticEnergy.cpp 145-148). -/
noncomputable def addGaps (k : Kind) (saturation : ℝ) : ℝ → List Gap → Res ℝ
  | total, [] => .ok total
  | total, g :: rest => match gapEnergy k g saturation none with
    | .ok e => addGaps k saturation (total + e) rest
    | .throws => .throws
    | .notFinite => .notFinite
    | .ub => .ub

/-- `MagneticEnergy::calculate_core_maximum_magnetic_energy` (MagneticEnergy.cpp 140-151). The proportion asked for is used for
the gaps; the core is asked without it (144), which takes the proportion (MagneticEnergy.h 40). -/
noncomputable def coreEnergy (k : Kind) (material permeability volume : ℝ) (gaps : List Gap) (proportion : Bool) : Res ℝ :=
  addGaps k (saturationFor material proportion) (ungappedEnergy (saturationFor material true) permeability volume) gaps

/-- The magnetizing current of the primary of an operating point: the peak already processed, and the data of its waveform. -/
structure MagnetizingCurrent where
  peak : Option ℝ
  waveform : List ℝ

/-- The greatest and the least of a list that is not empty (`std::max_element`, `std::min_element`). -/
noncomputable def greatest (x : ℝ) (l : List ℝ) : ℝ := l.foldl max x
noncomputable def least (x : ℝ) (l : List ℝ) : ℝ := l.foldl min x

/-- The peak of an operating point (MagneticEnergy.cpp 157-159, 185-209). A current that is not processed is processed first
(160-169), which is not modelled: its peak is then the processed one. -/
noncomputable def peakOf : Option MagnetizingCurrent → Res ℝ
  | none => .throws
  | some m => match m.peak with
    | some p => .ok p
    | none => match m.waveform with
      | [] => .throws
      | x :: l => .ok (max (greatest x l) (-(least x l)))

/-- The highest peak (MagneticEnergy.cpp 155-156, 210), from zero. -/
noncomputable def highest : ℝ → List (Option MagnetizingCurrent) → Res ℝ
  | top, [] => .ok top
  | top, m :: rest => match peakOf m with
    | .ok p => highest (max top p) rest
    | .throws => .throws
    | .notFinite => .notFinite
    | .ub => .ub

/-- A dimension with tolerance. -/
structure Dimension where
  minimum : Option ℝ
  nominal : Option ℝ
  maximum : Option ℝ

/-- `MagneticEnergy::calculate_required_magnetic_energy` (MagneticEnergy.cpp 153-232), for the required inductance and the
magnetizing current of each operating point. -/
noncomputable def requiredEnergy (inductance : Dimension) (points : List (Option MagnetizingCurrent)) : Res Dimension :=
  match highest 0 points with
  | .ok peak =>
    .ok ⟨inductance.minimum.map fun l => l * peak ^ 2 / 2, inductance.nominal.map fun l => l * peak ^ 2 / 2,
      inductance.maximum.map fun l => l * peak ^ 2 / 2⟩
  | .throws => .throws
  | .notFinite => .notFinite
  | .ub => .ub

end Verif.Reluctance
