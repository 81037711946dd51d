import Verif.Scoring.Model
import Mathlib.Algebra.Order.Floor.Ring
import Mathlib.Data.List.Sort

/-! # Model of the wire adviser (src/advisers/WireAdviser.cpp)

Numbers are an ordered field `K`: sums have no rounding; NaN and the infinities are explicit where a filter may answer them. What
the physical models answer about a wire (effective conducting area, resistance, skin losses, insulation) is handed over in `Env`;
π and the square root are parameters. A `Section` has two dimensions and an `int` holds the sums and products of turns and
parallels. Strands of litz wires are resolved already (lines 664-668 only copy them into the wire). -/

namespace Verif.WireAdvice

open Verif.Scoring (Num)

/-- Outcome: a value, an exception or undefined behaviour. -/
inductive Res (α : Type) where
  | ok (a : α)
  | throws
  | ub
  deriving DecidableEq, Repr

/-- What follows a value. -/
def Res.bind {α β : Type} : Res α → (α → Res β) → Res β
  | .ok a, f => f a
  | .throws, _ => .throws
  | .ub, _ => .ub

/-- A value that may be missing: an exception without it. -/
def orThrow {α : Type} : Option α → Res α
  | some a => .ok a
  | none => .throws

/-- `WireType`. -/
inductive WType
  | round | litz | rectangular | foil | planar
  deriving DecidableEq, Repr

/-- `CoordinateSystem`. -/
inductive Coord
  | cartesian | polar
  deriving DecidableEq, Repr

/-- What is used of a wire. Dimensions are resolved ones. `diameter` is that of the conductor, or of a strand for a litz wire;
`envelope` what `calculate_outer_diameter` answers for a litz wire; `hasArea` is whether the wire has a conducting area. -/
structure Wire (K : Type) where
  name : Option String := none
  type : WType
  standard : Option Nat := none
  diameter : Option K := none
  width : Option K := none
  height : Option K := none
  outerDiameter : Option K := none
  outerWidth : Option K := none
  outerHeight : Option K := none
  envelope : Option K := none
  conductors : Option ℕ := none
  hasArea : Bool := true
  deriving DecidableEq, Repr

/-- A winding with a wire: the wire and the number of parallels. -/
structure Cand (K : Type) where
  wire : Wire K
  parallels : ℤ
  deriving DecidableEq, Repr

/-- The section: its coordinates, if it has them, and dimensions. -/
structure Section (K : Type) where
  coord : Option Coord
  first : K
  second : K

/-- The settings of the adviser (`wire_adviser_include_*`, `wire_adviser_allow_rectangular_in_toroidal_cores`). -/
structure Allowed where
  foil : Bool
  planar : Bool
  rectangular : Bool
  litz : Bool
  round : Bool
  rectangularInToroid : Bool

/-- `current.get_processed()`: the effective frequency and the root mean square, if present. -/
structure Processed (K : Type) where
  frequency : Option K
  rms : Option K

/-- The current: its processed data and whether it has harmonics. -/
structure Current (K : Type) where
  processed : Option (Processed K)
  harmonics : Bool

/-- The members of the adviser: the density, the number of parallels, the standard of all wires and whether there are
requirements of insulation. -/
structure Config (K : Type) where
  density : K
  maxParallels : ℤ
  common : Option Nat
  insulation : Bool

/-- What other models answer. `none` is an exception. -/
structure Env (K : Type) where
  pi : K
  /-- `calculate_effective_conducting_area` at a frequency -/
  area : Wire K → K → Option K
  /-- `calculate_effective_resistance_per_meter` at a frequency -/
  resistance : Wire K → K → Option (Num K)
  /-- `calculate_skin_effect_losses_per_meter` -/
  skin : Wire K → Option (Num K)
  /-- `MagneticFilterSolidInsulationRequirements::evaluate_magnetic` (modelled in `Filters.Insulation`) -/
  insulated : Wire K → Option Bool
  /-- `wound_distance_to_angle` -/
  angle : K → K → K

/-- What is asked: the turns of the winding and the number of sections (`uint8_t`). -/
structure Asked where
  turns : ℤ
  sections : ℕ

variable {K : Type} [Field K] [LinearOrder K]

/-! ## Wires -/

/-- `get_maximum_outer_width` (src/constructive_models/Wire.cpp 1502-1530). -/
def maxWidth (w : Wire K) : Option K :=
  match w.type with
  | .litz => w.outerDiameter.or w.envelope
  | .round => w.outerDiameter.or w.diameter
  | _ => w.outerWidth.or w.width

/-- `get_maximum_outer_height` (src/constructive_models/Wire.cpp 1532-1556). -/
def maxHeight (w : Wire K) : Option K :=
  match w.type with
  | .litz => w.outerDiameter.or w.envelope
  | .round => w.outerDiameter.or w.diameter
  | _ => (w.outerHeight.or w.height).or (some 0)

/-- `get_minimum_conducting_dimension` (src/constructive_models/Wire.cpp 1600-1617). -/
def smallest (w : Wire K) : Option K :=
  match w.type with
  | .litz => w.diameter
  | .round => w.diameter
  | .foil => w.width
  | _ => w.height

/-- `cut_foil_wire_to_section` and `cut_planar_wire_to_section` (src/constructive_models/Wire.cpp 1634-1663), for wires of those types;
the margins are 5 % (src/Constants.h 75-76). -/
def cut (sec : Section K) (w : Wire K) : Wire K :=
  match w.type with
  | .foil => { w with height := some (sec.second * (1 - 1 / 20)), outerWidth := w.width, outerHeight := some (sec.second * (1 - 1 / 20)) }
  | .planar =>
    { w with
      width := some (sec.first * (1 - 1 / 20)), outerWidth := some (sec.first * (1 - 1 / 20)), outerHeight := w.height
      hasArea := w.hasArea || w.height.isSome }
  | _ => w

/-- Is a rectangular wire accepted in the section? (src/advisers/WireAdviser.cpp 369, 673) -/
def rectangularAllowed (s : Allowed) (sec : Section K) : Bool :=
  s.rectangular && (s.rectangularInToroid || sec.coord == some .cartesian)

/-- Is the type of a wire left out by the settings? (src/advisers/WireAdviser.cpp 671-675) -/
def excluded (s : Allowed) (sec : Section K) (t : WType) : Bool :=
  (!s.foil && t == .foil) || (!s.planar && t == .planar) || (!rectangularAllowed s sec && t == .rectangular) ||
  (!s.litz && t == .litz) || (!s.round && t == .round)

/-! ## Which wires are looked at -/

/-- The test of the settings over the database (src/advisers/WireAdviser.cpp 367-371). -/
def included (s : Allowed) (sec : Section K) (t : WType) : Bool :=
  (s.foil || t != .foil) && (s.planar || t != .planar) && (rectangularAllowed s sec || t != .rectangular) &&
  (s.litz || t != .litz) && (s.round || t != .round)

/-- The test of the standard (src/advisers/WireAdviser.cpp 373-378, 405-408). -/
def sameStandard (common : Option Nat) (w : Wire K) : Bool :=
  match common, w.standard with
  | some c, some s => s == c
  | _, _ => true

/-- The wires of the database that are looked at (src/advisers/WireAdviser.cpp 366-380). -/
def fromDatabase (s : Allowed) (sec : Section K) (common : Option Nat) (db : List (Wire K)) : List (Wire K) :=
  db.filter (fun w => included s sec w.type && sameStandard common w)

/-- The wires of the database when the type of wire is constrained (src/advisers/WireAdviser.cpp 402-410). -/
def constrained (accepts : WType → Bool) (common : Option Nat) (db : List (Wire K)) : List (Wire K) :=
  db.filter (fun w => accepts w.type && sameStandard common w)

/-! ## Candidates -/

/-- The effective frequency (src/advisers/WireAdviser.cpp 188-191, 273-276): `get_processed()->` without looking first. -/
def frequencyOf (c : Current K) : Res K :=
  match c.processed with
  | none => .ub
  | some p => orThrow p.frequency

/-- `int(…)` of a number with no fractional part: it must be an `int`. -/
def toInt (z : ℤ) : Res ℤ := if -(2 ^ 31) ≤ z ∧ z < 2 ^ 31 then .ok z else .ub

/-- `calculate_number_parallels_needed` of a current (src/constructive_models/Wire.cpp 1496-1500, 1347-1360, 1468-1470): without area or
without density the quotient is infinite or NaN, which is no `int`. -/
def needed [FloorRing K] (e : Env K) (density : K) (c : Current K) (w : Wire K) : Res ℤ :=
  match c.processed with
  | none => .throws
  | some p => match p.frequency, p.rms with
    | some f, some rms => (orThrow (e.area w f)).bind fun a =>
        if a = 0 ∨ density = 0 then .ub else toInt ⌈rms / a / density⌉
    | _, _ => .throws

/-- The wire after asking for its parallels (src/constructive_models/Wire.cpp 1417-1427): the wire is handed by reference and given a
conducting area, unless the frequency is zero. -/
def asked (c : Current K) (w : Wire K) : Wire K :=
  match c.processed with
  | some ⟨some f, _⟩ => { w with hasArea := w.hasArea || decide (f ≠ 0) }
  | _ => w

/-- The candidates of a wire with the parallels it needs and one more (src/advisers/WireAdviser.cpp 697-703). -/
def pair (maxParallels : ℤ) (w : Wire K) (n : ℤ) : List (Cand K) :=
  ⟨w, n⟩ :: if n < maxParallels then [⟨w, n + 1⟩] else []

/-- One turn of the loop of `create_dataset` (src/advisers/WireAdviser.cpp 671-703). -/
def offer [FloorRing K] (s : Allowed) (cfg : Config K) (e : Env K) (sec : Section K) (c : Current K) (w : Wire K) : Res (List (Cand K)) :=
  if excluded s sec w.type then .ok []
  else if w.type = .rectangular then .ok (pair cfg.maxParallels w 1)
  else (needed e cfg.density c (cut sec w)).bind fun n =>
    if cfg.maxParallels < n then .ok [] else .ok (pair cfg.maxParallels (asked c (cut sec w)) n)

/-- `create_dataset` (src/advisers/WireAdviser.cpp 647-707), the wires that are made up being in the list already. -/
def dataset [FloorRing K] (s : Allowed) (cfg : Config K) (e : Env K) (sec : Section K) (c : Current K) : List (Wire K) → Res (List (Cand K))
  | [] => .ok []
  | w :: ws => (offer s cfg e sec c w).bind fun a => (dataset s cfg e sec c ws).bind fun b => .ok (a ++ b)

/-! ## Filters -/

/-- `MagneticFilterAreaNoParallels::evaluate_magnetic` of a winding (src/advisers/MagneticFilterArea.cpp 287-312). -/
def noParallels (cfg : Config K) (e : Env K) (sec : Section K) (turns : ℤ) (c : Cand K) : Res (Option (Num K)) :=
  if c.wire.type = .foil ∧ cfg.maxParallels < c.parallels * turns then .ok none
  else (orThrow (maxWidth c.wire)).bind fun w => (orThrow (maxHeight c.wire)).bind fun h =>
    if sec.coord = none ∨ sec.coord = some .cartesian then
      if w < sec.first ∧ h < sec.second then .ok (some (.fin 0)) else .ok none
    else if w < sec.first ∧ e.angle h w < sec.second then .ok (some (.fin 0)) else .ok none

/-- The area of the section (src/advisers/WireAdviser.cpp 140-146, 710-717). -/
def sectionArea (pi : K) (sec : Section K) : K :=
  if sec.coord = none ∨ sec.coord = some .cartesian then sec.first * sec.second
  else pi * sec.first ^ 2 * sec.second / 360

/-- The area all turns of a section need (src/advisers/MagneticFilterArea.cpp 342-344, src/advisers/WireAdviser.cpp 724-726). -/
def neededArea (q : Asked) (c : Cand K) (w h : K) : K := w * h * ((c.parallels * q.turns : ℤ) / (q.sections : K))

/-- `MagneticFilterAreaWithParallels::evaluate_magnetic` of a winding (src/advisers/MagneticFilterArea.cpp 337-364). Without sections the
area is infinite or NaN (for numbers of parallels and turns that are not negative), and so is the part that overflows a section
without area: then the winding does not fit. -/
def withParallels (e : Env K) (sec : Section K) (q : Asked) (allowNotFit : Bool) (c : Cand K) : Res (Option (Num K)) :=
  if c.wire.hasArea = false then .throws
  else (orThrow (maxWidth c.wire)).bind fun w => (orThrow (maxHeight c.wire)).bind fun h =>
    if q.sections = 0 then .ok none
    else if neededArea q c w h < sectionArea e.pi sec then .ok (some (.fin 1))
    else if allowNotFit ∧ sectionArea e.pi sec ≠ 0 ∧ (neededArea q c w h - sectionArea e.pi sec) / sectionArea e.pi sec < 1 / 2 then
      .ok (some (.fin (1 - (neededArea q c w h - sectionArea e.pi sec) / sectionArea e.pi sec)))
    else .ok none

/-- The filter by insulation: no score (src/advisers/MagneticFilter.cpp 194-271). -/
def insulation (e : Env K) (c : Cand K) : Res (Option (Num K)) :=
  (orThrow (e.insulated c.wire)).bind fun b => .ok (if b then some (.fin 0) else none)

/-- `MagneticFilterEffectiveResistance::evaluate_magnetic` of a winding (src/advisers/MagneticFilterImpedance.cpp 309-318). -/
def resistance (e : Env K) (f : K) (c : Cand K) : Res (Option (Num K)) :=
  (orThrow (e.resistance c.wire f)).bind fun r => .ok (some r)

/-- `MagneticFilterSkinLossesDensity::evaluate_magnetic` of a winding (src/advisers/MagneticFilter.cpp 492-498). -/
def skinLosses (e : Env K) (c : Cand K) : Res (Option (Num K)) :=
  (orThrow (e.skin c.wire)).bind fun r => .ok (some r)

/-- A quotient of doubles. -/
def divide (a b : K) : Num K :=
  if b = 0 then (if 0 < a then .pinf else if a < 0 then .ninf else .nan) else .fin (a / b)

/-- A product with a square, of doubles. -/
def timesSquare : Num K → K → Num K
  | .fin x, n => .fin (x * n ^ 2)
  | .nan, _ => .nan
  | v, n => if n = 0 then .nan else v

/-- `MagneticFilterProximityFactor::evaluate_magnetic` of a winding (src/advisers/MagneticFilterImpedance.cpp 342-355). The adviser hands the
effective frequency where the filter wants a depth of skin (src/advisers/WireAdviser.cpp 282). -/
def proximity (turns : ℤ) (depth : K) (c : Cand K) : Res (Option (Num K)) :=
  (orThrow (smallest c.wire)).bind fun d =>
    .ok (some (timesSquare (divide d depth) (((c.wire.conductors.getD 1 : ℕ) : ℤ) * c.parallels * turns : ℤ)))

/-- A candidate in front of the others, if it is kept. -/
def push (c : Cand K × K) (rest : List ((Cand K × K) × Num K)) : Option (Num K) → List ((Cand K × K) × Num K)
  | none => rest
  | some v => (c, v) :: rest

/-- The candidates a filter keeps, with what it answers (src/advisers/WireAdviser.cpp 101-120 and the same in the other filters). -/
def keep (eval : Cand K → Res (Option (Num K))) : List (Cand K × K) → Res (List ((Cand K × K) × Num K))
  | [] => .ok []
  | c :: cs => (eval c.1).bind fun r => (keep eval cs).bind fun rest =>
      .ok (push c rest r)

/-- The test of `normalize_scoring` over the scores (src/advisers/WireAdviser.cpp 57-80): an exception unless all are finite. -/
def finite : List ((Cand K × K) × Num K) → Res (List ((Cand K × K) × K))
  | [] => .ok []
  | (c, .fin v) :: cs => (finite cs).bind fun rest => .ok ((c, v) :: rest)
  | _ :: _ => .throws

/-- The largest of a list that is not empty. -/
def greatest : K → List K → K
  | m, [] => m
  | m, x :: xs => greatest (if m < x then x else m) xs

/-- The smallest of a list that is not empty. -/
def least : K → List K → K
  | m, [] => m
  | m, x :: xs => least (if x < m then x else m) xs

/-- `normalize_scoring` of Utils.cpp with weight one and no logarithm (src/support/Utils.cpp 3067-3116), of one of the values. -/
def normal (invert : Bool) (vs : List K) (v : K) : K :=
  match vs with
  | [] => 0
  | x :: xs =>
    if greatest x xs ≠ least x xs then
      if invert then 1 * (1 - (v - least x xs) / (greatest x xs - least x xs))
      else 1 * (v - least x xs) / (greatest x xs - least x xs)
    else 1

/-- The stable sort by descending score (src/advisers/WireAdviser.cpp 87-89). -/
def sorted (l : List (Cand K × K)) : List (Cand K × K) := l.insertionSort (fun a b => b.2 ≤ a.2)

/-- The scores added and the candidates sorted (src/advisers/WireAdviser.cpp 82-89). -/
def rank (invert : Bool) (l : List ((Cand K × K) × K)) : List (Cand K × K) :=
  sorted (l.map fun p => (p.1.1, p.1.2 + normal invert (l.map Prod.snd) p.2))

/-- One of the filters (src/advisers/WireAdviser.cpp 92-348). -/
def step (invert : Bool) (eval : Cand K → Res (Option (Num K))) (l : List (Cand K × K)) : Res (List (Cand K × K)) :=
  (keep eval l).bind fun k => (finite k).bind fun v => .ok (rank invert v)

/-! ## The adviser -/

/-- `wire_outer_metric` (src/advisers/WireAdviser.cpp 26-44); `none` is infinity. -/
def metric (c : Cand K) : Option K :=
  match c.wire.outerDiameter, c.wire.outerWidth, c.wire.outerHeight with
  | some d, _, _ => some d
  | none, some w, some h => some (w + h)
  | none, some w, none => some w
  | none, none, some h => some h
  | none, none, none => none

/-- No larger than. -/
abbrev metricLe (a b : Option K) : Prop :=
  match a, b with
  | some x, some y => x ≤ y
  | none, some _ => False
  | _, none => True

/-- Is the order of two candidates not to be changed? (src/advisers/WireAdviser.cpp 49-52) -/
abbrev before (a b : Cand K × K) : Prop := b.2 < a.2 ∨ (a.2 = b.2 ∧ metricLe (metric a.1) (metric b.1))

instance (a b : Option K) : Decidable (metricLe a b) := by
  unfold metricLe; cases a <;> cases b <;> infer_instance

/-- `break_score_ties` (src/advisers/WireAdviser.cpp 46-53). -/
def breakTies (l : List (Cand K × K)) : List (Cand K × K) := l.insertionSort before

/-- `set_maximum_area_proportion` (src/advisers/WireAdviser.cpp 709-735), for a section with area and at least one section. -/
def proportions (e : Env K) (sec : Section K) (q : Asked) : K → List (Cand K × K) → Res K
  | m, [] => .ok m
  | m, c :: cs =>
    if c.1.wire.hasArea = false then .throws
    else (orThrow (maxWidth c.1.wire)).bind fun w => (orThrow (maxHeight c.1.wire)).bind fun h =>
      proportions e sec q (max m (neededArea q c.1 w h / sectionArea e.pi sec)) cs

/-- A filter that is only applied on a condition (src/advisers/WireAdviser.cpp 751-754, 791-794, 811-814). -/
def stepIf (b invert : Bool) (eval : Cand K → Res (Option (Num K))) (l : List (Cand K × K)) : Res (List (Cand K × K)) :=
  if b then step invert eval l else .ok l

/-- The filter by area, once more if nothing fits (src/advisers/WireAdviser.cpp 796-805). -/
def fitting (e : Env K) (sec : Section K) (q : Asked) (l : List (Cand K × K)) : Res (List (Cand K × K)) :=
  (step false (withParallels e sec q false) l).bind fun fit =>
    if fit.length = 0 then step false (withParallels e sec q true) l else .ok fit

/-- The filters by resistance, skin losses and proximity (src/advisers/WireAdviser.cpp 747-757, 807-817). -/
def scored (e : Env K) (c : Current K) (turns : ℤ) (l : List (Cand K × K)) : Res (List (Cand K × K)) :=
  (frequencyOf c).bind fun f => (step true (resistance e f) l).bind fun l₁ =>
    (stepIf c.harmonics true (skinLosses e) l₁).bind fun l₂ => step true (proximity turns f) l₂

/-- The end of both searches (src/advisers/WireAdviser.cpp 759-771, 819-831): the results and the largest part of the section, from
the one the adviser has. -/
def finish (e : Env K) (sec : Section K) (q : Asked) (maximum : ℕ) (previous : K) (l : List (Cand K × K)) : Res (List (Cand K × K) × K) :=
  (proportions e sec q previous ((breakTies l).take maximum)).bind fun p => .ok ((breakTies l).take maximum, p)

/-- `get_advised_wire` of a list of wires (src/advisers/WireAdviser.cpp 774-832): the results and what
`get_maximum_area_proportion` answers then. -/
def advise [FloorRing K] (s : Allowed) (cfg : Config K) (e : Env K) (sec : Section K) (c : Current K) (q : Asked) (maximum : ℕ)
    (wires : List (Wire K)) : Res (List (Cand K × K) × K) :=
  (dataset s cfg e sec c wires).bind fun d =>
    (step true (noParallels cfg e sec q.turns) (d.map fun x => (x, 0))).bind fun l₁ =>
      (stepIf cfg.insulation true (insulation e) l₁).bind fun l₂ =>
        (fitting e sec q l₂).bind fun l₃ => (scored e c q.turns l₃).bind fun l₄ => finish e sec q maximum 0 l₄

/-- `get_advised_wire` without a list of wires (src/advisers/WireAdviser.cpp 350-382, 384-413); `types` is the constraint of the type of
wire, `none` if it is empty. -/
def adviseFrom [FloorRing K] (s : Allowed) (cfg : Config K) (e : Env K) (sec : Section K) (c : Current K) (q : Asked) (maximum : ℕ)
    (types : Option (WType → Bool)) (db : List (Wire K)) : Res (List (Cand K × K) × K) :=
  advise s cfg e sec c q maximum (match types with
    | none => fromDatabase s sec cfg.common db
    | some accepts => constrained accepts cfg.common db)

/-! ## Planar wires -/

/-- A weight of copper in ounces, as a thickness (src/advisers/WireAdviser.cpp 446-451). -/
def oz (n : ℕ) : K := 35 * n / 10 ^ 6

/-- `calculate_planar_thickness_penalty` (src/advisers/WireAdviser.cpp 443-495). -/
def penalty (h : K) : K :=
  if h ≤ oz 1 then 0
  else if h ≤ oz 2 then 8 / 100 * ((h - oz 1) / (oz 2 - oz 1))
  else if h ≤ oz 3 then 8 / 100 + 10 / 100 * ((h - oz 2) / (oz 3 - oz 2))
  else if h ≤ oz 4 then 18 / 100 + 12 / 100 * ((h - oz 3) / (oz 4 - oz 3))
  else if h ≤ oz 6 then 30 / 100 + 20 / 100 * ((h - oz 4) / (oz 6 - oz 4))
  else 50 / 100 + 50 / 100 * min 1 ((h - oz 6) / (oz 10 - oz 6)) * min 1 ((h - oz 6) / (oz 10 - oz 6))

/-- The distances of the adviser: from the border to the wire and between wires. -/
structure Distances (K : Type) where
  border : K
  between : K

/-- The width left for copper with some turns in the section (src/advisers/WireAdviser.cpp 511, 554). -/
def copperWidth (dist : Distances K) (sec : Section K) (turns : ℤ) : K :=
  sec.first - 2 * dist.border - ((turns - 1 : ℤ) : K) * dist.between

/-- A planar wire with the width of a turn (src/advisers/WireAdviser.cpp 525-533, 563-570). -/
def sized (w : Wire K) (h width : K) : Wire K :=
  { w with outerHeight := some h, width := some width, outerWidth := some width, hasArea := true }

/-- A planar wire when its parallels are asked for (src/advisers/WireAdviser.cpp 525-528, 563-566). -/
def probe (w : Wire K) (h width : K) : Wire K := { w with outerHeight := some h, width := some width }

/-- The name of a planar wire with parallels (src/advisers/WireAdviser.cpp 522, 539). -/
def parallelName (w : Wire K) (n : ℕ) : String := w.name.getD "Planar" ++ " x" ++ toString n ++ " parallels"

/-- The numbers of parallels from one to another. -/
def upTo (first last : ℕ) : List ℕ := (List.range (last + 1 - first)).map (first + ·)

/-- `std::max(size_t(2), static_cast<size_t>(minParallelsNeeded))`: a negative number is more than any number of parallels
(src/advisers/WireAdviser.cpp 529). -/
def firstParallels (maxParallels : ℕ) (n : ℤ) : ℕ := if n < 0 then maxParallels + 1 else max 2 n.toNat

/-- The candidates with parallels of a wire (src/advisers/WireAdviser.cpp 518-548). -/
def planarParallel [FloorRing K] (e : Env K) (density : K) (maxParallels : ℕ) (sec : Section K) (c : Current K) (width : K) (w : Wire K) :
    Res (List (Cand K × K)) :=
  (orThrow w.height).bind fun h =>
    if h < sec.second then
      (needed e density c (probe w h width)).bind fun n =>
        .ok ((upTo (firstParallels maxParallels n) maxParallels).map fun k =>
          (⟨{ sized w h width with name := some (parallelName w k) }, k⟩, -penalty h))
    else .ok []

/-- The candidate with no parallels of a wire (src/advisers/WireAdviser.cpp 560-579). -/
def planarSingle [FloorRing K] (e : Env K) (density : K) (sec : Section K) (c : Current K) (width : K) (w : Wire K) :
    Res (List (Cand K × K)) :=
  (orThrow w.height).bind fun h =>
    if h < sec.second then
      (needed e density c (probe w h width)).bind fun n =>
        .ok (if n ≤ 1 then [(⟨sized w h width, 1⟩, -penalty h)] else [])
    else .ok []

/-- A loop over the wires. -/
def each (f : Wire K → Res (List (Cand K × K))) : List (Wire K) → Res (List (Cand K × K))
  | [] => .ok []
  | w :: ws => (f w).bind fun a => (each f ws).bind fun b => .ok (a ++ b)

/-- `ceil(double(turns) / numberSections)` (src/advisers/WireAdviser.cpp 553). -/
def turnsPerSection [FloorRing K] (q : Asked) : ℤ := ⌈(q.turns : K) / (q.sections : K)⌉

/-- `create_planar_dataset` (src/advisers/WireAdviser.cpp 497-582), for a winding with turns, at least one section and a number of parallels
that is not negative; `wires` are the planar wires of the database. -/
def planarDataset [FloorRing K] (e : Env K) (density : K) (maxParallels : ℕ) (dist : Distances K) (sec : Section K) (c : Current K) (q : Asked)
    (wires : List (Wire K)) : Res (List (Cand K × K)) :=
  if copperWidth dist sec q.turns < 0 then .ok []
  else (each (planarParallel e density maxParallels sec c (copperWidth dist sec q.turns / (q.turns : K))) wires).bind fun a =>
    if copperWidth dist sec (turnsPerSection (K := K) q) < 0 then .ok a
    else (each (planarSingle e density sec c (copperWidth dist sec (turnsPerSection (K := K) q) / (turnsPerSection (K := K) q : K))) wires).bind
      fun b => .ok (a ++ b)

/-- `get_advised_planar_wire` (src/advisers/WireAdviser.cpp 737-772), from the largest part of a section the adviser has. -/
def advisePlanar [FloorRing K] (e : Env K) (density : K) (maxParallels : ℕ) (dist : Distances K) (sec : Section K) (c : Current K) (q : Asked)
    (maximum : ℕ) (wires : List (Wire K)) (previous : K) : Res (List (Cand K × K) × K) :=
  (planarDataset e density maxParallels dist sec c q wires).bind fun d => (scored e c q.turns d).bind fun l => finish e sec q maximum previous l

/-! ## Litz wires that are made up -/

/-- The resistivity of copper that is used (src/advisers/WireAdviser.cpp 609). -/
def copper (temperature : K) : K := 1724 / 10 ^ 11 * (1 + 393 / 10 ^ 5 * (temperature - 20))

/-- A number of strands (src/advisers/WireAdviser.cpp 628): `ceil` and the conversion to `int64_t`. -/
def strandsFor [FloorRing K] (target strandArea : K) : Res ℤ :=
  if ⌈target / strandArea⌉ < 2 ^ 63 then .ok (max 3 ⌈target / strandArea⌉) else .ub

/-- One of the divisors of the depth of skin (src/advisers/WireAdviser.cpp 624-643): the diameter of the strand and the number of strands. -/
def litzOf [FloorRing K] (pi skin target : K) (k : ℕ) : Res (Option (K × ℤ)) :=
  if skin / k < 25 / 10 ^ 6 then .ok none
  else (strandsFor target (pi * (skin / k) * (skin / k) / 4)).bind fun n => .ok (if 2000 < n then none else some (skin / k, n))

/-- The loop over the divisors (src/advisers/WireAdviser.cpp 624). -/
def litzLoop [FloorRing K] (pi skin target : K) : List ℕ → Res (List (K × ℤ))
  | [] => .ok []
  | k :: ks => (litzOf pi skin target k).bind fun a => (litzLoop pi skin target ks).bind fun b => .ok (a.toList ++ b)

/-- `synthesize_litz_candidates` (src/advisers/WireAdviser.cpp 595-645), as the diameters and numbers of strands handed to
`create_quick_litz_wire`; `root` is the square root. That of a negative number is NaN, which passes every comparison here and
then is converted to an integer. -/
def synthesize [FloorRing K] (pi : K) (root : K → K) (includeLitz : Bool) (c : Current K) (temperature density : K) : Res (List (K × ℤ)) :=
  if includeLitz = false then .ok []
  else match c.processed with
    | some ⟨some f, some rms⟩ =>
      if f ≤ 0 ∨ rms ≤ 0 ∨ density ≤ 0 then .ok []
      else if copper temperature < 0 then .ub
      else if root (4 * (rms / density) / pi) ≤ root (copper temperature / (pi * f * (4 / 10 ^ 7 * pi))) then .ok []
      else litzLoop pi (root (copper temperature / (pi * f * (4 / 10 ^ 7 * pi)))) (rms / density) [2, 3, 4]
    | _ => .ok []

end Verif.WireAdvice
