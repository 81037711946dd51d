import Mathlib.Algebra.Order.Field.Basic
import Mathlib.Data.List.Sort

/-!
# The hysteresis loop of a core material

Model of src/physical_models/AmplitudePermeability.cpp: the major loop of Roshen, the loop for a peak of field strength or of flux density, and the
amplitude permeability taken from it.

Numbers are an ordered field: rounding is left out, and infinities and not-a-number are outcomes of their own.  What the material has at the
temperature, read by interpolation (src/constructive_models/Core.cpp 1865-1990), is given: a material without coercive force or remanence, for which the code
works (and sorts) with not-a-number values, is left out.
-/

namespace Verif.Hysteresis

variable {K : Type} [Field K] [LinearOrder K]

/-- What the material has at a temperature: saturation (field strength and flux density), coercive force and remanence
(src/physical_models/AmplitudePermeability.cpp 86-89). -/
structure Material (K : Type) where
  field : K
  flux : K
  coercive : K
  remanence : K
  deriving DecidableEq, Repr

/-- `a1`, `b1` and `b2` (src/physical_models/AmplitudePermeability.cpp 54-69). -/
structure Params (K : Type) where
  a1 : K
  b1 : K
  b2 : K
  deriving DecidableEq, Repr

/-- `get_major_loop_parameters` (src/physical_models/AmplitudePermeability.cpp 49-71); `none` where it divides by zero. -/
def majorLoop (m : Material K) : Option (Params K) :=
  if m.flux = 0 ∨ m.remanence = 0 ∨ m.field = 0 ∨ m.coercive = m.field then none
  else
    let b1 := (m.field / m.flux + m.coercive / m.flux - 0 / m.remanence - m.coercive / m.remanence) / (m.field - 0)
    let a1 := (m.coercive - m.remanence * b1 * m.coercive) / m.remanence
    some ⟨a1, b1, (-m.field + m.coercive - -m.flux * a1) / (-m.flux * |-m.field + m.coercive|)⟩

/-- The field strengths that are always looked at (src/physical_models/AmplitudePermeability.cpp 102-106, 110-114). -/
def fixedPoints (m : Material K) : List K :=
  [-m.field, -m.coercive, 0, m.coercive, m.field, m.field * (1 / 1000), -(m.field * (1 / 1000)), m.coercive * (1 / 10), -m.coercive * (1 / 10)]

/-- The field strengths around a peak (src/physical_models/AmplitudePermeability.cpp 117-136). -/
def peakPoints (h : K) : List K :=
  if h > 0 then
    [h * (1 / 1000), h * (1 / 100), h * (1 / 10), h * (1 / 2), h * (9 / 10), h * (95 / 100), h,
      -h * (1 / 1000), -h * (1 / 100), -h * (1 / 10), -h * (1 / 2), -h * (9 / 10), -h * (95 / 100), -h]
  else []

/-- The field strengths before they are sorted. -/
def rawPoints (m : Material K) (h : Option K) : List K := fixedPoints m ++ (h.map peakPoints).getD []

/-- How close two field strengths are taken as one (src/physical_models/AmplitudePermeability.cpp 141). -/
def close : K := 1 / 10 ^ 6

/-- `std::unique` from an element that is kept (src/physical_models/AmplitudePermeability.cpp 140-142): the comparison is with the last one kept, as
the libraries do it; the standard asks for an equivalence, which this is not. -/
def uniqueFrom (a : K) : List K → List K
  | [] => []
  | b :: l => if |a - b| < close then uniqueFrom a l else b :: uniqueFrom b l

/-- `std::unique` of a list. -/
def unique : List K → List K
  | [] => []
  | a :: l => a :: uniqueFrom a l

/-- The lower end is put back (src/physical_models/AmplitudePermeability.cpp 145-147), in a list that is never empty. -/
def boundedBelow (s : K) (l : List K) : List K := if (l.head?.any fun a => decide (a > -s)) then -s :: l else l

/-- The upper end is put back (src/physical_models/AmplitudePermeability.cpp 148-150). -/
def boundedAbove (s : K) (l : List K) : List K := if (l.getLast?.any fun a => decide (a < s)) then l ++ [s] else l

/-- The field strengths of the loop (src/physical_models/AmplitudePermeability.cpp 99-150). -/
def points (m : Material K) (h : Option K) : List K := boundedAbove m.field (boundedBelow m.field (unique ((rawPoints m h).insertionSort (· ≤ ·))))

/-- The branch of the half loop that a field strength is on (src/physical_models/AmplitudePermeability.cpp 159-164). -/
def slopeOf (m : Material K) (p : Params K) (h : K) : K := if h < -m.coercive then p.b2 else p.b1

/-- The upper path (src/physical_models/AmplitudePermeability.cpp 152-154, 158-165). -/
def upper (m : Material K) (p : Params K) (h : K) : K := (h + m.coercive) / (p.a1 + slopeOf m p h * |h + m.coercive|)

/-- The lower path (src/physical_models/AmplitudePermeability.cpp 152-154, 166-173). -/
def lower (m : Material K) (p : Params K) (h : K) : K :=
  if h < m.coercive then -((-h + m.coercive) / (p.a1 + p.b1 * |-h + m.coercive|))
  else -((-h + m.coercive) / (p.a1 + p.b2 * |-h + m.coercive|))

/-- A point of a path: field strength and flux density. -/
abbrev Point (K : Type) := K × K

/-- Both paths, with a point of each at every field strength. -/
structure Loop (K : Type) where
  upper : List (Point K)
  lower : List (Point K)
  deriving DecidableEq, Repr

/-- The paths of the major loop (src/physical_models/AmplitudePermeability.cpp 190-193). -/
def major (m : Material K) (p : Params K) (hs : List K) : Loop K := ⟨hs.map fun h => (h, upper m p h), hs.map fun h => (h, lower m p h)⟩

/-- Both paths moved towards each other (src/physical_models/AmplitudePermeability.cpp 214-219, 259-264). -/
def Loop.shift (l : Loop K) (d : K) : Loop K := ⟨l.upper.map fun q => (q.1, q.2 - d), l.lower.map fun q => (q.1, q.2 + d)⟩

/-- Only some of the points of each path (src/physical_models/AmplitudePermeability.cpp 221-237, 270-286). -/
def Loop.keep (l : Loop K) (f : Point K → Bool) : Loop K := ⟨l.upper.filter f, l.lower.filter f⟩

/-- The nearest of the field strengths, the first if there are several (src/physical_models/AmplitudePermeability.cpp 201-209). -/
def nearest (h : K) : K → List K → K
  | best, [] => best
  | best, x :: l => nearest h (if |x - h| < |best - h| then x else best) l

/-- The loop for a peak of field strength (src/physical_models/AmplitudePermeability.cpp 198-238). -/
def forField (m : Material K) (p : Params K) (hs : List K) (h : K) : Loop K :=
  ((major m p hs).shift (|upper m p (nearest h (hs.headD 0) hs.tail) - lower m p (nearest h (hs.headD 0) hs.tail)| / 2)).keep fun q => decide (q.1 ≤ h) && decide (q.1 ≥ -h)

/-- The distances between the paths, each with the flux density of the upper one (src/physical_models/AmplitudePermeability.cpp 249-252). -/
def gaps (l : Loop K) : List (K × K) := List.zipWith (fun u d => (|u.2 - d.2|, u.2)) l.upper l.lower

/-- The first of the smallest (`std::min_element`, src/physical_models/AmplitudePermeability.cpp 254-255). -/
def smallest : K × K → List (K × K) → K × K
  | best, [] => best
  | best, x :: l => smallest (if x.1 < best.1 then x else best) l

/-- How far the flux density where the paths are nearest is from the peak (src/physical_models/AmplitudePermeability.cpp 256-257). -/
def missing (l : Loop K) (b : K) : K := |(smallest ((gaps l).headD (0, 0)) (gaps l).tail).2| - b

/-- The loop that moves the paths (src/physical_models/AmplitudePermeability.cpp 248-268), with the tries left, those made and the tolerance. -/
def search (b : K) : ℕ → ℕ → K → K → Loop K → Loop K
  | 0, _, _, _, l => l
  | left + 1, made, tolerance, difference, l =>
    if |difference| > tolerance then
      search b left (made + 1) (tolerance + ((made + 1 : ℕ) : K) * (1 / 10000)) (missing l b) (l.shift (missing l b / 16))
    else l

/-- The loop for a peak of flux density (src/physical_models/AmplitudePermeability.cpp 239-287). -/
def forFlux (m : Material K) (p : Params K) (hs : List K) (b : K) : Loop K :=
  (search b 10 0 (1 / 1000) b (major m p hs)).keep fun q => decide (q.2 ≤ b) && decide (q.2 ≥ -b)

/-- Is the flux density a number at a field strength, on both paths? -/
def isNumber (m : Material K) (p : Params K) (h : K) : Bool :=
  decide (p.a1 + slopeOf m p h * |h + m.coercive| ≠ 0) &&
    decide (p.a1 + (if h < m.coercive then p.b1 else p.b2) * |-h + m.coercive| ≠ 0)

/-- What a call does: it answers, throws, or works with infinities or not-a-number values. -/
inductive Res (α : Type) where
  | ok (a : α)
  | throws
  | notFinite
  deriving DecidableEq, Repr

/-- What is asked for: a peak of flux density or of field strength, or both. -/
structure Asked (K : Type) where
  flux : Option K
  field : Option K

/-- `get_hysteresis_loop` (src/physical_models/AmplitudePermeability.cpp 81-290), for a material that has everything: without peaks both paths are
empty. -/
def loop (m : Material K) (q : Asked K) : Res (Loop K) :=
  match majorLoop m with
  | none => .notFinite
  | some p =>
    let hs := points m q.field
    if hs.all (isNumber m p) then
      match q.field, q.flux with
      | some h, _ => .ok (forField m p hs h)
      | none, some b => .ok (forFlux m p hs b)
      | none, none => .ok ⟨[], []⟩
    else .notFinite

/-- The slope of the first two points, over the permeability of vacuum (src/physical_models/AmplitudePermeability.cpp 22-31, 35-44); the permeability
is a parameter. -/
def firstSlope (mu0 : K) : List (Point K) → Option K
  | a :: b :: _ => if |b.1 - a.1| < 1 / 10 ^ 12 then none else some (|b.2 - a.2| / |b.1 - a.1| / mu0)
  | _ => none

/-- `get_amplitude_permeability` (src/physical_models/AmplitudePermeability.cpp 12-47) for a material that has everything: the field strength is used
if both are given. -/
def amplitude (mu0 : K) (m : Material K) (q : Asked K) : Res (Option K) :=
  if q.field = none ∧ q.flux = none then .throws
  else match loop m ⟨if q.field.isSome then none else q.flux, q.field⟩ with
    | .ok l => .ok (firstSlope mu0 l.upper)
    | .throws => .throws
    | .notFinite => .notFinite

end Verif.Hysteresis
