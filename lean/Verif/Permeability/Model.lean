import Mathlib.Algebra.Order.Field.Rat
import Mathlib.Algebra.Order.Ring.Abs
import Mathlib.Algebra.Order.Ring.Rat

/-!
# Model of the permeability of materials and of the caches of its curves

Source: `/repo/src/physical_models/InitialPermeability.cpp`, `InitialPermeability.h` 21-23,
`ComplexPermeability.cpp` 228-335, `ComplexPermeability.h` 10-18 and `CoreLosses.cpp` 2695-2767, `CoreLosses.h` 26.

Numbers are exact rationals: NaN and infinity only appear where the code divides by zero.  `tk::spline` is not in
the repository; it is the parameter `spline` of `Env`, and building one from fewer than three points is undefined
(its assertion, quoted by the comments at InitialPermeability.cpp:746 and CoreLosses.cpp:2737).  The order in which
`std::sort` leaves points at equal abscissas is unspecified in C++; the model keeps their order.
-/

namespace Verif.Permeability

/-- Exceptions thrown. -/
inductive Err
  | missingData      -- InvalidInputException / MaterialDataMissingException
  | badAccess        -- std::bad_optional_access, std::bad_variant_access
  | notANumber       -- NaNResultException
  | negative         -- CalculationException
  | other            -- thrown by a part that is a parameter
  deriving DecidableEq, Repr

/-- Outcome of a call: a value, an exception, or undefined behaviour. -/
inductive Res (α : Type) where
  | ok (a : α)
  | throws (e : Err)
  | ub
  deriving DecidableEq, Repr

/-- `PermeabilityPoint` (MAS schema), without the modifiers, which only the formula reads. -/
structure Point where
  value : ℚ
  temperature : Option ℚ := none
  frequency : Option ℚ := none
  bias : Option ℚ := none
  deriving DecidableEq, Repr

/-- The alternatives of `permeability.initial`: one point with a formula, or measured points. -/
inductive Initial where
  | formula (p : Point)
  | measured (points : List Point)
  deriving DecidableEq, Repr

/-- The alternatives of a part of `permeability.complex`: measured points, or something else.  A point is its frequency
and its value. -/
structure Complex where
  real : Option (List (Option ℚ × ℚ))
  imaginary : Option (List (Option ℚ × ℚ))
  deriving DecidableEq, Repr

/-- `CoreMaterial` (MAS schema), the fields read here.  `lossFactor`: the points of the loss factor method, `none` when
the material has no such method. -/
structure Material where
  name : String
  initial : Initial
  curie : Option ℚ := none
  complex : Option Complex := none
  lossFactor : Option (List (Option ℚ × ℚ)) := none
  deriving DecidableEq, Repr

/-- A memoised curve: `std::function<double(double)>`, `std::variant<double, tk::spline>` or `tk::spline` of the maps
below. -/
inductive Curve where
  | const (c : ℚ)
  | line (x0 y0 x1 y1 : ℚ)
  | spline (points : List (ℚ × ℚ))
  deriving DecidableEq, Repr

/-- The memo caches of a thread: `initialPermeabilityTemperatureInterps`, `initialPermeabilityFrequencyInterps`,
`initialPermeabilityMagneticFieldDcBiasInterps` (InitialPermeability.h:21-23), `complexPermeabilityRealInterps` and
`complexPermeabilityImaginaryInterps` with their spans (ComplexPermeability.h:10-18), `lossFactorInterps`
(CoreLosses.h:26).  All are keyed by the name of the material and nothing clears them. -/
structure Caches where
  temperature : String → Option Curve := fun _ => none
  frequency : String → Option Curve := fun _ => none
  bias : String → Option Curve := fun _ => none
  real : String → Option (List (ℚ × ℚ)) := fun _ => none
  imaginary : String → Option (List (ℚ × ℚ)) := fun _ => none
  loss : String → Option Curve := fun _ => none

/-- The caches of a thread that has computed nothing. -/
def Caches.empty : Caches := {}

/-- A computation that reads and fills the caches. -/
abbrev M (α : Type) := Caches → Caches × Res α

/-- Sequencing: exceptions and undefined behaviour stop it, and keep what has been cached so far. -/
def M.bind {α β : Type} (m : M α) (f : α → M β) : M β := fun c =>
  match m c with
  | (c', .ok a) => f a c'
  | (c', .throws e) => (c', .throws e)
  | (c', .ub) => (c', .ub)

/-- A value. -/
def M.pure {α : Type} (a : α) : M α := fun c => (c, .ok a)

/-- An outcome that uses no cache. -/
def M.lift {α : Type} (r : Res α) : M α := fun c => (c, r)

/-- What the model takes as parameters. `spline` is the evaluation of a `tk::spline` through points; `formula` is
`get_initial_permeability_formula` (InitialPermeability.cpp:268-434); `sampled` is
`get_only_frequency_dependent_points` on a single point (630-642 with 589-627), as frequencies and values;
`amplitude` is `AmplitudePermeability::get_amplitude_permeability` for a field, or for a flux density, and a
temperature; `ambient` is `Defaults().ambientTemperature`, `quasiStatic` is `Constants().quasiStaticFrequencyLimit`;
`twoPi` is the double `2 * pi`; `dummy` is `DUMMY_SENTINEL_NAME`. -/
structure Env where
  spline : List (ℚ × ℚ) → ℚ → ℚ
  formula : Material → Option ℚ → Option ℚ → Option ℚ → Option ℚ → Res ℚ
  sampled : Point → List Point
  amplitude : Material → Option ℚ → Option ℚ → ℚ → Res (Option ℚ)
  ambient : ℚ := 25
  quasiStatic : ℚ := 100
  twoPi : ℚ := 2 * 355 / 113
  dummy : String := "Dummy"

/-! ## Points -/

/-- `std::sort` by abscissa (stable here, see above). -/
def insertPoint (p : ℚ × ℚ) : List (ℚ × ℚ) → List (ℚ × ℚ)
  | [] => [p]
  | q :: rest => if p.1 ≤ q.1 then p :: q :: rest else q :: insertPoint p rest

/-- `std::sort` by abscissa (stable here, see above). -/
def sortPoints : List (ℚ × ℚ) → List (ℚ × ℚ)
  | [] => []
  | p :: rest => insertPoint p (sortPoints rest)

/-- The loops that keep a point when it is above the last kept one (InitialPermeability.cpp:733-738, 795-800, 846-851,
CoreLosses.cpp:2717-2722): on sorted points, `!=` and `>` are the same. -/
def keepAbove : Option ℚ → List (ℚ × ℚ) → List (ℚ × ℚ)
  | _, [] => []
  | last, p :: rest =>
    if last.all fun l => decide (l < p.1) then p :: keepAbove (some p.1) rest else keepAbove last rest

/-- The loop that keeps a point when it is farther than 1e-9 from the last kept one (ComplexPermeability.cpp:290-295,
318-323). -/
def keepApart : Option ℚ → List (ℚ × ℚ) → List (ℚ × ℚ)
  | _, [] => []
  | last, p :: rest =>
    if last.all fun l => decide (|p.1 - l| > 1 / 10 ^ 9) then p :: keepApart (some p.1) rest
    else keepApart last rest

/-- Reading the abscissa of every point with `*`: undefined when one has none. -/
def abscissas (f : Point → Option ℚ) : List Point → Option (List (ℚ × ℚ))
  | [] => some []
  | p :: rest => match f p, abscissas f rest with
    | some x, some l => some ((x, p.value) :: l)
    | _, _ => none

/-- `get_minimum_frequency_in_permeability_points` (452-470) and `get_minimum_magnetic_field_dc_bias_in_permeability_points`
(492-510) on a non-empty list: the least value present, or a default. -/
def least (f : Point → Option ℚ) (default : ℚ) (points : List Point) : ℚ :=
  match points.filterMap f with
  | [] => default
  | x :: rest => rest.foldl min x

/-- `get_closes_temperature_to_default_in_permeability_points` (436-450): the first of the temperatures closest to the
ambient; `none` stands for `DBL_MAX`. -/
def closest (ambient : ℚ) (points : List Point) : Option ℚ :=
  (points.filterMap fun p => p.temperature).foldl
    (fun best t => match best with
      | none => some t
      | some b => if |t - ambient| < |b - ambient| then some t else some b) none

/-- `get_only_temperature_dependent_points` (539-559): points at the least frequency and the least bias, or without
them. -/
def temperaturePoints (env : Env) (points : List Point) : List Point :=
  points.filter fun p =>
    (p.frequency.all fun f => decide (f ≤ least (fun p => p.frequency) env.quasiStatic points)) &&
    (p.bias.all fun h => decide (h ≤ least (fun p => p.bias) 0 points))

/-- `get_only_frequency_dependent_points` (630-663) on measured points: points at the temperature closest to the ambient
and at the least bias, or without them. -/
def frequencyPoints (env : Env) (points : List Point) : List Point :=
  points.filter fun p =>
    (p.temperature.all fun t => decide (some t = closest env.ambient points)) &&
    (p.bias.all fun h => decide (h ≤ least (fun p => p.bias) 0 points))

/-- `get_only_magnetic_field_dc_bias_dependent_points` (693-713): points at the temperature closest to the ambient and
at the least frequency, or without them. -/
def biasPoints (env : Env) (points : List Point) : List Point :=
  points.filter fun p =>
    (p.temperature.all fun t => decide (some t = closest env.ambient points)) &&
    (p.frequency.all fun f => decide (f ≤ least (fun p => p.frequency) env.quasiStatic points))

/-- `has_frequency_dependency` (128-154), on measured points. -/
def hasFrequency (env : Env) (points : List Point) : Bool :=
  points.any fun p => p.frequency.any fun f => decide (f > env.quasiStatic)

/-- `has_temperature_dependency` (156-176), on measured points. -/
def hasTemperature (points : List Point) : Bool :=
  match points.filterMap fun p => p.temperature with
  | [] => false
  | t :: rest => rest.any fun u => decide (|t - u| > 1 / 10 ^ 9)

/-- `has_magnetic_field_dc_bias_dependency` (178-194), on measured points. -/
def hasBias (points : List Point) : Bool :=
  points.any fun p => p.bias.any fun h => decide (h > 0)

/-! ## Curves -/

/-- Value of a memoised curve. -/
def Curve.eval (env : Env) : Curve → ℚ → ℚ
  | .const c, _ => c
  | .line x0 y0 x1 y1, t => y0 + (y1 - y0) * (t - x0) / (x1 - x0)
  | .spline points, t => env.spline points t

/-- The curve of temperature (InitialPermeability.cpp:722-757): a spline from three points up, a line through two, a
constant. -/
def temperatureCurve (points : List (ℚ × ℚ)) : Res Curve :=
  match keepAbove none (sortPoints points) with
  | [] => .ub
  | [p] => .ok (.const p.2)
  | [p, q] => .ok (.line p.1 p.2 q.1 q.2)
  | l => .ok (.spline l)

/-- The curves of frequency and of bias (InitialPermeability.cpp:783-808, 833-858): a spline from two points up, else a
constant. -/
def otherCurve (points : List (ℚ × ℚ)) : Res Curve :=
  match keepAbove none (sortPoints points) with
  | [] => .ub
  | [p] => .ok (.const p.2)
  | [_, _] => .ub
  | l => .ok (.spline l)

/-- `get_initial_permeability_temperature_dependent` (InitialPermeability.cpp:715-774).  The least frequency of an empty
vector is read through its end: undefined. -/
def temperatureDependent (env : Env) (m : Material) (t : ℚ) : M ℚ := fun c =>
  match m.initial with
  | .formula _ => (c, .throws .badAccess)
  | .measured [] => (c, .ub)
  | .measured (p :: rest) =>
    let points := temperaturePoints env (p :: rest)
    if points = [] then (c, .throws .missingData) else
    let finish (c : Caches) (curve : Curve) : Caches × Res ℚ :=
      (c, .ok (if m.curie.any fun x => decide (t > x) then 1 else max 1 (curve.eval env t)))
    match c.temperature m.name with
    | some curve => finish c curve
    | none =>
      match abscissas (fun p => p.temperature) points with
      | none => (c, .ub)
      | some l =>
        match temperatureCurve l with
        | .ok curve => finish { c with temperature := Function.update c.temperature m.name (some curve) } curve
        | .throws e => (c, .throws e)
        | .ub => (c, .ub)

/-- The points `get_only_frequency_dependent_points` returns for a material (630-663); `none` is the read of the least
bias of an empty vector: undefined. -/
def frequencyPointsOf (env : Env) (m : Material) : Option (List Point) :=
  match m.initial with
  | .formula p => some (env.sampled p)
  | .measured [] => none
  | .measured points => some (frequencyPoints env points)

/-- Value of the curves of frequency and bias: at least one, unless it is a constant (810-816, 860-866). -/
def otherValue (env : Env) (curve : Curve) (x : ℚ) : ℚ :=
  match curve with
  | .const c => c
  | curve => max 1 (curve.eval env x)

/-- `get_initial_permeability_frequency_dependent` (InitialPermeability.cpp:776-824). -/
def frequencyDependent (env : Env) (m : Material) (f : ℚ) : M ℚ := fun c =>
  match frequencyPointsOf env m with
  | none => (c, .ub)
  | some points =>
    if points = [] then (c, .throws .missingData) else
    match c.frequency m.name with
    | some curve => (c, .ok (otherValue env curve f))
    | none =>
      match abscissas (fun p => p.frequency) points with
      | none => (c, .ub)
      | some l =>
        match otherCurve l with
        | .ok curve => ({ c with frequency := Function.update c.frequency m.name (some curve) },
            .ok (otherValue env curve f))
        | .throws e => (c, .throws e)
        | .ub => (c, .ub)

/-- `get_initial_permeability_magnetic_field_dc_bias_dependent` (InitialPermeability.cpp:826-873). -/
def biasDependent (env : Env) (m : Material) (h : ℚ) : M ℚ := fun c =>
  match m.initial with
  | .formula _ => (c, .throws .badAccess)
  | .measured [] => (c, .ub)
  | .measured (p :: rest) =>
    let points := biasPoints env (p :: rest)
    if points = [] then (c, .throws .missingData) else
    match c.bias m.name with
    | some curve => (c, .ok (otherValue env curve h))
    | none =>
      match abscissas (fun p => p.bias) points with
      | none => (c, .ub)
      | some l =>
        match otherCurve l with
        | .ok curve => ({ c with bias := Function.update c.bias m.name (some curve) },
            .ok (otherValue env curve h))
        | .throws e => (c, .throws e)
        | .ub => (c, .ub)

/-! ## Initial permeability -/

/-- The value measured closest to the ambient temperature, the first of them (InitialPermeability.cpp:984-993). -/
def ambientValue (env : Env) : List Point → ℚ → Option ℚ → ℚ
  | [], value, _ => value
  | p :: rest, value, best =>
    let d := |(p.temperature.getD env.ambient) - env.ambient|
    if best.all fun b => decide (d < b) then ambientValue env rest p.value (some d)
    else ambientValue env rest value best

/-- The reference of the measured points (InitialPermeability.cpp:952-994). -/
def reference (env : Env) (m : Material) (points : List Point) : M ℚ :=
  if hasTemperature points then temperatureDependent env m env.ambient
  else if hasFrequency env points then
    frequencyDependent env m (least (fun p => p.frequency) env.quasiStatic points)
  else if hasBias points then biasDependent env m (least (fun p => p.bias) 0 points)
  else M.pure (ambientValue env points 1 none)

/-- A factor: a dependent value over the reference, `none` when that is not finite. -/
def factor (v reference : ℚ) : Option ℚ := if reference = 0 then none else some (v / reference)

/-- A factor that is only computed when asked for (InitialPermeability.cpp:996-1009). -/
def factorIf (used : Bool) (value : Option ℚ) (dependent : ℚ → M ℚ) (reference : ℚ) : M (Option ℚ) :=
  match used, value with
  | true, some x => M.bind (dependent x) fun v => M.pure (factor v reference)
  | _, _ => M.pure (some 1)

/-- The factor of saturation (InitialPermeability.cpp:1011-1045). -/
def saturation (env : Env) (m : Material) (temperature bias flux : Option ℚ) (reference : ℚ) : Res (Option ℚ) :=
  let t := temperature.getD env.ambient
  let finish (amplitude : ℚ) : Res (Option ℚ) :=
    if amplitude < reference then .ok (factor amplitude reference) else .ok (some 1)
  let ask (h b : Option ℚ) : Res (Option ℚ) :=
    match env.amplitude m b h t with
    | .ok (some a) => finish a
    | .ok none => finish reference
    | .throws e => .throws e
    | .ub => .ub
  match bias, flux with
  | some h, _ => if |h| ≤ 0 then finish reference else ask (some |h|) none
  | none, some b => if b ≤ 0 then finish reference else ask none (some b)
  | none, none => .ok (some 1)

/-- The product of the factors; a factor that is not finite meets a reference of zero, and gives NaN (1046). -/
def product (reference : ℚ) : List (Option ℚ) → Option ℚ
  | [] => some reference
  | none :: _ => none
  | some f :: rest => product (reference * f) rest

/-- Permeability from the measured points (InitialPermeability.cpp:938-1047); `none` is NaN. -/
def fromPoints (env : Env) (m : Material) (points : List Point) (temperature bias frequency flux : Option ℚ) :
    M (Option ℚ) :=
  if points = [] then (if m.name = env.dummy then M.pure (some 1) else M.lift (.throws .missingData)) else
  M.bind (reference env m points) fun ref =>
  M.bind (factorIf (hasTemperature points) temperature (temperatureDependent env m) ref) fun ft =>
  M.bind (factorIf (hasFrequency env points) frequency (frequencyDependent env m) ref) fun ff =>
  M.bind (factorIf (hasBias points) bias (biasDependent env m) ref) fun fh =>
  M.bind (if hasBias points = false then M.lift (saturation env m temperature bias flux ref) else M.pure (some 1)) fun fs =>
  M.pure (product ref [ft, ff, fh, fs])

/-- Permeability before the Curie temperature is looked at. The placeholder material without points is answered at once
(974-982), which only matters when it has a Curie temperature: it has none. -/
def beforeCurie (env : Env) (m : Material) (temperature bias frequency flux : Option ℚ) : M (Option ℚ) :=
  match m.initial with
  | .formula _ => M.bind (M.lift (env.formula m temperature bias frequency flux)) fun v => M.pure (some v)
  | .measured points => fromPoints env m points temperature bias frequency flux

/-- The comparison with the Curie temperature (InitialPermeability.cpp:1050-1053). -/
def aboveCurie : Option ℚ → Option ℚ → Bool
  | some curie, some t => decide (t > curie)
  | _, _ => false

/-- `get_initial_permeability` (InitialPermeability.cpp:923-1060). -/
def initialPermeability (env : Env) (m : Material) (temperature bias frequency flux : Option ℚ) : M ℚ :=
  M.bind (beforeCurie env m temperature bias frequency flux) fun v =>
  if aboveCurie m.curie temperature then M.pure 1
  else match v with
    | some x => M.pure x
    | none => M.lift (.throws .notANumber)

/-! ## Complex permeability -/

/-- A computation that asks for permeabilities at frequencies that may depend on the answers:
`calculate_complex_permeability_from_frequency_dependent_initial_permeability` (ComplexPermeability.cpp:51-226) and the
search it calls (InitialPermeability.cpp:875-920) are of this form; what they compute in between is not modelled. -/
inductive Asking where
  | done (real imaginary : List (Option ℚ × ℚ))
  | fail (e : Err)
  | frequency (f : ℚ) (k : ℚ → Asking)
  | initial (f : Option ℚ) (k : ℚ → Asking)

/-- Running it. -/
def Asking.run (env : Env) (m : Material) : Asking → M (List (Option ℚ × ℚ) × List (Option ℚ × ℚ))
  | .done re im => M.pure (re, im)
  | .fail e => M.lift (.throws e)
  | .frequency f k => M.bind (frequencyDependent env m f) fun v => (k v).run env m
  | .initial f k => M.bind (initialPermeability env m none none f none) fun v => (k v).run env m

/-- `std::clamp` to the span of the points (ComplexPermeability.cpp:240, 245, 302, 330). -/
def clampTo (points : List (ℚ × ℚ)) (f : ℚ) : ℚ :=
  match points.head?, points.getLast? with
  | some a, some b => if f < a.1 then a.1 else if b.1 < f then b.1 else f
  | _, _ => f

/-- The points of a curve of complex permeability (ComplexPermeability.cpp:279-300, 308-328): the comparisons of the
sort throw when a point has no frequency; fewer than three points are undefined, and so is a single point without
frequency, which the loop reads with `*`. -/
def complexCurve (points : List (Option ℚ × ℚ)) : Res (List (ℚ × ℚ)) :=
  if points.length < 2 then .ub else
  match points.mapM fun p => p.1.map fun f => (f, p.2) with
  | none => .throws .badAccess
  | some l => let kept := keepApart none (sortPoints l)
    if kept.length < 3 then .ub else .ok kept

/-- `has_frequency_dependency` (InitialPermeability.cpp:128-154); for a single point it is whether its formula has a
frequency factor, which is when it is sampled. -/
def hasFrequencyOf (env : Env) (m : Material) : Bool :=
  match m.initial with
  | .formula p => !(env.sampled p).isEmpty
  | .measured points => hasFrequency env points

/-- The measured or derived points (ComplexPermeability.cpp:253-277). -/
def complexPoints (env : Env) (derive : Material → Asking) (m : Material) :
    M (List (Option ℚ × ℚ) × List (Option ℚ × ℚ)) :=
  match m.complex with
  | none => if hasFrequencyOf env m then (derive m).run env m else M.lift (.throws .missingData)
  | some d => match d.real, d.imaginary with
    | some re, some im => M.pure (re, im)
    | _, _ => M.lift (.throws .missingData)

/-- The curve of the real part, memoised (ComplexPermeability.cpp:279-302). -/
def realPart (m : Material) (points : List (Option ℚ × ℚ)) : M (List (ℚ × ℚ)) := fun c =>
  match c.real m.name with
  | some l => (c, .ok l)
  | none => match complexCurve points with
    | .ok l => ({ c with real := Function.update c.real m.name (some l) }, .ok l)
    | .throws e => (c, .throws e)
    | .ub => (c, .ub)

/-- The curve of the imaginary part, memoised (ComplexPermeability.cpp:308-330). -/
def imaginaryPart (m : Material) (points : List (Option ℚ × ℚ)) : M (List (ℚ × ℚ)) := fun c =>
  match c.imaginary m.name with
  | some l => (c, .ok l)
  | none => match complexCurve points with
    | .ok l => ({ c with imaginary := Function.update c.imaginary m.name (some l) }, .ok l)
    | .throws e => (c, .throws e)
    | .ub => (c, .ub)

/-- The values at a frequency (ComplexPermeability.cpp:240, 245, 302, 330). -/
def complexValue (env : Env) (re im : List (ℚ × ℚ)) (f : ℚ) : ℚ × ℚ :=
  (max 1 (env.spline re (clampTo re f)), env.spline im (clampTo im f))

/-- `get_complex_permeability` (ComplexPermeability.cpp:228-337). -/
def complexPermeability (env : Env) (derive : Material → Asking) (m : Material) (f : ℚ) : M (ℚ × ℚ) := fun c =>
  match c.real m.name, c.imaginary m.name with
  | some re, some im => (c, .ok (complexValue env re im f))
  | _, _ =>
    (M.bind (complexPoints env derive m) fun points =>
      if points.1.length < 2 then M.lift (.throws .missingData) else
      M.bind (realPart m points.1) fun re =>
      M.bind (imaginaryPart m points.2) fun im =>
      M.pure (complexValue env re im f)) c

/-! ## Series resistance from the loss factor -/

/-- The curve of the loss factor (CoreLosses.cpp:2703-2751); points are read with `*`. -/
def lossCurve (points : List (Option ℚ × ℚ)) : Res Curve :=
  match points.mapM fun p => p.1.map fun f => (f, p.2) with
  | none => .ub
  | some l => match keepAbove none (sortPoints l) with
    | [] => .throws .missingData
    | [p] => .ok (.const p.2)
    | [p, q] => .ok (.line p.1 p.2 q.1 q.2)
    | l => .ok (.spline l)

/-- Value of the curve of the loss factor: frequencies outside the measured band are clamped to it (CoreLosses.cpp:2734-2750). -/
def lossValue (env : Env) (curve : Curve) (f : ℚ) : ℚ :=
  match curve with
  | .const c => c
  | .line x0 y0 x1 y1 => Curve.eval env (.line x0 y0 x1 y1) (clampTo [(x0, y0), (x1, y1)] f)
  | .spline l => env.spline l (clampTo l f)

/-- The memoised curve of the loss factor (CoreLosses.cpp:2703-2752). -/
def lossFactor (env : Env) (m : Material) (f : ℚ) : M ℚ := fun c =>
  match c.loss m.name with
  | some curve => (c, .ok (lossValue env curve f))
  | none => match m.lossFactor with
    | none => (c, .throws .missingData)
    | some points => match lossCurve points with
      | .ok curve => ({ c with loss := Function.update c.loss m.name (some curve) }, .ok (lossValue env curve f))
      | .throws e => (c, .throws e)
      | .ub => (c, .ub)

/-- `get_core_losses_series_resistance` (CoreLosses.cpp:2695-2766). -/
def seriesResistance (env : Env) (m : Material) (f t inductance : ℚ) : M ℚ :=
  M.bind (initialPermeability env m (some t) none none none) fun mu =>
  M.bind (lossFactor env m f) fun tan =>
  if tan < 0 then M.lift (.throws .negative) else M.pure (tan * mu * env.twoPi * f * inductance)

/-! ## Histories -/

/-- A call on a thread. The material is the one given, or the one its name stands for in the catalogue at that time. -/
inductive Call where
  | initial (m : Material) (temperature bias frequency flux : Option ℚ)
  | complex (m : Material) (f : ℚ)
  | resistance (m : Material) (f t inductance : ℚ)

/-- The material of a call. -/
def Call.material : Call → Material
  | .initial m _ _ _ _ => m
  | .complex m _ => m
  | .resistance m _ _ _ => m

/-- Answers, as pairs. -/
def Call.run (env : Env) (derive : Material → Asking) : Call → M (ℚ × ℚ)
  | .initial m t h f b => M.bind (initialPermeability env m t h f b) fun v => M.pure (v, 0)
  | .complex m f => complexPermeability env derive m f
  | .resistance m f t l => M.bind (seriesResistance env m f t l) fun v => M.pure (v, 0)

/-- The caches after a history of calls. -/
def after (env : Env) (derive : Material → Asking) : List Call → Caches → Caches
  | [], c => c
  | k :: rest, c => after env derive rest (k.run env derive c).1

end Verif.Permeability
