import Verif.Simulator.Model
import Mathlib.Analysis.SpecialFunctions.Log.Base

/-!
# Model of the datasheet of a simulated magnetic (src/processors/MagneticSimulator.cpp:148-434)

Doubles are exact numbers of any ordered field (reals for the curve of impedance). Accumulators that start at the lowest or the largest double are
options here. What is calculated elsewhere are functions that give values.
-/

namespace Verif.Simulator.Sheet

/-- The outputs of an operating point, as far as they are read: magnetizing inductance with the leakage inductances per winding if they are there
(202-213), core losses (329, 333) and winding losses (334-335). -/
structure Output (K : Type) where
  inductance : Option (K × Option (List K))
  core : Option K
  winding : Option K
  deriving DecidableEq

/-- An operating point, as far as it is read: ambient temperature, and of each winding the frequency and the rms of the voltage, if both the voltage and
its rms are there (src/processors/MagneticSimulator.cpp:157-163). -/
structure Point (K : Type) where
  ambient : K
  windings : List (K × Option K)
  deriving DecidableEq

/-- The information of the manufacturer: `I` is all besides the datasheet; reference and description are part of it. -/
structure Info (D I : Type) where
  rest : I
  datasheet : Option D
  deriving DecidableEq

/-- The part of the datasheet that is modelled. -/
structure Datasheet (K : Type) where
  windings : ℕ
  coupled : Bool
  inductance : Option K
  leakage : Option K
  /-- `dcResistance` for one winding (219-221) and `dcResistances` otherwise (222-228). -/
  resistance : Option K
  resistances : Option (List K)
  ratedCurrents : List K
  turnsRatios : Option (List K)
  saturationCurrent : K
  /-- The least, the nominal and the largest. -/
  temperature : K × K × K
  rise : Option K
  thermalResistance : Option K
  dimensions : K × K × K
  switchingFrequency : K
  inputVoltage : Option (K × K)
  outputVoltages : Option (List K)
  deriving DecidableEq

/-- What is calculated elsewhere for the magnetic: direct current resistances at a temperature, rated current, turns ratios, saturation current at an
operating point and a temperature, the temperature of the hottest spot at an ambient for losses of core and windings (by index of the operating point,
whose cooling and distribution of losses it takes), and dimensions. -/
structure Magnetic (K : Type) where
  windings : ℕ
  resistances : K → List K
  rated : K
  turnsRatios : List K
  saturation : Point K → K → K
  hotspot : ℕ → K → K → K → K
  dimensions : K × K × K

variable {K : Type} [Field K] [LinearOrder K]

/-- The search for the hottest operating point (src/processors/MagneticSimulator.cpp:284-292): the first of those with the highest ambient
temperature. -/
def hottest : Option (Point K) → List (Point K) → Option (Point K)
  | best, [] => best
  | none, p :: ps => hottest (some p) ps
  | some b, p :: ps => if p.ambient > b.ambient then hottest (some p) ps else hottest (some b) ps

/-- The least and the largest of the values seen (src/processors/MagneticSimulator.cpp:303-309, 376-387). -/
def range : Option (K × K) → List K → Option (K × K)
  | r, [] => r
  | none, x :: xs => range (some (x, x)) xs
  | some (a, b), x :: xs => range (some (min a x, max b x)) xs

/-- The loop for the worst rise of temperature, and the thermal resistance of the operating point it is of
(src/processors/MagneticSimulator.cpp:326-355). `i` is the index of the first of the outputs. -/
def worst (m : Magnetic K) : Option (K × Option K) → ℕ → List (Point K × Output K) → Option (K × Option K)
  | best, _, [] => best
  | best, i, (p, o) :: l =>
    match o.core with
    | none => worst m best (i + 1) l
    | some core =>
      let winding := o.winding.getD 0
      let rise := m.hotspot i p.ambient core winding - p.ambient
      let new := some (rise, if core + winding > 0 then some (rise / (core + winding)) else none)
      match best with
      | none => worst m new (i + 1) l
      | some b => if rise > b.1 then worst m new (i + 1) l else worst m best (i + 1) l

/-- The rms of the voltages of the windings after the first, those that have it (src/processors/MagneticSimulator.cpp:397-412). -/
def outputVoltages (windings : ℕ) (p : Point K) : Option (List K) :=
  if windings > 1 ∧ p.windings.length = windings then
    let l := p.windings.tail.filterMap Prod.snd
    if l = [] then none else some l
  else none

/-- Models `build_datasheet` (src/processors/MagneticSimulator.cpp:166-434): the datasheet. The first winding of an operating point without any is read
out of the vector (373, 379). -/
def datasheet (m : Magnetic K) (points : List (Point K)) (outputs : List (Output K)) : Res (Datasheet K) :=
  match points, outputs with
  | _, [] => .throws
  | [], _ => .throws
  | p :: ps, o :: os =>
    if (p :: ps).length ≠ (o :: os).length then .throws
    else if (p :: ps).any fun q => q.windings = [] then .ub
    else
      match p.windings.head?, hottest none (p :: ps), range none ((p :: ps).map Point.ambient) with
      | some first, some hot, some (low, high) =>
        let r := m.resistances p.ambient
        let w := worst m none 0 ((p :: ps).zip (o :: os))
        .ok
          { windings := m.windings
            coupled := decide (m.windings > 1)
            inductance := o.inductance.map Prod.fst
            leakage := (o.inductance.bind Prod.snd).bind fun l => l[1]?
            resistance := if m.windings = 1 ∧ r.length = 1 then r.head? else none
            resistances := if m.windings = 1 ∧ r.length = 1 then none else if r.length = m.windings then some r else none
            ratedCurrents := [m.rated]
            turnsRatios := if m.windings > 1 then m.turnsRatios.head?.map fun n => [n] else none
            saturationCurrent := m.saturation hot hot.ambient
            temperature := (low, p.ambient, high)
            rise := w.map Prod.fst
            thermalResistance := w.bind Prod.snd
            dimensions := m.dimensions
            switchingFrequency := first.1
            inputVoltage := range none ((p :: ps).filterMap fun q => q.windings.head?.bind Prod.snd)
            outputVoltages := outputVoltages m.windings p }
      | _, _, _ => .ub

/-- The information of the manufacturer with the datasheet (src/processors/MagneticSimulator.cpp:423-433): `default` is what it is without any, the name
"OpenMagnetics" alone. -/
def attach {I D : Type} (default : I) (info : Option (Info D I)) (d : D) : Info D I :=
  match info with
  | some i => { i with datasheet := some d }
  | none => ⟨default, some d⟩

/-! ## The curve of impedance -/

/-- How many points the curve has (src/processors/MagneticSimulator.cpp:246). -/
def numberPoints : ℕ := 51

/-- The frequency of a point of the curve for a self-resonant frequency (src/processors/MagneticSimulator.cpp:247-254). -/
noncomputable def frequencyAt (resonance : ℝ) (i : ℕ) : ℝ :=
  resonance / 1000 * (10 : ℝ) ^ (Real.logb 10 (resonance * 100 / (resonance / 1000)) / ((numberPoints : ℝ) - 1) * (i : ℝ))

/-- The curve, the magnitude at each frequency, and its largest (src/processors/MagneticSimulator.cpp:251-271). -/
noncomputable def curve (magnitude : ℝ → ℝ) (resonance : ℝ) : List (ℝ × ℝ) :=
  (List.range numberPoints).map fun i => (frequencyAt resonance i, magnitude (frequencyAt resonance i))

/-- The largest magnitude of the curve (src/processors/MagneticSimulator.cpp:252, 268). -/
noncomputable def largest : Option ℝ → List (ℝ × ℝ) → Option ℝ
  | best, [] => best
  | none, p :: l => largest (some p.2) l
  | some b, p :: l => largest (some (max b p.2)) l

end Verif.Simulator.Sheet
