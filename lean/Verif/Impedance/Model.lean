import Mathlib.Analysis.SpecialFunctions.Pow.Complex
import Mathlib.Analysis.SpecialFunctions.Pow.Real
import Mathlib.Analysis.SpecialFunctions.Trigonometric.Basic
import Mathlib.Data.List.Sort
import Verif.NumberTurns.Model

/-!
# Impedance of a magnetic (src/physical_models/Impedance.cpp)

Numbers are exact (real and complex). A division by zero is not a finite number in the code: it is `none` here.
The reluctance, the stray capacitance, the leakage inductance and the resistances come from other models and are given.
-/

namespace Verif.Impedance

open Complex

/-! ## Two arms in parallel, and a series of them -/

/-- `1.0 / (1.0 / seriesArm + 1.0 / capacitiveArm)` (Impedance.cpp 81-82, 330-331), the capacitive arm being -j/(ωC). -/
noncomputable def parallel (arm : ℂ) (ω c : ℝ) : Option ℂ :=
  if arm = 0 ∨ ω * c = 0 then none
  else if 1 / arm + 1 / (⟨0, -1 / (ω * c)⟩ : ℂ) = 0 then none
  else some (1 / (1 / arm + 1 / (⟨0, -1 / (ω * c)⟩ : ℂ)))

/-- One tank at one frequency: without capacitance it is the arm alone (Impedance.cpp 329-335, and 76-82 for the differential
mode). -/
noncomputable def tankAt (arm : ℂ) (ω c : ℝ) : Option ℂ := if 0 < c then parallel arm ω c else some arm

/-- `ImpedanceTank` (Impedance.h 41-50). -/
structure Tank where
  inductance : ℝ
  capacitance : ℝ
  /-- Is the inductance multiplied by the permeability of the core? -/
  core : Bool
  secondary : ℕ
  ratioSquared : ℝ

/-- `WidebandImpedanceModel` (Impedance.h 56-75). What other models give at a frequency are functions of it. -/
structure Wideband where
  /-- The complex permeability of the material (real part and losses), when there is a material. -/
  permeability : Option (ℝ → ℝ × ℝ)
  /-- The factor of `core_dimensional_attenuation` at a frequency. -/
  attenuation : ℝ → ℂ
  scaling : ℝ
  tanks : List Tank
  /-- DC resistance of each winding. -/
  dc : List ℝ
  /-- DC resistance of each wire by metre, on the fast path. -/
  perMetre : List ℝ
  /-- Resistance by metre of the wire of a winding at a frequency. -/
  perMetreAt : ℕ → ℝ → ℝ
  /-- `hasWindingResistanceModel`. -/
  skin : Bool
  /-- `hasProximityModel` and the magnetic beside it. -/
  proximity : Bool
  /-- Effective resistance from the field, of a winding at a frequency. -/
  field : ℕ → ℝ → ℝ
  fast : Bool

/-- The effective permeability in the convention e^{jωt}, scaled by the bias (Impedance.cpp 270-280); 1 without material. -/
noncomputable def effectivePermeability (m : Wideband) (f : ℝ) : ℂ :=
  match m.permeability with
  | none => 1
  | some mu => (⟨(mu f).1, -(mu f).2⟩ : ℂ) * m.attenuation f * (m.scaling : ℂ)

/-- `windingResistanceAt` (Impedance.cpp 286-300). -/
noncomputable def resistanceAt (m : Wideband) (f : ℝ) (i : ℕ) : Option ℝ :=
  if !m.fast && m.proximity then some (m.field i f)
  else if m.skin && decide (0 < (m.perMetre[i]?).getD 0) then
    match m.perMetre[i]?, m.dc[i]? with
    | some p, some r => some (r * (m.perMetreAt i f / p))
    | _, _ => none
  else match m.dc[i]? with
    | some r => some r
    | none => some 0

/-- The series arm of a tank (Impedance.cpp 302-327): the resistance of the first winding is taken once, for any leakage tank. -/
noncomputable def armAt (m : Wideband) (f : ℝ) (t : Tank) : Option ℂ :=
  if t.core then
    some (((2 * Real.pi * f * t.inductance : ℝ) : ℂ) * ⟨-(effectivePermeability m f).im, (effectivePermeability m f).re⟩)
  else
    match resistanceAt m f 0, resistanceAt m f t.secondary with
    | some r0, some r => some ⟨r0 + t.ratioSquared * r, 2 * Real.pi * f * t.inductance⟩
    | _, _ => none

/-- The loop over the tanks (Impedance.cpp 317-336), from the impedance so far. -/
noncomputable def addTanks (m : Wideband) (f : ℝ) : List Tank → ℂ → Option ℂ
  | [], z => some z
  | t :: ts, z =>
    match armAt m f t with
    | none => none
    | some arm => match tankAt arm (2 * Real.pi * f) t.capacitance with
      | none => none
      | some z' => addTanks m f ts (z + z')

/-- `impedance_from_model` (Impedance.cpp 264-339). -/
noncomputable def impedance (m : Wideband) (f : ℝ) : Option ℂ := addTanks m f m.tanks 0

/-- `differential_mode_impedance_from_parameters` (Impedance.cpp 74-83). -/
noncomputable def differential (leakage resistance capacitance f : ℝ) : Option ℂ :=
  tankAt ⟨resistance, 2 * Real.pi * f * leakage⟩ (2 * Real.pi * f) capacitance

/-- `calculate_q_factor` (Impedance.cpp 530-533) of an impedance. -/
noncomputable def qFactor (z : ℂ) : Option ℝ := if z.re = 0 then none else some (z.im / z.re)

/-! ## Building the tanks -/

/-- Reluctance of core and gaps (Reluctance.cpp 19-27 and 102-112), `geometry` being the effective length over the effective area. -/
noncomputable def reluctance (vacuum geometry gaps permeability : ℝ) : ℝ := geometry / (vacuum * permeability) + gaps

/-- The magnetizing tank (Impedance.cpp 90-170) from the self capacitance of the first winding, for the windings there are. Winding
the coil is not modelled. -/
noncomputable def magnetizingTank (vacuum geometry gaps turns selfCapacitance : ℝ) (windings : ℕ) : Tank :=
  { inductance := turns * turns / reluctance vacuum geometry gaps 1
    capacitance := if 1 < windings then selfCapacitance * windings else selfCapacitance
    core := true, secondary := 0, ratioSquared := 0 }

/-- What the loop over the windings (Impedance.cpp 403-418) reads of each one but the first. -/
structure Secondary where
  leakage : ℝ
  capacitance : ℝ
  turns : ℝ

/-- The leakage tanks (Impedance.cpp 403-418), counting windings from `i`. -/
noncomputable def leakageTanks (primaryTurns : ℝ) : ℕ → List Secondary → List Tank
  | _, [] => []
  | i, s :: ss =>
    if s.leakage ≤ 0 then leakageTanks primaryTurns (i + 1) ss
    else { inductance := s.leakage, capacitance := s.capacitance, core := false, secondary := i
           ratioSquared := if 0 < s.turns then (primaryTurns / s.turns) ^ 2 else 1 } :: leakageTanks primaryTurns (i + 1) ss

/-- `calculate_self_resonant_frequency` (Impedance.cpp 541-574): the inductance is asked for without operating point, `none`,
although one with the temperature is built. -/
noncomputable def selfResonance (fast : Bool) (oneLayer selfCapacitance : ℝ) (windings : ℕ) (inductance : Option ℝ → ℝ)
    (_temperature : ℝ) : ℝ :=
  1 / (2 * Real.pi * Real.sqrt (inductance none * (if fast then oneLayer else selfCapacitance * windings)))

/-! ## Permittivity and dimensional attenuation -/

/-- `MAS::Permittivity`: one point, or points with a frequency or without one. -/
inductive Permittivity where
  | point (value : ℝ)
  | points (list : List (Option ℝ × ℝ))

/-- The table of Impedance.cpp 180-185. -/
noncomputable def tableOf (l : List (Option ℝ × ℝ)) : List (ℝ × ℝ) :=
  l.filterMap fun p => match p.1 with
    | some f => if 0 < p.2 then some (f, p.2) else none
    | none => none

/-- The order of pairs used by `std::sort` (Impedance.cpp 189). -/
def before (p q : ℝ × ℝ) : Prop := p.1 < q.1 ∨ p.1 = q.1 ∧ p.2 ≤ q.2

open Classical in
/-- The table in order (Impedance.cpp 189). -/
noncomputable def sortTable (l : List (ℝ × ℝ)) : List (ℝ × ℝ) := l.insertionSort before

/-- The point between two neighbours (Impedance.cpp 193-196); logarithms of what is not positive are not numbers. -/
noncomputable def between (p q : ℝ × ℝ) (f : ℝ) : Option ℝ :=
  if p.1 ≤ 0 ∨ q.1 ≤ 0 ∨ p.1 = q.1 then none
  else some (p.2 * (q.2 / p.2) ^ (Real.log (f / p.1) / Real.log (q.1 / p.1)))

/-- The search of the two neighbours (Impedance.cpp 192-198), over a table from its first pair. -/
noncomputable def searchTable (f : ℝ) : ℝ × ℝ → List (ℝ × ℝ) → Option ℝ
  | p, [] => some p.2
  | p, q :: rest => if p.1 ≤ f ∧ f ≤ q.1 then between p q f else searchTable f q rest

/-- `interpolate_permittivity_points` (Impedance.cpp 173-199). -/
noncomputable def permittivityAt (d : Permittivity) (f : ℝ) : Option ℝ :=
  match d with
  | .point v => some v
  | .points l =>
    match sortTable (tableOf l) with
    | [] => match l with
      | [] => some 0
      | p :: _ => some p.2
    | p :: rest =>
      if f ≤ p.1 then some p.2
      else if ((p :: rest).getLast (by simp)).1 ≤ f then some ((p :: rest).getLast (by simp)).2
      else searchTable f p rest

/-- `4e-7 * std::numbers::pi` (Impedance.cpp 222). -/
noncomputable def vacuumPermeability : ℝ := 4 / 10 ^ 7 * Real.pi

/-- `8.8541878128e-12` (Impedance.cpp 223). -/
noncomputable def vacuumPermittivity : ℝ := 88541878128 / 10 ^ 22

/-- The wave number (Impedance.cpp 224-228), with the principal square root. -/
noncomputable def waveNumber (f : ℝ) (mu eps : ℂ) : ℂ :=
  ((2 * Real.pi * f : ℝ) : ℂ) * ((vacuumPermeability : ℂ) * mu * (vacuumPermittivity : ℂ) * eps) ^ (((2 : ℕ) : ℂ)⁻¹)

/-- `kmn2` (Impedance.cpp 256) of the odd numbers 2i+1 and 2j+1. -/
noncomputable def modeSquared (a b : ℝ) (i j : ℕ) : ℝ :=
  ((2 * i + 1) * Real.pi / a) ^ 2 + ((2 * j + 1) * Real.pi / b) ^ 2

/-- One term of the double series (Impedance.cpp 257). -/
noncomputable def seriesTerm (a b : ℝ) (k2 : ℂ) (i j : ℕ) : ℂ :=
  64 * k2 / ((Real.pi : ℂ) ^ 4 * (2 * i + 1) * (2 * i + 1) * (2 * j + 1) * (2 * j + 1) * ((modeSquared a b i j : ℂ) - k2))

open Classical in
/-- The factor of a rectangle (Impedance.cpp 251-261); the 41 odd numbers up to 81 of each axis. -/
noncomputable def rectangleFactor (a b : ℝ) (k2 : ℂ) : Option ℂ :=
  if ∃ i < 41, ∃ j < 41, (modeSquared a b i j : ℂ) = k2 then none
  else some (1 + ∑ i ∈ Finset.range 41, ∑ j ∈ Finset.range 41, seriesTerm a b k2 i j)

open Classical in
/-- The factor of a slab (Impedance.cpp 247-249). -/
noncomputable def slabFactor (x : ℂ) : Option ℂ :=
  if ‖x‖ < 1 / 10 ^ 6 then some 1
  else if Complex.cos x = 0 then none
  else some (Complex.tan x / x)

/-- `core_dimensional_attenuation` (Impedance.cpp 201-262) for the complex permittivity of a material, if it has one, and the
permeability as real part and losses. -/
noncomputable def attenuation (permittivity : Option (Permittivity × Permittivity)) (f mu1 mu2 : ℝ) (dimensions : List ℝ) : Option ℂ :=
  match permittivity with
  | none => some 1
  | some d =>
    if dimensions = [] then some 1
    else match permittivityAt d.1 f, permittivityAt d.2 f with
      | some e1, some e2 =>
        if e1 ≤ 0 then some 1
        else match dimensions.filter (fun x => 0 < x) with
          | [] => some 1
          | [a] => slabFactor (waveNumber f ⟨mu1, -mu2⟩ ⟨e1, -e2⟩ * a / 2)
          | a :: b :: _ => rectangleFactor a b (waveNumber f ⟨mu1, -mu2⟩ ⟨e1, -e2⟩ * waveNumber f ⟨mu1, -mu2⟩ ⟨e1, -e2⟩)
      | _, _ => none

/-! ## The least number of turns of an impedance -/

/-- Outcome of `calculate_minimum_number_turns`. -/
inductive Turns where
  | found (n : ℕ)
  | minusOne
  | threw
  | ub
  deriving DecidableEq

/-- How the loop over the requirements (Impedance.cpp 498-509) ends. -/
inductive Check where
  | valid | invalid | resonant
  deriving DecidableEq

/-- The loop over the requirements (Impedance.cpp 498-509), frequency and magnitude of each: `z` is the magnitude of the impedance at a
frequency and `resonance` the self resonance, of the turns tried. -/
noncomputable def checkAll (z : ℝ → ℝ) (resonance : ℝ) : List (ℝ × ℝ) → Check → Check
  | [], r => r
  | q :: qs, r =>
    if 1 / 4 * resonance < q.1 then .resonant
    else checkAll z resonance qs (if z q.1 < q.2 then .invalid else r)

/-- The loop of `calculate_minimum_number_turns` (Impedance.cpp 489-521) with `timeout` rounds left after this one. The turns of the
windings but the first stay as they were (`others`). -/
noncomputable def turnsLoop (z : List ℕ → ℝ → ℝ) (resonance : List ℕ → ℝ) (qs : List (ℝ × ℝ)) (others : List ℕ) :
    ℕ → NumberTurns.Obj → Turns
  | timeout, o =>
    match NumberTurns.getNext o 1 with
    | .threw _ => .threw
    | .ub => .ub
    | .returned c o' =>
      match c with
      | [] => .ub
      | n :: _ =>
        match checkAll (z (n :: others)) (resonance (n :: others)) qs .valid with
        | .resonant => .minusOne
        | .valid => .found n
        | .invalid =>
          match timeout with
          | 0 => .minusOne
          | t + 1 => turnsLoop z resonance qs others t o'

/-- `calculate_minimum_number_turns` (Impedance.cpp 482-522), with `_maximumNumberTurns` 200. -/
noncomputable def minimumTurns (z : List ℕ → ℝ → ℝ) (resonance : List ℕ → ℝ) (qs : Option (List (ℝ × ℝ))) (others : List ℕ)
    (ratios : List (Requirements.Dim ℚ)) : Turns :=
  match NumberTurns.construct 1 ratios with
  | none => .threw
  | some o => match qs with
    | none => .threw
    | some l => turnsLoop z resonance l others 200 o

end Verif.Impedance
