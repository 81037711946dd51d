import Mathlib.Algebra.Order.Field.Basic
import Mathlib.Data.List.Basic

/-!
# Model of the simulation of a magnetic (src/processors/MagneticSimulator.cpp:16-146, src/processors/MagneticSimulator.h:14-38)

Doubles are exact numbers of any ordered field. What is calculated elsewhere (inductances, flux density, losses, temperatures) is any function that
gives a value, throws or has undefined behaviour. `_enableTemperatureConvergence` is private, initialised to false and set nowhere
(src/processors/MagneticSimulator.h:16), so that the loop of src/processors/MagneticSimulator.cpp:119-142 has one round.
-/

namespace Verif.Simulator

/-- What comes out of a calculation. -/
inductive Res (A : Type) where
  | ok (a : A)
  | throws
  | ub
  deriving DecidableEq

/-- One calculation after another. -/
def Res.bind {A B : Type} (r : Res A) (f : A → Res B) : Res B :=
  match r with
  | .ok a => f a
  | .throws => .throws
  | .ub => .ub

/-- The excitation of a winding: `S` are the signals. -/
structure Exc (K S : Type) where
  frequency : K
  current : Option S
  voltage : Option S
  magnetizing : Option S
  flux : Option S
  deriving DecidableEq

/-- An operating point: its ambient temperature, its cooling and its excitations. -/
structure Point (K S C : Type) where
  ambient : K
  cooling : C
  excitations : List (Exc K S)
  deriving DecidableEq

/-- The settings: the dimension of the mirroring of the field, and all the others. -/
structure Settings (R : Type) where
  mirroring : ℤ
  rest : R
  deriving DecidableEq

/-- What is calculated elsewhere for a magnetic `M`: how many windings it has; the inductance and the flux density at an operating point, with the
excitations as it leaves them; the leakage inductance of each winding at a frequency; the core losses of an excitation at a temperature; the hottest
temperature of the core alone in an ambient, with its losses and a cooling; and the winding losses of an operating point at a temperature, which reads
and may change the settings. -/
structure Physics (K S C W M R : Type) where
  windings : M → ℕ
  inductance : M → Point K S C → Res (K × S × List (Exc K S))
  leakage : M → K → Res (List K)
  core : M → Exc K S → K → Res K
  hottest : M → K → K → C → Res K
  winding : M → Point K S C → K → Settings R → Res W × Settings R

/-- The outputs of an operating point. -/
structure Output (K W : Type) where
  inductance : K
  leakage : Option (List K)
  core : K
  temperature : K
  winding : W
  deriving DecidableEq

variable {K S C W M R : Type}

/-- Models `calculate_magnetizing_inductance` (src/processors/MagneticSimulator.cpp:71-73), with the operating point it leaves. -/
def inductanceAt (P : Physics K S C W M R) (m : M) (p : Point K S C) : Res (K × Point K S C) :=
  (P.inductance m p).bind fun (l, _, es) => .ok (l, { p with excitations := es })

/-- Models `calculate_leakage_inductance` at an operating point (src/processors/MagneticSimulator.cpp:75-87). -/
def leakageAt (P : Physics K S C W M R) (m : M) (p : Point K S C) : Res (List K) :=
  match p.excitations with
  | [] => .ub
  | e :: _ => P.leakage m e.frequency

/-- Models `calculate_core_losses` (src/processors/MagneticSimulator.cpp:108-146): the losses, the temperature they bring the core to, and the operating
point it leaves. The excitation of the first winding that is written back (127) is the copy taken before the flux density is calculated (122). -/
def coreAt (P : Physics K S C W M R) (m : M) (p : Point K S C) : Res (K × K × Point K S C) :=
  match p.excitations with
  | [] => .ub
  | e :: _ =>
    if e.current.isNone then .throws
    else (P.inductance m p).bind fun (_, flux, es) =>
      match es with
      | [] => .ub
      | _ :: others =>
        (P.core m { e with flux := some flux } p.ambient).bind fun losses =>
          (P.hottest m p.ambient losses p.cooling).bind fun t =>
            .ok (losses, t, { p with excitations := { e with flux := some flux } :: others })

/-- Models `calculate_winding_losses` (src/processors/MagneticSimulator.cpp:89-106). The guard (93) puts the dimension of the mirroring back on every way
out (src/support/Settings.h). -/
def windingAt (P : Physics K S C W M R) (m : M) (p : Point K S C) (temperature : Option K) (s : Settings R) : Res W × Settings R :=
  let r := P.winding m p (temperature.getD p.ambient) { s with mirroring := 1 }
  (r.1, { r.2 with mirroring := s.mirroring })

/-- What the body of the loop calculates before the winding losses (src/processors/MagneticSimulator.cpp:50-59). -/
def beforeWinding (P : Physics K S C W M R) (m : M) (fast : Bool) (p : Point K S C) :
    Res (K × Option (List K) × K × K × Point K S C) :=
  (inductanceAt P m p).bind fun (l, p) =>
    (if fast = false ∧ P.windings m > 1 then (leakageAt P m p).bind fun k => .ok (some k) else .ok none).bind fun k =>
      (coreAt P m p).bind fun (losses, t, p) => .ok (l, k, losses, t, p)

/-- The body of the loop over the operating points (src/processors/MagneticSimulator.cpp:49-64). -/
def simulatePoint (P : Physics K S C W M R) (m : M) (fast : Bool) (p : Point K S C) (s : Settings R) :
    Res (Output K W × Point K S C) × Settings R :=
  match beforeWinding P m fast p with
  | .throws => (.throws, s)
  | .ub => (.ub, s)
  | .ok (l, k, losses, t, p) =>
    let r := windingAt P m p (some p.ambient) s
    (r.1.bind fun w => .ok (⟨l, k, losses, t, w⟩, p), r.2)

/-- The loop (src/processors/MagneticSimulator.cpp:49-64). -/
def simulateAll (P : Physics K S C W M R) (m : M) (fast : Bool) : List (Point K S C) → Settings R →
    Res (List (Output K W × Point K S C)) × Settings R
  | [], s => (.ok [], s)
  | p :: ps, s =>
    match simulatePoint P m fast p s with
    | (.throws, s) => (.throws, s)
    | (.ub, s) => (.ub, s)
    | (.ok o, s) =>
      let r := simulateAll P m fast ps s
      (r.1.bind fun os => .ok (o :: os), r.2)

/-- Models `simulate` (src/processors/MagneticSimulator.cpp:21-69): the operating points and the outputs that the answer has. The magnetic in it is the
one given (66). -/
def simulate (P : Physics K S C W M R) (m : M) (fast : Bool) (points : List (Point K S C)) (s : Settings R) :
    Res (List (Point K S C) × List (Output K W)) × Settings R :=
  if points.any fun p => p.excitations.length ≠ P.windings m then (.throws, s)
  else
    let r := simulateAll P m fast points s
    (r.1.bind fun os => .ok (os.map Prod.snd, os.map Prod.fst), r.2)

/-! ## The models a simulator uses -/

/-- A simulator: the name of the reluctance model it was asked for, and that of the one its inductances are calculated with
(src/processors/MagneticSimulator.h:18-21). -/
structure Simulator (N : Type) where
  asked : N
  used : N
  deriving DecidableEq

/-- The constructor (src/processors/MagneticSimulator.h:25-31), with the model of the settings. -/
def construct {N : Type} (setting : N) : Simulator N := ⟨setting, setting⟩

/-- Models `set_reluctance_model_name` (src/processors/MagneticSimulator.h:33-35). -/
def setReluctance {N : Type} (n : N) (x : Simulator N) : Simulator N := { x with asked := n }

/-- A simulation with a simulator: the physics are those of the reluctance model its inductances are calculated with. -/
def run {N : Type} (physics : N → Physics K S C W M R) (x : Simulator N) (m : M) (fast : Bool) (points : List (Point K S C))
    (s : Settings R) : Res (List (Point K S C) × List (Output K W)) × Settings R :=
  simulate (physics x.used) m fast points s

end Verif.Simulator
