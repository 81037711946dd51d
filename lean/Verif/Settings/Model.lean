import Verif.Settings.Fields
import Mathlib.Algebra.Order.Ring.Rat
import Mathlib.Algebra.Field.Rat

/-! # Model of the settings calls and guards (src/support/Settings.h, src/support/Settings.cpp) -/

namespace Verif.Settings

/-- Assignment of one member. -/
def upd (s : State) (f : Field) (v : Den (ty f)) : State :=
  fun g => if h : g = f then h ▸ v else s g

/-- The two setters that check their argument (src/support/Settings.cpp:797-816): `true` when they throw.
As in the code, a NaN compares as not smaller and is accepted. -/
def rejects : (a : Accessor) → Den (ty (setterField a)) → Bool
  | .coreAdviserSaturationMargin, v => Scoring.Num.ltB v (.fin 1)
  | .coreAdviserSaturationDeratingTemperature, v => Scoring.Num.ltB v (.fin (-27315/100))
  | _, _ => false

/-- The four core loss models after the preferred one (src/support/Settings.cpp:884-886). -/
def otherLossModels : List String := ["PROPRIETARY", "LOSS_FACTOR", "STEINMETZ", "ROSHEN"]

/-- One call on the settings of a thread. -/
inductive Call where
  | set (a : Accessor) (v : Den (ty (setterField a)))
  /-- `set_core_losses_preferred_model_name` -/
  | setPreferredLossModel (m : String)
  /-- `set_painter_cci_coordinates_path` -/
  | setCciPath (p : String)
  /-- direct write to the public member `_debug` -/
  | setDebug (b : Bool)
  | reset

/-- Models the setters (src/support/Settings.cpp:215-1035): the new state and whether the call threw. -/
def setAcc (a : Accessor) (v : Den (ty (setterField a))) (s : State) : State × Bool :=
  if rejects a v then (s, true) else (upd s (setterField a) v, false)

/-- Models `Settings::reset` (src/support/Settings.cpp:65-212): all assignments, then, when one of the three
catalogue flags changed, the clearing of the shared catalogues, which throws while they are frozen. -/
def resetCall (frozen : Bool) (s : State) : State × Bool :=
  let s' : State := fun f => (resetValue f).getD (s f)
  let differ (f : Bool) (g : Bool) : Bool := f != g
  let changed := differ (s .useToroidalCores) (s' .useToroidalCores) ||
    differ (s .useConcentricCores) (s' .useConcentricCores) ||
    differ (s .useOnlyCoresInStock) (s' .useOnlyCoresInStock)
  (s', changed && frozen)

/-- Models one call; `frozen` tells whether the shared catalogues are frozen. -/
def call (frozen : Bool) : Call → State → State × Bool
  | .set a v, s => setAcc a v s
  | .setPreferredLossModel m, s => (upd s .coreLossesModelNames (m :: otherLossModels), false)
  | .setCciPath p, s => (upd s .painterCciCoordinatesPath (some p), false)
  | .setDebug b, s => (upd s .debug b, false)
  | .reset, s => resetCall frozen s

/-! ## Guards -/

/-- A program over the settings of one thread. `guard a v p` is a block that starts with a `SettingsGuard`
on the accessor pair `a` with the new value `v`; `tryCatch p q` is `try { p } catch (...) { q }`; `other` is
any code that does not touch the settings and either finishes or throws. -/
inductive Prog where
  | call (c : Call)
  | other (throws : Bool)
  | seq (p q : Prog)
  | guard (a : Accessor) (v : Den (ty (setterField a))) (p : Prog)
  | tryCatch (p q : Prog)

/-- Outcome of a program: it finished, an exception left it, or an exception in a destructor ended the
process. -/
inductive Res where
  | done (s : State)
  | thrown (s : State)
  | terminated

/-- The accessor pairs used by a guard read and write the same member; the previous value, read by the
getter, can be handed back to the setter. -/
def previous (a : Accessor) (h : getterField a = setterField a) (s : State) : Den (ty (setterField a)) :=
  h ▸ s (getterField a)

/-- Every getter returns the member its setter assigns (checked over the whole table). -/
theorem accessor_pairs (a : Accessor) : getterField a = setterField a := by cases a <;> rfl

/-- Models the destructor `~SettingsGuard` (src/support/Settings.h:582-584): destructors are `noexcept`, so a
throwing setter ends the process. -/
def restore (a : Accessor) (prev : Den (ty (setterField a))) (s : State) (k : State → Res) : Res :=
  let r := setAcc a prev s
  if r.2 then .terminated else k r.1

/-- Models the execution of a program; `guard` is the constructor of `SettingsGuard`
(src/support/Settings.h:576-580: when the setter throws, the object is not constructed and its destructor
does not run), the body, and the destructor on either way out. -/
def exec (frozen : Bool) : Prog → State → Res
  | .call c, s => let r := Settings.call frozen c s; if r.2 then .thrown r.1 else .done r.1
  | .other t, s => if t then .thrown s else .done s
  | .seq p q, s => match exec frozen p s with
    | .done s' => exec frozen q s'
    | r => r
  | .guard a v p, s =>
    let prev := previous a (accessor_pairs a) s
    let r := setAcc a v s
    if r.2 then .thrown r.1
    else match exec frozen p r.1 with
      | .done s' => restore a prev s' .done
      | .thrown s' => restore a prev s' .thrown
      | .terminated => .terminated
  | .tryCatch p q, s => match exec frozen p s with
    | .thrown s' => exec frozen q s'
    | r => r

/-! ## Use of the saturation margin -/

/-- Product of doubles, only as far as needed by the saturation gate: NaN absorbs; infinite factors are not
modelled (`nan`). -/
def mul : Dbl → Dbl → Dbl
  | .fin x, .fin y => .fin (x * y)
  | _, _ => .nan

/-- Models the test of the saturation filter on the peak flux density
(src/advisers/MagneticFilterPhysical.cpp:207-211): `true` when the magnetic is kept. -/
def saturationGate (margin : Dbl) (bPeak bSat : ℚ) : Bool :=
  !(Scoring.Num.ltB (.fin bSat) (mul (.fin bPeak) margin))

/-- Models `maximum_allowed_magnetic_flux_density` (src/advisers/MagneticFilterInternal.h:160-163) for a
finite margin; 0.7 is `Defaults::maximumProportionMagneticFluxDensitySaturation`. -/
def maximumAllowedFlux (margin rawBsat : ℚ) : ℚ := rawBsat * min (1 / margin) (7/10)

/-- Models `saturation_derating_temperature` (src/advisers/MagneticFilterInternal.h:176-179) for finite
temperatures. -/
def deratingTemperature (setting operating : ℚ) : ℚ := max operating setting

end Verif.Settings
