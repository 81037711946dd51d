import Mathlib.Algebra.Order.Field.Rat
import Mathlib.Data.Rat.Defs

/-!
# Model of what the design of a magnetic does to the settings and the catalogues (src/advisers/MagneticAdviser.cpp:561-917)

A call is a sequence of steps on a state that other calls share. What the advisers, the simulator and the scores do in between is given
for each call: which catalogues they fill when they find them empty, whether they throw, whether something is found. The catalogue of wires
is left out; a throw of `load_wires` counts among those of the body.
-/

namespace Verif.Advice.Restore

/-- The settings that filter cores when they are loaded (src/support/Utils.cpp:242-244, 473-474). -/
structure Flags where
  toroidal : Bool
  concentric : Bool
  stock : Bool
  deriving DecidableEq

/-- What a catalogue of cores or of shapes holds: nothing, the public parts that the settings of their loading let through, or the parts
of a library in scope (src/support/Utils.cpp:240-302, 468-506; src/support/LibraryContext.h:64). -/
inductive Parts where
  | empty
  | loaded (under : Flags)
  | inventory
  deriving DecidableEq

/-- The state that calls share: settings, `coreDatabase`, `coreShapeDatabase`, `databases_frozen()` and
`LibraryContext::Scope::anyActive()`. -/
structure World where
  flags : Flags
  cores : Parts
  shapes : Parts
  frozen : Bool
  inScope : Bool
  deriving DecidableEq

/-- The state after a step, and whether the step threw. -/
abbrev Step := World × Bool

/-- One step after another: the second is not reached when the first throws. -/
def Step.next (r : Step) (f : World → Step) : Step := if r.2 then r else f r.1

/-- Models `clear_loaded_cores` (src/support/Utils.cpp:304-307). -/
def clearCores (w : World) : Step := if w.frozen then (w, true) else ({ w with cores := .empty }, false)

/-- Models `clear_loaded_core_shapes` (src/support/Utils.cpp:309-313). -/
def clearShapes (w : World) : Step := if w.frozen then (w, true) else ({ w with shapes := .empty }, false)

/-- Models `load_cores` behind its guard (src/advisers/MagneticAdviser.cpp:666-668, src/advisers/CoreAdviser.cpp:161-163, 199-201;
src/support/Utils.cpp:240-244). -/
def loadCores (w : World) : Step :=
  if w.cores = .empty ∧ w.inScope = false then
    if w.frozen then (w, true) else ({ w with cores := .loaded w.flags }, false)
  else (w, false)

/-- Models `load_core_shapes` behind its guard, which does not ask for scopes (src/advisers/CoreAdviser.cpp:170, 208-210, 254-256;
src/support/Utils.cpp:468-474, with internal data). -/
def loadShapes (w : World) : Step :=
  if w.shapes = .empty then
    if w.frozen then (w, true) else ({ w with shapes := .loaded w.flags }, false)
  else (w, false)

/-- What one search for cores and coils and its scores do (src/advisers/MagneticAdviser.cpp:676-817 and 829-909). -/
structure Search where
  /-- the mode of the core adviser looks at the shapes -/
  shapes : Bool
  /-- and at the cores -/
  cores : Bool
  throws : Bool
  found : Bool
  deriving DecidableEq

/-- The catalogues as the search finds them: filled by the core adviser where they are empty (src/advisers/CoreAdviser.cpp:197-264). -/
def fill (s : Search) (w : World) : Step :=
  (if s.shapes then loadShapes w else (w, false) : Step).next fun w => if s.cores then loadCores w else (w, false)

/-- One search. -/
def search (s : Search) (w : World) : Step := (fill s w).next fun w => (w, s.throws)

/-- `maxVoltage` (src/advisers/MagneticAdviser.cpp:635-645) of the nominal, minimum and maximum of the supply, if there is one. -/
def maxVoltage : Option (Option ℚ × Option ℚ × Option ℚ) → ℚ
  | none => 0
  | some (nominal, minimum, maximum) => max (max (nominal.getD 0) (minimum.getD 0)) (maximum.getD 0)

/-- One call. -/
structure Call where
  supply : Option (Option ℚ × Option ℚ × Option ℚ)
  /-- `get_application()` is interference suppression -/
  suppression : Bool
  first : Search
  second : Search
  deriving DecidableEq

/-- `toroidsOriginallyEnabled && maxVoltage > 600` (src/advisers/MagneticAdviser.cpp:647). -/
def highVoltage (w : World) (c : Call) : Bool := w.flags.toroidal && decide (600 < maxVoltage c.supply)

/-- The settings for suppression (src/advisers/MagneticAdviser.cpp:656-658). -/
def chokeFlags : Flags := ⟨true, false, false⟩

/-- The steps before the search (src/advisers/MagneticAdviser.cpp:647-668). -/
def prepare (w : World) (c : Call) : Step :=
  ((if highVoltage w c then (clearCores { w with flags := { w.flags with toroidal := false } }).next clearShapes
    else (w, false) : Step).next fun w =>
      if c.suppression then (clearCores { w with flags := chokeFlags }).next clearShapes else (w, false)).next loadCores

/-- The retry without toroids (src/advisers/MagneticAdviser.cpp:820-910). -/
def retry (c : Call) (w : World) : Step :=
  (clearCores { w with flags := { w.flags with toroidal := false } }).next (search c.second)

/-- The body of the call (src/advisers/MagneticAdviser.cpp:647-916). The retry asks for what `toroidsOriginallyEnabled` has become. -/
def body (w : World) (c : Call) : Step :=
  ((prepare w c).next (search c.first)).next fun w' =>
    if c.first.found = false ∧ w.flags.toroidal = true ∧ highVoltage w c = false then retry c w' else (w', false)

/-- How a call ends. -/
inductive Exit where
  | returned
  | threw
  /-- `std::terminate`: an exception leaves a destructor, which is `noexcept` -/
  | terminated
  deriving DecidableEq

/-- Models the destructor of `CoreFilterSettingsRestorer` (src/advisers/MagneticAdviser.cpp:614-630) for the settings saved. -/
def restore (saved : Flags) (w : World) : Step :=
  if w.flags = saved then (w, false) else (clearCores { w with flags := saved }).next clearShapes

/-- Models `get_advised_magnetic` (src/advisers/MagneticAdviser.cpp:561-917) in what it does to the shared state. -/
def call (w : World) (c : Call) : World × Exit :=
  if (restore w.flags (body w c).1).2 then ((restore w.flags (body w c).1).1, .terminated)
  else ((restore w.flags (body w c).1).1, if (body w c).2 then .threw else .returned)

/-! ## The application -/

/-- `MAS::MagneticApplication`: the enumerators the code names (src/advisers/MagneticAdviser.h:184; its definition is generated). -/
inductive Application where
  | power
  | suppression
  | signal
  deriving DecidableEq

/-- `CoreAdviserModes` (src/advisers/CoreAdviser.h:110-114). -/
inductive Mode where
  | available
  | standard
  | custom
  deriving DecidableEq

/-- `_application` and `_coreAdviserMode` of an adviser (src/advisers/MagneticAdviser.h:184-185). -/
structure Adviser where
  application : Application
  mode : Mode
  deriving DecidableEq

/-- Models the adoption of the application of the inputs (src/advisers/MagneticAdviser.cpp:575-585). `parse` is
`magnetic_application_from_string` (src/constructive_models/MasMigration.h:66-71), which throws on unknown names: `none`. -/
def adopt (parse : String → Option Application) (a : Adviser) (request : Option String) : Option Adviser :=
  match request with
  | none => some a
  | some name =>
    if a.application = .power then
      (parse name).map fun app =>
        ⟨app, if name = "interferenceSuppression" ∧ a.mode = .standard then .available else a.mode⟩
    else some a

/-- A new adviser (src/advisers/MagneticAdviser.h:184-185). -/
def Adviser.new : Adviser := ⟨.power, .standard⟩

/-- The applications that the designs of one adviser are made for, call after call; a call that throws leaves the adviser as it was
(the throw at src/advisers/MagneticAdviser.cpp:579 comes before both changes). -/
def designs (parse : String → Option Application) : Adviser → List (Option String) → List (Option Application)
  | _, [] => []
  | a, r :: rs =>
    match adopt parse a r with
    | none => none :: designs parse a rs
    | some a' => some a'.application :: designs parse a' rs

end Verif.Advice.Restore
