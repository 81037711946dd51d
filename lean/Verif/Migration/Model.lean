import Verif.Common.Json

/-! # Model of the migration of pre-1.0 MAS documents (src/constructive_models/MasMigration.cpp) -/

namespace Verif.Migration

open Verif (Json)

/-- The entries of `mapping()` in source order (src/constructive_models/MasMigration.cpp:17-147). -/
def table : List (String × String) :=
  [("Functional", "functional"),
   ("Basic", "basic"),
   ("Supplementary", "supplementary"),
   ("Double", "double"),
   ("Reinforced", "reinforced"),
   ("Wound", "wound"),
   ("Printed", "printed"),
   ("Stamped", "stamped"),
   ("Deposition", "deposition"),
   ("Power", "power"),
   ("Signal Processing", "signalProcessing"),
   ("Interference Suppression", "interferenceSuppression"),
   ("Power Filtering", "powerFiltering"),
   ("Transforming", "transforming"),
   ("Isolation", "isolation"),
   ("Common Mode Noise Filtering", "commonModeNoiseFiltering"),
   ("Differential Mode Noise Filtering", "differentialModeNoiseFiltering"),
   ("Pin", "pin"),
   ("Screw", "screw"),
   ("SMT", "smt"),
   ("Flying Lead", "flyingLead"),
   ("THT", "tht"),
   ("PCB Pad", "pcbPad"),
   ("inner or top", "innerOrTop"),
   ("outer or bottom", "outerOrBottom"),
   ("two-piece set", "twoPieceSet"),
   ("piece and plate", "pieceAndPlate"),
   ("closed shape", "closedShape"),
   ("half set", "halfSet"),
   ("SINGLE_PHASE", "singlePhase"),
   ("THREE_PHASE", "threePhase"),
   ("THREE_PHASE_WITH_NEUTRAL", "threePhaseWithNeutral"),
   ("Custom", "custom"),
   ("Triangular", "triangular"),
   ("Sinusoidal", "sinusoidal"),
   ("Rectangular", "rectangular"),
   ("Unipolar Rectangular", "unipolarRectangular"),
   ("Unipolar Triangular", "unipolarTriangular"),
   ("Bipolar Rectangular", "bipolarRectangular"),
   ("Bipolar Triangular", "bipolarTriangular"),
   ("Flyback Primary", "flybackPrimary"),
   ("Flyback Secondary", "flybackSecondary"),
   ("Rectangular With Deadtime", "rectangularWithDeadtime"),
   ("Flyback Secondary With Deadtime", "flybackSecondaryWithDeadtime"),
   ("Rectangular DCM", "rectangularDCM"),
   ("Secondary Rectangular", "secondaryRectangular"),
   ("Secondary Rectangular With Deadtime", "secondaryRectangularWithDeadtime"),
   ("Triangular With Deadtime", "triangularWithDeadtime"),
   ("Buck Converter", "buckConverter"),
   ("Boost Converter", "boostConverter"),
   ("Inverting Buck-Boost Converter", "invertingBuckBoostConverter"),
   ("Cuk Converter", "cukConverter"),
   ("SEPIC Converter", "sepicConverter"),
   ("Zeta Converter", "zetaConverter"),
   ("Weinberg Converter", "weinbergConverter"),
   ("Flyback Converter", "flybackConverter"),
   ("Active Clamp Forward Converter", "activeClampForwardConverter"),
   ("Single Switch Forward Converter", "singleSwitchForwardConverter"),
   ("Two Switch Forward Converter", "twoSwitchForwardConverter"),
   ("Push-Pull Converter", "pushPullConverter"),
   ("Weinberg Converter", "weinbergConverter"),
   ("4-Switch Buck-Boost Converter", "fourSwitchBuckBoostConverter"),
   ("Half-Bridge Converter", "halfBridgeConverter"),
   ("Full-Bridge Converter", "fullBridgeConverter"),
   ("Phase-Shifted Full-Bridge Converter", "phaseShiftedFullBridgeConverter"),
   ("Phase-Shifted Half-Bridge Converter", "phaseShiftedHalfBridgeConverter"),
   ("Current Transformer", "currentTransformer"),
   ("Isolated Buck Converter", "isolatedBuckConverter"),
   ("Isolated Buck-Boost Converter", "isolatedBuckBoostConverter"),
   ("Dual Active Bridge Converter", "dualActiveBridgeConverter"),
   ("LLC Resonant Converter", "llcResonantConverter"),
   ("CLLC Resonant Converter", "cllcResonantConverter"),
   ("CLLLC Resonant Converter", "clllcResonantConverter"),
   ("Common Mode Choke", "commonModeChoke"),
   ("Differential Mode Choke", "differentialModeChoke"),
   ("Power Factor Correction", "powerFactorCorrection"),
   ("Continuous Conduction Mode", "continuousConductionMode"),
   ("Discontinuous Conduction Mode", "discontinuousConductionMode"),
   ("Quasi Resonant Mode", "quasiResonantMode"),
   ("Boundary Mode Operation", "boundaryModeOperation"),
   ("Critical Conduction Mode", "criticalConductionMode"),
   ("Transition Mode", "transitionMode"),
   ("Half Bridge", "halfBridge"),
   ("Full Bridge", "fullBridge"),
   ("Center Tapped", "centerTapped"),
   ("Current Doubler", "currentDoubler"),
   ("Forward", "forward"),
   ("Reverse", "reverse"),
   ("Medical", "medical"),
   ("Commercial", "commercial"),
   ("Industrial", "industrial"),
   ("Military", "military"),
   ("Space", "space"),
   ("Carbonyl Iron", "carbonylIron"),
   ("Iron", "iron"),
   ("Proprietary", "proprietary"),
   ("Group I", "groupI"),
   ("Group II", "groupII"),
   ("Group IIIA", "groupIIIA"),
   ("Group IIIB", "groupIIIB"),
   ("P1", "PD1"),
   ("P2", "PD2"),
   ("P3", "PD3"),
   ("OVC-I", "I"),
   ("OVC-II", "II"),
   ("OVC-III", "III"),
   ("OVC-IV", "IV"),
   ("planar e", "planarE"),
   ("planar er", "planarER"),
   ("planar el", "planarEL")]

/-- `m.find(s)` on the map built from the entries: the initialiser list of a `std::unordered_map` keeps the
first of two entries with one key (src/constructive_models/MasMigration.cpp:158). -/
def find : List (String × String) → String → Option String
  | [], _ => none
  | (a, b) :: l, s => if s = a then some b else find l s

/-- The string case (src/constructive_models/MasMigration.cpp:155-161). -/
def migrateString (s : String) : String :=
  match find table s with
  | some t => t
  | none => s

/-- The member named `cost` (src/constructive_models/MasMigration.cpp:172-179). `toDouble` is what
`get<double>()` followed by storing the double does to the written form of a number; the members of the new
object are in the key order of `std::map`. -/
def migrateCost (toDouble : String → String) : Json → Json
  | .num n => .obj [("currency", .str "USD"), ("value", .num (toDouble n))]
  | .str _ => .null
  | j => j

mutual
/-- Models `migrate_pre_1_0` (src/constructive_models/MasMigration.cpp:154-189). -/
def migrate (toDouble : String → String) : Json → Json
  | .str s => .str (migrateString s)
  | .obj ms => .obj (migrateMembers toDouble ms)
  | .arr l => .arr (migrateElements toDouble l)
  | .null => .null
  | .bool b => .bool b
  | .num n => .num n

/-- The loop over the members (src/constructive_models/MasMigration.cpp:163-182). -/
def migrateMembers (toDouble : String → String) : List (String × Json) → List (String × Json)
  | [] => []
  | (k, v) :: ms =>
    (k, if k = "cost" then migrateCost toDouble v else migrate toDouble v) :: migrateMembers toDouble ms

/-- The loop over the elements (src/constructive_models/MasMigration.cpp:184-186). -/
def migrateElements (toDouble : String → String) : List Json → List Json
  | [] => []
  | v :: l => migrate toDouble v :: migrateElements toDouble l
end

end Verif.Migration
