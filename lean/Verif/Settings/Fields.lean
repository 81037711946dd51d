import Verif.Scoring.Model
import Mathlib.Data.Rat.Defs

/-!
# Members and accessors of the library settings (src/support/Settings.h, src/support/Settings.cpp)

The lists of members, default values, assignments of `reset()` and accessors below were extracted from the
source text with a script; nothing in them is abbreviated. Enumerators are represented by their names, so a
setter may be called with any name. `double` is a rational number, NaN or an infinity.
-/

namespace Verif.Settings

/-- A `double`. -/
abbrev Dbl := Scoring.Num ℚ

/-- The C++ types of the members of `Settings`. -/
inductive Ty where
  | bool | nat | int | dbl | str | optDbl | optStr | optMap | enum | optEnum | enums
  deriving DecidableEq, Repr

/-- Values of each type; enumerators are their names. -/
abbrev Den : Ty → Type
  | .bool => Bool
  | .nat => Nat
  | .int => Int
  | .dbl => Dbl
  | .str => String
  | .optDbl => Option Dbl
  | .optStr => Option String
  | .optMap => Option (List (String × Dbl))
  | .enum => String
  | .optEnum => Option String
  | .enums => List String

/-- The data members of `Settings` (src/support/Settings.h:31-224). -/
inductive Field where
  | useToroidalCores
  | useConcentricCores
  | inputsTrimHarmonics
  | inputsNumberPointsSampledWaveforms
  | magnetizingInductanceIncludeAirInductance
  | coilAllowMarginTape
  | coilAllowInsulatedWire
  | coilFillSectionsWithMarginTape
  | coilWindEvenIfNotFit
  | coilDelimitAndCompact
  | coilTryRewind
  | coilIncludeAdditionalCoordinates
  | coilEqualizeMargins
  | coilOnlyOneTurnPerLayerInContiguousRectangular
  | coilUseRealWindingGeometry
  | coilAllowCoatingSquish
  | coilAllowHorizontalOverflow
  | coilMaximumLayersPlanar
  | useOnlyCoresInStock
  | usePowderCores
  | corePerColumnWindingWindows
  | coilAdviserAllowLateralPlacement
  | effectiveParameterStandard
  | nanocrystallineStackingFactor
  | painterNumberPointsX
  | painterNumberPointsY
  | painterMirroringDimension
  | painterMode
  | painterLogarithmicScale
  | painterIncludeFringing
  | painterDrawSpacer
  | painterSimpleLitz
  | painterAdvancedLitz
  | painterMaximumValueColorbar
  | painterMinimumValueColorbar
  | painterColorFerrite
  | painterColorBobbin
  | painterColorCopper
  | painterColorInsulation
  | painterColorFr4
  | painterColorEnamel
  | painterColorFEP
  | painterColorETFE
  | painterColorTCA
  | painterColorPFA
  | painterColorSilk
  | painterColorMargin
  | painterColorSpacer
  | painterColorLines
  | painterColorText
  | painterColorCurrentDensity
  | painterCciCoordinatesPath
  | painterColorMagneticFieldMinimum
  | painterColorMagneticFieldMaximum
  | painterMagneticFieldStrengthModel
  | magneticFieldNumberPointsX
  | magneticFieldNumberPointsY
  | magneticFieldMirroringDimension
  | magneticFieldIncludeFringing
  | coilMesherInsideTurnsFactor
  | leakageInductanceGridAutoScaling
  | leakageInductanceGridPrecisionLevelPlanar
  | leakageInductanceGridPrecisionLevelWound
  | coilAdviserMaximumNumberWires
  | coreAdviserIncludeStacks
  | coreAdviserIncludeDistributedGaps
  | coreAdviserIncludeMargin
  | coreAdviserEnableIntermediatePruning
  | coreAdviserMaximumMagneticsAfterFiltering
  | coreAdviserEnableTemperatureFilter
  | coreAdviserMaximumTemperature
  | coreAdviserSaturationMargin
  | coreAdviserSaturationDeratingTemperature
  | gappingStrategy
  | wireAdviserIncludePlanar
  | wireAdviserIncludeFoil
  | wireAdviserIncludeRectangular
  | wireAdviserIncludeLitz
  | wireAdviserIncludeRound
  | wireAdviserAllowRectangularInToroidalCores
  | harmonicAmplitudeThresholdQuickMode
  | harmonicAmplitudeThreshold
  | coreLossesModelNames
  | magneticFieldStrengthModel
  | magneticFieldStrengthFringingEffectModel
  | leakageInductanceMagneticFieldStrengthModel
  | reluctanceModel
  | coreTemperatureModel
  | coreThermalResistanceModel
  | windingSkinEffectLossesModel
  | windingProximityEffectLossesModel
  | strayCapacitanceModel
  | electricFieldOutputUnit
  | coilEnableUserWindingLossesModels
  | circuitSimulatorCurveFittingMode
  | circuitSimulatorFracpoleOptions
  | circuitSimulatorIncludeSaturation
  | circuitSimulatorIncludeMutualResistance
  | circuitSimulatorIncludeStrayCapacitance
  | circuitSimulatorIncludeSteinmetzCoreLoss
  | circuitSimulatorCoreLossTopology
  | verbose
  | preferredCoreMaterialFerriteManufacturer
  | preferredCoreMaterialPowderManufacturer
  | coreCrossReferencerAllowDifferentCoreMaterialType
  | debug
  deriving DecidableEq, Repr

/-- Their types (src/support/Settings.h:31-224). -/
def ty : Field → Ty
  | .useToroidalCores => .bool
  | .useConcentricCores => .bool
  | .inputsTrimHarmonics => .bool
  | .inputsNumberPointsSampledWaveforms => .nat
  | .magnetizingInductanceIncludeAirInductance => .bool
  | .coilAllowMarginTape => .bool
  | .coilAllowInsulatedWire => .bool
  | .coilFillSectionsWithMarginTape => .bool
  | .coilWindEvenIfNotFit => .bool
  | .coilDelimitAndCompact => .bool
  | .coilTryRewind => .bool
  | .coilIncludeAdditionalCoordinates => .bool
  | .coilEqualizeMargins => .bool
  | .coilOnlyOneTurnPerLayerInContiguousRectangular => .bool
  | .coilUseRealWindingGeometry => .bool
  | .coilAllowCoatingSquish => .bool
  | .coilAllowHorizontalOverflow => .bool
  | .coilMaximumLayersPlanar => .nat
  | .useOnlyCoresInStock => .bool
  | .usePowderCores => .bool
  | .corePerColumnWindingWindows => .bool
  | .coilAdviserAllowLateralPlacement => .bool
  | .effectiveParameterStandard => .enum
  | .nanocrystallineStackingFactor => .dbl
  | .painterNumberPointsX => .nat
  | .painterNumberPointsY => .nat
  | .painterMirroringDimension => .int
  | .painterMode => .enum
  | .painterLogarithmicScale => .bool
  | .painterIncludeFringing => .bool
  | .painterDrawSpacer => .bool
  | .painterSimpleLitz => .bool
  | .painterAdvancedLitz => .bool
  | .painterMaximumValueColorbar => .optDbl
  | .painterMinimumValueColorbar => .optDbl
  | .painterColorFerrite => .str
  | .painterColorBobbin => .str
  | .painterColorCopper => .str
  | .painterColorInsulation => .str
  | .painterColorFr4 => .str
  | .painterColorEnamel => .str
  | .painterColorFEP => .str
  | .painterColorETFE => .str
  | .painterColorTCA => .str
  | .painterColorPFA => .str
  | .painterColorSilk => .str
  | .painterColorMargin => .str
  | .painterColorSpacer => .str
  | .painterColorLines => .str
  | .painterColorText => .str
  | .painterColorCurrentDensity => .str
  | .painterCciCoordinatesPath => .optStr
  | .painterColorMagneticFieldMinimum => .str
  | .painterColorMagneticFieldMaximum => .str
  | .painterMagneticFieldStrengthModel => .optEnum
  | .magneticFieldNumberPointsX => .nat
  | .magneticFieldNumberPointsY => .nat
  | .magneticFieldMirroringDimension => .int
  | .magneticFieldIncludeFringing => .bool
  | .coilMesherInsideTurnsFactor => .dbl
  | .leakageInductanceGridAutoScaling => .bool
  | .leakageInductanceGridPrecisionLevelPlanar => .dbl
  | .leakageInductanceGridPrecisionLevelWound => .dbl
  | .coilAdviserMaximumNumberWires => .nat
  | .coreAdviserIncludeStacks => .bool
  | .coreAdviserIncludeDistributedGaps => .bool
  | .coreAdviserIncludeMargin => .bool
  | .coreAdviserEnableIntermediatePruning => .bool
  | .coreAdviserMaximumMagneticsAfterFiltering => .nat
  | .coreAdviserEnableTemperatureFilter => .bool
  | .coreAdviserMaximumTemperature => .dbl
  | .coreAdviserSaturationMargin => .dbl
  | .coreAdviserSaturationDeratingTemperature => .dbl
  | .gappingStrategy => .enum
  | .wireAdviserIncludePlanar => .bool
  | .wireAdviserIncludeFoil => .bool
  | .wireAdviserIncludeRectangular => .bool
  | .wireAdviserIncludeLitz => .bool
  | .wireAdviserIncludeRound => .bool
  | .wireAdviserAllowRectangularInToroidalCores => .bool
  | .harmonicAmplitudeThresholdQuickMode => .bool
  | .harmonicAmplitudeThreshold => .dbl
  | .coreLossesModelNames => .enums
  | .magneticFieldStrengthModel => .enum
  | .magneticFieldStrengthFringingEffectModel => .enum
  | .leakageInductanceMagneticFieldStrengthModel => .enum
  | .reluctanceModel => .enum
  | .coreTemperatureModel => .enum
  | .coreThermalResistanceModel => .enum
  | .windingSkinEffectLossesModel => .enum
  | .windingProximityEffectLossesModel => .enum
  | .strayCapacitanceModel => .enum
  | .electricFieldOutputUnit => .enum
  | .coilEnableUserWindingLossesModels => .bool
  | .circuitSimulatorCurveFittingMode => .int
  | .circuitSimulatorFracpoleOptions => .optMap
  | .circuitSimulatorIncludeSaturation => .bool
  | .circuitSimulatorIncludeMutualResistance => .bool
  | .circuitSimulatorIncludeStrayCapacitance => .bool
  | .circuitSimulatorIncludeSteinmetzCoreLoss => .bool
  | .circuitSimulatorCoreLossTopology => .int
  | .verbose => .bool
  | .preferredCoreMaterialFerriteManufacturer => .str
  | .preferredCoreMaterialPowderManufacturer => .str
  | .coreCrossReferencerAllowDifferentCoreMaterialType => .bool
  | .debug => .bool

/-- The settings of one thread. -/
abbrev State := (f : Field) → Den (ty f)

/-- Value after construction: the initialiser in the class (src/support/Settings.h:31-224), replaced by the
assignment in the constructor when there is one (src/support/Settings.cpp:32-62). The constants of
`Defaults.h` and `Constants.h` are `const` and replaced by their values. -/
def initial : State
  | .useToroidalCores => true
  | .useConcentricCores => true
  | .inputsTrimHarmonics => true
  | .inputsNumberPointsSampledWaveforms => (128 : Nat)
  | .magnetizingInductanceIncludeAirInductance => false
  | .coilAllowMarginTape => true
  | .coilAllowInsulatedWire => true
  | .coilFillSectionsWithMarginTape => false
  | .coilWindEvenIfNotFit => false
  | .coilDelimitAndCompact => true
  | .coilTryRewind => true
  | .coilIncludeAdditionalCoordinates => true
  | .coilEqualizeMargins => true
  | .coilOnlyOneTurnPerLayerInContiguousRectangular => false
  | .coilUseRealWindingGeometry => false
  | .coilAllowCoatingSquish => false
  | .coilAllowHorizontalOverflow => false
  | .coilMaximumLayersPlanar => (32 : Nat)
  | .useOnlyCoresInStock => true
  | .usePowderCores => true
  | .corePerColumnWindingWindows => false
  | .coilAdviserAllowLateralPlacement => false
  | .effectiveParameterStandard => "IEC_60205"
  | .nanocrystallineStackingFactor => (.fin (4/5) : Dbl)
  | .painterNumberPointsX => (25 : Nat)
  | .painterNumberPointsY => (50 : Nat)
  | .painterMirroringDimension => (1 : Int)
  | .painterMode => "CONTOUR"
  | .painterLogarithmicScale => false
  | .painterIncludeFringing => true
  | .painterDrawSpacer => true
  | .painterSimpleLitz => true
  | .painterAdvancedLitz => false
  | .painterMaximumValueColorbar => none
  | .painterMinimumValueColorbar => none
  | .painterColorFerrite => "0x7b7c7d"
  | .painterColorBobbin => "0x539796"
  | .painterColorCopper => "0xb87333"
  | .painterColorInsulation => "0xfff05b"
  | .painterColorFr4 => "0x008000"
  | .painterColorEnamel => "0xc63032"
  | .painterColorFEP => "0x252525"
  | .painterColorETFE => "0xb42811"
  | .painterColorTCA => "0x696969"
  | .painterColorPFA => "0xedbe1c"
  | .painterColorSilk => "0xe7e7e8"
  | .painterColorMargin => "0xfff05b"
  | .painterColorSpacer => "0x3b3b3b"
  | .painterColorLines => "0x010000"
  | .painterColorText => "0x000000"
  | .painterColorCurrentDensity => "0x0892D0"
  | .painterCciCoordinatesPath => none
  | .painterColorMagneticFieldMinimum => "0x2b35f5"
  | .painterColorMagneticFieldMaximum => "0xe84922"
  | .painterMagneticFieldStrengthModel => none
  | .magneticFieldNumberPointsX => (25 : Nat)
  | .magneticFieldNumberPointsY => (50 : Nat)
  | .magneticFieldMirroringDimension => (1 : Int)
  | .magneticFieldIncludeFringing => true
  | .coilMesherInsideTurnsFactor => (.fin (21/20) : Dbl)
  | .leakageInductanceGridAutoScaling => true
  | .leakageInductanceGridPrecisionLevelPlanar => (.fin 3 : Dbl)
  | .leakageInductanceGridPrecisionLevelWound => (.fin 1 : Dbl)
  | .coilAdviserMaximumNumberWires => (30 : Nat)
  | .coreAdviserIncludeStacks => true
  | .coreAdviserIncludeDistributedGaps => true
  | .coreAdviserIncludeMargin => false
  | .coreAdviserEnableIntermediatePruning => true
  | .coreAdviserMaximumMagneticsAfterFiltering => (400 : Nat)
  | .coreAdviserEnableTemperatureFilter => false
  | .coreAdviserMaximumTemperature => (.fin 130 : Dbl)
  | .coreAdviserSaturationMargin => (.fin (6/5) : Dbl)
  | .coreAdviserSaturationDeratingTemperature => (.fin 100 : Dbl)
  | .gappingStrategy => "SIMPLE"
  | .wireAdviserIncludePlanar => false
  | .wireAdviserIncludeFoil => false
  | .wireAdviserIncludeRectangular => true
  | .wireAdviserIncludeLitz => true
  | .wireAdviserIncludeRound => true
  | .wireAdviserAllowRectangularInToroidalCores => false
  | .harmonicAmplitudeThresholdQuickMode => true
  | .harmonicAmplitudeThreshold => (.fin (1/20) : Dbl)
  | .coreLossesModelNames => ["IGSE", "PROPRIETARY", "LOSS_FACTOR", "STEINMETZ", "ROSHEN"]
  | .magneticFieldStrengthModel => "ALBACH"
  | .magneticFieldStrengthFringingEffectModel => "ROSHEN"
  | .leakageInductanceMagneticFieldStrengthModel => "BINNS_LAWRENSON"
  | .reluctanceModel => "ZHANG"
  | .coreTemperatureModel => "MANIKTALA"
  | .coreThermalResistanceModel => "MANIKTALA"
  | .windingSkinEffectLossesModel => "DOWELL"
  | .windingProximityEffectLossesModel => "FERREIRA"
  | .strayCapacitanceModel => "ALBACH"
  | .electricFieldOutputUnit => "JOULES_PER_CUBIC_METER"
  | .coilEnableUserWindingLossesModels => false
  | .circuitSimulatorCurveFittingMode => (0 : Int)
  | .circuitSimulatorFracpoleOptions => none
  | .circuitSimulatorIncludeSaturation => false
  | .circuitSimulatorIncludeMutualResistance => false
  | .circuitSimulatorIncludeStrayCapacitance => true
  | .circuitSimulatorIncludeSteinmetzCoreLoss => false
  | .circuitSimulatorCoreLossTopology => (1 : Int)
  | .verbose => false
  | .preferredCoreMaterialFerriteManufacturer => "Fair-Rite"
  | .preferredCoreMaterialPowderManufacturer => "Micrometals"
  | .coreCrossReferencerAllowDifferentCoreMaterialType => false
  | .debug => false

/-- Value assigned by `Settings::reset()` (src/support/Settings.cpp:65-205), `none` when the member is not
assigned. Each member is assigned at most once. -/
def resetValue : (f : Field) → Option (Den (ty f))
  | .useToroidalCores => some (true)
  | .useConcentricCores => some (true)
  | .inputsTrimHarmonics => some (true)
  | .inputsNumberPointsSampledWaveforms => some ((128 : Nat))
  | .magnetizingInductanceIncludeAirInductance => some (false)
  | .coilAllowMarginTape => some (true)
  | .coilAllowInsulatedWire => some (true)
  | .coilFillSectionsWithMarginTape => some (false)
  | .coilWindEvenIfNotFit => some (false)
  | .coilDelimitAndCompact => some (true)
  | .coilTryRewind => some (true)
  | .coilIncludeAdditionalCoordinates => some (true)
  | .coilEqualizeMargins => some (true)
  | .coilOnlyOneTurnPerLayerInContiguousRectangular => some (false)
  | .coilUseRealWindingGeometry => some (false)
  | .coilAllowCoatingSquish => some (false)
  | .coilAllowHorizontalOverflow => some (false)
  | .coilMaximumLayersPlanar => some ((32 : Nat))
  | .useOnlyCoresInStock => some (true)
  | .usePowderCores => some (true)
  | .corePerColumnWindingWindows => some (false)
  | .coilAdviserAllowLateralPlacement => some (false)
  | .effectiveParameterStandard => some ("IEC_60205")
  | .nanocrystallineStackingFactor => some ((.fin (4/5) : Dbl))
  | .painterNumberPointsX => some ((25 : Nat))
  | .painterNumberPointsY => some ((50 : Nat))
  | .painterMirroringDimension => some ((1 : Int))
  | .painterMode => some ("CONTOUR")
  | .painterLogarithmicScale => some (false)
  | .painterIncludeFringing => some (true)
  | .painterDrawSpacer => some (true)
  | .painterSimpleLitz => some (true)
  | .painterAdvancedLitz => some (false)
  | .painterMaximumValueColorbar => some (none)
  | .painterMinimumValueColorbar => some (none)
  | .painterColorFerrite => some ("0x7b7c7d")
  | .painterColorBobbin => some ("0x539796")
  | .painterColorCopper => some ("0xb87333")
  | .painterColorInsulation => some ("0xfff05b")
  | .painterColorFr4 => some ("0x008000")
  | .painterColorEnamel => some ("0xc63032")
  | .painterColorFEP => some ("0x252525")
  | .painterColorETFE => some ("0xb42811")
  | .painterColorTCA => some ("0x696969")
  | .painterColorPFA => some ("0xedbe1c")
  | .painterColorSilk => some ("0xe7e7e8")
  | .painterColorMargin => some ("0xfff05b")
  | .painterColorSpacer => some ("0x3b3b3b")
  | .painterColorLines => some ("0x010000")
  | .painterColorText => some ("0x000000")
  | .painterColorCurrentDensity => some ("0x0892D0")
  | .painterCciCoordinatesPath => some (none)
  | .painterColorMagneticFieldMinimum => some ("0x2b35f5")
  | .painterColorMagneticFieldMaximum => some ("0xe84922")
  | .painterMagneticFieldStrengthModel => some (none)
  | .magneticFieldNumberPointsX => some ((25 : Nat))
  | .magneticFieldNumberPointsY => some ((50 : Nat))
  | .magneticFieldMirroringDimension => some ((1 : Int))
  | .magneticFieldIncludeFringing => some (true)
  | .coilMesherInsideTurnsFactor => some ((.fin (21/20) : Dbl))
  | .leakageInductanceGridAutoScaling => some (true)
  | .leakageInductanceGridPrecisionLevelPlanar => some ((.fin 3 : Dbl))
  | .leakageInductanceGridPrecisionLevelWound => some ((.fin 1 : Dbl))
  | .coilAdviserMaximumNumberWires => some ((30 : Nat))
  | .coreAdviserIncludeStacks => some (true)
  | .coreAdviserIncludeDistributedGaps => some (true)
  | .coreAdviserIncludeMargin => some (false)
  | .coreAdviserEnableIntermediatePruning => some (true)
  | .coreAdviserMaximumMagneticsAfterFiltering => some ((400 : Nat))
  | .coreAdviserEnableTemperatureFilter => some (false)
  | .coreAdviserMaximumTemperature => some ((.fin 130 : Dbl))
  | .coreAdviserSaturationMargin => some ((.fin (6/5) : Dbl))
  | .coreAdviserSaturationDeratingTemperature => some ((.fin 100 : Dbl))
  | .gappingStrategy => some ("SIMPLE")
  | .wireAdviserIncludePlanar => some (false)
  | .wireAdviserIncludeFoil => some (false)
  | .wireAdviserIncludeRectangular => some (true)
  | .wireAdviserIncludeLitz => some (true)
  | .wireAdviserIncludeRound => some (true)
  | .wireAdviserAllowRectangularInToroidalCores => some (false)
  | .harmonicAmplitudeThresholdQuickMode => some (true)
  | .harmonicAmplitudeThreshold => some ((.fin (1/20) : Dbl))
  | .coreLossesModelNames => some (["IGSE", "PROPRIETARY", "LOSS_FACTOR", "STEINMETZ", "ROSHEN"])
  | .magneticFieldStrengthModel => some ("ALBACH")
  | .magneticFieldStrengthFringingEffectModel => some ("ROSHEN")
  | .leakageInductanceMagneticFieldStrengthModel => some ("BINNS_LAWRENSON")
  | .reluctanceModel => some ("ZHANG")
  | .coreTemperatureModel => some ("MANIKTALA")
  | .coreThermalResistanceModel => some ("MANIKTALA")
  | .windingSkinEffectLossesModel => some ("DOWELL")
  | .windingProximityEffectLossesModel => some ("FERREIRA")
  | .strayCapacitanceModel => some ("ALBACH")
  | .electricFieldOutputUnit => some ("JOULES_PER_CUBIC_METER")
  | .coilEnableUserWindingLossesModels => some (false)
  | .circuitSimulatorCurveFittingMode => some ((0 : Int))
  | .circuitSimulatorFracpoleOptions => some (none)
  | .circuitSimulatorIncludeSaturation => some (false)
  | .circuitSimulatorIncludeMutualResistance => some (false)
  | .circuitSimulatorIncludeStrayCapacitance => some (true)
  | .circuitSimulatorIncludeSteinmetzCoreLoss => some (false)
  | .circuitSimulatorCoreLossTopology => some ((1 : Int))
  | .verbose => some (false)
  | .preferredCoreMaterialFerriteManufacturer => some ("Fair-Rite")
  | .preferredCoreMaterialPowderManufacturer => some ("Micrometals")
  | .coreCrossReferencerAllowDifferentCoreMaterialType => some (false)
  | .debug => none

/-- The settings with a plain getter and setter, by accessor name (src/support/Settings.cpp:215-1035). The
two irregular ones, `painter_cci_coordinates_path` and `core_losses_preferred_model_name`, are treated
separately. -/
inductive Accessor where
  | verbose
  | useToroidalCores
  | useConcentricCores
  | inputsTrimHarmonics
  | inputsNumberPointsSampledWaveforms
  | magnetizingInductanceIncludeAirInductance
  | coilAllowMarginTape
  | coilAllowInsulatedWire
  | coilFillSectionsWithMarginTape
  | coilWindEvenIfNotFit
  | coilDelimitAndCompact
  | coilTryRewind
  | coilIncludeAdditionalCoordinates
  | coilEqualizeMargins
  | coilOnlyOneTurnPerLayerInContiguousRectangular
  | coilUseRealWindingGeometry
  | coilAllowCoatingSquish
  | coilAllowHorizontalOverflow
  | coilMaximumLayersPlanar
  | useOnlyCoresInStock
  | usePowderCores
  | corePerColumnWindingWindows
  | coilAdviserAllowLateralPlacement
  | effectiveParameterStandard
  | nanocrystallineStackingFactor
  | painterNumberPointsX
  | painterNumberPointsY
  | painterMode
  | painterLogarithmicScale
  | painterIncludeFringing
  | painterDrawSpacer
  | painterSimpleLitz
  | painterAdvancedLitz
  | painterMaximumValueColorbar
  | painterMinimumValueColorbar
  | painterColorFerrite
  | painterColorBobbin
  | painterColorCopper
  | painterColorInsulation
  | painterColorFr4
  | painterColorMargin
  | painterColorSpacer
  | painterColorLines
  | painterColorText
  | painterColorEnamel
  | painterColorFep
  | painterColorEtfe
  | painterColorTca
  | painterColorPfa
  | painterColorSilk
  | painterColorCurrentDensity
  | painterColorMagneticFieldMinimum
  | painterColorMagneticFieldMaximum
  | painterMagneticFieldStrengthModel
  | painterMirroringDimension
  | magneticFieldNumberPointsX
  | magneticFieldNumberPointsY
  | magneticFieldMirroringDimension
  | magneticFieldIncludeFringing
  | coilMesherInsideTurnsFactor
  | leakageInductanceGridAutoScaling
  | leakageInductanceGridPrecisionLevelPlanar
  | leakageInductanceGridPrecisionLevelWound
  | coilAdviserMaximumNumberWires
  | coreAdviserIncludeStacks
  | coreAdviserIncludeDistributedGaps
  | coreAdviserIncludeMargin
  | coreAdviserEnableIntermediatePruning
  | coreAdviserMaximumMagneticsAfterFiltering
  | coreAdviserEnableTemperatureFilter
  | coreAdviserMaximumTemperature
  | coreAdviserSaturationMargin
  | coreAdviserSaturationDeratingTemperature
  | gappingStrategy
  | wireAdviserIncludePlanar
  | wireAdviserIncludeFoil
  | wireAdviserIncludeRectangular
  | wireAdviserIncludeLitz
  | wireAdviserIncludeRound
  | wireAdviserAllowRectangularInToroidalCores
  | harmonicAmplitudeThresholdQuickMode
  | harmonicAmplitudeThreshold
  | preferredCoreMaterialFerriteManufacturer
  | preferredCoreMaterialPowderManufacturer
  | coreCrossReferencerAllowDifferentCoreMaterialType
  | magneticFieldStrengthModel
  | magneticFieldStrengthFringingEffectModel
  | leakageInductanceMagneticFieldStrengthModel
  | reluctanceModel
  | coreTemperatureModel
  | coreThermalResistanceModel
  | windingSkinEffectLossesModel
  | windingProximityEffectLossesModel
  | strayCapacitanceModel
  | electricFieldOutputUnit
  | coilEnableUserWindingLossesModels
  | circuitSimulatorCurveFittingMode
  | circuitSimulatorFracpoleOptions
  | circuitSimulatorIncludeSaturation
  | circuitSimulatorIncludeMutualResistance
  | circuitSimulatorIncludeStrayCapacitance
  | circuitSimulatorIncludeSteinmetzCoreLoss
  | circuitSimulatorCoreLossTopology
  deriving DecidableEq, Repr

/-- The member returned by each getter (the `return` statement of `Settings::get_…`,
src/support/Settings.cpp:215-1035). -/
def getterField : Accessor → Field
  | .verbose => .verbose
  | .useToroidalCores => .useToroidalCores
  | .useConcentricCores => .useConcentricCores
  | .inputsTrimHarmonics => .inputsTrimHarmonics
  | .inputsNumberPointsSampledWaveforms => .inputsNumberPointsSampledWaveforms
  | .magnetizingInductanceIncludeAirInductance => .magnetizingInductanceIncludeAirInductance
  | .coilAllowMarginTape => .coilAllowMarginTape
  | .coilAllowInsulatedWire => .coilAllowInsulatedWire
  | .coilFillSectionsWithMarginTape => .coilFillSectionsWithMarginTape
  | .coilWindEvenIfNotFit => .coilWindEvenIfNotFit
  | .coilDelimitAndCompact => .coilDelimitAndCompact
  | .coilTryRewind => .coilTryRewind
  | .coilIncludeAdditionalCoordinates => .coilIncludeAdditionalCoordinates
  | .coilEqualizeMargins => .coilEqualizeMargins
  | .coilOnlyOneTurnPerLayerInContiguousRectangular => .coilOnlyOneTurnPerLayerInContiguousRectangular
  | .coilUseRealWindingGeometry => .coilUseRealWindingGeometry
  | .coilAllowCoatingSquish => .coilAllowCoatingSquish
  | .coilAllowHorizontalOverflow => .coilAllowHorizontalOverflow
  | .coilMaximumLayersPlanar => .coilMaximumLayersPlanar
  | .useOnlyCoresInStock => .useOnlyCoresInStock
  | .usePowderCores => .usePowderCores
  | .corePerColumnWindingWindows => .corePerColumnWindingWindows
  | .coilAdviserAllowLateralPlacement => .coilAdviserAllowLateralPlacement
  | .effectiveParameterStandard => .effectiveParameterStandard
  | .nanocrystallineStackingFactor => .nanocrystallineStackingFactor
  | .painterNumberPointsX => .painterNumberPointsX
  | .painterNumberPointsY => .painterNumberPointsY
  | .painterMode => .painterMode
  | .painterLogarithmicScale => .painterLogarithmicScale
  | .painterIncludeFringing => .painterIncludeFringing
  | .painterDrawSpacer => .painterDrawSpacer
  | .painterSimpleLitz => .painterSimpleLitz
  | .painterAdvancedLitz => .painterAdvancedLitz
  | .painterMaximumValueColorbar => .painterMaximumValueColorbar
  | .painterMinimumValueColorbar => .painterMinimumValueColorbar
  | .painterColorFerrite => .painterColorFerrite
  | .painterColorBobbin => .painterColorBobbin
  | .painterColorCopper => .painterColorCopper
  | .painterColorInsulation => .painterColorInsulation
  | .painterColorFr4 => .painterColorFr4
  | .painterColorMargin => .painterColorMargin
  | .painterColorSpacer => .painterColorSpacer
  | .painterColorLines => .painterColorLines
  | .painterColorText => .painterColorText
  | .painterColorEnamel => .painterColorEnamel
  | .painterColorFep => .painterColorFEP
  | .painterColorEtfe => .painterColorETFE
  | .painterColorTca => .painterColorTCA
  | .painterColorPfa => .painterColorPFA
  | .painterColorSilk => .painterColorSilk
  | .painterColorCurrentDensity => .painterColorCurrentDensity
  | .painterColorMagneticFieldMinimum => .painterColorMagneticFieldMinimum
  | .painterColorMagneticFieldMaximum => .painterColorMagneticFieldMaximum
  | .painterMagneticFieldStrengthModel => .painterMagneticFieldStrengthModel
  | .painterMirroringDimension => .painterMirroringDimension
  | .magneticFieldNumberPointsX => .magneticFieldNumberPointsX
  | .magneticFieldNumberPointsY => .magneticFieldNumberPointsY
  | .magneticFieldMirroringDimension => .magneticFieldMirroringDimension
  | .magneticFieldIncludeFringing => .magneticFieldIncludeFringing
  | .coilMesherInsideTurnsFactor => .coilMesherInsideTurnsFactor
  | .leakageInductanceGridAutoScaling => .leakageInductanceGridAutoScaling
  | .leakageInductanceGridPrecisionLevelPlanar => .leakageInductanceGridPrecisionLevelPlanar
  | .leakageInductanceGridPrecisionLevelWound => .leakageInductanceGridPrecisionLevelWound
  | .coilAdviserMaximumNumberWires => .coilAdviserMaximumNumberWires
  | .coreAdviserIncludeStacks => .coreAdviserIncludeStacks
  | .coreAdviserIncludeDistributedGaps => .coreAdviserIncludeDistributedGaps
  | .coreAdviserIncludeMargin => .coreAdviserIncludeMargin
  | .coreAdviserEnableIntermediatePruning => .coreAdviserEnableIntermediatePruning
  | .coreAdviserMaximumMagneticsAfterFiltering => .coreAdviserMaximumMagneticsAfterFiltering
  | .coreAdviserEnableTemperatureFilter => .coreAdviserEnableTemperatureFilter
  | .coreAdviserMaximumTemperature => .coreAdviserMaximumTemperature
  | .coreAdviserSaturationMargin => .coreAdviserSaturationMargin
  | .coreAdviserSaturationDeratingTemperature => .coreAdviserSaturationDeratingTemperature
  | .gappingStrategy => .gappingStrategy
  | .wireAdviserIncludePlanar => .wireAdviserIncludePlanar
  | .wireAdviserIncludeFoil => .wireAdviserIncludeFoil
  | .wireAdviserIncludeRectangular => .wireAdviserIncludeRectangular
  | .wireAdviserIncludeLitz => .wireAdviserIncludeLitz
  | .wireAdviserIncludeRound => .wireAdviserIncludeRound
  | .wireAdviserAllowRectangularInToroidalCores => .wireAdviserAllowRectangularInToroidalCores
  | .harmonicAmplitudeThresholdQuickMode => .harmonicAmplitudeThresholdQuickMode
  | .harmonicAmplitudeThreshold => .harmonicAmplitudeThreshold
  | .preferredCoreMaterialFerriteManufacturer => .preferredCoreMaterialFerriteManufacturer
  | .preferredCoreMaterialPowderManufacturer => .preferredCoreMaterialPowderManufacturer
  | .coreCrossReferencerAllowDifferentCoreMaterialType => .coreCrossReferencerAllowDifferentCoreMaterialType
  | .magneticFieldStrengthModel => .magneticFieldStrengthModel
  | .magneticFieldStrengthFringingEffectModel => .magneticFieldStrengthFringingEffectModel
  | .leakageInductanceMagneticFieldStrengthModel => .leakageInductanceMagneticFieldStrengthModel
  | .reluctanceModel => .reluctanceModel
  | .coreTemperatureModel => .coreTemperatureModel
  | .coreThermalResistanceModel => .coreThermalResistanceModel
  | .windingSkinEffectLossesModel => .windingSkinEffectLossesModel
  | .windingProximityEffectLossesModel => .windingProximityEffectLossesModel
  | .strayCapacitanceModel => .strayCapacitanceModel
  | .electricFieldOutputUnit => .electricFieldOutputUnit
  | .coilEnableUserWindingLossesModels => .coilEnableUserWindingLossesModels
  | .circuitSimulatorCurveFittingMode => .circuitSimulatorCurveFittingMode
  | .circuitSimulatorFracpoleOptions => .circuitSimulatorFracpoleOptions
  | .circuitSimulatorIncludeSaturation => .circuitSimulatorIncludeSaturation
  | .circuitSimulatorIncludeMutualResistance => .circuitSimulatorIncludeMutualResistance
  | .circuitSimulatorIncludeStrayCapacitance => .circuitSimulatorIncludeStrayCapacitance
  | .circuitSimulatorIncludeSteinmetzCoreLoss => .circuitSimulatorIncludeSteinmetzCoreLoss
  | .circuitSimulatorCoreLossTopology => .circuitSimulatorCoreLossTopology

/-- The member assigned by each setter (`Settings::set_…`, src/support/Settings.cpp:215-1035). -/
def setterField : Accessor → Field
  | .verbose => .verbose
  | .useToroidalCores => .useToroidalCores
  | .useConcentricCores => .useConcentricCores
  | .inputsTrimHarmonics => .inputsTrimHarmonics
  | .inputsNumberPointsSampledWaveforms => .inputsNumberPointsSampledWaveforms
  | .magnetizingInductanceIncludeAirInductance => .magnetizingInductanceIncludeAirInductance
  | .coilAllowMarginTape => .coilAllowMarginTape
  | .coilAllowInsulatedWire => .coilAllowInsulatedWire
  | .coilFillSectionsWithMarginTape => .coilFillSectionsWithMarginTape
  | .coilWindEvenIfNotFit => .coilWindEvenIfNotFit
  | .coilDelimitAndCompact => .coilDelimitAndCompact
  | .coilTryRewind => .coilTryRewind
  | .coilIncludeAdditionalCoordinates => .coilIncludeAdditionalCoordinates
  | .coilEqualizeMargins => .coilEqualizeMargins
  | .coilOnlyOneTurnPerLayerInContiguousRectangular => .coilOnlyOneTurnPerLayerInContiguousRectangular
  | .coilUseRealWindingGeometry => .coilUseRealWindingGeometry
  | .coilAllowCoatingSquish => .coilAllowCoatingSquish
  | .coilAllowHorizontalOverflow => .coilAllowHorizontalOverflow
  | .coilMaximumLayersPlanar => .coilMaximumLayersPlanar
  | .useOnlyCoresInStock => .useOnlyCoresInStock
  | .usePowderCores => .usePowderCores
  | .corePerColumnWindingWindows => .corePerColumnWindingWindows
  | .coilAdviserAllowLateralPlacement => .coilAdviserAllowLateralPlacement
  | .effectiveParameterStandard => .effectiveParameterStandard
  | .nanocrystallineStackingFactor => .nanocrystallineStackingFactor
  | .painterNumberPointsX => .painterNumberPointsX
  | .painterNumberPointsY => .painterNumberPointsY
  | .painterMode => .painterMode
  | .painterLogarithmicScale => .painterLogarithmicScale
  | .painterIncludeFringing => .painterIncludeFringing
  | .painterDrawSpacer => .painterDrawSpacer
  | .painterSimpleLitz => .painterSimpleLitz
  | .painterAdvancedLitz => .painterAdvancedLitz
  | .painterMaximumValueColorbar => .painterMaximumValueColorbar
  | .painterMinimumValueColorbar => .painterMinimumValueColorbar
  | .painterColorFerrite => .painterColorFerrite
  | .painterColorBobbin => .painterColorBobbin
  | .painterColorCopper => .painterColorCopper
  | .painterColorInsulation => .painterColorInsulation
  | .painterColorFr4 => .painterColorFr4
  | .painterColorMargin => .painterColorMargin
  | .painterColorSpacer => .painterColorSpacer
  | .painterColorLines => .painterColorLines
  | .painterColorText => .painterColorText
  | .painterColorEnamel => .painterColorEnamel
  | .painterColorFep => .painterColorFEP
  | .painterColorEtfe => .painterColorETFE
  | .painterColorTca => .painterColorTCA
  | .painterColorPfa => .painterColorPFA
  | .painterColorSilk => .painterColorSilk
  | .painterColorCurrentDensity => .painterColorCurrentDensity
  | .painterColorMagneticFieldMinimum => .painterColorMagneticFieldMinimum
  | .painterColorMagneticFieldMaximum => .painterColorMagneticFieldMaximum
  | .painterMagneticFieldStrengthModel => .painterMagneticFieldStrengthModel
  | .painterMirroringDimension => .painterMirroringDimension
  | .magneticFieldNumberPointsX => .magneticFieldNumberPointsX
  | .magneticFieldNumberPointsY => .magneticFieldNumberPointsY
  | .magneticFieldMirroringDimension => .magneticFieldMirroringDimension
  | .magneticFieldIncludeFringing => .magneticFieldIncludeFringing
  | .coilMesherInsideTurnsFactor => .coilMesherInsideTurnsFactor
  | .leakageInductanceGridAutoScaling => .leakageInductanceGridAutoScaling
  | .leakageInductanceGridPrecisionLevelPlanar => .leakageInductanceGridPrecisionLevelPlanar
  | .leakageInductanceGridPrecisionLevelWound => .leakageInductanceGridPrecisionLevelWound
  | .coilAdviserMaximumNumberWires => .coilAdviserMaximumNumberWires
  | .coreAdviserIncludeStacks => .coreAdviserIncludeStacks
  | .coreAdviserIncludeDistributedGaps => .coreAdviserIncludeDistributedGaps
  | .coreAdviserIncludeMargin => .coreAdviserIncludeMargin
  | .coreAdviserEnableIntermediatePruning => .coreAdviserEnableIntermediatePruning
  | .coreAdviserMaximumMagneticsAfterFiltering => .coreAdviserMaximumMagneticsAfterFiltering
  | .coreAdviserEnableTemperatureFilter => .coreAdviserEnableTemperatureFilter
  | .coreAdviserMaximumTemperature => .coreAdviserMaximumTemperature
  | .coreAdviserSaturationMargin => .coreAdviserSaturationMargin
  | .coreAdviserSaturationDeratingTemperature => .coreAdviserSaturationDeratingTemperature
  | .gappingStrategy => .gappingStrategy
  | .wireAdviserIncludePlanar => .wireAdviserIncludePlanar
  | .wireAdviserIncludeFoil => .wireAdviserIncludeFoil
  | .wireAdviserIncludeRectangular => .wireAdviserIncludeRectangular
  | .wireAdviserIncludeLitz => .wireAdviserIncludeLitz
  | .wireAdviserIncludeRound => .wireAdviserIncludeRound
  | .wireAdviserAllowRectangularInToroidalCores => .wireAdviserAllowRectangularInToroidalCores
  | .harmonicAmplitudeThresholdQuickMode => .harmonicAmplitudeThresholdQuickMode
  | .harmonicAmplitudeThreshold => .harmonicAmplitudeThreshold
  | .preferredCoreMaterialFerriteManufacturer => .preferredCoreMaterialFerriteManufacturer
  | .preferredCoreMaterialPowderManufacturer => .preferredCoreMaterialPowderManufacturer
  | .coreCrossReferencerAllowDifferentCoreMaterialType => .coreCrossReferencerAllowDifferentCoreMaterialType
  | .magneticFieldStrengthModel => .magneticFieldStrengthModel
  | .magneticFieldStrengthFringingEffectModel => .magneticFieldStrengthFringingEffectModel
  | .leakageInductanceMagneticFieldStrengthModel => .leakageInductanceMagneticFieldStrengthModel
  | .reluctanceModel => .reluctanceModel
  | .coreTemperatureModel => .coreTemperatureModel
  | .coreThermalResistanceModel => .coreThermalResistanceModel
  | .windingSkinEffectLossesModel => .windingSkinEffectLossesModel
  | .windingProximityEffectLossesModel => .windingProximityEffectLossesModel
  | .strayCapacitanceModel => .strayCapacitanceModel
  | .electricFieldOutputUnit => .electricFieldOutputUnit
  | .coilEnableUserWindingLossesModels => .coilEnableUserWindingLossesModels
  | .circuitSimulatorCurveFittingMode => .circuitSimulatorCurveFittingMode
  | .circuitSimulatorFracpoleOptions => .circuitSimulatorFracpoleOptions
  | .circuitSimulatorIncludeSaturation => .circuitSimulatorIncludeSaturation
  | .circuitSimulatorIncludeMutualResistance => .circuitSimulatorIncludeMutualResistance
  | .circuitSimulatorIncludeStrayCapacitance => .circuitSimulatorIncludeStrayCapacitance
  | .circuitSimulatorIncludeSteinmetzCoreLoss => .circuitSimulatorIncludeSteinmetzCoreLoss
  | .circuitSimulatorCoreLossTopology => .circuitSimulatorCoreLossTopology

end Verif.Settings
