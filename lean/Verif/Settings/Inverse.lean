import Verif.Settings.Fields

/-! # The accessor of each member (helper: inverse of the setter table) -/

namespace Verif.Settings

/-- The accessor of a member, if it has a regular one; only used to show that no two setters assign the same
member. -/
def accessorOf : Field → Option Accessor
  | .verbose => some .verbose
  | .useToroidalCores => some .useToroidalCores
  | .useConcentricCores => some .useConcentricCores
  | .inputsTrimHarmonics => some .inputsTrimHarmonics
  | .inputsNumberPointsSampledWaveforms => some .inputsNumberPointsSampledWaveforms
  | .magnetizingInductanceIncludeAirInductance => some .magnetizingInductanceIncludeAirInductance
  | .coilAllowMarginTape => some .coilAllowMarginTape
  | .coilAllowInsulatedWire => some .coilAllowInsulatedWire
  | .coilFillSectionsWithMarginTape => some .coilFillSectionsWithMarginTape
  | .coilWindEvenIfNotFit => some .coilWindEvenIfNotFit
  | .coilDelimitAndCompact => some .coilDelimitAndCompact
  | .coilTryRewind => some .coilTryRewind
  | .coilIncludeAdditionalCoordinates => some .coilIncludeAdditionalCoordinates
  | .coilEqualizeMargins => some .coilEqualizeMargins
  | .coilOnlyOneTurnPerLayerInContiguousRectangular => some .coilOnlyOneTurnPerLayerInContiguousRectangular
  | .coilUseRealWindingGeometry => some .coilUseRealWindingGeometry
  | .coilAllowCoatingSquish => some .coilAllowCoatingSquish
  | .coilAllowHorizontalOverflow => some .coilAllowHorizontalOverflow
  | .coilMaximumLayersPlanar => some .coilMaximumLayersPlanar
  | .useOnlyCoresInStock => some .useOnlyCoresInStock
  | .usePowderCores => some .usePowderCores
  | .corePerColumnWindingWindows => some .corePerColumnWindingWindows
  | .coilAdviserAllowLateralPlacement => some .coilAdviserAllowLateralPlacement
  | .effectiveParameterStandard => some .effectiveParameterStandard
  | .nanocrystallineStackingFactor => some .nanocrystallineStackingFactor
  | .painterNumberPointsX => some .painterNumberPointsX
  | .painterNumberPointsY => some .painterNumberPointsY
  | .painterMode => some .painterMode
  | .painterLogarithmicScale => some .painterLogarithmicScale
  | .painterIncludeFringing => some .painterIncludeFringing
  | .painterDrawSpacer => some .painterDrawSpacer
  | .painterSimpleLitz => some .painterSimpleLitz
  | .painterAdvancedLitz => some .painterAdvancedLitz
  | .painterMaximumValueColorbar => some .painterMaximumValueColorbar
  | .painterMinimumValueColorbar => some .painterMinimumValueColorbar
  | .painterColorFerrite => some .painterColorFerrite
  | .painterColorBobbin => some .painterColorBobbin
  | .painterColorCopper => some .painterColorCopper
  | .painterColorInsulation => some .painterColorInsulation
  | .painterColorFr4 => some .painterColorFr4
  | .painterColorMargin => some .painterColorMargin
  | .painterColorSpacer => some .painterColorSpacer
  | .painterColorLines => some .painterColorLines
  | .painterColorText => some .painterColorText
  | .painterColorEnamel => some .painterColorEnamel
  | .painterColorFEP => some .painterColorFep
  | .painterColorETFE => some .painterColorEtfe
  | .painterColorTCA => some .painterColorTca
  | .painterColorPFA => some .painterColorPfa
  | .painterColorSilk => some .painterColorSilk
  | .painterColorCurrentDensity => some .painterColorCurrentDensity
  | .painterColorMagneticFieldMinimum => some .painterColorMagneticFieldMinimum
  | .painterColorMagneticFieldMaximum => some .painterColorMagneticFieldMaximum
  | .painterMagneticFieldStrengthModel => some .painterMagneticFieldStrengthModel
  | .painterMirroringDimension => some .painterMirroringDimension
  | .magneticFieldNumberPointsX => some .magneticFieldNumberPointsX
  | .magneticFieldNumberPointsY => some .magneticFieldNumberPointsY
  | .magneticFieldMirroringDimension => some .magneticFieldMirroringDimension
  | .magneticFieldIncludeFringing => some .magneticFieldIncludeFringing
  | .coilMesherInsideTurnsFactor => some .coilMesherInsideTurnsFactor
  | .leakageInductanceGridAutoScaling => some .leakageInductanceGridAutoScaling
  | .leakageInductanceGridPrecisionLevelPlanar => some .leakageInductanceGridPrecisionLevelPlanar
  | .leakageInductanceGridPrecisionLevelWound => some .leakageInductanceGridPrecisionLevelWound
  | .coilAdviserMaximumNumberWires => some .coilAdviserMaximumNumberWires
  | .coreAdviserIncludeStacks => some .coreAdviserIncludeStacks
  | .coreAdviserIncludeDistributedGaps => some .coreAdviserIncludeDistributedGaps
  | .coreAdviserIncludeMargin => some .coreAdviserIncludeMargin
  | .coreAdviserEnableIntermediatePruning => some .coreAdviserEnableIntermediatePruning
  | .coreAdviserMaximumMagneticsAfterFiltering => some .coreAdviserMaximumMagneticsAfterFiltering
  | .coreAdviserEnableTemperatureFilter => some .coreAdviserEnableTemperatureFilter
  | .coreAdviserMaximumTemperature => some .coreAdviserMaximumTemperature
  | .coreAdviserSaturationMargin => some .coreAdviserSaturationMargin
  | .coreAdviserSaturationDeratingTemperature => some .coreAdviserSaturationDeratingTemperature
  | .gappingStrategy => some .gappingStrategy
  | .wireAdviserIncludePlanar => some .wireAdviserIncludePlanar
  | .wireAdviserIncludeFoil => some .wireAdviserIncludeFoil
  | .wireAdviserIncludeRectangular => some .wireAdviserIncludeRectangular
  | .wireAdviserIncludeLitz => some .wireAdviserIncludeLitz
  | .wireAdviserIncludeRound => some .wireAdviserIncludeRound
  | .wireAdviserAllowRectangularInToroidalCores => some .wireAdviserAllowRectangularInToroidalCores
  | .harmonicAmplitudeThresholdQuickMode => some .harmonicAmplitudeThresholdQuickMode
  | .harmonicAmplitudeThreshold => some .harmonicAmplitudeThreshold
  | .preferredCoreMaterialFerriteManufacturer => some .preferredCoreMaterialFerriteManufacturer
  | .preferredCoreMaterialPowderManufacturer => some .preferredCoreMaterialPowderManufacturer
  | .coreCrossReferencerAllowDifferentCoreMaterialType => some .coreCrossReferencerAllowDifferentCoreMaterialType
  | .magneticFieldStrengthModel => some .magneticFieldStrengthModel
  | .magneticFieldStrengthFringingEffectModel => some .magneticFieldStrengthFringingEffectModel
  | .leakageInductanceMagneticFieldStrengthModel => some .leakageInductanceMagneticFieldStrengthModel
  | .reluctanceModel => some .reluctanceModel
  | .coreTemperatureModel => some .coreTemperatureModel
  | .coreThermalResistanceModel => some .coreThermalResistanceModel
  | .windingSkinEffectLossesModel => some .windingSkinEffectLossesModel
  | .windingProximityEffectLossesModel => some .windingProximityEffectLossesModel
  | .strayCapacitanceModel => some .strayCapacitanceModel
  | .electricFieldOutputUnit => some .electricFieldOutputUnit
  | .coilEnableUserWindingLossesModels => some .coilEnableUserWindingLossesModels
  | .circuitSimulatorCurveFittingMode => some .circuitSimulatorCurveFittingMode
  | .circuitSimulatorFracpoleOptions => some .circuitSimulatorFracpoleOptions
  | .circuitSimulatorIncludeSaturation => some .circuitSimulatorIncludeSaturation
  | .circuitSimulatorIncludeMutualResistance => some .circuitSimulatorIncludeMutualResistance
  | .circuitSimulatorIncludeStrayCapacitance => some .circuitSimulatorIncludeStrayCapacitance
  | .circuitSimulatorIncludeSteinmetzCoreLoss => some .circuitSimulatorIncludeSteinmetzCoreLoss
  | .circuitSimulatorCoreLossTopology => some .circuitSimulatorCoreLossTopology
  | _ => none

theorem accessorOf_setterField (a : Accessor) : accessorOf (setterField a) = some a := by cases a <;> rfl

end Verif.Settings
