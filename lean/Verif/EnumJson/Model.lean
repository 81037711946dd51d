import Verif.Common.Json

/-! # Model of the enumerations that MKF serialises itself (generated from the source)

For each enumeration: the enumerators in declaration order, what `to_json` writes, and the spellings
`from_json` accepts in the order of its `if` chain. A value outside the enumeration (obtained by a cast) is not
modelled. -/

namespace Verif.EnumJson

open Verif (Json)

/-- One serialised enumeration. -/
structure Table (α : Type) where
  /-- the enumerators -/
  all : List α
  /-- the string written by `to_json` -/
  write : α → String
  /-- the chain of comparisons of `from_json` -/
  chain : List (String × α)

/-- The `if (j == "...") x = ...; else if ...` chain; `none` is the exception at its end. -/
def readString {α : Type} : List (String × α) → String → Option α
  | [], _ => none
  | (s, x) :: l, t => if t = s then some x else readString l t

/-- `from_json`: comparing a JSON value that is not a string with a string literal is false. -/
def Table.read {α : Type} (t : Table α) : Json → Option α
  | .str s => readString t.chain s
  | _ => none

/-- `to_json`. -/
def Table.toJson {α : Type} (t : Table α) (x : α) : Json := .str (t.write x)

/-- Models `enum class DimensionalValues` (src/Definitions.h:10-14). -/
inductive DimensionalValues where
  | maximum
  | nominal
  | minimum
  deriving DecidableEq

/-- The serialisation of `DimensionalValues` (src/Definitions.h:19-24 and src/Definitions.h:26-33). -/
def dimensionalValuesTable : Table DimensionalValues where
  all := [.maximum, .nominal, .minimum]
  write
    | .maximum => "Maximum"
    | .nominal => "Nominal"
    | .minimum => "Minimum"
  chain := [
    ("Maximum", .maximum),
    ("Nominal", .nominal),
    ("Minimum", .minimum)]

/-- Models `enum class GappingType` (src/Definitions.h:35-40). -/
inductive GappingType where
  | ground
  | spacer
  | residual
  | distributed
  deriving DecidableEq

/-- The serialisation of `GappingType` (src/Definitions.h:45-51 and src/Definitions.h:53-61). -/
def gappingTypeTable : Table GappingType where
  all := [.ground, .spacer, .residual, .distributed]
  write
    | .ground => "Ground"
    | .spacer => "Spacer"
    | .residual => "Residual"
    | .distributed => "Distributed"
  chain := [
    ("Ground", .ground),
    ("ground", .ground),
    ("GROUND", .ground),
    ("Spacer", .spacer),
    ("spacer", .spacer),
    ("SPACER", .spacer),
    ("Residual", .residual),
    ("residual", .residual),
    ("RESIDUAL", .residual),
    ("Distributed", .distributed),
    ("distributed", .distributed),
    ("DISTRIBUTED", .distributed)]

/-- Models `enum class CoreCrossReferencerFilters` (src/Definitions.h:63-70). -/
inductive CoreCrossReferencerFilters where
  | permeance
  | coreLosses
  | saturation
  | windingWindowArea
  | envelopingVolume
  | effectiveArea
  deriving DecidableEq

/-- The serialisation of `CoreCrossReferencerFilters` (src/Definitions.h:75-83 and src/Definitions.h:85-95). -/
def coreCrossReferencerFiltersTable : Table CoreCrossReferencerFilters where
  all := [.permeance, .coreLosses, .saturation, .windingWindowArea, .envelopingVolume, .effectiveArea]
  write
    | .permeance => "Permeance"
    | .coreLosses => "CoreLosses"
    | .saturation => "Saturation"
    | .windingWindowArea => "WindingWindowArea"
    | .envelopingVolume => "EnvelopingVolume"
    | .effectiveArea => "EffectiveArea"
  chain := [
    ("Permeance", .permeance),
    ("permeance", .permeance),
    ("PERMEANCE", .permeance),
    ("CoreLosses", .coreLosses),
    ("corelosses", .coreLosses),
    ("CORELOSSES", .coreLosses),
    ("Saturation", .saturation),
    ("saturation", .saturation),
    ("SATURATION", .saturation),
    ("WindingWindowArea", .windingWindowArea),
    ("windingwindowarea", .windingWindowArea),
    ("WINDINGWINDOWAREA", .windingWindowArea),
    ("EnvelopingVolume", .envelopingVolume),
    ("envelopingvolume", .envelopingVolume),
    ("ENVELOPINGVOLUME", .envelopingVolume),
    ("EffectiveArea", .effectiveArea),
    ("effectivearea", .effectiveArea),
    ("EFFECTIVEAREA", .effectiveArea)]

/-- Models `enum class CoreMaterialCrossReferencerFilters` (src/Definitions.h:97-105). -/
inductive CoreMaterialCrossReferencerFilters where
  | initialPermeability
  | remanence
  | coerciveForce
  | saturation
  | curieTemperature
  | volumetricLosses
  | resistivity
  deriving DecidableEq

/-- The serialisation of `CoreMaterialCrossReferencerFilters` (src/Definitions.h:110-119 and src/Definitions.h:121-132). -/
def coreMaterialCrossReferencerFiltersTable : Table CoreMaterialCrossReferencerFilters where
  all := [.initialPermeability, .remanence, .coerciveForce, .saturation, .curieTemperature, .volumetricLosses, .resistivity]
  write
    | .initialPermeability => "InitialPermeability"
    | .remanence => "Remanence"
    | .coerciveForce => "CoerciveForce"
    | .saturation => "Saturation"
    | .curieTemperature => "CurieTemperature"
    | .volumetricLosses => "VolumetricLosses"
    | .resistivity => "Resistivity"
  chain := [
    ("InitialPermeability", .initialPermeability),
    ("initialpermeability", .initialPermeability),
    ("INITIALPERMEABILITY", .initialPermeability),
    ("Remanence", .remanence),
    ("remanence", .remanence),
    ("REMANENCE", .remanence),
    ("CoerciveForce", .coerciveForce),
    ("coerciveforce", .coerciveForce),
    ("COERCIVEFORCE", .coerciveForce),
    ("Saturation", .saturation),
    ("saturation", .saturation),
    ("SATURATION", .saturation),
    ("CurieTemperature", .curieTemperature),
    ("curietemperature", .curieTemperature),
    ("CURIETEMPERATURE", .curieTemperature),
    ("VolumetricLosses", .volumetricLosses),
    ("volumetriclosses", .volumetricLosses),
    ("VOLUMETRICLOSSES", .volumetricLosses),
    ("Resistivity", .resistivity),
    ("resistivity", .resistivity),
    ("RESISTIVITY", .resistivity)]

/-- Models `enum class OrderedIsolationSide` (src/Definitions.h:134-147). -/
inductive OrderedIsolationSide where
  | primary
  | secondary
  | tertiary
  | quaternary
  | quinary
  | senary
  | septenary
  | octonary
  | nonary
  | denary
  | undenary
  | duodenary
  deriving DecidableEq

/-- The serialisation of `OrderedIsolationSide` (src/Definitions.h:152-166 and src/Definitions.h:168-184). -/
def orderedIsolationSideTable : Table OrderedIsolationSide where
  all := [.primary, .secondary, .tertiary, .quaternary, .quinary, .senary, .septenary, .octonary, .nonary, .denary, .undenary, .duodenary]
  write
    | .primary => "primary"
    | .secondary => "secondary"
    | .tertiary => "tertiary"
    | .quaternary => "quaternary"
    | .quinary => "quinary"
    | .senary => "senary"
    | .septenary => "septenary"
    | .octonary => "octonary"
    | .nonary => "nonary"
    | .denary => "denary"
    | .undenary => "undenary"
    | .duodenary => "duodenary"
  chain := [
    ("primary", .primary),
    ("Primary", .primary),
    ("PRIMARY", .primary),
    ("secondary", .secondary),
    ("Secondary", .secondary),
    ("SECONDARY", .secondary),
    ("tertiary", .tertiary),
    ("Tertiary", .tertiary),
    ("TERTIARY", .tertiary),
    ("quaternary", .quaternary),
    ("Quaternary", .quaternary),
    ("QUATERNARY", .quaternary),
    ("quinary", .quinary),
    ("Quinary", .quinary),
    ("QUINARY", .quinary),
    ("senary", .senary),
    ("Senary", .senary),
    ("SENARY", .senary),
    ("septenary", .septenary),
    ("Septenary", .septenary),
    ("SEPTENARY", .septenary),
    ("octonary", .octonary),
    ("Octonary", .octonary),
    ("OCTONARY", .octonary),
    ("nonary", .nonary),
    ("Nonary", .nonary),
    ("NONARY", .nonary),
    ("denary", .denary),
    ("Denary", .denary),
    ("DENARY", .denary),
    ("undenary", .undenary),
    ("Undenary", .undenary),
    ("UNDENARY", .undenary),
    ("duodenary", .duodenary),
    ("Duodenary", .duodenary),
    ("DUODENARY", .duodenary)]

/-- Models `enum class PainterModes` (src/Definitions.h:187-191). -/
inductive PainterModes where
  | contour
  | quiver
  | scatter
  deriving DecidableEq

/-- The serialisation of `PainterModes` (src/Definitions.h:196-201 and src/Definitions.h:203-210). -/
def painterModesTable : Table PainterModes where
  all := [.contour, .quiver, .scatter]
  write
    | .contour => "Contour"
    | .quiver => "Quiver"
    | .scatter => "Scatter"
  chain := [
    ("Contour", .contour),
    ("contour", .contour),
    ("CONTOUR", .contour),
    ("Quiver", .quiver),
    ("quiver", .quiver),
    ("QUIVER", .quiver),
    ("Scatter", .scatter),
    ("scatter", .scatter),
    ("SCATTER", .scatter)]

/-- Models `enum class MagneticFilters` (src/Definitions.h:495-534). -/
inductive MagneticFilters where
  | areaProduct
  | energyStored
  | estimatedCost
  | cost
  | coreAndDcLosses
  | coreDcAndSkinLosses
  | losses
  | lossesNoProximity
  | dimensions
  | coreMinimumImpedance
  | areaNoParallels
  | areaWithParallels
  | effectiveResistance
  | proximityFactor
  | solidInsulationRequirements
  | turnsRatios
  | maximumDimensions
  | saturation
  | dcCurrentDensity
  | effectiveCurrentDensity
  | impedance
  | magnetizingInductance
  | fringingFactor
  | skinLossesDensity
  | volume
  | area
  | height
  | temperatureRise
  | volumeTimesTemperatureRise
  | lossesTimesVolume
  | lossesTimesVolumeTimesTemperatureRise
  | lossesNoProximityTimesVolume
  | lossesNoProximityTimesVolumeTimesTemperatureRise
  | magnetomotiveForce
  | leakageInductance
  | temperature
  | turnCount
  | datasheetLimits
  deriving DecidableEq

/-- The serialisation of `MagneticFilters` (src/Definitions.h:577-617 and src/Definitions.h:619-661). -/
def magneticFiltersTable : Table MagneticFilters where
  all := [.areaProduct, .energyStored, .estimatedCost, .cost, .coreAndDcLosses, .coreDcAndSkinLosses, .losses, .lossesNoProximity, .dimensions, .coreMinimumImpedance, .areaNoParallels, .areaWithParallels, .effectiveResistance, .proximityFactor, .solidInsulationRequirements, .turnsRatios, .maximumDimensions, .saturation, .dcCurrentDensity, .effectiveCurrentDensity, .impedance, .magnetizingInductance, .fringingFactor, .skinLossesDensity, .volume, .area, .height, .temperatureRise, .volumeTimesTemperatureRise, .lossesTimesVolume, .lossesTimesVolumeTimesTemperatureRise, .lossesNoProximityTimesVolume, .lossesNoProximityTimesVolumeTimesTemperatureRise, .magnetomotiveForce, .leakageInductance, .temperature, .turnCount, .datasheetLimits]
  write
    | .areaProduct => "Area Product"
    | .energyStored => "Energy Stored"
    | .estimatedCost => "Estimated Cost"
    | .cost => "Cost"
    | .coreAndDcLosses => "Core And DC Losses"
    | .coreDcAndSkinLosses => "Core DC And Skin Losses"
    | .losses => "Losses"
    | .lossesNoProximity => "Losses No Proximity"
    | .dimensions => "Dimensions"
    | .coreMinimumImpedance => "Core Minimum Impedance"
    | .areaNoParallels => "Area No Parallels"
    | .areaWithParallels => "Area With Parallels"
    | .effectiveResistance => "Effective Resistance"
    | .proximityFactor => "Proximity Factor"
    | .solidInsulationRequirements => "Solid Insulation Requirements"
    | .turnsRatios => "Turns Ratios"
    | .maximumDimensions => "Maximum Dimensions"
    | .saturation => "Saturation"
    | .dcCurrentDensity => "Dc Current Density"
    | .effectiveCurrentDensity => "Effective Current Density"
    | .impedance => "Impedance"
    | .magnetizingInductance => "Magnetizing Inductance"
    | .fringingFactor => "Fringing Factor"
    | .skinLossesDensity => "Skin Losses Density"
    | .volume => "Volume"
    | .area => "Area"
    | .height => "Height"
    | .temperatureRise => "Temperature Rise"
    | .volumeTimesTemperatureRise => "Volume Times Temperature Rise"
    | .lossesTimesVolume => "Losses Times Volume"
    | .lossesTimesVolumeTimesTemperatureRise => "Losses Times Volume Times Temperature Rise"
    | .lossesNoProximityTimesVolume => "Losses No Proximity Times Volume"
    | .lossesNoProximityTimesVolumeTimesTemperatureRise => "Losses No Proximity Times Volume Times Temperature Rise"
    | .magnetomotiveForce => "MagnetomotiveForce"
    | .leakageInductance => "Leakage Inductance"
    | .temperature => "Temperature"
    | .turnCount => "Turn Count"
    | .datasheetLimits => "Datasheet Limits"
  chain := [
    ("Area Product", .areaProduct),
    ("Energy Stored", .energyStored),
    ("Cost", .cost),
    ("Estimated Cost", .estimatedCost),
    ("Core And DC Losses", .coreAndDcLosses),
    ("Core DC And Skin Losses", .coreDcAndSkinLosses),
    ("Losses", .losses),
    ("Losses No Proximity", .lossesNoProximity),
    ("Dimensions", .dimensions),
    ("Core Minimum Impedance", .coreMinimumImpedance),
    ("Area No Parallels", .areaNoParallels),
    ("Area With Parallels", .areaWithParallels),
    ("Effective Resistance", .effectiveResistance),
    ("Proximity Factor", .proximityFactor),
    ("Solid Insulation Requirements", .solidInsulationRequirements),
    ("Turns Ratios", .turnsRatios),
    ("Maximum Dimensions", .maximumDimensions),
    ("Saturation", .saturation),
    ("Dc Current Density", .dcCurrentDensity),
    ("Effective Current Density", .effectiveCurrentDensity),
    ("Impedance", .impedance),
    ("Magnetizing Inductance", .magnetizingInductance),
    ("Fringing Factor", .fringingFactor),
    ("Skin Losses Density", .skinLossesDensity),
    ("Volume", .volume),
    ("Area", .area),
    ("Height", .height),
    ("Temperature Rise", .temperatureRise),
    ("Losses Times Volume", .lossesTimesVolume),
    ("Volume Times Temperature Rise", .volumeTimesTemperatureRise),
    ("Losses Times Volume Times Temperature Rise", .lossesTimesVolumeTimesTemperatureRise),
    ("Losses No Proximity Times Volume", .lossesNoProximityTimesVolume),
    ("Losses No Proximity Times Volume Times Temperature Rise", .lossesNoProximityTimesVolumeTimesTemperatureRise),
    ("MagnetomotiveForce", .magnetomotiveForce),
    ("Leakage Inductance", .leakageInductance),
    ("Temperature", .temperature),
    ("Turn Count", .turnCount),
    ("Datasheet Limits", .datasheetLimits)]

/-- Models `enum class MagneticFieldStrengthModels` (src/Models.h:8-14). -/
inductive MagneticFieldStrengthModels where
  | binnsLawrenson
  | lammeraner
  | dowell
  | wang
  | albach
  deriving DecidableEq

/-- The serialisation of `MagneticFieldStrengthModels` (src/Definitions.h:226-233 and src/Definitions.h:215-224). -/
def magneticFieldStrengthModelsTable : Table MagneticFieldStrengthModels where
  all := [.binnsLawrenson, .lammeraner, .dowell, .wang, .albach]
  write
    | .binnsLawrenson => "BinnsLawrenson"
    | .lammeraner => "Lammeraner"
    | .dowell => "Dowell"
    | .wang => "Wang"
    | .albach => "Albach"
  chain := [
    ("BinnsLawrenson", .binnsLawrenson),
    ("binnslawrenson", .binnsLawrenson),
    ("BINNSLAWRENSON", .binnsLawrenson),
    ("Lammeraner", .lammeraner),
    ("lammeraner", .lammeraner),
    ("LAMMERANER", .lammeraner),
    ("Dowell", .dowell),
    ("dowell", .dowell),
    ("DOWELL", .dowell),
    ("Wang", .wang),
    ("wang", .wang),
    ("WANG", .wang),
    ("Albach", .albach),
    ("albach", .albach),
    ("ALBACH", .albach),
    ("Albach2D", .albach),
    ("albach2d", .albach),
    ("ALBACH_2D", .albach)]

/-- Models `enum class MagneticFieldStrengthFringingEffectModels` (src/Models.h:16-20). -/
inductive MagneticFieldStrengthFringingEffectModels where
  | roshen
  | albach
  | sullivan
  deriving DecidableEq

/-- The serialisation of `MagneticFieldStrengthFringingEffectModels` (src/Definitions.h:247-252 and src/Definitions.h:238-245). -/
def magneticFieldStrengthFringingEffectModelsTable : Table MagneticFieldStrengthFringingEffectModels where
  all := [.roshen, .albach, .sullivan]
  write
    | .roshen => "Roshen"
    | .albach => "Albach"
    | .sullivan => "Sullivan"
  chain := [
    ("Roshen", .roshen),
    ("roshen", .roshen),
    ("ROSHEN", .roshen),
    ("Albach", .albach),
    ("albach", .albach),
    ("ALBACH", .albach),
    ("Sullivan", .sullivan),
    ("sullivan", .sullivan),
    ("SULLIVAN", .sullivan)]

/-- Models `enum class ReluctanceModels` (src/Models.h:23-32). -/
inductive ReluctanceModels where
  | zhang
  | partridge
  | effectiveArea
  | effectiveLength
  | muehlethaler
  | stenglein
  | balakrishnan
  | classic
  deriving DecidableEq

/-- The serialisation of `ReluctanceModels` (src/Definitions.h:271-281 and src/Definitions.h:257-269). -/
def reluctanceModelsTable : Table ReluctanceModels where
  all := [.zhang, .partridge, .effectiveArea, .effectiveLength, .muehlethaler, .stenglein, .balakrishnan, .classic]
  write
    | .zhang => "Zhang"
    | .partridge => "Partridge"
    | .effectiveArea => "EffectiveArea"
    | .effectiveLength => "EffectiveLength"
    | .muehlethaler => "Muehlethaler"
    | .stenglein => "Stenglein"
    | .balakrishnan => "Balakrishnan"
    | .classic => "Classic"
  chain := [
    ("Zhang", .zhang),
    ("zhang", .zhang),
    ("ZHANG", .zhang),
    ("Partridge", .partridge),
    ("partridge", .partridge),
    ("PARTRIDGE", .partridge),
    ("EffectiveArea", .effectiveArea),
    ("effectivearea", .effectiveArea),
    ("EFFECTIVEAREA", .effectiveArea),
    ("EffectiveLength", .effectiveLength),
    ("effectivelength", .effectiveLength),
    ("EFFECTIVELENGTH", .effectiveLength),
    ("Muehlethaler", .muehlethaler),
    ("muehlethaler", .muehlethaler),
    ("MUEHLETHALER", .muehlethaler),
    ("Stenglein", .stenglein),
    ("stenglein", .stenglein),
    ("STENGLEIN", .stenglein),
    ("Balakrishnan", .balakrishnan),
    ("balakrishnan", .balakrishnan),
    ("BALAKRISHNAN", .balakrishnan),
    ("Classic", .classic),
    ("classic", .classic),
    ("CLASSIC", .classic)]

/-- Models `enum class CoreLossesModels` (src/Models.h:35-46). -/
inductive CoreLossesModels where
  | proprietary
  | steinmetz
  | igse
  | cigse
  | barg
  | roshen
  | albach
  | nse
  | mse
  | lossFactor
  deriving DecidableEq

/-- The serialisation of `CoreLossesModels` (src/Definitions.h:302-314 and src/Definitions.h:286-300). -/
def coreLossesModelsTable : Table CoreLossesModels where
  all := [.proprietary, .steinmetz, .igse, .cigse, .barg, .roshen, .albach, .nse, .mse, .lossFactor]
  write
    | .proprietary => "Proprietary"
    | .steinmetz => "Steinmetz"
    | .igse => "IGSE"
    | .cigse => "ciGSE"
    | .barg => "Barg"
    | .roshen => "Roshen"
    | .albach => "Albach"
    | .nse => "NSE"
    | .mse => "MSE"
    | .lossFactor => "LossFactor"
  chain := [
    ("Proprietary", .proprietary),
    ("proprietary", .proprietary),
    ("PROPRIETARY", .proprietary),
    ("Steinmetz", .steinmetz),
    ("steinmetz", .steinmetz),
    ("STEINMETZ", .steinmetz),
    ("Igse", .igse),
    ("igse", .igse),
    ("IGSE", .igse),
    ("CiGSE", .cigse),
    ("ciGSE", .cigse),
    ("cigse", .cigse),
    ("CIGSE", .cigse),
    ("Barg", .barg),
    ("barg", .barg),
    ("BARG", .barg),
    ("Roshen", .roshen),
    ("roshen", .roshen),
    ("ROSHEN", .roshen),
    ("Albach", .albach),
    ("albach", .albach),
    ("ALBACH", .albach),
    ("Nse", .nse),
    ("nse", .nse),
    ("NSE", .nse),
    ("Mse", .mse),
    ("mse", .mse),
    ("MSE", .mse),
    ("LossFactor", .lossFactor),
    ("lossfactor", .lossFactor),
    ("LOSSFACTOR", .lossFactor)]

/-- Models `enum class CoreThermalResistanceModels` (src/Models.h:49-52). -/
inductive CoreThermalResistanceModels where
  | maniktala
  | dixon
  deriving DecidableEq

/-- The serialisation of `CoreThermalResistanceModels` (src/Definitions.h:327-331 and src/Definitions.h:319-325). -/
def coreThermalResistanceModelsTable : Table CoreThermalResistanceModels where
  all := [.maniktala, .dixon]
  write
    | .maniktala => "Maniktala"
    | .dixon => "Dixon"
  chain := [
    ("Maniktala", .maniktala),
    ("maniktala", .maniktala),
    ("MANIKTALA", .maniktala),
    ("Dixon", .dixon),
    ("dixon", .dixon),
    ("DIXON", .dixon)]

/-- Models `enum class CoreTemperatureModels` (src/Models.h:55-61). -/
inductive CoreTemperatureModels where
  | kazimierczuk
  | maniktala
  | tdk
  | dixon
  | amidon
  deriving DecidableEq

/-- The serialisation of `CoreTemperatureModels` (src/Definitions.h:347-354 and src/Definitions.h:336-345). -/
def coreTemperatureModelsTable : Table CoreTemperatureModels where
  all := [.kazimierczuk, .maniktala, .tdk, .dixon, .amidon]
  write
    | .kazimierczuk => "Kazimierczuk"
    | .maniktala => "Maniktala"
    | .tdk => "Tdk"
    | .dixon => "Dixon"
    | .amidon => "Amidon"
  chain := [
    ("Kazimierczuk", .kazimierczuk),
    ("kazimierczuk", .kazimierczuk),
    ("KAZIMIERCZUK", .kazimierczuk),
    ("Maniktala", .maniktala),
    ("maniktala", .maniktala),
    ("MANIKTALA", .maniktala),
    ("Tdk", .tdk),
    ("tdk", .tdk),
    ("TDK", .tdk),
    ("Dixon", .dixon),
    ("dixon", .dixon),
    ("DIXON", .dixon),
    ("Amidon", .amidon),
    ("amidon", .amidon),
    ("AMIDON", .amidon)]

/-- Models `enum class WindingSkinEffectLossesModels` (src/Models.h:64-79). -/
inductive WindingSkinEffectLossesModels where
  | dowell
  | wojda
  | albach
  | payne
  | lotfi
  | xiNan
  | kazimierczuk
  | kutkut
  | ferreira
  | dimitrakakis
  | muehlethaler
  | wang
  | holguin
  | perry
  deriving DecidableEq

/-- The serialisation of `WindingSkinEffectLossesModels` (src/Definitions.h:379-395 and src/Definitions.h:359-377). -/
def windingSkinEffectLossesModelsTable : Table WindingSkinEffectLossesModels where
  all := [.dowell, .wojda, .albach, .payne, .lotfi, .xiNan, .kazimierczuk, .kutkut, .ferreira, .dimitrakakis, .muehlethaler, .wang, .holguin, .perry]
  write
    | .dowell => "Dowell"
    | .wojda => "Wojda"
    | .albach => "Albach"
    | .payne => "Payne"
    | .lotfi => "Lotfi"
    | .xiNan => "XiNan"
    | .kazimierczuk => "Kazimierczuk"
    | .kutkut => "Kutkut"
    | .ferreira => "Ferreira"
    | .dimitrakakis => "Dimitrakakis"
    | .muehlethaler => "Muehlethaler"
    | .wang => "Wang"
    | .holguin => "Holguin"
    | .perry => "Perry"
  chain := [
    ("Dowell", .dowell),
    ("dowell", .dowell),
    ("DOWELL", .dowell),
    ("Wojda", .wojda),
    ("wojda", .wojda),
    ("WOJDA", .wojda),
    ("Albach", .albach),
    ("albach", .albach),
    ("ALBACH", .albach),
    ("Payne", .payne),
    ("payne", .payne),
    ("PAYNE", .payne),
    ("Lotfi", .lotfi),
    ("lotfi", .lotfi),
    ("LOTFI", .lotfi),
    ("XiNan", .xiNan),
    ("xi_nan", .xiNan),
    ("XI_NAN", .xiNan),
    ("Kazimierczuk", .kazimierczuk),
    ("kazimierczuk", .kazimierczuk),
    ("KAZIMIERCZUK", .kazimierczuk),
    ("Muehlethaler", .muehlethaler),
    ("muehlethaler", .muehlethaler),
    ("MUEHLETHALER", .muehlethaler),
    ("Kutkut", .kutkut),
    ("kutkut", .kutkut),
    ("KUTKUT", .kutkut),
    ("Ferreira", .ferreira),
    ("ferreira", .ferreira),
    ("FERREIRA", .ferreira),
    ("Dimitrakakis", .dimitrakakis),
    ("dimitrakakis", .dimitrakakis),
    ("DIMITRAKAKIS", .dimitrakakis),
    ("Wang", .wang),
    ("wang", .wang),
    ("WANG", .wang),
    ("Holguin", .holguin),
    ("holguin", .holguin),
    ("HOLGUIN", .holguin),
    ("Perry", .perry),
    ("perry", .perry),
    ("PERRY", .perry)]

/-- Models `enum class WindingProximityEffectLossesModels` (src/Models.h:82-94). -/
inductive WindingProximityEffectLossesModels where
  | rossmanith
  | wang
  | ferreira
  | lammeraner
  | albach
  | dowell
  | xiNan
  | wojda
  | sullivan
  | bartoli
  | vandelac
  deriving DecidableEq

/-- The serialisation of `WindingProximityEffectLossesModels` (src/Definitions.h:400-413 and src/Definitions.h:415-430). -/
def windingProximityEffectLossesModelsTable : Table WindingProximityEffectLossesModels where
  all := [.rossmanith, .wang, .ferreira, .lammeraner, .albach, .dowell, .xiNan, .wojda, .sullivan, .bartoli, .vandelac]
  write
    | .rossmanith => "Rossmanith"
    | .wang => "Wang"
    | .ferreira => "Ferreira"
    | .lammeraner => "Lammeraner"
    | .albach => "Albach"
    | .dowell => "Dowell"
    | .xiNan => "XiNan"
    | .wojda => "Wojda"
    | .sullivan => "Sullivan"
    | .bartoli => "Bartoli"
    | .vandelac => "Vandelac"
  chain := [
    ("Rossmanith", .rossmanith),
    ("ROSSMANITH", .rossmanith),
    ("Wang", .wang),
    ("WANG", .wang),
    ("Ferreira", .ferreira),
    ("FERREIRA", .ferreira),
    ("Lammeraner", .lammeraner),
    ("LAMMERANER", .lammeraner),
    ("Albach", .albach),
    ("ALBACH", .albach),
    ("Dowell", .dowell),
    ("DOWELL", .dowell),
    ("XiNan", .xiNan),
    ("XI_NAN", .xiNan),
    ("Nan", .xiNan),
    ("Wojda", .wojda),
    ("WOJDA", .wojda),
    ("Sullivan", .sullivan),
    ("SULLIVAN", .sullivan),
    ("Bartoli", .bartoli),
    ("BARTOLI", .bartoli),
    ("Vandelac", .vandelac),
    ("VANDELAC", .vandelac)]

/-- Models `enum class StrayCapacitanceModels` (src/Models.h:97-102). -/
inductive StrayCapacitanceModels where
  | koch
  | albach
  | duerdoth
  | massarini
  deriving DecidableEq

/-- The serialisation of `StrayCapacitanceModels` (src/Definitions.h:446-452 and src/Definitions.h:436-444). -/
def strayCapacitanceModelsTable : Table StrayCapacitanceModels where
  all := [.koch, .albach, .duerdoth, .massarini]
  write
    | .koch => "Koch"
    | .albach => "Albach"
    | .duerdoth => "Duerdoth"
    | .massarini => "Massarini"
  chain := [
    ("Koch", .koch),
    ("koch", .koch),
    ("KOCH", .koch),
    ("Albach", .albach),
    ("albach", .albach),
    ("ALBACH", .albach),
    ("Duerdoth", .duerdoth),
    ("duerdoth", .duerdoth),
    ("DUERDOTH", .duerdoth),
    ("Massarini", .massarini),
    ("massarini", .massarini),
    ("MASSARINI", .massarini)]

/-- Models `enum class CircuitSimulatorExporterModels` (src/processors/CircuitSimulatorInterface.h:422-428). -/
inductive CircuitSimulatorExporterModels where
  | simba
  | ngspice
  | ltspice
  | nl5
  | plecs
  deriving DecidableEq

/-- The serialisation of `CircuitSimulatorExporterModels` (src/processors/CircuitSimulatorInterface.h:433-440 and src/processors/CircuitSimulatorInterface.h:442-451). -/
def circuitSimulatorExporterModelsTable : Table CircuitSimulatorExporterModels where
  all := [.simba, .ngspice, .ltspice, .nl5, .plecs]
  write
    | .simba => "SIMBA"
    | .ngspice => "NgSpice"
    | .ltspice => "LtSpice"
    | .nl5 => "NL5"
    | .plecs => "PLECS"
  chain := [
    ("SIMBA", .simba),
    ("NgSpice", .ngspice),
    ("LtSpice", .ltspice),
    ("NL5", .nl5),
    ("PLECS", .plecs)]

/-- Models `enum class CoreAdviserFilters` (src/advisers/CoreAdviser.h:100-108). -/
inductive CoreAdviserFilters where
  | cost
  | efficiency
  | dimensions
  | turnCount
  deriving DecidableEq

/-- The serialisation of `CoreAdviserFilters` (src/advisers/CoreAdviser.h:538-544 and src/advisers/CoreAdviser.h:546-554). -/
def coreAdviserFiltersTable : Table CoreAdviserFilters where
  all := [.cost, .efficiency, .dimensions, .turnCount]
  write
    | .cost => "Cost"
    | .efficiency => "Efficiency"
    | .dimensions => "Dimensions"
    | .turnCount => "TurnCount"
  chain := [
    ("Cost", .cost),
    ("cost", .cost),
    ("COST", .cost),
    ("Efficiency", .efficiency),
    ("efficiency", .efficiency),
    ("EFFICIENCY", .efficiency),
    ("Dimensions", .dimensions),
    ("dimensions", .dimensions),
    ("DIMENSIONS", .dimensions),
    ("TurnCount", .turnCount),
    ("turnCount", .turnCount),
    ("TURN_COUNT", .turnCount)]

/-- Models `enum class CoreAdviserModes` (src/advisers/CoreAdviser.h:110-114). -/
inductive CoreAdviserModes where
  | availableCores
  | standardCores
  | customCores
  deriving DecidableEq

/-- The serialisation of `CoreAdviserModes` (src/advisers/CoreAdviser.h:518-523 and src/advisers/CoreAdviser.h:525-533). -/
def coreAdviserModesTable : Table CoreAdviserModes where
  all := [.availableCores, .standardCores, .customCores]
  write
    | .availableCores => "available cores"
    | .standardCores => "standard cores"
    | .customCores => "custom cores"
  chain := [
    ("available cores", .availableCores),
    ("standard cores", .standardCores),
    ("custom cores", .customCores)]

/-! ## Filter operations -/

/-- Models `MagneticFilterOperation` (src/Definitions.h:536-569); the weight in its written form. -/
structure Operation where
  filter : MagneticFilters
  invert : Bool
  log : Bool
  strictlyRequired : Bool
  weight : String
  deriving DecidableEq

/-- `j.at(key).get<bool>()`; `none` is an exception. -/
def getBool (j : Json) (key : String) : Option Bool :=
  match j.get? key with
  | some (.bool b) => some b
  | _ => none

/-- `j.at(key).get<double>()`; `none` is an exception. A JSON boolean converts to 0 or 1 in nlohmann::json. -/
def getNumber (j : Json) (key : String) : Option String :=
  match j.get? key with
  | some (.num n) => some n
  | some (.bool true) => some "1"
  | some (.bool false) => some "0"
  | _ => none

/-- `j.at(key).get<MagneticFilters>()`; `none` is an exception. -/
def getFilter (j : Json) (key : String) : Option MagneticFilters :=
  match j.get? key with
  | some v => magneticFiltersTable.read v
  | none => none

/-- Models `from_json(json, MagneticFilterOperation)` (src/Definitions.h:663-669). -/
def readOperation (j : Json) : Option Operation :=
  match getFilter j "filter", getBool j "invert", getBool j "log", getBool j "strictlyRequired",
      getNumber j "weight" with
  | some f, some i, some l, some s, some w => some ⟨f, i, l, s, w⟩
  | _, _, _, _, _ => none

/-- Models `to_json(json, MagneticFilterOperation)` (src/Definitions.h:671-678); members in key order. -/
def writeOperation (x : Operation) : Json :=
  .obj [("filter", magneticFiltersTable.toJson x.filter), ("invert", .bool x.invert), ("log", .bool x.log),
    ("strictlyRequired", .bool x.strictlyRequired), ("weight", .num x.weight)]

/-- The loop of `from_json(json, vector)`: every element is appended to what the vector holds already; on an
exception (`none`) the elements read before it have been appended (src/Definitions.h:680-691). -/
def readOperationsInto : List Operation → List Json → List Operation × Bool
  | v, [] => (v, true)
  | v, e :: es => match readOperation e with
    | some x => readOperationsInto (v ++ [x]) es
    | none => (v, false)

/-- Models `to_json(json, vector)` (src/Definitions.h:693-704). -/
def writeOperations (v : List Operation) : List Json := v.map writeOperation

end Verif.EnumJson
