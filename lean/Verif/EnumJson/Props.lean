import Verif.EnumJson.Model
import Mathlib.Data.List.Basic

/-! # C28: names of models, filters and modes survive JSON -/

namespace Verif.EnumJson

open Verif (Json)

/-! ## Specification -/

/-- What a user relies on for one serialised enumeration. -/
structure Faithful {α : Type} (t : Table α) : Prop where
  /-- the listed enumerators are all of them -/
  complete : ∀ x : α, x ∈ t.all
  /-- reading back what was written gives the same enumerator -/
  round_trip : ∀ x : α, t.read (t.toJson x) = some x
  /-- distinct enumerators are written differently -/
  distinct : ∀ x y : α, t.toJson x = t.toJson y → x = y
  /-- a document is read as `x` exactly when it is a string published for `x`, whatever the order of the chain -/
  reads : ∀ (j : Json) (x : α), t.read j = some x ↔ ∃ s, j = .str s ∧ (s, x) ∈ t.chain
  /-- everything else is rejected -/
  rejects : ∀ j : Json, t.read j = none ↔ ¬ ∃ s x, j = .str s ∧ (s, x) ∈ t.chain

/-! ## Theorems -/

theorem readString_mem {α : Type} {l : List (String × α)} {s : String} {x : α} (h : readString l s = some x) :
    (s, x) ∈ l := by
  induction l with
  | nil => cases h
  | cons a l ih =>
    obtain ⟨a, y⟩ := a
    simp only [readString] at h
    split at h
    · rename_i e; subst e; cases h; exact List.mem_cons_self
    · exact List.mem_cons_of_mem _ (ih h)

theorem readString_none {α : Type} {l : List (String × α)} {s : String} (h : readString l s = none) (x : α) :
    (s, x) ∉ l := by
  induction l with
  | nil => simp
  | cons a l ih =>
    obtain ⟨a, y⟩ := a
    simp only [readString] at h
    split at h
    · cases h
    · rename_i e
      intro hm
      rcases List.mem_cons.mp hm with hm | hm
      · cases hm; exact e rfl
      · exact ih h hm

/-- The finite checks on a table suffice for all documents. -/
theorem faithful_of_table {α : Type} {t : Table α} (h1 : ∀ x, x ∈ t.all)
    (h2 : ∀ x ∈ t.all, readString t.chain (t.write x) = some x)
    (h3 : ∀ e ∈ t.chain, readString t.chain e.1 = some e.2) : Faithful t := by
  have rt : ∀ x : α, t.read (t.toJson x) = some x := fun x => h2 x (h1 x)
  refine ⟨h1, rt, ?_, ?_, ?_⟩
  · intro x y e
    have := rt x
    rw [e, rt y] at this
    exact (Option.some.inj this).symm
  · intro j x
    constructor
    · intro h
      cases j with
      | str s => exact ⟨s, rfl, readString_mem h⟩
      | _ => cases h
    · rintro ⟨s, rfl, h⟩
      exact h3 _ h
  · intro j
    constructor
    · rintro h ⟨s, x, rfl, hm⟩
      exact readString_none h x hm
    · intro h
      cases hr : t.read j with
      | none => rfl
      | some x =>
        exfalso
        cases j with
        | str s => exact h ⟨s, x, rfl, readString_mem hr⟩
        | _ => cases hr

/-- C28 for `DimensionalValues`. -/
theorem dimensionalValues_faithful : Faithful dimensionalValuesTable :=
  faithful_of_table (by intro x; cases x <;> decide) (by decide +kernel) (by decide +kernel)

/-- C28 for `GappingType`. -/
theorem gappingType_faithful : Faithful gappingTypeTable :=
  faithful_of_table (by intro x; cases x <;> decide) (by decide +kernel) (by decide +kernel)

/-- C28 for `CoreCrossReferencerFilters`. -/
theorem coreCrossReferencerFilters_faithful : Faithful coreCrossReferencerFiltersTable :=
  faithful_of_table (by intro x; cases x <;> decide) (by decide +kernel) (by decide +kernel)

/-- C28 for `CoreMaterialCrossReferencerFilters`. -/
theorem coreMaterialCrossReferencerFilters_faithful : Faithful coreMaterialCrossReferencerFiltersTable :=
  faithful_of_table (by intro x; cases x <;> decide) (by decide +kernel) (by decide +kernel)

/-- C28 for `OrderedIsolationSide`. -/
theorem orderedIsolationSide_faithful : Faithful orderedIsolationSideTable :=
  faithful_of_table (by intro x; cases x <;> decide) (by decide +kernel) (by decide +kernel)

/-- C28 for `PainterModes`. -/
theorem painterModes_faithful : Faithful painterModesTable :=
  faithful_of_table (by intro x; cases x <;> decide) (by decide +kernel) (by decide +kernel)

/-- C28 for `MagneticFilters`. -/
theorem magneticFilters_faithful : Faithful magneticFiltersTable :=
  faithful_of_table (by intro x; cases x <;> decide) (by decide +kernel) (by decide +kernel)

/-- C28 for `MagneticFieldStrengthModels`. -/
theorem magneticFieldStrengthModels_faithful : Faithful magneticFieldStrengthModelsTable :=
  faithful_of_table (by intro x; cases x <;> decide) (by decide +kernel) (by decide +kernel)

/-- C28 for `MagneticFieldStrengthFringingEffectModels`. -/
theorem magneticFieldStrengthFringingEffectModels_faithful : Faithful magneticFieldStrengthFringingEffectModelsTable :=
  faithful_of_table (by intro x; cases x <;> decide) (by decide +kernel) (by decide +kernel)

/-- C28 for `ReluctanceModels`. -/
theorem reluctanceModels_faithful : Faithful reluctanceModelsTable :=
  faithful_of_table (by intro x; cases x <;> decide) (by decide +kernel) (by decide +kernel)

/-- C28 for `CoreLossesModels`. -/
theorem coreLossesModels_faithful : Faithful coreLossesModelsTable :=
  faithful_of_table (by intro x; cases x <;> decide) (by decide +kernel) (by decide +kernel)

/-- C28 for `CoreThermalResistanceModels`. -/
theorem coreThermalResistanceModels_faithful : Faithful coreThermalResistanceModelsTable :=
  faithful_of_table (by intro x; cases x <;> decide) (by decide +kernel) (by decide +kernel)

/-- C28 for `CoreTemperatureModels`. -/
theorem coreTemperatureModels_faithful : Faithful coreTemperatureModelsTable :=
  faithful_of_table (by intro x; cases x <;> decide) (by decide +kernel) (by decide +kernel)

/-- C28 for `WindingSkinEffectLossesModels`. -/
theorem windingSkinEffectLossesModels_faithful : Faithful windingSkinEffectLossesModelsTable :=
  faithful_of_table (by intro x; cases x <;> decide) (by decide +kernel) (by decide +kernel)

/-- C28 for `WindingProximityEffectLossesModels`. -/
theorem windingProximityEffectLossesModels_faithful : Faithful windingProximityEffectLossesModelsTable :=
  faithful_of_table (by intro x; cases x <;> decide) (by decide +kernel) (by decide +kernel)

/-- C28 for `StrayCapacitanceModels`. -/
theorem strayCapacitanceModels_faithful : Faithful strayCapacitanceModelsTable :=
  faithful_of_table (by intro x; cases x <;> decide) (by decide +kernel) (by decide +kernel)

/-- C28 for `CircuitSimulatorExporterModels`. -/
theorem circuitSimulatorExporterModels_faithful : Faithful circuitSimulatorExporterModelsTable :=
  faithful_of_table (by intro x; cases x <;> decide) (by decide +kernel) (by decide +kernel)

/-- C28 for `CoreAdviserFilters`. -/
theorem coreAdviserFilters_faithful : Faithful coreAdviserFiltersTable :=
  faithful_of_table (by intro x; cases x <;> decide) (by decide +kernel) (by decide +kernel)

/-- C28 for `CoreAdviserModes`. -/
theorem coreAdviserModes_faithful : Faithful coreAdviserModesTable :=
  faithful_of_table (by intro x; cases x <;> decide) (by decide +kernel) (by decide +kernel)

/-! ## Every accepted spelling names the enumerator it is read as -/

/-- The letters and digits of a spelling, in lower case. -/
def word (s : String) : List Char := (s.toList.filter Char.isAlphanum).map Char.toLower

/-- Other names under which a value is accepted: the spelling and what is written for the value. -/
def aliases : List (String × String) :=
  [("Albach2D", "Albach"), ("albach2d", "Albach"), ("ALBACH_2D", "Albach"), ("Nan", "XiNan")]

/-- A document is read as a value only when it is the word written for that value, up to blanks, punctuation and
case, or one of the listed other names. -/
def Named {α : Type} (t : Table α) : Prop :=
  ∀ (s : String) (x : α), t.read (.str s) = some x → word s = word (t.write x) ∨ (s, t.write x) ∈ aliases

theorem named_of_table {α : Type} {t : Table α}
    (h : ∀ e ∈ t.chain, word e.1 = word (t.write e.2) ∨ (e.1, t.write e.2) ∈ aliases) : Named t :=
  fun _ _ hr => h _ (readString_mem hr)

/-- C28 for `DimensionalValues`: the spellings read are names of the value. -/
theorem dimensionalValues_named : Named dimensionalValuesTable := named_of_table (by decide +kernel)

/-- C28 for `GappingType`: the spellings read are names of the value. -/
theorem gappingType_named : Named gappingTypeTable := named_of_table (by decide +kernel)

/-- C28 for `CoreCrossReferencerFilters`: the spellings read are names of the value. -/
theorem coreCrossReferencerFilters_named : Named coreCrossReferencerFiltersTable := named_of_table (by decide +kernel)

/-- C28 for `CoreMaterialCrossReferencerFilters`: the spellings read are names of the value. -/
theorem coreMaterialCrossReferencerFilters_named : Named coreMaterialCrossReferencerFiltersTable := named_of_table (by decide +kernel)

/-- C28 for `OrderedIsolationSide`: the spellings read are names of the value. -/
theorem orderedIsolationSide_named : Named orderedIsolationSideTable := named_of_table (by decide +kernel)

/-- C28 for `PainterModes`: the spellings read are names of the value. -/
theorem painterModes_named : Named painterModesTable := named_of_table (by decide +kernel)

/-- C28 for `MagneticFilters`: the spellings read are names of the value. -/
theorem magneticFilters_named : Named magneticFiltersTable := named_of_table (by decide +kernel)

/-- C28 for `MagneticFieldStrengthModels`: the spellings read are names of the value. -/
theorem magneticFieldStrengthModels_named : Named magneticFieldStrengthModelsTable := named_of_table (by decide +kernel)

/-- C28 for `MagneticFieldStrengthFringingEffectModels`: the spellings read are names of the value. -/
theorem magneticFieldStrengthFringingEffectModels_named : Named magneticFieldStrengthFringingEffectModelsTable := named_of_table (by decide +kernel)

/-- C28 for `ReluctanceModels`: the spellings read are names of the value. -/
theorem reluctanceModels_named : Named reluctanceModelsTable := named_of_table (by decide +kernel)

/-- C28 for `CoreLossesModels`: the spellings read are names of the value. -/
theorem coreLossesModels_named : Named coreLossesModelsTable := named_of_table (by decide +kernel)

/-- C28 for `CoreThermalResistanceModels`: the spellings read are names of the value. -/
theorem coreThermalResistanceModels_named : Named coreThermalResistanceModelsTable := named_of_table (by decide +kernel)

/-- C28 for `CoreTemperatureModels`: the spellings read are names of the value. -/
theorem coreTemperatureModels_named : Named coreTemperatureModelsTable := named_of_table (by decide +kernel)

/-- C28 for `WindingSkinEffectLossesModels`: the spellings read are names of the value. -/
theorem windingSkinEffectLossesModels_named : Named windingSkinEffectLossesModelsTable := named_of_table (by decide +kernel)

/-- C28 for `WindingProximityEffectLossesModels`: the spellings read are names of the value. -/
theorem windingProximityEffectLossesModels_named : Named windingProximityEffectLossesModelsTable := named_of_table (by decide +kernel)

/-- C28 for `StrayCapacitanceModels`: the spellings read are names of the value. -/
theorem strayCapacitanceModels_named : Named strayCapacitanceModelsTable := named_of_table (by decide +kernel)

/-- C28 for `CircuitSimulatorExporterModels`: the spellings read are names of the value. -/
theorem circuitSimulatorExporterModels_named : Named circuitSimulatorExporterModelsTable := named_of_table (by decide +kernel)

/-- C28 for `CoreAdviserFilters`: the spellings read are names of the value. -/
theorem coreAdviserFilters_named : Named coreAdviserFiltersTable := named_of_table (by decide +kernel)

/-- C28 for `CoreAdviserModes`: the spellings read are names of the value. -/
theorem coreAdviserModes_named : Named coreAdviserModesTable := named_of_table (by decide +kernel)

/-- C28: a filter operation survives JSON. -/
theorem operation_round_trip (x : Operation) : readOperation (writeOperation x) = some x := by
  have h := magneticFilters_faithful.round_trip x.filter
  have key : ∀ (a : Json) (i l s : Bool) (w : String),
      let j : Json := .obj [("filter", a), ("invert", .bool i), ("log", .bool l),
        ("strictlyRequired", .bool s), ("weight", .num w)]
      j.get? "filter" = some a ∧ j.get? "invert" = some (.bool i) ∧ j.get? "log" = some (.bool l) ∧
        j.get? "strictlyRequired" = some (.bool s) ∧ j.get? "weight" = some (.num w) := by
    intro a i l s w
    simp [Json.get?, Json.lookup]
  obtain ⟨k1, k2, k3, k4, k5⟩ := key (magneticFiltersTable.toJson x.filter) x.invert x.log x.strictlyRequired
    x.weight
  unfold readOperation writeOperation getFilter getBool getNumber
  rw [k1, k2, k3, k4, k5]
  simp only [h]

/-- C28: a list of filter operations survives JSON when read into an empty list, and is appended otherwise. -/
theorem operations_round_trip (v xs : List Operation) :
    readOperationsInto v (writeOperations xs) = (v ++ xs, true) := by
  induction xs generalizing v with
  | nil => simp [writeOperations, readOperationsInto]
  | cons x xs ih =>
    have e : writeOperations (x :: xs) = writeOperation x :: writeOperations xs := rfl
    rw [e]
    simp only [readOperationsInto, operation_round_trip, ih, List.append_assoc, List.singleton_append]

/-- A filter written and read back; an unknown spelling is rejected. -/
example : magneticFiltersTable.read (.str "Area Product") = some .areaProduct ∧
    magneticFiltersTable.read (.str "Area product") = none ∧ magneticFiltersTable.read (.num "0") = none := by
  decide +kernel

/-- C28, a gap worth knowing: the C++ identifier of a filter is not among the accepted spellings, while those of
the models are. -/
theorem filter_identifier_rejected :
    magneticFiltersTable.read (.str "AREA_PRODUCT") = none ∧
    reluctanceModelsTable.read (.str "ZHANG") = some .zhang := by
  decide +kernel

end Verif.EnumJson
