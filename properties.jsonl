{"id": "C01", "title": "A magnetics/MAS cache behaves as a plain keyed store", "statement": "For a Cache (and the MAS/magnetics caches built on it), after any sequence of load / evict / clear calls, read(ref) and evict(ref) return exactly the value of the latest load(ref, value) that was not followed by an eviction of ref or a clear, and they throw when there is none; size() is the number of distinct live references; references() lists each live reference exactly once in key order; read(refs) and evict(refs) silently skip the missing references, and keep the order in which the caller asked.", "quantifier": "every cache content type, every finite sequence of load, evict, bulk evict and clear operations, every reference", "why_tests_cant": "The statement ranges over all operation histories and all key sets; a test exercises one history at a time and cannot exclude an interleaving of overwrites and bulk evictions that resurrects or loses a value.", "anchors": ["src/support/Cache.h:Cache<T>", "src/support/Cache.cpp:MagneticsCache"]}
{"id": "C02", "title": "Frozen catalogues never change", "statement": "Between set_databases_frozen(true) and set_databases_frozen(false), no call of the public API changes the content of any shared catalogue (cores, core materials, core shapes, shape families, wires, bobbins, insulation materials, wire materials) nor of the shared magnetics cache; a call that would have to change them throws and leaves them exactly as they were.", "quantifier": "every catalogue state, every finite sequence of catalogue, cache, context-scope and settings operations executed while frozen", "why_tests_cant": "It is a safety property over every operation sequence (including destructors running while frozen); tests can only show that a few mutators throw.", "anchors": ["src/support/Utils.h:set_databases_frozen", "src/support/Utils.cpp:throw_if_databases_frozen", "src/support/Cache.h:Cache::evict", "src/support/LibraryContext.cpp:Scope::~Scope", "src/support/Settings.cpp:Settings::reset"]}
{"id": "C03", "title": "A library scope is transparent after it ends", "statement": "When a LibraryContext scope opened with applyScoped()/Scope ends, every shared catalogue is exactly what it was immediately before the scope was opened, whatever catalogue loads, clears, lookups and (properly nested) inner scopes happened in between, including when the body is left by an exception.", "quantifier": "every initial catalogue state, every library context, every properly nested program of scopes and catalogue operations", "why_tests_cant": "The number of nestings and the operations inside are unbounded; a test covers a handful of bodies.", "anchors": ["src/support/LibraryContext.cpp:LibraryContext::Scope", "src/support/LibraryContext.h:LibraryContext::Scope"]}
{"id": "C04", "title": "A library scope shows exactly the overlay the user asked for", "statement": "Inside a scope of a non-empty context, a lookup of a name in a catalogue returns the user's custom item when the context defines that name, otherwise the previously visible item in Merge mode, and nothing in Replace mode; the list of core-shape families visible in the scope has no duplicates and contains exactly the families of the shapes visible in the scope.", "quantifier": "every catalogue state, every context, both modes, every name", "why_tests_cant": "Ranges over all overlays of arbitrary maps.", "anchors": ["src/support/LibraryContext.cpp:Scope::Scope", "src/support/LibraryContext.cpp:rebuildShapeFamilies"]}
{"id": "C05", "title": "Loading a library document is all-or-nothing", "statement": "LibraryContext::loadFromJson either loads every kind present in the document or, when it throws, leaves the context (its mode and every kind) as it was before the call.", "quantifier": "every context state, every document, every position of the first malformed entry", "why_tests_cant": "The failing entry may sit anywhere in a document of any size.", "anchors": ["src/support/LibraryContext.cpp:LibraryContext::loadFromJson", "src/support/LibraryContext.cpp:forEachEntry"]}
{"id": "C06", "title": "Library constraints select exactly the accepted items", "statement": "Filtering cores or wires by library constraints returns a subsequence of the input (order and multiplicity preserved) that contains exactly the items whose shape family, material (and wire type) are accepted, where accepted means: in the allowed list if there is one, and never in the blocked list, compared without regard to letter case; filtering twice equals filtering once, and empty constraints filter nothing.", "quantifier": "every list of cores/wires, every allow/block list, every catalogue", "why_tests_cant": "Universally quantified over candidate lists and filter sets.", "anchors": ["src/support/LibraryContext.cpp:filterCoresByConstraints", "src/support/LibraryContext.cpp:filterWiresByConstraints", "src/support/LibraryContext.h:TypeFilterSet::accepts"]}
{"id": "C07", "title": "Every turns combination offered satisfies the design requirements", "statement": "Every combination returned by NumberTurns::get_next_number_turns_combination has one entry per winding, all entries are at least 1, its primary count is a multiple of the requested multiple, is strictly larger than the previous one, and each realised primary/secondary ratio satisfies the requirement of that winding (and is within 2% of it when only a nominal is given).", "quantifier": "every initial count, every requirement list, every requested multiple, every number of successive calls including calls after a divergence exception", "why_tests_cant": "Over the whole infinite sequence of calls and every turns-ratio list.", "anchors": ["src/constructive_models/NumberTurns.cpp:NumberTurns::increment_number_turns", "src/constructive_models/NumberTurns.cpp:NumberTurns::get_next_number_turns_combination"]}
{"id": "C08", "title": "Migrating a pre-1.0 MAS document is idempotent and conservative", "statement": "migrate_pre_1_0 applied twice equals applied once; it never changes a document that contains no legacy value and no legacy cost; it preserves the structure of the document (same keys in the same order, same array lengths, numbers and booleans untouched); and every string it changes is one of the published legacy spellings, replaced by its published 1.0 spelling.", "quantifier": "every JSON document", "why_tests_cant": "Documents are unbounded trees.", "anchors": ["src/constructive_models/MasMigration.cpp:migrate_pre_1_0", "src/constructive_models/MasMigration.cpp:enum_migration_map"]}
{"id": "C09", "title": "A design requirement is judged by its tolerance window", "statement": "check_requirement(requirement, value) accepts exactly the values in the window described by the fields present: both bounds inclusive when minimum and maximum are given, [nominal, maximum], [minimum, nominal], nominal plus/minus 25% when only the nominal is given, and a one-sided window when only one bound is given; a requirement without any field accepts nothing, and an inconsistent window is rejected with an exception. The accepted set is an interval.", "quantifier": "every requirement and every value", "why_tests_cant": "The decision has a continuum of inputs and eight presence combinations.", "anchors": ["src/support/Utils.cpp:check_requirement"]}
{"id": "C10", "title": "Resolving a dimensional value never leaves its own bounds", "statement": "resolve_dimensional_values returns a value whenever at least one of nominal, minimum, maximum is present and throws otherwise; if the fields are ordered (minimum <= nominal <= maximum for those present) then the result lies within them, and asking for MINIMUM, NOMINAL and MAXIMUM yields three values in that order.", "quantifier": "every dimension with tolerance, every preference", "why_tests_cant": "All presence patterns times a continuum of values.", "anchors": ["src/Definitions.h:resolve_dimensional_values"]}
{"id": "C11", "title": "Normalised scorings stay in [0, weight] and keep the ranking", "statement": "normalize_scoring returns one score per candidate, in the same order, each in [0, weight]; a candidate with a better raw value never gets a worse normalised score (in either direction of the invert flag), equal raw values give equal scores, and with distinct raw values the best gets weight and the worst gets 0.", "quantifier": "every list/map of raw scorings, every non-negative weight, both log and linear modes, both directions", "why_tests_cant": "Universally quantified over populations of any size.", "anchors": ["src/support/Utils.cpp:normalize_scoring"]}
{"id": "C12", "title": "Cross-referencer scoring contributes between 0 and weight to every candidate", "statement": "The cross-referencers' normalisation adds to each candidate a contribution in [0, weight] that is monotone in its raw score, is neutral (half the weight) when all candidates tie, and returns the same multiset of candidates sorted by descending total, ties kept in their previous order; and the per-filter normalised scorings they report lie in [0, 1].", "quantifier": "every candidate list and raw scoring list, every weight, log/linear, inverted or not", "why_tests_cant": "Populations of any size.", "anchors": ["src/advisers/CrossReferencerCommon.h:normalize_scoring", "src/advisers/CrossReferencerCommon.h:compute_normalized_scorings"]}
{"id": "C13", "title": "Adviser filters only ever remove candidates, and exactly the invalid ones", "statement": "A core-adviser filter step returns a subsequence of its candidates: exactly those that the filter judges valid (those on which the evaluation fails with a library exception are removed as well), with one scoring per survivor; running a list of steps one after the other yields exactly the candidates that pass all of them, independently of the order of steps whose verdicts do not depend on each other.", "quantifier": "every candidate list, every validity predicate, every list of filters", "why_tests_cant": "Unbounded candidate lists and arbitrary pipelines.", "anchors": ["src/advisers/CoreAdviserFilters.cpp:evaluate_and_cull", "src/advisers/CrossReferencerCommon.h:run_cross_referencer_pipeline"]}
{"id": "C14", "title": "Advised cores come ranked and bounded in number", "statement": "The batched core adviser returns at most the requested number of results, sorted by descending score; every result was returned by one batch; nothing better than the last returned result is dropped; equal scores keep catalogue order; the catalogue itself is not changed.", "quantifier": "every catalogue, every batch size >= 1, every per-batch adviser", "why_tests_cant": "All catalogue sizes and score distributions.", "anchors": ["src/advisers/CoreAdviser.cpp:CoreAdviser::get_advised_core", "src/advisers/CoreAdviser.cpp:sort_magnetics_by_scoring"]}
{"id": "C15", "title": "Cross-referenced cores are within the reported limit", "statement": "CoreCrossReferencer::get_cross_referenced_core returns at most the requested number of cores, none of which is the reference itself, sorted by descending score, and each passes the acceptance limit at which the search stopped for every filter that is enabled; the search stops at the tightest limit of the widening sequence that yields enough cores or at the configured limit.", "quantifier": "every catalogue, every reference, every limit sequence, every number of successive calls on one object", "why_tests_cant": "Histories of calls on one cross-referencer object are unbounded.", "anchors": ["src/advisers/CoreCrossReferencer.cpp:CoreCrossReferencer::get_cross_referenced_core", "src/advisers/CoreCrossReferencer.cpp:apply_filters"]}
{"id": "C16", "title": "A part is rejected by its datasheet limits exactly when a published limit is exceeded", "statement": "The datasheet filter accepts a magnetic exactly when no published limit (rated current, saturation current, temperature...) is exceeded by any operating point, its score is the smallest headroom and lies in [0, 1], and a part without published limits is accepted with score 1.", "quantifier": "every list of published electrical entries and every list of operating points", "why_tests_cant": "Lists of any length.", "anchors": ["src/advisers/MagneticFilterDatasheet.cpp:headroom", "src/advisers/MagneticFilterDatasheet.cpp:select_electrical_entry", "src/advisers/MagneticFilterDatasheet.cpp:evaluate_magnetic"]}
{"id": "C17", "title": "The closest-index search returns a closest element", "statement": "find_closest_index(sorted values, x) returns a valid index whose value is at least as close to x as any other element.", "quantifier": "every non-empty sorted list and every x", "why_tests_cant": "All lists and targets; the wrong answers only appear for particular lengths and gaps.", "anchors": ["src/support/Utils.cpp:find_closest_index", "src/support/Utils.cpp:get_closest"]}
{"id": "C18", "title": "NDJSON catalogues are read line by line without loss", "statement": "parse_ndjson hands each non-empty line of the file to the consumer exactly once and in order, and nothing else: concatenating the lines with newline separators and parsing gives the lines back.", "quantifier": "every byte string / every list of newline-free non-empty lines", "why_tests_cant": "Files of any length with or without a final newline.", "anchors": ["src/support/Utils.cpp:parse_ndjson"]}
{"id": "C19", "title": "Material-name micro sign normalisation is idempotent and loss-free", "statement": "normalize_micro_sign leaves a well-formed UTF-8 micro sign alone, turns a bare Latin-1 micro byte into the UTF-8 pair, never changes or drops any other byte, and applying it twice equals applying it once, so a name typed in either encoding finds the same material.", "quantifier": "every byte string", "why_tests_cant": "Strings of any length.", "anchors": ["src/support/Utils.cpp:normalize_micro_sign", "src/support/Utils.cpp:find_core_material_by_name"]}
{"id": "C20", "title": "Splitting a string by a separator loses nothing", "statement": "split(s, delimiter) returns tokens none of which contains the delimiter and which joined by the delimiter give s back.", "quantifier": "every string, every non-empty delimiter", "why_tests_cant": "All strings and delimiters, including overlapping occurrences.", "anchors": ["src/support/Utils.cpp:split"]}
{"id": "C21", "title": "Settings guards always restore", "statement": "A SettingsGuard restores the previous value of its setting when it goes out of scope, for any properly nested program of guards and setter calls on other settings, also when left by an exception; and Settings::reset() brings every setting back to its default from any state.", "quantifier": "every settings state, every properly nested program", "why_tests_cant": "Program nestings are unbounded and reset must cover every member.", "anchors": ["src/support/Settings.h:SettingsGuard", "src/support/Settings.cpp:Settings::reset"]}
{"id": "C22", "title": "The saturation margin can never be less than one", "statement": "After any sequence of settings calls the core-adviser saturation margin is at least 1 and the derating temperature is at least absolute zero; a rejected call changes nothing; consequently the flux density the adviser allows never exceeds the material's saturation flux density.", "quantifier": "every sequence of setter calls with any arguments", "why_tests_cant": "Invariant over all histories.", "anchors": ["src/support/Settings.cpp:Settings::set_core_adviser_saturation_margin", "src/support/Settings.cpp:Settings::set_core_adviser_saturation_derating_temperature", "src/advisers/MagneticFilterInternal.h:maximum_allowed_magnetic_flux_density"]}
{"id": "C23", "title": "Insulation distance tables are interpolated monotonically and safely", "statement": "Interpolating an insulation table whose rows are increasing gives the row value at a row, a value between the neighbouring rows elsewhere, never less than the first row, and never a smaller distance for a larger voltage, also beyond the last row.", "quantifier": "every table with increasing rows, every pair of voltages", "why_tests_cant": "All tables and a continuum of voltages.", "anchors": ["src/constructive_models/Insulation.cpp:linear_table_interpolation"]}
{"id": "C24", "title": "Insulation coordination is governed by the most demanding standard", "statement": "The withstand voltage, clearance, creepage distance and distance through insulation reported by the coordinator are at least what each selected standard requires, equal to one of them (or 0 when there are none), do not depend on the order or repetition of the standards, and never decrease when a standard is added.", "quantifier": "every list of standards and every per-standard requirement", "why_tests_cant": "All lists of standards.", "anchors": ["src/constructive_models/Insulation.cpp:InsulationCoordinator::calculate_withstand_voltage", "src/constructive_models/Insulation.cpp:InsulationCoordinator::calculate_clearance", "src/constructive_models/Insulation.cpp:InsulationCoordinator::calculate_creepage_distance", "src/constructive_models/Insulation.cpp:InsulationCoordinator::calculate_distance_through_insulation"]}
{"id": "C25", "title": "The high-frequency insulation thickness search terminates with the smallest safe thickness", "statement": "For every working voltage the search for the distance through insulation above 30 kHz terminates, its result satisfies the standard's electric-field limit, no smaller multiple of one micrometre does, and a larger voltage never yields a smaller distance.", "quantifier": "every working voltage", "why_tests_cant": "Termination for every real input cannot be tested.", "anchors": ["src/constructive_models/Insulation.cpp:InsulationIEC60664Model::calculate_distance_through_insulation_over_30kHz", "src/constructive_models/Insulation.cpp:InsulationIEC61558Model::electric_field_strength_is_valid"]}
{"id": "C26", "title": "The insulation between sections is as thick as the standards require", "statement": "The solid insulation thickness of a coil section interface returned by calculate_coil_section_interface_layers is at least the required distance through insulation, is a whole number of tapes (at least one), and the returned interface keeps the full creepage margin unless the wires themselves provide the insulation.", "quantifier": "every requirement, wire pair and tape", "why_tests_cant": "Continuum of thicknesses and voltages.", "anchors": ["src/constructive_models/Insulation.cpp:InsulationCoordinator::calculate_coil_section_interface_layers"]}
{"id": "C27", "title": "Asking for wire insulation requirements does not change the user's inputs", "statement": "get_solid_insulation_requirements_for_wires returns combinations with one requirement per winding, and leaves the inputs it was given unchanged, so asking twice gives the same answer; when margin tape is not allowed, no returned combination needs margin.", "quantifier": "every inputs object, every pattern and repetition count, every setting of margin tape", "why_tests_cant": "All insulation types, winding counts and patterns.", "anchors": ["src/constructive_models/Insulation.cpp:InsulationCoordinator::get_solid_insulation_requirements_for_wires", "src/constructive_models/Insulation.cpp:InsulationCoordinator::needs_margin"]}
{"id": "C28", "title": "Names of models, filters and modes survive JSON", "statement": "For every enumeration that MKF serialises itself (models, adviser filters, painter modes, dimensional values, gapping types, isolation sides...), reading back what was written gives the same enumerator, distinct enumerators have distinct spellings, and an unknown spelling is rejected rather than mapped.", "quantifier": "every enumerator of every MKF-defined enumeration, every string", "why_tests_cant": "All strings for the rejection half; all enumerators at once for the round trip.", "anchors": ["src/Definitions.h:from_json", "src/Definitions.h:to_json"]}
{"id": "C29", "title": "Wire queries reflect the current catalogue", "statement": "get_wires(type, standard) always returns exactly the wires of the current wire catalogue having that type and standard, whatever loads, clears, replacements and scopes happened before.", "quantifier": "every history of catalogue changes and queries", "why_tests_cant": "Cache coherence over all histories.", "anchors": ["src/support/Utils.cpp:get_wires"]}
{"id": "C30", "title": "Lookups by name find what was loaded and nothing else", "statement": "find_*_by_name / try_find_* return an item whose name matches the query, prefer an exact match over an alias match, and fail exactly when nothing matches.", "quantifier": "every catalogue and every name", "why_tests_cant": "All catalogues.", "anchors": ["src/support/Utils.cpp:find_core_by_name", "src/support/Utils.cpp:find_core_material_by_name", "src/support/Utils.cpp:try_find_core_shape_by_name", "src/support/Utils.cpp:find_wire_by_name"]}
{"id": "C31", "title": "The list of core-shape families matches the shapes in the catalogue", "statement": "After any sequence of catalogue loads and clears, get_core_shape_families lists exactly the families of the shapes in the catalogue, without duplicates.", "quantifier": "every history of load_core_shapes, load_databases, clear_databases and scopes", "why_tests_cant": "Histories are unbounded.", "anchors": ["src/support/Utils.cpp:load_core_shapes", "src/support/Utils.cpp:load_databases", "src/support/Utils.cpp:get_core_shape_families"]}
{"id": "C32", "title": "The derived winding pattern reproduces the sections", "statement": "The winding pattern and repetition count derived from an existing coil reproduce the coil's section sequence when expanded, and no shorter pattern does.", "quantifier": "every section sequence", "why_tests_cant": "Sequences of any length.", "anchors": ["src/support/Utils.cpp:magnetic_autocomplete"]}
{"id": "C33", "title": "The main harmonics always include the dominant one and never the DC term", "statement": "get_main_harmonic_indexes never returns index 0 nor an index out of range, returns indexes in increasing order without duplicates, includes the harmonic with the largest weighted amplitude whenever that is positive, and lowering the threshold never loses an index.", "quantifier": "every harmonics list and threshold", "why_tests_cant": "All spectra.", "anchors": ["src/support/Utils.cpp:get_main_harmonic_indexes", "src/support/Utils.cpp:get_operating_point_harmonic_indexes"]}
{"id": "C34", "title": "The wire found for a dimension is the closest one", "statement": "find_wire_by_dimension returns a wire of the catalogue that satisfies the requested type/standard and whose conducting dimension is at least as close to the request as that of any other such wire; ties go to the thinnest insulation.", "quantifier": "every wire catalogue and every positive dimension", "why_tests_cant": "All catalogues.", "anchors": ["src/support/Utils.cpp:find_wire_by_dimension"]}
{"id": "C35", "title": "FFT sizes are the next power of two", "statement": "round_up_size_to_power_of_2(n) returns the power of two nearest to n from above (n itself when it already is one), and is_size_power_of_2 recognises exactly the powers of two.", "quantifier": "every size", "why_tests_cant": "All sizes.", "anchors": ["src/support/Utils.cpp:round_up_size_to_power_of_2", "src/support/Utils.cpp:is_size_power_of_2"]}
{"id": "C36", "title": "Log messages reach every sink exactly when they pass the level", "statement": "A message reaches every registered sink, once and in registration order, exactly when its level is at least the logger's level.", "quantifier": "every sequence of logger configuration and log calls", "why_tests_cant": "All histories.", "anchors": ["src/support/Logger.h:Logger"]}
{"id": "C37", "title": "Spaced sample arrays have the requested ends and size", "statement": "linspace / linear_spaced_array / logarithmic_spaced_array return exactly the requested number of samples and begin at the requested start; with two samples or more they end at the requested end and increase strictly when the start is below the end.", "quantifier": "every start, end and count", "why_tests_cant": "All counts and a continuum of ends.", "anchors": ["src/support/Utils.h:linspace", "src/support/Utils.cpp:linear_spaced_array", "src/support/Utils.cpp:logarithmic_spaced_array"]}
{"id": "C38", "title": "Section collision checking detects every overlap", "statement": "check_collisions reports a collision exactly when two rectangles overlap by more than the rounding tolerance.", "quantifier": "every map of coordinates and dimensions", "why_tests_cant": "All layouts of any number of sections.", "anchors": ["src/support/Utils.cpp:check_collisions"]}
{"id": "C39", "title": "The energy filter of the magnetics cache returns exactly the readable references in the window", "statement": "filter_magnetics_by_energy(min, max) returns exactly the references of cached magnetics whose stored energy lies in the window, and none that read() would refuse.", "quantifier": "every history of loads, evictions and precalculations, every window", "why_tests_cant": "Consistency of two containers over all histories.", "anchors": ["src/support/Cache.h:MagneticsCache", "src/support/Cache.cpp:MagneticsCache::filter_magnetics_by_energy"]}
{"id": "C40", "title": "Settings reset gives back the default core catalogue", "statement": "After Settings::reset() the cores and shapes shown by the next query are those of the default settings (toroidal, concentric, in stock), whatever filter settings were used before.", "quantifier": "every history of setting changes, catalogue queries and resets", "why_tests_cant": "Stale-cache property over all histories.", "anchors": ["src/support/Settings.cpp:Settings::reset", "src/support/Utils.cpp:load_cores"]}
{"id": "C41", "title": "anyActive is true exactly while some library scope is in force", "statement": "LibraryContext::Scope::anyActive() is true exactly when some live scope object holds swapped catalogues, whatever the order in which scopes are opened, moved and destroyed, and also after a scope failed to open.", "quantifier": "every history of scope construction, move assignment and destruction", "why_tests_cant": "Object lifetimes in any order.", "anchors": ["src/support/LibraryContext.cpp:Scope::anyActive", "src/support/LibraryContext.cpp:Scope::operator="]}
{"id": "C42", "title": "Concurrent log calls deliver each message to a consistent set of sinks", "statement": "When several threads log and reconfigure the logger at once, every delivered message passed the level in force when it was checked, no message is delivered twice to one sink, and the deliveries are those of some sequential order of the calls.", "quantifier": "every number of threads, every schedule of log, setLevel, addSink and clearSinks calls", "why_tests_cant": "All interleavings.", "anchors": ["src/support/Logger.h:Logger::log", "src/support/Logger.h:Logger::setLevel"]}
{"id": "C43", "title": "A zero weight never lets an infeasible core through", "statement": "Giving a filter the weight zero removes its influence on the ranking but not on feasibility: the cores that survive a filter are the same whatever its weight, and with weight zero the order and scores of the survivors are left as they were.", "quantifier": "every candidate list, every evaluation, every pair of weights", "why_tests_cant": "All weights and all candidate lists.", "anchors": ["src/advisers/CoreAdviserFilters.cpp:filter_magnetics", "src/advisers/CoreAdviserFilters.cpp:evaluate_and_cull"]}
{"id": "C44", "title": "A core that misses the configured saturation margin is never returned unmarked", "statement": "In the available-cores power application every core returned has passed the saturation check at the configured margin, or has passed it at margin one and its name carries the relaxation mark; marked cores appear only when the margin is above one and no core that meets area, energy and turns meets it; pruning the candidate list for speed never turns a non-empty answer into an empty one.", "quantifier": "every catalogue, margin, pruning cap and every behaviour of the other filters that keeps the saturation verdict", "why_tests_cant": "Depends on three nested attempts over unbounded catalogues.", "anchors": ["src/advisers/CoreAdviserPipeline.cpp:CoreAdviser::filter_available_cores_power_application"]}
{"id": "C45", "title": "The gap chosen by the adviser lies in its window and closes in on the best gap", "statement": "The gap chosen is at least what stored energy and saturation require and at most the reported maximum, for both strategies and also when evaluating the losses fails; with the golden-section strategy and losses that fall up to some gap and rise after it, the gap found is within half the tolerance (or half the window shrunk by the number of rounds) of the best one.", "quantifier": "every set of limits, every loss function, every window and number of rounds", "why_tests_cant": "Holds for all loss functions and windows; needs an invariant of the search loop.", "anchors": ["src/advisers/CoreAdviserGapping.cpp:calculate_gapping_constraints", "src/advisers/CoreAdviserGapping.cpp:optimize_gap_golden_section"]}
{"id": "C46", "title": "Gap rejection relaxes its limit only when nothing meets the strict one", "statement": "Rejecting cores whose gaps are too large keeps exactly the candidates that meet the strict fringing limit; only when none does are exactly those that meet the relaxed limit kept; order and scores do not change.", "quantifier": "every candidate list and every verdict at the two limits", "why_tests_cant": "All candidate lists.", "anchors": ["src/advisers/CoreAdviserGapping.cpp:reject_winding_killing_gaps"]}
{"id": "C47", "title": "Placeholder materials are replaced by the best ranked materials and nothing else changes", "statement": "Every candidate with a concrete material is passed on once and unchanged, every placeholder candidate is replaced in place by one copy for each of the best ranked materials (at most the requested number), with the same score; no other candidate appears.", "quantifier": "every candidate list, every ranking and number of materials", "why_tests_cant": "All lists.", "anchors": ["src/advisers/CoreAdviserMaterials.cpp:fan_out_dummy_into_top_materials"]}
{"id": "C48", "title": "One adviser run returns the best cores that can be built", "statement": "A run returns, in ranking order, the first requested number of candidates that can be wound (and with unique shapes the first of each shape); a candidate that cannot be built is replaced by the next one; the results are sorted by descending score and a shape appears at most once when unique shapes are requested.", "quantifier": "every ranked candidate list, every outcome of the preparation and of the winding, every requested number", "why_tests_cant": "All candidate lists and all patterns of failures.", "anchors": ["src/advisers/CoreAdviserPipeline.cpp:CoreAdviser::filter_standard_cores_power_application", "src/advisers/CoreAdviserPipeline.cpp:post_process_and_cut"]}
{"id": "C49", "title": "Each core's cross-reference score is made of its own measurements", "statement": "What a filter of the core cross-referencer adds to the score of a core depends on that core's own distance to the reference only, through one function for all candidates that does not grow with the distance; the scores of one core are never credited to another.", "quantifier": "every candidate list, reference, limit and weight", "why_tests_cant": "Attribution errors only show for particular orders of particular scores.", "anchors": ["src/advisers/CoreCrossReferencer.cpp:MagneticCoreFilterPermeance::filter_core", "src/advisers/CoreCrossReferencer.cpp:MagneticCoreFilterCoreLosses::filter_core", "src/advisers/CrossReferencerCommon.h:normalize_scoring"]}
{"id": "C50", "title": "Loading a catalogue file shows exactly its entries", "statement": "After a loader was given a well-formed file, a lookup finds for every name in the file its last entry, and every other name as before; nothing else changes. Cores are appended in file order if their kind is switched on; advanced material data update the materials already there and no other.", "quantifier": "every file, every catalogue content, every setting", "why_tests_cant": "All files with repeated names, aliases and all contents already loaded.", "anchors": ["src/support/Utils.cpp:load_core_materials", "src/support/Utils.cpp:load_core_shapes", "src/support/Utils.cpp:load_cores", "src/support/Utils.cpp:load_advanced_core_materials", "src/support/Utils.cpp:load_wires"]}
{"id": "C51", "title": "A failing load leaves no corrupt or truncated catalogue behind", "statement": "When loading a catalogue file throws, the catalogue is as it was before the call, and no later query is answered from a partly loaded file or with the record that was refused.", "quantifier": "every file with a malformed or refused record at any position", "why_tests_cant": "The position of the failure and the content before it are arbitrary.", "anchors": ["src/support/Utils.cpp:load_cores", "src/support/Utils.cpp:load_wires", "src/support/Utils.cpp:parse_ndjson"]}
{"id": "C52", "title": "Inside a library scope the advisers only see what the scope shows", "statement": "While a library scope is in force, the adviser entry points do not load embedded cores or wires, even when the scope shows none; outside scopes an empty catalogue is filled with the embedded one.", "quantifier": "every catalogue state with a scope in force", "why_tests_cant": "All scopes and histories.", "anchors": ["src/advisers/CoreAdviser.cpp:CoreAdviser::get_advised_core", "src/advisers/CoilAdviser.cpp:CoilAdviser::get_advised_coil", "src/advisers/WireAdviser.cpp:WireAdviser"]}
{"id": "C53", "title": "More demanding inputs never lower the required withstand voltage", "statement": "For a given list of insulation standards, raising a voltage, the overvoltage category, the pollution degree, the altitude or the insulation class never lowers the withstand voltage the coordinator requires, among the inputs it answers.", "quantifier": "every pair of comparable inputs, every list of standards", "why_tests_cant": "Two inputs and all the tables, rows and extrapolations between them.", "anchors": ["src/constructive_models/Insulation.cpp:InsulationCoordinator::calculate_withstand_voltage", "src/constructive_models/Insulation.cpp:InsulationIEC60664Model::calculate_withstand_voltage", "src/constructive_models/Insulation.cpp:InsulationIEC61558Model::calculate_withstand_voltage"]}
{"id": "C54", "title": "More demanding inputs never lower the required clearance", "statement": "At a given frequency and wiring technology, raising a voltage, the overvoltage category, the pollution degree, the altitude or the insulation class never lowers the clearance the coordinator requires, among the inputs it answers.", "quantifier": "every pair of comparable inputs, every list of standards", "why_tests_cant": "Two inputs and all the tables, rows and extrapolations between them.", "anchors": ["src/constructive_models/Insulation.cpp:InsulationCoordinator::calculate_clearance", "src/constructive_models/Insulation.cpp:InsulationIEC60664Model::calculate_clearance", "src/constructive_models/Insulation.cpp:InsulationIEC61558Model::calculate_clearance", "src/constructive_models/Insulation.cpp:InsulationIEC60335Model::calculate_clearance"]}
{"id": "C55", "title": "More demanding inputs never lower the required creepage distance", "statement": "At a given frequency and wiring technology, raising a voltage, the pollution degree, the material group, the overvoltage category, the altitude or the insulation class never lowers the creepage distance the coordinator requires, with or without the clearance included.", "quantifier": "every pair of comparable inputs, every list of standards", "why_tests_cant": "Two inputs and all the tables, rows and extrapolations between them.", "anchors": ["src/constructive_models/Insulation.cpp:InsulationCoordinator::calculate_creepage_distance", "src/constructive_models/Insulation.cpp:InsulationIEC60664Model::calculate_creepage_distance", "src/constructive_models/Insulation.cpp:InsulationIEC62368Model::calculate_creepage_distance"]}
{"id": "C56", "title": "More demanding inputs never lower the required distance through insulation", "statement": "At a given frequency, raising a voltage, the overvoltage category or the insulation class never lowers the distance through insulation the coordinator requires, among the inputs it answers. Under IEC 62368 it is 0.4 mm exactly for classes above basic at voltages over the limit for the frequency.", "quantifier": "every pair of comparable inputs, every list of standards", "why_tests_cant": "Two inputs and every result of the iterative search.", "anchors": ["src/constructive_models/Insulation.cpp:InsulationCoordinator::calculate_distance_through_insulation"]}
{"id": "C57", "title": "A creepage distance that includes the clearance is never below it", "statement": "When the clearance is included, the creepage distance each standard requires is at least the clearance the same standard requires for the same inputs.", "quantifier": "every input of every standard", "why_tests_cant": "All inputs on which two different calculations answer.", "anchors": ["src/constructive_models/Insulation.cpp:InsulationIEC60664Model::calculate_creepage_distance", "src/constructive_models/Insulation.cpp:InsulationIEC60335Model::calculate_creepage_distance"]}
{"id": "C58", "title": "An insulation requirement is either a number of the tables or an exception", "statement": "With the shipped tables no calculation of clearance, creepage distance or withstand voltage reads outside a table or passes an undefined value on; and the supply and working voltages up to which each one answers are the ends of the tables.", "quantifier": "every input of every standard", "why_tests_cant": "All inputs, including those beyond the last row of a table.", "anchors": ["src/constructive_models/Insulation.h:InsulationIEC60664Model", "src/constructive_models/Insulation.cpp:linear_table_interpolation"]}
{"id": "C59", "title": "A higher frequency never relaxes an insulation requirement", "statement": "With all other inputs equal, raising the frequency does not lower the clearance, the creepage distance or the withstand voltage a standard requires.", "quantifier": "every input of every standard, every pair of frequencies", "why_tests_cant": "Two frequencies and all the tables between them.", "anchors": ["src/constructive_models/Insulation.cpp:InsulationIEC60664Model::calculate_clearance_over_30kHz", "src/constructive_models/Insulation.cpp:InsulationIEC62368Model::calculate_clearance", "src/constructive_models/Insulation.cpp:InsulationIEC60335Model::calculate_creepage_distance"]}
{"id": "C60", "title": "The required withstand voltage covers the working voltage", "statement": "The withstand voltage a standard requires is at least the working voltage of the insulation, and at least the impulse or mains value its tables give; with IEC 60664 or IEC 62368 selected the coordinator's answer is at least the peak working voltage.", "quantifier": "every input a standard answers", "why_tests_cant": "All voltages, including those beyond the last row of a table.", "anchors": ["src/constructive_models/Insulation.cpp:InsulationCoordinator::calculate_withstand_voltage", "src/constructive_models/Insulation.cpp:InsulationIEC61558Model::get_withstand_voltage_table_14"]}
{"id": "C61", "title": "Reinforced and double insulation take twice the creepage distance of basic insulation", "statement": "For IEC 60664, IEC 62368 (wound components) and IEC 60335 (up to 30 kHz), the creepage distance without clearance required of reinforced or double insulation is twice the one required of basic or supplementary insulation, within the rounding.", "quantifier": "every input and pair of classes", "why_tests_cant": "All inputs, rows and roundings.", "anchors": ["src/constructive_models/Insulation.cpp:InsulationIEC60664Model::calculate_creepage_distance", "src/constructive_models/Insulation.cpp:InsulationIEC62368Model::get_creepage_distance_table_17", "src/constructive_models/Insulation.cpp:InsulationIEC60335Model::calculate_creepage_distance"]}
{"id": "C62", "title": "Above 2000 m the clearance is multiplied by the altitude factor", "statement": "For wound components under IEC 60664 and IEC 62368 the clearance at an altitude above 2000 m is the clearance at 2000 m times the factor of the altitude table, interpolated, never less than one.", "quantifier": "every input and altitude", "why_tests_cant": "All inputs and altitudes.", "anchors": ["src/constructive_models/Insulation.cpp:InsulationIEC60664Model::get_clearance_altitude_factor_correction", "src/constructive_models/Insulation.cpp:InsulationIEC62368Model::get_altitude_factor"]}
{"id": "C63", "title": "A clearance is at least what each table it is made of asks for", "statement": "The clearance a standard requires is not below any of the values its procedure combines: the impulse table and the steady-state table for IEC 60664, the temporary overvoltage, working voltage and mains transient tables for IEC 62368, tables 20, 103 and 104 for IEC 61558, IEC 60664 itself for IEC 60335 when it applies.", "quantifier": "every input a standard answers", "why_tests_cant": "All inputs and rows.", "anchors": ["src/constructive_models/Insulation.cpp:InsulationIEC60664Model::calculate_clearance", "src/constructive_models/Insulation.cpp:InsulationIEC62368Model::calculate_clearance", "src/constructive_models/Insulation.cpp:InsulationIEC61558Model::calculate_clearance_over_30kHz", "src/constructive_models/Insulation.cpp:InsulationIEC60335Model::calculate_clearance"]}
{"id": "C64", "title": "Winding the sections of a rectangular window keeps every turn", "statement": "After wind_by_sections succeeds on a rectangular winding window, the sections of a winding together hold exactly its number of turns in each parallel, each section lists one proportion per parallel, all of them whole numbers of turns, and the physical turns stored with it are their sum. With every winding in the pattern, at least one repetition and turns in every winding, the exception for unassigned turns is never thrown and nothing undefined is done.", "quantifier": "every coil, pattern, number of repetitions, proportion and set of groups", "why_tests_cant": "The split over sections depends on turns, parallels, sections and style; tests cover a few dozen coils.", "anchors": ["src/constructive_models/Coil.cpp:Coil::wind_by_rectangular_sections", "src/constructive_models/Coil.cpp:Coil::plan_section_group", "src/constructive_models/Coil.cpp:get_parallels_proportions"]}
{"id": "C65", "title": "Turns are shared out evenly over the sections", "statement": "In a rectangular window with one group, the sections of a winding are numbered from zero without gaps, and they share its turns as evenly as whole turns allow, the larger shares first: per parallel when parallels are wound together, over all parallels when they are wound one after the other. In the latter case a parallel is finished before the next starts.", "quantifier": "every coil, pattern and number of repetitions", "why_tests_cant": "All combinations of turns, parallels and sections.", "anchors": ["src/constructive_models/Coil.cpp:get_parallels_proportions", "src/constructive_models/Coil.cpp:Coil::wind_by_consecutive_turns"]}
{"id": "C66", "title": "No section of a rectangular window is left empty when there are enough turns", "statement": "With one group, a winding with at least as many physical turns (turns times parallels) as sections has at least one turn in each of its sections, whatever style is chosen or forced; with fewer, the first sections get one turn each and the rest none.", "quantifier": "every coil, pattern, number of repetitions and forced style", "why_tests_cant": "All combinations of turns, parallels and sections.", "anchors": ["src/constructive_models/Coil.cpp:Coil::wind_by_consecutive_turns", "src/constructive_models/Coil.cpp:get_parallels_proportions"]}
{"id": "C67", "title": "The sections of a rectangular window lie side by side and fill it", "statement": "The sections of a group, insulation included, start at the edge of the group and each begins where the one before ends; together they take the size of the group, up to the rounding to a nanometre.", "quantifier": "every coil, pattern, number of repetitions, proportion and insulation", "why_tests_cant": "All combinations of insulation thicknesses and proportions.", "anchors": ["src/constructive_models/Coil.cpp:Coil::wind_by_rectangular_sections", "src/constructive_models/Coil.cpp:Coil::add_insulation_to_sections"]}
{"id": "C68", "title": "Winding the sections of a round window keeps every turn", "statement": "After wind_by_sections succeeds on a round winding window, the sections of a winding together hold exactly its number of turns in each parallel, with whole turns in each section; and it does succeed whenever the sections fit.", "quantifier": "every coil with one group, pattern, number of repetitions and proportion", "why_tests_cant": "The shares depend on the area of every section.", "anchors": ["src/constructive_models/Coil.cpp:Coil::wind_by_round_sections", "src/constructive_models/Coil.cpp:get_length_proportions"]}
{"id": "C69", "title": "Winding the layers of a section keeps every turn", "statement": "After wind_by_layers succeeds on a rectangular winding window, the layers of a section together hold exactly the turns of the section in each parallel; the layers are numbered from zero without gaps, each lists one proportion per parallel, all of them whole numbers of turns, and the physical turns stored with it are their sum.", "quantifier": "every section, wire, winding style, number of layers and setting", "why_tests_cant": "The split over layers depends on sizes, turns, parallels, style and on the connections that cross each layer.", "anchors": ["src/constructive_models/Coil.cpp:Coil::wind_by_rectangular_layers", "src/constructive_models/Coil.cpp:get_parallels_proportions"]}
{"id": "C70", "title": "A section whose wire fits along its layers is wound without an error", "statement": "If the number of layers is left to the library, winding the layers of a section with turns never throws the exception for an empty layer; and with a wire of positive size that fits along the layer it succeeds. With a number of layers given, the exception is thrown exactly when parallels are wound together and no parallel has as many turns as layers.", "quantifier": "every section, wire, winding style and setting", "why_tests_cant": "All distributions of turns over parallels, including uneven sections.", "anchors": ["src/constructive_models/Coil.cpp:Coil::wind_by_rectangular_layers", "src/constructive_models/Coil.cpp:Coil::wind_by_consecutive_turns"]}
{"id": "C71", "title": "No layer gets more turns than fit along it", "statement": "When a section has space for its turns, the turns of each of its layers, times the size of the wire, fit along the layer, and its layers are together no thicker than the section. With overflow across layers allowed, the layers hold no more than fits along them even if the section has no space for all of them.", "quantifier": "every section, wire, winding style and setting", "why_tests_cant": "All sizes, turns and parallels; the rounding of rows of parallels.", "anchors": ["src/constructive_models/Coil.cpp:Coil::wind_by_rectangular_layers"]}
{"id": "C72", "title": "The layers of a section are stacked without gaps, where the alignment asks for, and inside the section", "statement": "The layers of a section, the insulation between them included, each begin where the one before ends, to a nanometre. The first begins at the inner edge when layers overlap, and where the alignment of turns asks for when they are contiguous. Layers that are together no thicker than the section lie inside it.", "quantifier": "every section, wire, alignment and setting", "why_tests_cant": "All sizes and numbers of layers, with rounding errors adding up.", "anchors": ["src/constructive_models/Coil.cpp:Coil::wind_by_rectangular_layers"]}
{"id": "C73", "title": "Winding sections, layers and turns one after another gives each winding all its turns, once", "statement": "After sections, layers and turns of a coil are wound in a rectangular window, the turns of every parallel of every winding are numbered 0, 1, 2 and so on up to the number of turns of the winding, each exactly once and in that order; no turn is lost, repeated or given to another winding.", "quantifier": "every functional description, pattern, repetitions, group and setting", "why_tests_cant": "Turns pass through three rounds of proportions, rounding and bookkeeping by winding and parallel; tests cover chosen coils.", "anchors": ["src/constructive_models/Coil.cpp:Coil::wind_by_rectangular_turns", "src/constructive_models/Coil.cpp:Coil::wind_by_rectangular_layers", "src/constructive_models/Coil.cpp:Coil::wind_by_rectangular_sections"]}
{"id": "C74", "title": "Turns of a layer are placed side by side, aligned as asked, and inside the layer", "statement": "The turns of a layer all have the size of the wire and lie on the middle line of the layer. Neighbours are exactly one turn apart, except between the bundles of a spread layer, which get equal gaps. The row starts where the alignment asks for; turns that fit in the layer lie inside it, and spread ones reach both ends. In U order each layer begins at the end where the one before it finished; with real winding geometry so do layers of one turn per parallel, and in Z order the layers of a section begin at the same end and the next section of the winding at the other.", "quantifier": "every layer, wire, alignment, orientation, winding style and winding order", "why_tests_cant": "All sizes and numbers of turns; both orientations; reversed layers; rounding of the first place.", "anchors": ["src/constructive_models/Coil.cpp:Coil::wind_by_rectangular_turns", "src/constructive_models/Coil.cpp:compute_spread_turn_stations", "src/constructive_models/Coil.cpp:get_layer_bundle_size"]}
{"id": "C75", "title": "No two turns of a coil overlap when layers fit in their sections and turns in their layers", "statement": "Any two turns of a coil wound in a rectangular window are apart in width or in height, to within the nanometres that rounding can add up to, as long as the layers of each section are no thicker than the section and the turns of each layer no longer than the layer.", "quantifier": "every functional description, pattern, repetitions, group, alignment and setting", "why_tests_cant": "It is about every pair of turns of every coil, in the same layer, in layers of the same section and in different sections.", "anchors": ["src/constructive_models/Coil.cpp:Coil::wind_by_rectangular_turns", "src/constructive_models/Coil.cpp:Coil::wind_by_rectangular_layers", "src/constructive_models/Coil.cpp:Coil::wind_by_rectangular_sections"]}
{"id": "C76", "title": "Sections follow the pattern in every group, with insulation exactly where windings need it", "statement": "After sections are wound in a rectangular window, they are those of each group in turn. The sections of a group belong to the windings of the pattern, restricted to the group when there are several, repeated as often as asked and numbered from zero for each winding. Insulation lies between two sections exactly when their windings need it and never twice in a row. The sections are stacked from the edge of the group and take its whole size when its windings share all of it. Across that direction every conduction section keeps its margins free and has room for its wire.", "quantifier": "every functional description, groups, pattern, repetitions, margins and insulation", "why_tests_cant": "All patterns and groups; insulation is placed by a rule over neighbours, including the one from the last section to the first.", "anchors": ["src/constructive_models/Coil.cpp:Coil::wind_by_rectangular_sections", "src/constructive_models/Coil.cpp:Coil::add_insulation_to_sections", "src/constructive_models/Coil.cpp:Coil::get_ordered_sections"]}
{"id": "C77", "title": "Permeabilities do not depend on what was asked before", "statement": "The initial permeability, the complex permeability and the series resistance of the core of a material are those a thread that was asked nothing before would compute, whatever materials and conditions it was asked for before.", "quantifier": "every history of calls on a thread, every material, every temperature, bias, frequency and flux density", "why_tests_cant": "Curves are cached by the name of the material for the life of the thread; which cached curve an answer comes from depends on the whole history.", "anchors": ["src/physical_models/InitialPermeability.cpp:InitialPermeability::get_initial_permeability", "src/physical_models/InitialPermeability.h:initialPermeabilityTemperatureInterps", "src/physical_models/ComplexPermeability.cpp:ComplexPermeability::get_complex_permeability", "src/physical_models/CoreLosses.cpp:get_core_losses_series_resistance"]}
{"id": "C78", "title": "Permeability is the measured one where it was measured", "statement": "At a temperature, a frequency or a bias at which a material was measured, its initial permeability is the measured one, or one if that was less. Above its Curie temperature it is one. In a material not measured under bias, a bias or a flux density never raises it.", "quantifier": "every set of measured points, every spline through its points, every condition asked for", "why_tests_cant": "Points are filtered by the other two quantities, sorted, deduplicated and interpolated, then divided and multiplied by a reference: for every set of points.", "anchors": ["src/physical_models/InitialPermeability.cpp:InitialPermeability::get_initial_permeability", "src/physical_models/InitialPermeability.cpp:get_initial_permeability_temperature_dependent", "src/physical_models/InitialPermeability.cpp:get_initial_permeability_frequency_dependent", "src/physical_models/InitialPermeability.cpp:get_initial_permeability_magnetic_field_dc_bias_dependent"]}
{"id": "C79", "title": "Permeability is never below that of vacuum", "statement": "When no measured permeability of a material is below one, no initial permeability of that material is below one, at any temperature, frequency and bias.", "quantifier": "every set of measured points and every combination of conditions", "why_tests_cant": "Each dependency is kept above one on its own; their combination multiplies factors that may all be below one.", "anchors": ["src/physical_models/InitialPermeability.cpp:InitialPermeability::get_initial_permeability"]}
{"id": "C80", "title": "Complex permeability and series resistance follow the measurements and are not extrapolated", "statement": "At a frequency where both parts were measured, complex permeability is the measured one. Its real part is never below one. Beyond the measured frequencies complex permeability stays constant. The series resistance of a core is not negative; at a frequency where the loss factor was measured it is the one of the measured value, beyond the measured frequencies it is proportional to the frequency, and without measurements it is refused.", "quantifier": "every set of measured points, every spline through its points, every frequency, temperature and inductance", "why_tests_cant": "Splines diverge outside their points; that the clamp holds on both sides and at the ends for every set of points is not a matter of samples.", "anchors": ["src/physical_models/ComplexPermeability.cpp:ComplexPermeability::get_complex_permeability", "src/physical_models/CoreLosses.cpp:get_core_losses_series_resistance"]}
{"id": "C81", "title": "Permeability is defined for every measured data", "statement": "For every set of measured points of a material, and every condition asked for, the initial permeability is a number or an exception.", "quantifier": "every set of measured points and every combination of conditions", "why_tests_cant": "Undefined behaviour happens for particular shapes of data: points without a quantity that others have, or exactly two values of it.", "anchors": ["src/physical_models/InitialPermeability.cpp:get_initial_permeability_frequency_dependent", "src/physical_models/InitialPermeability.cpp:get_initial_permeability_magnetic_field_dc_bias_dependent", "src/physical_models/InitialPermeability.cpp:get_initial_permeability_temperature_dependent"]}
{"id": "C82", "title": "Windings wound together each get their own turns", "statement": "When a coil with windings wound together has its turns wound, each winding has, on each of its parallels, exactly its number of turns, and there are no other turns. When the lists of windings wound together agree, what is wound for them is one winding with all their turns, no step fails that would not fail for that one winding, and every turn wound is given to one winding at the place it was wound at.", "quantifier": "every coil, every lists of windings wound together, every numbers of turns and parallels, every way of winding sections, layers and turns", "why_tests_cant": "Turns are dealt out in a round over a pattern whose length depends on the ratios of turns; that the round never runs dry and ends exact holds or not for all ratios at once.", "anchors": ["src/constructive_models/Coil.cpp:Coil::wind_by_turns", "src/constructive_models/Coil.cpp:Coil::devirtualize_turns_description", "src/constructive_models/Coil.cpp:Coil::virtualize_functional_description"]}
{"id": "C83", "title": "Winding does not change the windings asked for", "statement": "After winding sections, layers or turns, however it ends, the windings of a coil are those it had before, as are its groups and what was wound by the steps before.", "quantifier": "every coil, every outcome of winding, including exceptions", "why_tests_cant": "The windings are replaced while winding; whether they come back depends on every way out of the steps.", "anchors": ["src/constructive_models/Coil.cpp:Coil::wind_by_sections", "src/constructive_models/Coil.cpp:Coil::wind_by_layers", "src/constructive_models/Coil.cpp:Coil::wind_by_turns"]}
{"id": "C84", "title": "Two windings are wound together exactly when one is said to be wound with the other", "statement": "For every coil, two windings are wound as one exactly when one of them names the other among those it is wound with, directly or through others. Windings that differ in parallels, isolation side or wire are refused instead.", "quantifier": "every list of windings and every lists of windings wound together", "why_tests_cant": "The groups are built in one pass from minima of indexes; which lists are respected depends on the order of the windings and on which of them carries the list.", "anchors": ["src/constructive_models/Coil.cpp:Coil::create_virtualization_map", "src/constructive_models/Coil.cpp:Coil::get_winding_group_minimum_index", "src/constructive_models/Coil.cpp:Coil::virtualize_functional_description"]}
{"id": "C85", "title": "A section of windings wound together is a section of each of them", "statement": "After winding sections, each section wound for windings wound together holds all of them, each with the proportions the section was wound with, and is otherwise the section that was wound, however often and with whatever windings the coil was wound before.", "quantifier": "every coil, every history of winding the same coil with other windings, every way of winding sections", "why_tests_cant": "Names kept from an earlier winding are still looked up; it takes a particular history of windings to see it.", "anchors": ["src/constructive_models/Coil.cpp:Coil::devirtualize_sections_description", "src/constructive_models/Coil.cpp:Coil::virtualize_section", "src/constructive_models/Coil.h:_virtualWindingNames"]}
{"id": "C86", "title": "The skin losses of a wire do not depend on the wires asked before", "statement": "The losses by skin effect of a wire, at a frequency and a temperature, are what the formula of the model gives for that wire, whatever was computed before in the same thread.", "quantifier": "every formula, every history of computations of losses, every wire, frequency and temperature", "why_tests_cant": "The factors are kept under the name or the outer size of the wire; it takes two wires that differ elsewhere, one after the other, to see it.", "anchors": ["src/physical_models/WindingSkinEffectLosses.cpp:WindingSkinEffectLossesModel::try_get_skin_factor", "src/physical_models/WindingSkinEffectLosses.cpp:WindingSkinEffectLossesModel::set_skin_factor", "src/physical_models/WindingSkinEffectLosses.cpp:WindingSkinEffectLosses::get_model"]}
{"id": "C87", "title": "Parallels share the current of their winding by their resistance", "statement": "For every coil and currents for which ohmic losses are computed, the shares of the current of the parallels of a winding that carries current add to one, each share times the resistance of its parallel, turns and connections, is the resistance of the winding, which is no more than that of any parallel; the losses of a winding are its squared current times its resistance, and those of a turn are its own squared current times its own resistance.", "quantifier": "every coil, with or without connections, every currents, every resistance of wires", "why_tests_cant": "Holds for all numbers of parallels, lengths of turns and lengths of connections at once.", "anchors": ["src/physical_models/WindingOhmicLosses.cpp:WindingOhmicLosses::calculate_ohmic_losses", "src/physical_models/WindingOhmicLosses.cpp:WindingOhmicLosses::calculate_connection_length_per_winding_per_parallel"]}
{"id": "C88", "title": "The total of winding losses is the sum of its parts", "statement": "When the losses of a coil are computed, the total is the sum of the losses reported for the turns, and that of those for the layers, for the sections and for the windings.", "quantifier": "every coil, with or without connections, every currents, every field, every formulas", "why_tests_cant": "Totals are accumulated apart from the parts in four stages; whether they agree depends on what each stage adds to which.", "anchors": ["src/physical_models/WindingLosses.cpp:WindingLosses::calculate_losses", "src/physical_models/WindingLosses.cpp:WindingLosses::combine_turn_losses", "src/physical_models/WindingSkinEffectLosses.cpp:WindingSkinEffectLosses::calculate_skin_effect_losses", "src/physical_models/WindingProximityEffectLosses.cpp:WindingProximityEffectLosses::calculate_proximity_effect_losses"]}
{"id": "C89", "title": "Computing winding losses is defined for every input", "statement": "Computing the losses of a coil with any turns and any currents, of however many harmonics each, either gives losses or throws an exception: nothing is read or written past the end of a vector.", "quantifier": "every coil, every currents with any number of harmonics in each winding, every formulas", "why_tests_cant": "Losses of turns of different windings are added harmonic by harmonic without a check; that they always have the same harmonics rests on the pruning before and on the field refusing windings without current.", "anchors": ["src/physical_models/WindingLosses.cpp:WindingLosses::calculate_losses", "src/physical_models/WindingLosses.cpp:combine_turn_losses_per_element", "src/physical_models/WindingOhmicLosses.cpp:WindingOhmicLosses::calculate_ohmic_losses", "src/processors/Inputs.cpp:Inputs::prune_harmonics"]}
{"id": "C90", "title": "Pruning harmonics keeps what is significant in any winding", "statement": "Pruning the currents of an operating point keeps, in every winding, the same harmonics in order: the first, and all those with an amplitude times root of frequency of at least the threshold times the largest of that winding, for any winding. Each keeps its amplitude and frequency; a winding without it has zero there. All else of the currents stays, and nothing is pruned when a winding has no harmonics.", "quantifier": "every number of windings, every harmonics of each, every threshold of at least zero", "why_tests_cant": "The kept indexes are merged over windings with spectra of different lengths and sorted; all combinations of spectra have to agree.", "anchors": ["src/processors/Inputs.cpp:Inputs::prune_harmonics", "src/support/Utils.cpp:get_main_harmonic_indexes"]}
{"id": "C91", "title": "Sections, layers and turns of a wound coil have different names", "statement": "When a coil with a rectangular window is wound, no two of its sections have the same name, nor two of its layers, nor two of its turns; the name of a section says its winding and number, or the windings it insulates and its place.", "quantifier": "every coil, every names of windings, every groups, patterns and repetitions", "why_tests_cant": "Names are put together from those given by the user and counters that are reset at each group; parts are then looked up by name, so that one clash among all coils moves the wrong part.", "anchors": ["src/constructive_models/Coil.cpp:Coil::wind_by_rectangular_sections", "src/constructive_models/Coil.cpp:Coil::wind_by_rectangular_layers", "src/constructive_models/Coil.cpp:Coil::wind_by_rectangular_turns"]}
{"id": "C92", "title": "A lookup by name gives what the coil has now", "statement": "Asking a coil for a turn, the index of a turn or the index of a winding by name gives the one the coil has at that time under that name, and throws when there is none, whatever was asked or changed before.", "quantifier": "every history of lookups, of windings and turns set anew, and of winding", "why_tests_cant": "What is found is remembered, and whether it is forgotten in time depends on the order of calls.", "anchors": ["src/constructive_models/Coil.cpp:Coil::get_turn_by_name", "src/constructive_models/Coil.cpp:Coil::get_turn_index_by_name", "src/constructive_models/Coil.cpp:Coil::get_winding_index_by_name", "src/constructive_models/Coil.h:Coil::set_functional_description"]}
{"id": "C93", "title": "Turns named by their beginning have different names, numbered without gaps", "statement": "With real winding geometry, the places where a conductor passes are named after its winding and parallel and the turn that begins there; turns of a conductor are numbered from zero without gaps in the order they are wound. The last of two or more in a row in a layer ends a turn, and has the number of the place before it and a mark. No two names are the same.", "quantifier": "every list of places, of any windings, parallels and layers, also places without a layer", "why_tests_cant": "Runs of places of a layer can be of any length and mixed among conductors in any order.", "anchors": ["src/constructive_models/Coil.cpp:Coil::name_turns_by_beginning"]}
{"id": "C94", "title": "Proximity losses of a turn come from the field at that turn", "statement": "The proximity losses of a turn are one value for each frequency of the field, after a first one of nothing, and depend on no field point but those of that turn. A turn that crosses the window plane once has the losses of its whole length in its points; one with points at a second crossing has those of half its length in the points of each crossing, and every point counts at the nearer one.", "quantifier": "every coil, every field with any points in any order, every formula of losses", "why_tests_cant": "The points of all turns come mixed in one list per frequency, of any length; a point filed under the wrong crossing changes only the value.", "anchors": ["src/physical_models/WindingProximityEffectLosses.cpp:WindingProximityEffectLosses::calculate_proximity_effect_losses"]}
{"id": "C95", "title": "The fluxes of the columns obey the laws of the magnetic circuit", "statement": "For a core of any number of columns with positive reluctances, the fluxes of its columns are always given, whatever the ampere-turns of its windings: they add to nothing, around each window the drops of both columns and the yoke balance the sources, and no other fluxes do. The currents must be one for each winding, and the flux density of a column is its flux over its own area.", "quantifier": "every number of columns, every positive reluctances of columns, every reluctances of yokes that are not negative, every order of columns and every currents", "why_tests_cant": "Elimination with exchange of rows is exercised on two or three columns; that no pivot is ever zero and that the exchanges keep the solution has to hold for any matrix of loops.", "anchors": ["src/physical_models/ReluctanceNetwork.cpp:solve_column_fluxes_for_magnetomotive_forces", "src/physical_models/ReluctanceNetwork.cpp:calculate_column_magnetic_fluxes", "src/physical_models/ReluctanceNetwork.cpp:calculate_column_magnetic_flux_densities"]}
{"id": "C96", "title": "The inductance matrix of a core is that of a passive circuit", "statement": "For windings on any columns, the magnetizing inductance matrix is square and symmetric, a winding with turns has a positive self inductance, no current gives a negative energy, no mutual inductance is larger than the root of both self inductances, and the flux linked by each winding for any currents is that of the matrix. The leakage inductance taken from it is never negative nor larger than the self inductance.", "quantifier": "every network, every number of windings, turns and columns, every currents", "why_tests_cant": "Symmetry and sign hold for every network only by an argument on energy; tests compare single values on a few shapes.", "anchors": ["src/physical_models/ReluctanceNetwork.cpp:calculate_magnetizing_inductance_matrix", "src/physical_models/LeakageInductance.cpp:LeakageInductance::calculate_leakage_inductance"]}
{"id": "C97", "title": "The network agrees with the lumped reluctance for windings on the main column", "statement": "A network can be built for every core whose columns have height and area, and can then be solved. Its gaps are in series with the column nearest to each. A winding on the main column has its turns squared over the reluctance of the core plus that of the gaps, as the lumped model says.", "quantifier": "every core, every core reluctance and every gaps with reluctances that are not negative, for any order among columns at the same place", "why_tests_cant": "The calibration holds by linearity of a network of any size; a test fixes one core and compares within a tolerance.", "anchors": ["src/physical_models/ReluctanceNetwork.cpp:ReluctanceNetwork::ReluctanceNetwork", "src/physical_models/ReluctanceNetwork.h:ReluctanceNetwork", "src/physical_models/Reluctance.cpp:ReluctanceModel::get_gapping_reluctance"]}
{"id": "C98", "title": "Every winding is attributed to the column it is wound around", "statement": "The columns resolved for windings are one for each: the main column for a winding that is not placed, and otherwise the column of the window it names or that its sections name. A winding with sections around two columns is refused, and windings are said to be placed elsewhere exactly when one of them is resolved to another column than the main one.", "quantifier": "every core, windows, windings and sections", "why_tests_cant": "The combinations of placements on windings and on sections, in any order, with windows that exist or not, cannot be listed.", "anchors": ["src/physical_models/ReluctanceNetwork.cpp:resolve_winding_column_indexes", "src/physical_models/ReluctanceNetwork.cpp:has_non_main_placement", "src/constructive_models/Core.cpp:Core::get_winding_window_column_index", "src/constructive_models/Core.cpp:Core::get_main_column_index"]}
{"id": "C99", "title": "Gaps go to the columns they are meant for", "statement": "After the gaps of a core are distributed, each is on one of its columns, with its area and its section, and every column has one. Ground gaps go to the column the windings go around, with their lengths, and every other column gets one residual gap. Spacers separate every column by the same amount, and residual gaps are one for each column.", "quantifier": "every number and order of columns, every list of ground, spacer and residual gaps of any lengths", "why_tests_cant": "The branches depend on counts of three kinds of gaps against the number of columns; tests fix a few lists on a few shapes, and the regressions recorded in comments came from lists nobody had tried.", "anchors": ["src/constructive_models/Core.cpp:Core::distribute_and_process_gap"]}
{"id": "C100", "title": "Gaps distributed along a column are evenly spread and say the room they leave", "statement": "Several gaps ground into a column are spread along it at equal steps, symmetrically about its middle; no two of them overlap, none sticks out, and the distance each says it keeps to the nearest end is the one it has.", "quantifier": "every height of column, every number of gaps and every lengths", "why_tests_cant": "The heights and distances come from a loop with rounding at each turn; that they stay symmetric, and that distances match, has to hold for any number of gaps.", "anchors": ["src/constructive_models/Core.cpp:Core::distribute_and_process_gap"]}
{"id": "C101", "title": "Processing the gaps of a core again changes nothing", "statement": "A core that was processed, saved and loaded, or processed again by an adviser, keeps its gaps: their kinds, lengths and places, and the room they say they leave; and it is not refused the second time.", "quantifier": "every core, every list of gaps, with places or without, any number of passes", "why_tests_cant": "Histories of processing have any length, and the second pass takes another branch than the first; tests process once.", "anchors": ["src/constructive_models/Core.cpp:Core::process_gap", "src/constructive_models/Core.cpp:Core::is_gapping_misaligned", "src/constructive_models/Core.cpp:Core::Core"]}
{"id": "C102", "title": "Gaps that cannot be are refused and leave the core as it was", "statement": "Gaps that fit are laid and gaps too long for their column are not; nothing is read past an end for a core with a column and a window. Toroids, molded cores and semi-shielded drums refuse gaps, and a drum with a ring has its two clearances only. A core whose gaps are refused keeps those it had. The gaps of a stack have the area and depth of the stack, however often it is processed. Setting a length that does not fit is told.", "quantifier": "every family, core, list of gaps, number of stacks and history of calls", "why_tests_cant": "The outcome depends on lengths against heights through rounding, and on what gaps carry from earlier passes.", "anchors": ["src/constructive_models/Core.cpp:Core::process_gap", "src/constructive_models/Core.cpp:Core::process_gap_or_throw", "src/constructive_models/Core.cpp:Core::set_gap_length", "src/constructive_models/Core.cpp:Core::scale_to_stacks", "src/constructive_models/Core.cpp:Core::create_distributed_gapping"]}
{"id": "C103", "title": "Processing a core keeps the winding windows it declares", "statement": "Whatever windows a core declares, processing it gives at least as many, with the winding order asked for each, or refuses it; the windows made for the columns are one for each column beside the main one, on its side, never two for one column; and processing again gives the same windows.", "quantifier": "every list of columns, every windows declared with any orders, with the setting on or off, any number of passes", "why_tests_cant": "How many windows come in and how many are made again are independent numbers; tests declare the number of one shape.", "anchors": ["src/constructive_models/Core.cpp:Core::process_data", "src/constructive_models/Core.cpp:appendPerColumnWindingWindows"]}
{"id": "C104", "title": "A core fits the maximum dimensions exactly when a box of its size does", "statement": "Without rotation, a core fits exactly when each of its dimensions is within the maximum given for it, a maximum that is not given allowing any. With rotation, exactly when the box does in one of the six ways of turning it. A larger maximum never makes a core not fit.", "quantifier": "every dimensions and every combination of maxima", "why_tests_cant": "Eight combinations of maxima times six rotations, each a separate condition written out by hand; only a proof shows that none is missing or swapped.", "anchors": ["src/constructive_models/Core.cpp:Core::fits", "src/constructive_models/Core.cpp:fits_two_dimensions", "src/constructive_models/Core.cpp:fits_three_dimensions"]}
{"id": "C105", "title": "The leakage matrix gives the energy of any currents", "statement": "The matrix of leakage inductances, computed from single windings and pairs, gives the energy of the field in the window for any currents in all windings, with any signs; it is symmetric, no currents have a negative energy, no self leakage is negative, and no mutual leakage is larger than both self leakages allow.", "quantifier": "every number of windings, every grid of points and field, every currents", "why_tests_cant": "The matrix is measured with windings one and two at a time; that it holds for all currents at once is for infinitely many vectors.", "anchors": ["src/physical_models/LeakageInductance.cpp:LeakageInductance::calculate_leakage_inductance_matrix", "src/physical_models/LeakageInductance.cpp:LeakageInductance::calculate_leakage_field_energy", "src/physical_models/LeakageInductance.cpp:LeakageInductance::integrate_leakage_energy"]}
{"id": "C106", "title": "The leakage of a pair of windings is the same for every way of asking for it", "statement": "The leakage from a winding to another does not depend on other windings, is not negative, and asked for from the other side it is the same referred by the turns; the leakage matrix gives the same, and so does the inductance matrix with the other winding in short circuit.", "quantifier": "every pair of windings, on one column or two, every turns, field and magnetizing inductance", "why_tests_cant": "Tests compare two of the ways on one transformer with a tolerance; that they agree is an identity over all of them, and where it fails is where nobody looked.", "anchors": ["src/physical_models/LeakageInductance.cpp:LeakageInductance::calculate_leakage_inductance", "src/physical_models/LeakageInductance.cpp:LeakageInductance::create_leakage_operating_point", "src/physical_models/Inductance.cpp:Inductance::calculate_inductance_matrix"]}
{"id": "C107", "title": "Inductances are those of a component that stores energy", "statement": "The inductance matrix has an entry for each pair of windings, by their names, the same in both orders: that of the core plus the leakage. No currents have a negative energy, no mutual inductance exceeds both self inductances, and the coupling coefficient of any two windings is given, never refused, and within one; with leakage, couplings made from the matrix are below one; and the mutual inductance and coupling asked for on their own are those of the matrix.", "quantifier": "every number of windings with any names, turns, columns, magnetizing inductance and leakage", "why_tests_cant": "A matrix with a negative energy makes a simulation blow up for some currents only; whether there are any is a question over all currents.", "anchors": ["src/physical_models/Inductance.cpp:Inductance::calculate_inductance_matrix", "src/physical_models/Inductance.cpp:Inductance::calculate_coupling_coefficient", "src/physical_models/Inductance.cpp:Inductance::calculate_mutual_inductance", "src/physical_models/Inductance.cpp:Inductance::calculate_self_inductance", "src/physical_models/ExtendedCantilever.cpp:ExtendedCantilever::calculate_inductance_matrix"]}
{"id": "C108", "title": "An inductance matrix is inverted exactly when it can be", "statement": "Building the model of a transformer that needs the inverse of its inductance matrix is refused as singular exactly when some currents, not all zero, link no flux; otherwise the inverse undoes the matrix on both sides.", "quantifier": "every number of windings and every matrix, whatever zeros are on its diagonal", "why_tests_cant": "Elimination takes another path for each pattern of zeros and each order of magnitudes; tests invert a few matrices that need no exchange of rows.", "anchors": ["src/physical_models/ExtendedCantilever.cpp:invert_matrix"]}
{"id": "C109", "title": "The extended cantilever has the parameters that are measured", "statement": "The leakage between two windings in the model is what is measured with all windings but one in short circuit, the same both ways; the model is given whenever it exists; and the short circuit output inductance at a winding is what is measured there with all the others in short circuit.", "quantifier": "every number of windings, inductance matrix, turns ratios and currents", "why_tests_cant": "Short circuits of all but one winding of any number; the tests check the formula against itself or a table, not against the matrix it came from.", "anchors": ["src/physical_models/ExtendedCantilever.cpp:build_from_inductance_matrix", "src/physical_models/ExtendedCantilever.cpp:ExtendedCantilever::build_from_leakage_matrix", "src/physical_models/ExtendedCantilever.cpp:ExtendedCantilever::inverse_inductance_diagonal", "src/physical_models/ExtendedCantilever.cpp:ExtendedCantilever::short_circuit_output_inductance"]}
{"id": "C110", "title": "Heat balances", "statement": "When temperatures are found at some resistances, given temperatures are kept, every other part sheds through its connections the very losses it was given, and no other temperatures would do; all the losses come out where temperatures are given.", "quantifier": "every number of parts, connections, resistances, losses and given temperatures", "why_tests_cant": "The equations are built and eliminated by hand, with exchanges of rows that depend on the magnitudes; tests check energy on a few components with a tolerance.", "anchors": ["src/physical_models/Temperature.cpp:Temperature::solveThermalCircuit", "src/physical_models/Temperature.cpp:SimpleMatrix::solve"]}
{"id": "C111", "title": "Temperatures are refused exactly for parts that heat cannot leave", "statement": "A network in which every part has a path to the ambient or a fixed temperature is solved, within generous bounds on the resistances and the number of parts; one in which a part has no such path is refused, and temperatures are never made up for it. Every connection conducts, also one of no resistance or a negative one.", "quantifier": "every network with any number of parts", "why_tests_cant": "Which networks are singular is a matter of all graphs; the check for disconnected parts only sees parts without any connection.", "anchors": ["src/physical_models/Temperature.cpp:Temperature::solveThermalCircuit", "src/physical_models/Temperature.cpp:SimpleMatrix::solve"]}
{"id": "C112", "title": "Temperatures are ordered as physics says", "statement": "With losses nothing is colder than the coldest given temperature, without them nothing is hotter than the hottest; with more losses or warmer surroundings nothing gets colder; a heat sink makes nothing hotter.", "quantifier": "every network, losses and given temperatures", "why_tests_cant": "Comparisons of two solutions of every pair of networks; a test compares one pair.", "anchors": ["src/physical_models/Temperature.cpp:Temperature::solveThermalCircuit"]}
{"id": "C113", "title": "Temperatures that are reported settled, and balance within the tolerance", "statement": "Where convergence is required no temperatures are returned that did not settle. Settled ones are within the tolerance of temperatures at which every part sheds its losses through the reported resistances, which are those at temperatures within the tolerance of the settled ones. No more iterations are made than allowed; the ambient and parts of fixed temperature keep theirs; nothing is colder than the coldest of them; a component without losses is at the ambient's temperature; and an exception other than that for convergence leaves the temperatures of parts as they were.", "quantifier": "every network, configuration, coefficients of convection whatever, and number of iterations", "why_tests_cant": "The coefficients depend on temperatures and the iteration is damped: that the criterion bounds the error of the balance is an argument over every history of iterations.", "anchors": ["src/physical_models/Temperature.cpp:Temperature::solveThermalCircuit", "src/physical_models/Temperature.cpp:Temperature::recalculateConvectionResistances"]}
{"id": "C114", "title": "The report says of temperatures what they are", "statement": "The maximum reported is the temperature of the hottest part; the thermal resistance times all the losses is the rise of the maximum over the ambient, and the bulk resistance asked for afterwards is the same; averages of core and coil are between the coldest and the hottest of their parts; every part with a name of its own is in the report with its temperature.", "quantifier": "every network and its temperatures, with cooling or without", "why_tests_cant": "The report scans parts in the order they were made; which order, parts and temperatures there are is not bounded.", "anchors": ["src/physical_models/Temperature.cpp:Temperature::solveThermalCircuit", "src/physical_models/Temperature.cpp:Temperature::getBulkThermalResistance"]}
{"id": "C115", "title": "All the losses are put into the network", "statement": "The losses of a core are given to its parts and those of each turn to the turn, or to its halves; all of them, and none is negative; without losses for every turn the calculation is refused, unless the coil has none.", "quantifier": "every core with any number of columns or segments, every number of turns and losses", "why_tests_cant": "A share that is missing makes the component look cooler than it is; this happened before, according to the comments, and no test of a temperature tells.", "anchors": ["src/constructive_models/CorePiece.cpp:CorePiece::calculate_core_loss_fractions", "src/physical_models/Temperature.cpp:Temperature::createConcentricCoreNodes", "src/physical_models/Temperature.cpp:Temperature::createToroidalCoreNodes", "src/physical_models/Temperature.cpp:Temperature::createTurnNodes"]}
{"id": "C116", "title": "The cooling that is described is the one that is applied", "statement": "A description of cooling means a cold plate, moving air, a heat sink or still air, in that order of precedence. A heat sink is joined to a top yoke by the resistance given for its interface and to the ambient by its own; a cold plate keeps its temperature and is joined to every bottom part by the resistance given for its interface; moving air acts at the magnitude of its velocity whatever its direction, changes convection only, and does not cool worse than still air.", "quantifier": "every description of cooling and every network", "why_tests_cant": "Which fields are given together makes many combinations, and speeds are a continuum.", "anchors": ["src/physical_models/Temperature.cpp:CoolingUtils::detectCoolingType", "src/physical_models/Temperature.cpp:Temperature::applyForcedConvection", "src/physical_models/Temperature.cpp:Temperature::applyHeatsinkCooling", "src/physical_models/Temperature.cpp:Temperature::applyColdPlateCooling", "src/physical_models/ThermalResistance.cpp:ThermalResistance::calculateForcedConvectionCoefficient"]}
{"id": "C117", "title": "Temperatures asked for are those of the parts asked about", "statement": "By component, the temperature is the largest of its parts, for every component there is; by turn, the largest of its halves; at a point, that of a part no other is nearer than.", "quantifier": "every list of parts with any names and temperatures, and every point", "why_tests_cant": "Maxima and nearest parts over lists of any length and order.", "anchors": ["src/physical_models/Temperature.cpp:Temperature::getTemperaturesByComponentType", "src/physical_models/Temperature.cpp:Temperature::getTemperaturePerTurn", "src/physical_models/Temperature.cpp:Temperature::getTemperatureAtPoint"]}
{"id": "C118", "title": "Radiation and conductivities are those of physics and of the data", "statement": "The coefficient of radiation times the difference of temperatures is the law of the fourth powers, the same from both surfaces. The conductivity of a wire material is on the line between two entries of its table, that of the nearest entry outside it, and is always given or refused.", "quantifier": "every temperature, emissivity and table; every wire material, with a table or without", "why_tests_cant": "Identities over all temperatures; and a call that never ends is not seen by a test that does not make it.", "anchors": ["src/physical_models/ThermalResistance.cpp:ThermalResistance::calculateRadiationCoefficient", "src/physical_models/ThermalResistance.cpp:ThermalResistance::getWireMaterialThermalConductivity", "src/physical_models/ThermalResistance.cpp:ThermalResistance::getMaterialThermalConductivity"]}
{"id": "C119", "title": "The average of a waveform is its mean over time", "statement": "The average of a waveform lies between the smallest and the largest of its values. It is multiplied when the waveform is multiplied, raised when it is raised, and that of a sum is the sum of the averages.", "quantifier": "every waveform with any number of points, at times that do not go back, and every factor and offset", "why_tests_cant": "An integral over any number of segments of any lengths; tests compare a few waveforms with numbers.", "anchors": ["src/processors/WaveformProcessor.cpp:WaveformProcessor::calculate_waveform_average", "src/processors/Inputs.cpp:Inputs::calculate_waveform_average", "src/processors/Inputs.cpp:Inputs::multiply_waveform", "src/processors/Inputs.cpp:Inputs::sum_waveform", "src/processors/Inputs.cpp:Inputs::add_waveforms"]}
{"id": "C120", "title": "Waveforms are added, subtracted and shifted without loss", "statement": "Waveforms of the same size are added value by value and those of different sizes refused. Subtracting what was added gives the first back. A shift moves every value the number of places asked for, going round, whatever its sign; shifts add up, a whole turn changes nothing, and shifting back undoes it.", "quantifier": "every pair of waveforms and every shift, of any sign and magnitude", "why_tests_cant": "Remainders of negative numbers and shifts of many turns have corners a few examples miss.", "anchors": ["src/processors/Inputs.cpp:Inputs::add_waveforms", "src/processors/Inputs.cpp:Inputs::subtract_waveforms", "src/processors/Inputs.cpp:Inputs::shift_waveform"]}
{"id": "C121", "title": "Samples are on the waveform", "statement": "Sampling a waveform of one period, whatever its times start from, succeeds. Every sample is on the straight line between two points of the waveform, none is outside the range of its values, and the samples are equally spaced over the period.", "quantifier": "every waveform with any number of points, vertical edges included, every frequency and number of samples", "why_tests_cant": "The search for the segment depends on every pair of times and on rounding of the frequency; tests sample a few shapes.", "anchors": ["src/processors/WaveformProcessor.cpp:WaveformProcessor::calculate_sampled_waveform"]}
{"id": "C122", "title": "Sampling is linear", "statement": "Multiplying, raising or adding waveforms and then sampling gives the same as sampling first. The frequency asked for does not matter to a waveform with times of its own. The sum of two signals is the signal of the sum.", "quantifier": "every waveform, factor, offset and pair of waveforms with the same times", "why_tests_cant": "Equality of two computations over all inputs, refusals included.", "anchors": ["src/processors/WaveformProcessor.cpp:WaveformProcessor::calculate_sampled_waveform", "src/processors/Inputs.cpp:Inputs::add_signals"]}
{"id": "C123", "title": "Sampling what is sampled changes nothing", "statement": "What sampling returns counts as sampled, and sampling it again gives the same waveform. Adding nothing to a signal, or shifting it there and back, leaves it as it was.", "quantifier": "every waveform and number of samples, over repeated calls", "why_tests_cant": "A small loss per call is within the tolerance of a test and adds up over a history of calls.", "anchors": ["src/processors/WaveformProcessor.cpp:WaveformProcessor::calculate_sampled_waveform", "src/processors/Inputs.cpp:Inputs::add_signals", "src/processors/Inputs.cpp:Inputs::shift_signal"]}
{"id": "C124", "title": "Compressing keeps what matters of a waveform", "statement": "The points of a compressed waveform are points of the waveform in their order, closed by its first value after a period. The largest and the smallest value are kept. Curves are kept close to what they were.", "quantifier": "every sampled waveform with any number of points", "why_tests_cant": "Dropping depends on every three consecutive points, and what is lost adds up along the curve.", "anchors": ["src/processors/WaveformProcessor.cpp:WaveformProcessor::compress_waveform", "src/processors/Inputs.cpp:Inputs::compress_waveform"]}
{"id": "C125", "title": "Integrating a derivative gives the waveform back", "statement": "The integral of the derivative of a waveform is the waveform, from zero on, or about its average if that is asked for.", "quantifier": "every waveform, sampled or given by corners", "why_tests_cant": "A round trip over all waveforms; tests check triangles and sines.", "anchors": ["src/processors/Inputs.cpp:Inputs::calculate_derivative_waveform", "src/processors/Inputs.cpp:Inputs::calculate_integral_waveform"]}
{"id": "C126", "title": "Volt-seconds are the excursion of the flux", "statement": "The volt-seconds of an excitation are the largest magnitude reached by the voltage integrated from the start of its period; they scale with the voltage, do not depend on its sign, and not on where in its period the waveform starts. An operating point has the largest of its windings. Without a waveform they are those of a sine with the given peak.", "quantifier": "every waveform of any number of points and periods, and every operating point", "why_tests_cant": "The integral and its maximum range over all waveforms; that the result does not depend on the start compares every rotation.", "anchors": ["src/processors/Inputs.cpp:Inputs::calculate_max_volt_seconds"]}
{"id": "C127", "title": "A waveform made from a shape has the figures asked for", "statement": "A waveform made from a label, peak to peak, frequency, duty cycle, offset and dead time starts at time zero and ends a period later, its times never go back, its values span the peak to peak, and its average is that of the shape with the offset asked for.", "quantifier": "every label made of straight lines, every frequency, duty cycle, offset, dead time and skew", "why_tests_cant": "Every shape has its own formulas for times and values, which hold or not on a continuum of duty cycles and dead times.", "anchors": ["src/processors/WaveformProcessor.cpp:WaveformProcessor::create_waveform"]}
{"id": "C128", "title": "Figures are measured back from the waveform made from them", "statement": "Label, peak to peak, offset and duty cycle of the processed data of a waveform are those it was made with.", "quantifier": "every label made of straight lines, every frequency, duty cycle, offset and dead time", "why_tests_cant": "A round trip through two functions with a case per shape, over a continuum of arguments.", "anchors": ["src/processors/WaveformProcessor.cpp:WaveformProcessor::create_waveform", "src/processors/WaveformProcessor.cpp:WaveformProcessor::calculate_basic_processed_data", "src/processors/WaveformProcessor.cpp:WaveformProcessor::try_guess_duty_cycle", "src/processors/WaveformProcessor.cpp:WaveformProcessor::calculate_offset"]}
{"id": "C129", "title": "The measured duty cycle is the time at the top", "statement": "The duty cycle measured on a waveform is between zero and one, does not depend on unit or offset, and for pulses between two levels is the part of the period spent at the higher one, however many pulses there are.", "quantifier": "every waveform with any number of points and pulses, with times or without", "why_tests_cant": "Sums over any number of segments; a test has one pulse.", "anchors": ["src/processors/WaveformProcessor.cpp:WaveformProcessor::measure_duty_cycle_from_samples"]}
{"id": "C130", "title": "Shapes are recognised from their corners", "statement": "A waveform without a label gets that of the shape it was made as, whatever its unit; one that has none of the shapes is called custom.", "quantifier": "every shape, duty cycle, offset and peak to peak", "why_tests_cant": "Recognition is a chain of tests with tolerances; which waveforms pass each is a continuum.", "anchors": ["src/processors/WaveformProcessor.cpp:WaveformProcessor::try_guess_waveform_label", "src/processors/WaveformProcessor.cpp:WaveformProcessor::guess_sinusoidal_or_custom"]}
{"id": "C131", "title": "Processed data describe the waveform", "statement": "Peaks of processed data are those of the waveform; the root mean square is at least the magnitude of the average and at most the peak; effective frequencies lie between those of the harmonics, no lower without the direct component; the distortion is not negative and does not depend on the unit; every waveform has processed data.", "quantifier": "every waveform, every set of harmonics with any number of them, with processed data given or not", "why_tests_cant": "Inequalities over all waveforms, and crashes on particular combinations of label and values.", "anchors": ["src/processors/WaveformProcessor.cpp:WaveformProcessor::calculate_basic_processed_data", "src/processors/WaveformProcessor.cpp:WaveformProcessor::calculate_processed_data"]}
{"id": "C132", "title": "A waveform brought to a frequency keeps its shape", "statement": "A waveform brought to a frequency lasts one period of it, with the same values, label and average; bringing it to one frequency and then another is bringing it to the other.", "quantifier": "every waveform with times and every frequency", "why_tests_cant": "An identity over all waveforms and frequencies.", "anchors": ["src/processors/Inputs.cpp:Inputs::scale_time_to_frequency"]}
{"id": "C133", "title": "Harmonics come from the discrete Fourier transform", "statement": "For every number of values that is a power of two, the transform gives, in order, the sums of Fourier of the values; fewer than two values are undefined.", "quantifier": "every list of values of every power of two, over every commutative ring with a suitable root", "why_tests_cant": "A test compares a few signals of a few sizes with a tolerance; the identity is for all values and all sizes.", "anchors": ["src/processors/WaveformProcessor.cpp:fft", "src/processors/Inputs.cpp:fft"]}
{"id": "C134", "title": "The inverse transform undoes the transform", "statement": "Transforming values and inverting gives the values back, inverting and transforming as well; different values have different transforms.", "quantifier": "every list of complex numbers whose size is a power of two from 2 on", "why_tests_cant": "A round trip over all lists of all sizes.", "anchors": ["src/processors/Inputs.cpp:ifft", "src/processors/Inputs.cpp:fft"]}
{"id": "C135", "title": "Harmonics are the components of the values", "statement": "Harmonics of a power of two of values are half as many, at multiples of the frequency, each with the amplitude of the component of that many turns per period; the first is the mean without its sign; amplitudes are not negative and at most twice the largest value; any other number of values is refused.", "quantifier": "every list of values and every frequency", "why_tests_cant": "Which component lands in which harmonic, for every size.", "anchors": ["src/processors/WaveformProcessor.cpp:WaveformProcessor::calculate_harmonics_data"]}
{"id": "C136", "title": "Harmonics follow changes of the values", "statement": "Scaling the values scales all amplitudes by the size of the factor; an offset changes the first amplitude only; starting the period elsewhere changes none; amplitudes of a sum are at most the sum of the amplitudes.", "quantifier": "every list of values, factor, offset and start", "why_tests_cant": "Relations between runs over all inputs.", "anchors": ["src/processors/WaveformProcessor.cpp:WaveformProcessor::calculate_harmonics_data"]}
{"id": "C137", "title": "Harmonics carry the power of the values", "statement": "The mean square of the values is the square of the first amplitude plus half the squares of the others plus the part at half the number of points, which is not among the harmonics; so the harmonics never carry more power than the values.", "quantifier": "every list of values whose size is a power of two", "why_tests_cant": "An identity over all values, with the one term a signal of few samples loses.", "anchors": ["src/processors/WaveformProcessor.cpp:WaveformProcessor::calculate_harmonics_data"]}
{"id": "C138", "title": "Signals made of harmonics are read back to them", "statement": "A signal made of harmonics below half its number of points, of any phases, has exactly those amplitudes; the signal reconstructed from harmonics has the harmonics it was made from, and the mean the harmonics came from.", "quantifier": "every series of harmonics, every phase, every number of points and every setting", "why_tests_cant": "A round trip over all harmonics; it depends on a global setting.", "anchors": ["src/processors/Inputs.cpp:Inputs::reconstruct_signal", "src/processors/WaveformProcessor.cpp:WaveformProcessor::calculate_harmonics_data"]}
{"id": "C139", "title": "Trimming imported harmonics keeps the main ones", "statement": "Of the harmonics of imported values the first two are kept and, in order, exactly those whose amplitude times root of frequency reaches the threshold times the largest; with a threshold of at most one the largest is kept, with none nothing is dropped; values that are not imported, or not to be trimmed, keep all.", "quantifier": "every set of harmonics and every threshold", "why_tests_cant": "Which harmonics stay depends on all of them.", "anchors": ["src/processors/WaveformProcessor.cpp:WaveformProcessor::calculate_harmonics_data", "src/processors/WaveformProcessor.cpp:get_main_harmonic_indexes"]}
{"id": "C140", "title": "Processed data use the harmonics of the waveform", "statement": "The harmonics a waveform is processed with are those of the waveform its values and times describe, however many corners it is given by.", "quantifier": "every waveform, frequency and setting", "why_tests_cant": "Fails only for numbers of corners that are powers of two.", "anchors": ["src/processors/WaveformProcessor.cpp:WaveformProcessor::calculate_processed_data", "src/processors/WaveformProcessor.cpp:WaveformProcessor::complete_excitation"]}
{"id": "C141", "title": "Voltages are spread evenly along the turns", "statement": "For stray capacitances the voltage of a winding is spread along each of its parallels: each turn starts at the fraction where the one before ends, the first at the whole voltage, the last ends at zero, corresponding turns of parallels agree; the voltage a turn is taken at lies between those of its ends. Voltages of windings come from the excitations at the same position, and a missing one is refused.", "quantifier": "every coil, numbering of turns and parallels, and every set of excitations", "why_tests_cant": "Depends on the counting of turns of interleaved windings and parallels, for all orders of turns.", "anchors": ["src/physical_models/StrayCapacitance.cpp:StrayCapacitance::calculate_voltages_per_turn"]}
{"id": "C142", "title": "Two layers of insulation are in series", "statement": "The effective permittivity of two layers makes the thickness over permittivity of both add up, lies between both, and does not depend on their order.", "quantifier": "every pair of thicknesses and positive permittivities", "why_tests_cant": "An identity over all values, with the degenerate thicknesses.", "anchors": ["src/physical_models/StrayCapacitance.cpp:StrayCapacitance::get_effective_relative_permittivity"]}
{"id": "C143", "title": "The core is a floating conductor", "statement": "Energies against the core are those with the core at the potential where it takes no charge, which is the least possible; the capacitance between two windings through the core is not negative, at most a fourth of their capacitances to the core, independent of the scale of voltages and of which winding is named first, and the series of both when each winding is at one voltage.", "quantifier": "every list of turns, capacitances to the core and voltages", "why_tests_cant": "Optimality and bounds over all voltages.", "anchors": ["src/physical_models/StrayCapacitance.cpp:StrayCapacitance::calculate_through_core_capacitance", "src/physical_models/StrayCapacitance.cpp:StrayCapacitance::calculate_winding_to_core_self_energy", "src/physical_models/StrayCapacitance.cpp:StrayCapacitance::calculate_winding_to_core_capacitance"]}
{"id": "C144", "title": "Capacitances among turns", "statement": "Two turns have a capacitance exactly if one is found next to the other; it does not depend on their order; no turn has one to itself.", "quantifier": "every relation of neighbourhood, symmetric or not", "why_tests_cant": "Pairs already visited are skipped in both orders, for all lists of neighbours.", "anchors": ["src/physical_models/StrayCapacitance.cpp:StrayCapacitance::calculate_capacitance_among_turns"]}
{"id": "C145", "title": "Capacitances of windings store the energy of their turns", "statement": "The capacitance of a winding, or between two, is the one which stores at the voltage between their ends the energy of all pairs of turns next to each other and of the core; it is not negative, at most the capacitances of the turns together, independent of the scale of voltages, and the search for the potential of the third node ends. Which winding is listed first makes no difference.", "quantifier": "every coil, every set of voltages which are not negative", "why_tests_cant": "A sum over all pairs of turns and a search which must end, for all coils.", "anchors": ["src/physical_models/StrayCapacitance.cpp:StrayCapacitance::calculate_capacitance_with_voltages", "src/physical_models/StrayCapacitance.cpp:StrayCapacitance::calculate_capacitance_matrix_between_windings"]}
{"id": "C146", "title": "The tables of stray capacitance agree with each other", "statement": "There is a capacitance for each pair of windings, the same in both orders; for each pair of turns the energy reported is the same in both orders, the voltage drop changes its sign, and the energy is that of the capacitance reported at the drop reported.", "quantifier": "every coil whose windings have different names", "why_tests_cant": "Relations between five tables filled under keys of one order and read under both.", "anchors": ["src/physical_models/StrayCapacitance.cpp:StrayCapacitance::calculate_capacitance_with_voltages"]}
{"id": "C147", "title": "Networks and matrix hold the energy of the capacitances", "statement": "The six capacitors of a pair of windings store the energy of the capacitance between them for potentials changing evenly along each, so they are passive although two are negative; the tripole of a pair has the capacitance of the first, of the second and the one between; the Maxwell matrix is symmetric, its rows add up to the capacitance of the winding itself, and it gives no potentials a negative energy; it is refused only if a winding has no row.", "quantifier": "every table of capacitances and every set of potentials", "why_tests_cant": "Passivity is a statement on all potentials.", "anchors": ["src/physical_models/StrayCapacitance.cpp:StrayCapacitance::calculate_six_capacitor_network", "src/physical_models/StrayCapacitance.cpp:StrayCapacitance::calculate_capacitance_with_voltages", "src/physical_models/StrayCapacitance.cpp:StrayCapacitance::calculate_maxwell_capacitance_matrix"]}
{"id": "C148", "title": "The capacitance of one layer is a positive number for any number of turns", "statement": "For every whole number of turns of one or more the ladders give positive numbers and nothing is divided by zero; other numbers are refused; the capacitance to the shield grows with turns and settles; longer turns give more capacitance.", "quantifier": "every number of turns and all elementary capacitances", "why_tests_cant": "The number of steps is that of turns; a denominator could vanish for some of them.", "anchors": ["src/physical_models/StrayCapacitance.cpp:cab", "src/physical_models/StrayCapacitance.cpp:cas", "src/physical_models/StrayCapacitance.cpp:StrayCapacitanceOneLayer::calculate_capacitance"]}
{"id": "C149", "title": "The capacitance of a turn to the core falls with distance", "statement": "It is not negative, proportional to the length of the turn, falls with the gap and with the coatings, and is at most that of a plate of half the perimeter at the nearest distance.", "quantifier": "every radius, length, gap, thickness and permittivity", "why_tests_cant": "Monotonicity over all real values.", "anchors": ["src/physical_models/StrayCapacitance.cpp:StrayCapacitance::calculate_turn_to_core_capacitance"]}
{"id": "C150", "title": "The loss model used is the first preferred one the material has data for", "statement": "The models listed for a material are exactly those it has data for; the one used is the first of them in the order of preference, so the preferred one whenever it can be; a material with any data of losses gets a model, and one without any is refused; the model used finds the data it needs.", "quantifier": "every material, with any variants and any data by volume or mass, and every order of preference", "why_tests_cant": "The set of data a material may declare, in how many variants, is not bounded.", "anchors": ["src/physical_models/CoreLosses.cpp:CoreLossesModel::get_methods", "src/physical_models/CoreLosses.cpp:CoreLosses::get_core_losses_model", "src/physical_models/CoreLosses.cpp:CoreLossesModel::get_method_data", "src/physical_models/CoreLosses.cpp:get_proprietary_volumetric_method", "src/physical_models/CoreLosses.cpp:CoreLossesProprietaryModel::get_core_volumetric_losses"]}
{"id": "C151", "title": "Steinmetz coefficients are those of the range of the frequency", "statement": "The coefficients given for a frequency are those of the first range that contains it; below all ranges those of the one that starts lowest, above all those of the one that ends highest; ranges that follow one another give coefficients at every frequency, and every answer is a range of the material.", "quantifier": "every list of ranges and every frequency", "why_tests_cant": "Ranges and frequencies are not bounded, and the answer depends on the order of the ranges and on their ends.", "anchors": ["src/physical_models/CoreLosses.cpp:CoreLossesModel::get_steinmetz_coefficients"]}
{"id": "C152", "title": "Steinmetz losses follow the equation and can be inverted", "statement": "The losses by volume are k f^alpha B^beta times a positive correction of the temperature; they are a number and not negative, grow with amplitude and frequency, and scale with them by the exponents; the flux density given for some losses has those losses and the one given for the losses of a flux density is that one.", "quantifier": "all positive coefficients, frequencies, temperatures, amplitudes and losses", "why_tests_cant": "Monotonicity, scaling and inversion over all real values.", "anchors": ["src/physical_models/CoreLosses.cpp:CoreLossesSteinmetzModel::get_core_volumetric_losses", "src/physical_models/CoreLosses.cpp:CoreLossesModel::apply_temperature_coefficients", "src/physical_models/CoreLosses.cpp:CoreLossesSteinmetzModel::get_magnetic_flux_density_from_core_losses"]}
{"id": "C153", "title": "The frequency found for some Steinmetz losses has those losses", "statement": "The search of the frequency that gives some losses always ends, with a number or an exception, and at the number given the material has those losses.", "quantifier": "every material, flux density and losses", "why_tests_cant": "The search goes from range to range for as long as it takes: no sample tells that it ends, nor that it ends well.", "anchors": ["src/physical_models/CoreLosses.cpp:CoreLossesSteinmetzModel::get_frequency_from_core_losses"]}
{"id": "C154", "title": "Losses are worked out at the frequency of switching and the amplitude of the swing", "statement": "The frequency of switching is that of the excitation, or of the strongest high harmonic for one under 400 Hz; the amplitude is half the swing of the flux density at that frequency, whatever its bias.", "quantifier": "every excitation, harmonics and waveform extremes", "why_tests_cant": "Any bias and any set of harmonics.", "anchors": ["src/processors/Inputs.cpp:Inputs::get_switching_frequency", "src/processors/Inputs.cpp:Inputs::get_magnetic_flux_density_peak", "src/physical_models/CoreLosses.cpp:CoreLossesSteinmetzModel::get_core_volumetric_losses"]}
{"id": "C155", "title": "Losses of a waveform depend on its slopes and swing", "statement": "The losses of iGSE are ki dB^(beta-alpha) f times the integral of |dB/dt|^alpha; they are a number and not negative, do not change with a bias, by reversing the waveform or by adding points on its segments, scale with the amplitude to beta and with the speed to alpha, and none is less than that of the symmetric triangle; the other models agree with it, with Steinmetz' equation or with one another where their equations say so.", "quantifier": "every sampled waveform, of any number of points, and all coefficients", "why_tests_cant": "Any number of points and any shape; the lower bound is over all shapes.", "anchors": ["src/physical_models/CoreLosses.cpp:CoreLossesIGSEModel::get_core_volumetric_losses", "src/physical_models/CoreLosses.cpp:CoreLossesNSEModel::get_core_volumetric_losses", "src/physical_models/CoreLosses.cpp:CoreLossesAlbachModel::get_core_volumetric_losses", "src/physical_models/CoreLosses.cpp:CoreLossesMSEModel::get_core_volumetric_losses", "src/physical_models/CoreLosses.cpp:CoreLossesBargModel::get_core_volumetric_losses", "src/physical_models/CoreLosses.cpp:CoreLossesciGSEModel::get_core_volumetric_losses"]}
{"id": "C156", "title": "One period of a waveform of many is used", "statement": "Losses of a waveform are integrated over exactly one period of it, and it is never read out of its bounds.", "quantifier": "every number of points, periods and frequency", "why_tests_cant": "The number of points used is a rounded quotient of lengths.", "anchors": ["src/physical_models/CoreLosses.cpp:CoreLossesIGSEModel::get_core_volumetric_losses", "src/physical_models/CoreLosses.cpp:CoreLossesAlbachModel::get_core_volumetric_losses", "src/physical_models/CoreLosses.cpp:CoreLossesMSEModel::get_core_volumetric_losses"]}
{"id": "C157", "title": "Losses are corrected for bias by the drop of permeability", "statement": "The factor by which losses grow with bias is the quotient of the permeabilities without and with it, between one and ten; it is one without bias, its sign does not matter and more bias never means less losses; losses of the core, by volume and by mass are all scaled by it, whether they are asked for together or alone; losses that are not a number are never given.", "quantifier": "every model, material, bias and losses", "why_tests_cant": "Any permeability curve and any bias.", "anchors": ["src/physical_models/CoreLosses.cpp:CoreLosses::calculate_core_losses", "src/physical_models/CoreLosses.cpp:CoreLosses::get_core_volumetric_losses"]}
{"id": "C158", "title": "A semi-shielded drum loses what its two parts lose", "statement": "The losses of a drum with a shell are those of both, each over its volume and at the flux density that carries the same flux through its area; the losses by volume times the volume are the losses; losses that are not a number are refused.", "quantifier": "every pair of areas, volumes and losses", "why_tests_cant": "Real values; any of two materials.", "anchors": ["src/physical_models/CoreLosses.cpp:CoreLosses::calculate_semishielded_core_losses"]}
{"id": "C159", "title": "Losses by the equations of manufacturers", "statement": "The losses by volume are those of the equation each manufacturer publishes, which are not negative, and the frequency given for the losses of a frequency is that frequency.", "quantifier": "all coefficients, frequencies and flux densities", "why_tests_cant": "Inversion over all real values, for each manufacturer.", "anchors": ["src/physical_models/CoreLosses.cpp:CoreLossesProprietaryModel::get_core_volumetric_losses", "src/physical_models/CoreLosses.cpp:CoreLossesProprietaryModel::get_core_mass_losses", "src/physical_models/CoreLosses.cpp:CoreLossesProprietaryModel::get_frequency_from_core_losses"]}
{"id": "C160", "title": "The search of a frequency or flux density gives the nearest of those tried", "statement": "For models without an inverse, the frequency (or the amplitude) given for some losses is the first, of those tried, with the losses nearest to them.", "quantifier": "every loss curve", "why_tests_cant": "Any curve: the search may end before the best is seen.", "anchors": ["src/physical_models/CoreLosses.cpp:CoreLossesModel::_get_frequency_from_core_losses", "src/physical_models/CoreLosses.cpp:CoreLossesModel::_get_magnetic_flux_density_from_core_losses"]}
{"id": "C161", "title": "Points are fitted in ranges that cover the same frequencies", "statement": "The ranges fitted follow one another and cover the frequencies asked for; each has more points than coefficients, of two frequencies and flux densities at least; points too few are refused, and none is lost.", "quantifier": "every list of ranges and points", "why_tests_cant": "Points and ranges are not bounded, and ranges are joined one after the other.", "anchors": ["src/physical_models/CoreLosses.cpp:CoreLossesSteinmetzModel::calculate_steinmetz_coefficients"]}
{"id": "C162", "title": "Losses by hysteresis are the area of the minor loop", "statement": "The major loop of Roshen's model goes through saturation, remanence and coercive force, is symmetric, grows with the field and its upper branch is above the lower one; for a swing the two branches, moved towards each other, meet at its peaks, and the losses by hysteresis are the frequency times the area between them, which is never negative and grows with the swing.", "quantifier": "every coercive force, remanence and saturation of a magnetic material, and every swing up to saturation", "why_tests_cant": "Curves over a continuum of fields; the shift is the root of a quadratic equation with a fallback.", "anchors": ["src/physical_models/CoreLosses.cpp:get_major_loop_parameters", "src/physical_models/CoreLosses.cpp:roshen_compute_analytical_delta", "src/physical_models/CoreLosses.cpp:CoreLossesRoshenModel::get_bh_loop", "src/physical_models/CoreLosses.cpp:CoreLossesRoshenModel::get_hysteresis_losses_density"]}
{"id": "C163", "title": "Losses by eddy currents follow their equations, and the parts add up", "statement": "The losses by eddy currents are A f/(8 pi rho) times the integral of the squared slope, and those of the excess sqrt(alpha N/rho) f times that of the slope to three halves; the resistivity they use is positive; no waveform has less than the symmetric triangle; the losses reported are those by hysteresis and by eddy currents, and the losses by volume asked for alone are those of the core.", "quantifier": "every waveform, area, resistivity and bias", "why_tests_cant": "Any number of points and any shape.", "anchors": ["src/physical_models/CoreLosses.cpp:CoreLossesRoshenModel::get_core_losses", "src/physical_models/CoreLosses.cpp:CoreLossesRoshenModel::get_core_volumetric_losses", "src/physical_models/CoreLosses.cpp:CoreLossesRoshenModel::get_roshen_parameters", "src/physical_models/CoreLosses.cpp:CoreLossesRoshenModel::get_eddy_current_losses_density", "src/physical_models/CoreLosses.cpp:CoreLossesRoshenModel::get_excess_eddy_current_losses_density"]}
{"id": "C164", "title": "The series resistance of a core is that of the inductance asked for", "statement": "The resistance in series of a core is the losses of one ampere rms in that inductance; losses by loss factor are those of the resistance of its inductance at the rms current, not negative, and the losses by volume times the volume.", "quantifier": "every loss curve, inductance, reluctance and area", "why_tests_cant": "Turns are rounded to a whole number: the error depends on all of them.", "anchors": ["src/physical_models/CoreLosses.cpp:CoreLossesModel::get_core_losses_series_resistance", "src/physical_models/CoreLosses.cpp:CoreLossesLossFactorModel::calculate_magnetizing_inductance_from_excitation", "src/physical_models/CoreLosses.cpp:CoreLossesLossFactorModel::get_core_losses"]}
{"id": "C165", "title": "The impedance of a magnetic is that of its circuit", "statement": "The impedance reported at a frequency is the voltage of one ampere through the tanks in series, each an inductive arm beside its capacitance, by Kirchhoff's laws; it never gives energy when permeability and windings only lose it; a tank is inductive below its resonance and capacitive above it; there is one tank for each other winding with leakage, with both resistances referred to the first; the differential mode is the same leakage path; the quality factor is reactance over resistance.", "quantifier": "every frequency, permeability, number of windings, leakage, capacitance and resistance", "why_tests_cant": "Any number of tanks over a continuum of frequencies.", "anchors": ["src/physical_models/Impedance.cpp:Impedance::impedance_from_model", "src/physical_models/Impedance.cpp:Impedance::build_wideband_impedance_model", "src/physical_models/Impedance.cpp:Impedance::differential_mode_impedance_from_parameters", "src/physical_models/Impedance.cpp:Impedance::calculate_q_factor"]}
{"id": "C166", "title": "The first resonance is that of the inductance and the capacitance of the magnetic", "statement": "The inductance of the impedance at low frequency is that of the core with its gaps at its permeability; its capacitance is that of every winding; the self resonant frequency reported is the one of that inductance and capacitance at the temperature asked for.", "quantifier": "every core, gapping, permeability, number of windings and temperature", "why_tests_cant": "A relation between two functions over all reluctances and capacitances.", "anchors": ["src/physical_models/Impedance.cpp:Impedance::calculate_self_resonant_frequency", "src/physical_models/Impedance.cpp:Impedance::calculate_impedance", "src/physical_models/Reluctance.cpp:ReluctanceModel::get_core_reluctance"]}
{"id": "C167", "title": "Permittivity is interpolated and the dimensions of a core only attenuate", "statement": "The permittivity at a frequency does not depend on the order of its points, is a straight line over the logarithm of frequency between them and that of the ends beyond; the effective permeability of a section with losses has losses; it is defined, is that of the material at zero frequency or without data, and width and depth are interchangeable.", "quantifier": "every table of permittivity, permeability, frequency and section", "why_tests_cant": "Complex functions over a continuum; the sum of a series of 1681 terms.", "anchors": ["src/physical_models/Impedance.cpp"]}
{"id": "C168", "title": "The turns found for an impedance meet it, and none fewer does", "statement": "The turns returned for minimum impedances meet every one of them, with no frequency beyond a quarter of the self resonance, keep the ratios asked for, and are the first such in the sequence of turns; it gives up only beyond a quarter of the self resonance or after 201 attempts, and refuses when no impedance is asked for.", "quantifier": "every requirement, impedance as a function of turns, and self resonance", "why_tests_cant": "The search is over any functions of the turns.", "anchors": ["src/physical_models/Impedance.cpp:Impedance::calculate_minimum_number_turns"]}
{"id": "C169", "title": "A sweep plots what is calculated at each single point", "statement": "A sweep has the number of points asked for, from start to stop in increasing order, evenly spaced in its mode, and is refused for any other mode; at each point it has the value calculated there alone; core losses by frequency follow the flux of the same excitation at each frequency.", "quantifier": "every mode, range, number of points, magnetic and excitation", "why_tests_cant": "Curves of any length of any function.", "anchors": ["src/processors/Sweeper.cpp:Sweeper::sweep_impedance_over_frequency", "src/processors/Sweeper.cpp:Sweeper::sweep_common_mode_impedance_over_frequency", "src/processors/Sweeper.cpp:Sweeper::sweep_differential_mode_impedance_over_frequency", "src/processors/Sweeper.cpp:Sweeper::sweep_q_factor_over_frequency", "src/processors/Sweeper.cpp:Sweeper::sweep_core_losses_over_frequency"]}
{"id": "C170", "title": "The effective conducting area is what the skin leaves of the conducting area", "statement": "The effective conducting area of a wire is its area without the part of each conductor deeper than the skin depth: it exists for every complete wire, is positive, not above the conducting area, all of it at zero frequency or when the skin reaches the middle, and grows with the skin depth; the area of a rectangle with rounded corners is within half and one and a half times that of the rectangle.", "quantifier": "every type of wire, dimension, number of conductors, frequency and skin depth", "why_tests_cant": "Dimensions and frequencies are a continuum.", "anchors": ["src/constructive_models/Wire.cpp:Wire::calculate_effective_conducting_area", "src/constructive_models/Wire.cpp:Wire::calculate_conducting_area", "src/constructive_models/Wire.cpp:get_conducting_area_rectangular_from_interpolator"]}
{"id": "C171", "title": "The parallels needed are the fewest that keep the current density", "statement": "The number of parallels returned for a maximum current density keeps it at every operating point with the current shared evenly, and one fewer does not; a current needs at least one.", "quantifier": "every current, area, maximum and list of operating points", "why_tests_cant": "Any number of operating points and a continuum of currents.", "anchors": ["src/constructive_models/Wire.cpp:Wire::calculate_number_parallels_needed"]}
{"id": "C172", "title": "Diameters and filling factors read off the catalogue depend on the catalogue alone", "statement": "The outer diameter and filling factor of a diameter in the catalogue are those of the wire listed, beyond the ends they keep the proportion of the last one, and none depends on the calls made before.", "quantifier": "every catalogue, diameter and history of calls", "why_tests_cant": "Histories of calls are unbounded, and the maps outlive each call.", "anchors": ["src/constructive_models/Wire.cpp:Wire::get_outer_diameter_round", "src/constructive_models/Wire.cpp:Wire::get_filling_factor_round", "src/constructive_models/Wire.cpp:Wire::get_filling_factor_served_litz", "src/constructive_models/Wire.cpp:Wire::get_outer_diameter_insulated_litz", "src/constructive_models/Wire.cpp:create_interpolators", "src/constructive_models/Wire.h:wireFillingFactorInterps"]}
{"id": "C173", "title": "The strands of a litz wire fit in its bundle", "statement": "The bundle of a litz wire is wider than a strand, widens with each strand, and is wide enough for its strands as circles can cover, also inside of its insulation; each serving adds 25.5 micrometres at each side, and more than two are refused.", "quantifier": "every number of strands, diameter, standard and packing factor of the catalogue", "why_tests_cant": "Numbers of strands are unbounded and diameters a continuum.", "anchors": ["src/constructive_models/Wire.cpp:Wire::get_outer_diameter_bare_litz", "src/constructive_models/Wire.cpp:Wire::get_outer_diameter_served_litz", "src/constructive_models/Wire.cpp:Wire::get_outer_diameter_insulated_litz", "src/constructive_models/Wire.cpp:get_packing_factor_from_standard"]}
{"id": "C174", "title": "The label of a coating is decoded into that coating", "statement": "Decoding the label of the coating of a wire gives its coating, with its layers, grade, temperature rating and breakdown voltage.", "quantifier": "every coating", "why_tests_cant": "Grades and voltages are unbounded.", "anchors": ["src/constructive_models/Wire.cpp:Wire::encode_coating_label", "src/constructive_models/Wire.cpp:Wire::decode_coating_label"]}
{"id": "C175", "title": "Every wire has an equivalent of every type, of the type asked", "statement": "The equivalent of a wire in its own type is itself; in another it is of that type and exists when the catalogue has one; equivalent litz has the conducting area of the wire to within half a strand.", "quantifier": "every wire, type, frequency and catalogue", "why_tests_cant": "Wires and catalogues are unbounded.", "anchors": ["src/constructive_models/Wire.cpp:Wire::get_equivalent_wire"]}
{"id": "C176", "title": "Foils and planar wires are cut within their section, and coatings are worth the layers that stand the voltage", "statement": "A foil or planar wire cut to a section is a twentieth shorter than it, keeps its other dimension, and has the area it conducts; cutting again is cutting to the last section; a coating is worth the most layers, not above those it has, that stand the voltage with 85 % of its breakdown voltage; its thickness is that stated or the largest that fits between conductor and outside.", "quantifier": "every section, wire, voltage and coating", "why_tests_cant": "Dimensions and voltages are a continuum.", "anchors": ["src/constructive_models/Wire.cpp:Wire::cut_foil_wire_to_section", "src/constructive_models/Wire.cpp:Wire::cut_planar_wire_to_section", "src/constructive_models/Wire.cpp:Wire::get_equivalent_insulation_layers", "src/constructive_models/Wire.cpp:Wire::get_coating_thickness"]}
{"id": "C177", "title": "A processed bobbin has its window where the drawing of its family has it", "statement": "Processing a bobbin gives one window, from the surface of its column to the declared outer edge, between walls that make up the declared height, with positive width and height; a bobbin whose dimensions do not give one is refused and left as it was.", "quantifier": "every family and map of dimensions", "why_tests_cant": "Dimensions are a continuum, and any may be missing.", "anchors": ["src/constructive_models/Bobbin.cpp:Bobbin::process_data", "src/constructive_models/Bobbin.cpp:BobbinDataProcessor::factory", "src/constructive_models/Bobbin.cpp:BobbinEDataProcessor", "src/constructive_models/Bobbin.h:Bobbin"]}
{"id": "C178", "title": "A bobbin made for a core lines every window of the core", "statement": "A bobbin created for a core takes its column off the width of each window and a wall off each end, starts where its column ends, is on the side of the window of the core, keeps the column and winding order of that window, and declares the thicknesses asked for; on a toroid it takes nothing off the bore and carries the coating around the column once.", "quantifier": "every core, number of windows and thickness", "why_tests_cant": "Windows are any number and dimensions a continuum.", "anchors": ["src/constructive_models/Bobbin.cpp:Bobbin::create_quick_bobbin"]}
{"id": "C179", "title": "The bobbin estimated from the catalogue fits its core with walls of similar thickness", "statement": "The winding window estimated for a core is inside the window of the core, with a positive thickness at the column and at both walls, neither more than a fifth over the other, and not thinner than the thinnest bobbin of the catalogue once it is made; outside of the catalogue the nearest limit is used.", "quantifier": "every window of a core and every catalogue", "why_tests_cant": "Dimensions are a continuum and splines may give anything between their points.", "anchors": ["src/constructive_models/Bobbin.cpp:Bobbin::get_winding_window_dimensions", "src/constructive_models/Bobbin.cpp:Bobbin::get_filling_factor", "src/constructive_models/Bobbin.cpp:Bobbin::create_quick_bobbin"]}
{"id": "C180", "title": "The estimates of bobbins are fitted to the usable bobbins of the catalogue", "statement": "The splines that bobbins are estimated with pass through points of the usable bobbins of the loaded catalogue, with increasing abscissae; a bobbin not used is reported, and the fit depends on the catalogue alone.", "quantifier": "every catalogue and history of loads", "why_tests_cant": "Catalogues are unbounded, a sort may leave equal elements in any order, and the splines outlive each call.", "anchors": ["src/constructive_models/Bobbin.cpp:load_interpolators", "src/constructive_models/Bobbin.h:bobbinFillingFactorInterpWidth"]}
{"id": "C181", "title": "A bobbin answers for each of its windows, and refuses those it does not have", "statement": "The dimensions, area and fit of a window are those of its shape; its sections have the orientation and alignment given, or the default of its shape; giving one window an orientation changes no other; a window that does not exist is refused.", "quantifier": "every bobbin, window, size and history of orientations", "why_tests_cant": "Windows are any number and sizes a continuum.", "anchors": ["src/constructive_models/Bobbin.cpp:Bobbin::get_winding_window_dimensions", "src/constructive_models/Bobbin.cpp:Bobbin::get_winding_window_area", "src/constructive_models/Bobbin.cpp:Bobbin::get_winding_window_shape", "src/constructive_models/Bobbin.cpp:Bobbin::get_winding_window_sections_orientation", "src/constructive_models/Bobbin.cpp:Bobbin::set_winding_orientation", "src/constructive_models/Bobbin.cpp:Bobbin::check_if_fits"]}
{"id": "C182", "title": "The faces and extremes of a bobbin are those of its column, walls and window", "statement": "The faces of a bobbin that exchange heat have the areas of its column and yokes, none negative and the outside of a yoke not less than its inside; its extremes are its column, window and walls.", "quantifier": "every processed bobbin and depth of core", "why_tests_cant": "Dimensions are a continuum.", "anchors": ["src/constructive_models/Bobbin.cpp:Bobbin::get_column_right_face_area", "src/constructive_models/Bobbin.cpp:Bobbin::get_yoke_interior_face_area", "src/constructive_models/Bobbin.cpp:Bobbin::get_yoke_exterior_face_area", "src/constructive_models/Bobbin.cpp:Bobbin::get_maximum_dimensions"]}
{"id": "C183", "title": "The filter by losses leaves the magnetic with the best number of turns it looked at", "statement": "With one operating point the filter by losses ends, looks at no more numbers of turns than its budget, and either rejects the magnetic with a score of zero or leaves it with the coil of least losses of those it looked at, each wound, within saturation and meeting the inductance; the score is the losses of that coil, and the magnetic is kept when they are under the limit.", "quantifier": "every core, wire, excitation, physics of losses, starting number of turns and budget", "why_tests_cant": "The physics are arbitrary functions of the turns and the sweep is unbounded.", "anchors": ["src/advisers/MagneticFilterLosses.cpp:MagneticFilterCoreAndDcLosses::evaluate_magnetic", "src/advisers/MagneticFilterLosses.cpp:MagneticFilterCoreDcAndSkinLosses::evaluate_magnetic", "src/advisers/MagneticFilterInternal.h"]}
{"id": "C184", "title": "The losses of several operating points are those of one coil", "statement": "With several operating points the coil the filter by losses leaves the magnetic with is within saturation at each of them, and its score is the mean of the losses of that coil at each.", "quantifier": "every list of operating points", "why_tests_cant": "Operating points are any number, and the sweep of each carries the state of the one before.", "anchors": ["src/advisers/MagneticFilterLosses.cpp:MagneticFilterCoreAndDcLosses::evaluate_magnetic", "src/advisers/MagneticFilterLosses.cpp:MagneticFilterCoreDcAndSkinLosses::evaluate_magnetic"]}
{"id": "C185", "title": "A magnetic kept by the filter by saturation saturates at no operating point", "statement": "The filter by saturation keeps a magnetic exactly when at every operating point its flux density with the margin is not over that of saturation and, for an inductor, its saturation current is not under the peak with the margin, whatever the order of the points; one that cannot be measured is not taken as safe, and the score is bounded.", "quantifier": "every list of operating points and margin", "why_tests_cant": "Operating points are any number and fluxes a continuum.", "anchors": ["src/advisers/MagneticFilterPhysical.cpp:MagneticFilterSaturation::evaluate_magnetic"]}
{"id": "C186", "title": "A magnetic kept by the filters by current density has no winding over the limit", "statement": "The filters by current density keep a magnetic exactly when, at every operating point, each winding has a current and its density in each parallel is not over the limit; the score is not over the number of windings.", "quantifier": "every list of operating points and windings", "why_tests_cant": "Operating points and windings are any number.", "anchors": ["src/advisers/MagneticFilterPhysical.cpp:MagneticFilterDcCurrentDensity::evaluate_magnetic", "src/advisers/MagneticFilterPhysical.cpp:MagneticFilterEffectiveCurrentDensity::evaluate_magnetic"]}
{"id": "C187", "title": "A magnetic kept by the filter by inductance meets it at every operating point", "statement": "Outside interference suppression a magnetic is kept only if its inductance meets the requirement at each operating point, at rest for a transformer and with the excitation for an inductor; the filters agree on which designs are inductors.", "quantifier": "every design and list of operating points", "why_tests_cant": "Operating points are any number and requirements may lack any of their values.", "anchors": ["src/advisers/MagneticFilter.cpp:MagneticFilterMagnetizingInductance::evaluate_magnetic", "src/advisers/MagneticFilterPhysical.cpp:MagneticFilterSaturation::evaluate_magnetic"]}
{"id": "C188", "title": "A magnetic kept by the filter by energy stores what is required at every operating point", "statement": "The filter by energy keeps a magnetic exactly when it stores the energy required at each operating point, whatever their order, and writes the energy in the outputs without losing what is there.", "quantifier": "every list of operating points and outputs", "why_tests_cant": "Operating points are any number and the outputs are shared with other filters.", "anchors": ["src/advisers/MagneticFilterEnergyCost.cpp:MagneticFilterEnergyStored::evaluate_magnetic"]}
{"id": "C189", "title": "The filter by impedance keeps what meets the impedance at every frequency, and more impedance never scores less", "statement": "The filter by impedance keeps a magnetic exactly when it has the impedance required at each frequency; its score is a number, not negative, zero for what is exactly at its requirements, and does not fall when the impedance grows.", "quantifier": "every list of requirements and impedances", "why_tests_cant": "Requirements are any number and impedances a continuum.", "anchors": ["src/advisers/MagneticFilterImpedance.cpp:MagneticFilterImpedance::evaluate_magnetic"]}
{"id": "C190", "title": "A magnetic kept by the filter by turns ratios has the ratios required", "statement": "A magnetic is kept only if it has as many turns ratios as are required and each meets the requirement at its place; its score is the sum of the distances to what is required.", "quantifier": "every list of requirements and ratios", "why_tests_cant": "Ratios are any number and requirements may lack any of their values.", "anchors": ["src/advisers/MagneticFilterGeometry.cpp:MagneticFilterTurnsRatios::evaluate_magnetic"]}
{"id": "C191", "title": "The search of turns for a minimum impedance finds the fewest turns that meet it", "statement": "The filter of minimum impedance keeps a magnetic when some number of turns that fits in its window meets the impedance at every frequency, and leaves it with the fewest; its score is what is left over the requirements, never negative.", "quantifier": "every core, list of requirements and impedance as a function of the turns", "why_tests_cant": "The impedance is an arbitrary function of the turns.", "anchors": ["src/advisers/MagneticFilterImpedance.cpp:MagneticFilterCoreMinimumImpedance::evaluate_magnetic"]}
{"id": "C192", "title": "The patterns offered for a coil wind every winding once", "statement": "Each of the patterns offered for a coil winds each of its windings exactly once; there is at least one and no more than six, none twice; the first has the isolation sides in the order they appear, and three sides come in every order or its reverse; with the geometry of real windings the reverses are offered too.", "quantifier": "every number of windings, isolation sides, wound core or not", "why_tests_cant": "Windings and sides are any number and the orders grow as a factorial.", "anchors": ["src/constructive_models/Coil.cpp:Coil::get_patterns", "src/processors/Inputs.cpp:Inputs::get_isolation_sides_used"]}
{"id": "C193", "title": "Interleaving a coil never asks a winding for more sections than turns", "statement": "What comes back of checking a pattern and its repetitions, wound as many times as it says, has each winding in the order of the pattern at every repetition for which it has a turn, so never in more sections than turns; checking it again changes nothing.", "quantifier": "every list of turns, pattern and number of repetitions", "why_tests_cant": "Turns, patterns and repetitions are unbounded.", "anchors": ["src/constructive_models/Coil.cpp:Coil::check_pattern_and_repetitions_integrity"]}
{"id": "C194", "title": "Every pattern is tried with every number of repetitions", "statement": "Those who look for the best way of winding a coil try each of the patterns with each of the numbers of repetitions that were listed.", "quantifier": "every list of patterns and of repetitions", "why_tests_cant": "The lists are of any length and the state is carried from one try to the next.", "anchors": ["src/constructive_models/Coil.cpp:Coil::get_repetitions", "src/advisers/CoilAdviser.cpp", "src/advisers/MagneticFilter.cpp:MagneticFilterSolidInsulationRequirements::evaluate_magnetic"]}
{"id": "C195", "title": "A magnetic kept by the filter by solid insulation has wires that insulate as required", "statement": "A magnetic is kept only if for some way of winding it the wires of all its windings, together, insulate as required and do not exceed what is allowed.", "quantifier": "every list of wires, requirements, patterns and repetitions", "why_tests_cant": "Windings and combinations of requirements are any number.", "anchors": ["src/advisers/MagneticFilter.cpp:MagneticFilterSolidInsulationRequirements::evaluate_magnetic"]}
{"id": "C196", "title": "The gap for a fringing factor is the first at which the factor is reached", "statement": "The gap found for a fringing factor is never under the residual gap nor over the height of the column. If the factor is crossed between two of the lengths scanned, it is in the first such pair, and it is one whose factor is within a thousandth or in an interval in which it is crossed no wider than a tenth of the residual gap; if it is not, it is the length scanned whose factor is the closest.", "quantifier": "every core, limit and fringing factor as a function of the gap", "why_tests_cant": "The factor is an arbitrary function, not monotonic, of a continuum.", "anchors": ["src/physical_models/Reluctance.cpp:ReluctanceModel::get_gapping_by_fringing_factor"]}
{"id": "C197", "title": "What the filter by fringing factor was asked before makes no difference", "statement": "For any history of cores the filter by fringing factor keeps the ones it would keep if it were asked for each alone.", "quantifier": "every sequence of cores", "why_tests_cant": "The histories are unbounded and share what is remembered.", "anchors": ["src/advisers/MagneticFilter.cpp:MagneticFilterFringingFactor::evaluate_magnetic"]}
{"id": "C198", "title": "A core kept by the filter by area product is enough for every operating point", "statement": "A core is kept only if its area product is at least the threshold of what each of its operating points requires, with the flux density of its material at that operating point, and its score is the distance to the largest.", "quantifier": "every core, list of operating points and history of the filter", "why_tests_cant": "Operating points and histories are unbounded.", "anchors": ["src/advisers/MagneticFilterArea.cpp:MagneticFilterAreaProduct::evaluate_magnetic"]}
{"id": "C199", "title": "A magnetic answers the dimensions of the parts it has", "statement": "After any history of setting or reading its core and coil, `Magnetic::get_maximum_dimensions` and `Magnetic::fits` answer for the parts the magnetic has now. (False of the code: the first answer is remembered for ever.)", "quantifier": "every magnetic, every history of set_core, set_coil, readings and questions", "why_tests_cant": "Needs every history: a test sets, asks once and stops.", "anchors": ["src/constructive_models/Magnetic.cpp: Magnetic::get_maximum_dimensions, Magnetic::fits", "src/constructive_models/Magnetic.h: set_core, set_coil, from_json"]}
{"id": "C200", "title": "The dimensions answered hold the core, the bobbin and every turn", "statement": "The box that `Magnetic::get_maximum_dimensions` answers holds the core, the bobbin and every turn of the coil, and is not larger than that. (False of the code for turns outside the core and bobbin, as in every toroid: a half extent is compared with whole widths.)", "quantifier": "every core, bobbin and list of turns", "why_tests_cant": "Every position of turns; a test has a handful of them, in most of which the core is the largest.", "anchors": ["src/constructive_models/Coil.cpp: Coil::get_maximum_dimensions", "src/constructive_models/Magnetic.cpp: Magnetic::get_maximum_dimensions"]}
{"id": "C201", "title": "The rated current gives the rise of temperature asked for", "statement": "`Magnetic::calculate_rated_current` answers a current whose rise is within a tenth of a kelvin of that asked for, or within a microampere of the one that gives it; it refuses exactly when the rise is not positive or no power of two of amperes up to 524288 reaches it.", "quantifier": "every function from current to rise, every rise asked for, every thermal solution", "why_tests_cant": "The rise ranges over all functions a thermal model could give; a test has a few magnetics.", "anchors": ["src/constructive_models/Magnetic.cpp: Magnetic::calculate_rated_current"]}
{"id": "C202", "title": "The saturation current links the flux of saturation", "statement": "`Magnetic::calculate_saturation_current` times the inductance is the flux density of saturation times turns times area; its ampere-turns do not depend on the turns; it refuses exactly when the inductance is missing or not positive.", "quantifier": "every flux density, turns, area and inductance", "why_tests_cant": "An identity over all numbers.", "anchors": ["src/constructive_models/Magnetic.cpp: Magnetic::calculate_saturation_current"]}
{"id": "C203", "title": "Comparing two designs is an equivalence that reads what matters", "statement": "`==` of magnetics, wires, inputs and designs is an equivalence, is refused only for unknown wires, and tells apart designs that differ in what it reads. (False of wires, where it is not transitive; and gaps, excitations and outputs are not read.)", "quantifier": "every pair and triple of magnetics, wires, inputs and designs", "why_tests_cant": "Equivalence ranges over all triples.", "anchors": ["src/constructive_models/Magnetic.h: operator==", "src/constructive_models/Wire.h: operator==", "src/processors/Inputs.h: operator==", "src/constructive_models/Mas.h: operator=="]}
{"id": "C204", "title": "Reading a magnetic gives the one that was written", "statement": "After `from_json` of what `to_json` wrote, a magnetic has the parts of the one written, whatever it had before. (False of the code: parts that are not in the JSON stay.)", "quantifier": "every magnetic written, every magnetic it is read into", "why_tests_cant": "Ranges over the state of the object that reads.", "anchors": ["src/constructive_models/Magnetic.h: from_json, to_json"]}
{"id": "C205", "title": "The catalogue adviser answers the best parts that meet the strict requirements", "statement": "A strict `get_advised_magnetic` over a catalogue answers at most as many parts as asked for, best score first, out of exactly the parts that every strictly required filter accepted and on which no filter threw; the score of a part depends on its own results. (The last is false of the code for parts that share a reference.)", "quantifier": "every catalogue, filter flow, behaviour of the filters, number of results, with and without simulation", "why_tests_cant": "Ranges over every catalogue and everything filters can answer; tests have a few parts and one flow.", "anchors": ["src/advisers/MagneticAdviser.cpp: MagneticAdviser::get_advised_magnetic (catalogue), get_scorings", "src/Definitions.h: MagneticFilterOperation", "src/support/Utils.cpp: add_scoring"]}
{"id": "C206", "title": "The retry without strict requirements finds something that the strict search did not", "statement": "When no part of the catalogue survives the strict search, the adviser tries again with the requirements relaxed, and answers parts that the strict search refused. (False of the code: the retry is given only the parts that already met the requirements, and finds nothing.)", "quantifier": "every catalogue, filter flow and behaviour of filters that only look at the parts", "why_tests_cant": "A test that nothing is answered cannot tell that nothing could be.", "anchors": ["src/advisers/MagneticAdviser.cpp: MagneticAdviser::get_advised_magnetic (catalogue), get_scorings", "src/Definitions.h: MagneticFilterOperation", "src/support/Utils.cpp: add_scoring"]}
{"id": "C207", "title": "The adviser gives up exactly when consecutive parts fail with the same error", "statement": "The adviser throws, reporting the number of consecutive identical failures and the error, exactly when eight consecutive parts fail with it. (False of the code both ways: failures that are not consecutive count, and failures behind a filter that accepts never do.)", "quantifier": "every catalogue, filter flow and pattern of errors", "why_tests_cant": "Needs every pattern of errors along the catalogue.", "anchors": ["src/advisers/MagneticAdviser.cpp: MagneticAdviser::get_advised_magnetic (catalogue), get_scorings", "src/Definitions.h: MagneticFilterOperation", "src/support/Utils.cpp: add_scoring"]}
{"id": "C208", "title": "The score of a catalogue part is the documented weighted sum", "statement": "Parts are ordered by the sum over the filters of weight times normalised score. (False of the code: each weight enters squared, over the sum of the weights.)", "quantifier": "every flow, weights and scores", "why_tests_cant": "With all weights one, as in the tests, both are the same order.", "anchors": ["src/advisers/MagneticAdviser.cpp: MagneticAdviser::get_advised_magnetic (catalogue), get_scorings", "src/Definitions.h: MagneticFilterOperation", "src/support/Utils.cpp: add_scoring"]}
{"id": "C209", "title": "A rejected part never gains from its rejection nor moves the others", "statement": "A part a filter rejects scores nothing for that filter, and accepted parts are scored among the accepted ones alone. (False of the code for strictly required filters, whose rejections are not recorded as such.)", "quantifier": "every filter without logarithm, every set of raw scores and rejections; witnesses for strictly required filters", "why_tests_cant": "The range of normalisation depends on every part of the catalogue.", "anchors": ["src/advisers/MagneticAdviser.cpp: MagneticAdviser::get_advised_magnetic (catalogue), get_scorings", "src/Definitions.h: MagneticFilterOperation", "src/support/Utils.cpp: add_scoring"]}
{"id": "C210", "title": "With the default flow no part is advised that fails a documented strict requirement", "statement": "A strict call with the default catalogue flow answers only parts that the filters documented as strictly required accept: datasheet limits, turns ratios, maximum dimensions, saturation, current densities, impedance and inductance. (False of the code: only the turns ratios gate.)", "quantifier": "every catalogue and every behaviour of the filters", "why_tests_cant": "The absence of a gate shows only on a part that fails it.", "anchors": ["src/advisers/MagneticAdviser.cpp: MagneticAdviser::get_advised_magnetic (catalogue), get_scorings", "src/Definitions.h: MagneticFilterOperation", "src/support/Utils.cpp: add_scoring"]}
{"id": "C211", "title": "A design leaves the settings and the catalogues as they were", "statement": "However a design of a magnetic ends, with results, empty or with an exception, the settings of which cores to use are those of before, and a catalogue loaded under them, or empty, is so afterwards: cores filtered for one design are never seen by another.", "quantifier": "every initial state, sequence of calls and way for each to end", "why_tests_cant": "Ranges over histories of calls and every point at which a call can fail.", "anchors": ["src/advisers/MagneticAdviser.cpp: MagneticAdviser::get_advised_magnetic (design)", "src/advisers/CoreAdviser.cpp: CoreAdviser::get_advised_core"]}
{"id": "C212", "title": "A design inside a frozen region of the catalogues ends like outside of it", "statement": "With the catalogues frozen for concurrent use, a design changes nothing and ends as it would outside: with results, with an empty list or with an exception. (False of the code: the guard that restores the settings throws from its destructor, which ends the process; so does every design that finds nothing while toroids are enabled.)", "quantifier": "every state, settings and call", "why_tests_cant": "Ending the process cannot be caught by a test, and depends on state and call together.", "anchors": ["src/advisers/MagneticAdviser.cpp: MagneticAdviser::get_advised_magnetic (design)", "src/advisers/CoreAdviser.cpp: CoreAdviser::get_advised_core"]}
{"id": "C213", "title": "Within the scope of a library only its cores and shapes are used", "statement": "Within a scope that brings its own cores and shapes, designs are made of these, and the scope keeps them for the designs that follow. (False of the code: above 600 V with toroids enabled, or for suppression, the inventory is emptied and shapes come from the public catalogue; a design that finds nothing empties it for the rest of the scope.)", "quantifier": "every state, settings and call", "why_tests_cant": "Depends on the voltage, the application, the settings and whether anything is found.", "anchors": ["src/advisers/MagneticAdviser.cpp: MagneticAdviser::get_advised_magnetic (design)", "src/advisers/CoreAdviser.cpp: CoreAdviser::get_advised_core"]}
{"id": "C214", "title": "A design is for the application that its request names", "statement": "A design is made for the application its request names, power if none, whatever the adviser was used for before. (False of the code: the first application other than power sticks.)", "quantifier": "every adviser and sequence of requests", "why_tests_cant": "Ranges over histories of an adviser; tests take a new one each.", "anchors": ["src/advisers/MagneticAdviser.cpp: MagneticAdviser::get_advised_magnetic (design)", "src/advisers/CoreAdviser.cpp: CoreAdviser::get_advised_core"]}
{"id": "C215", "title": "The pool of candidate designs is bounded and all in it is validated", "statement": "A design keeps at most four times the results asked for, at most five coils of each core (or half the results), and each kept one has sections and turns, was simulated and, as an inductor, clears the margin of saturation at every operating point. (The bound is false of the code for the retry without toroids.)", "quantifier": "every advised core and coil, number of results and of windings", "why_tests_cant": "The bound is of memory over every catalogue; a test sees one search.", "anchors": ["src/advisers/MagneticAdviser.cpp: process_wound_candidate, MagneticAdviser::get_advised_magnetic (design), MagneticAdviser::score_magnetics, drop_invalid_when_valid_exists", "src/support/Utils.cpp: normalize_scoring, add_scoring"]}
{"id": "C216", "title": "Coils with the same sections and margin are tried once per core", "statement": "Of the coils of a core with as many sections and the same margin only one enters the pool. (False of the code: the list of those used is empty whenever it is looked at.)", "quantifier": "every advised core and coil", "why_tests_cant": "That a comparison decides nothing is a statement over every set of coils.", "anchors": ["src/advisers/MagneticAdviser.cpp: process_wound_candidate, MagneticAdviser::get_advised_magnetic (design), MagneticAdviser::score_magnetics, drop_invalid_when_valid_exists", "src/support/Utils.cpp: normalize_scoring, add_scoring"]}
{"id": "C217", "title": "A design answers the best scored of the valid candidates", "statement": "What is answered is at most as many as asked for, best first, out of the candidates with a valid coil, or all when there is none; the score is the sum of the normalised scores, less a share for stacked cores.", "quantifier": "every pool, flow of filters, scores and order of equal scores", "why_tests_cant": "Ranges over every pool and scores; tests look at the first result.", "anchors": ["src/advisers/MagneticAdviser.cpp: process_wound_candidate, MagneticAdviser::get_advised_magnetic (design), MagneticAdviser::score_magnetics, drop_invalid_when_valid_exists", "src/support/Utils.cpp: normalize_scoring, add_scoring"]}
{"id": "C218", "title": "A design that a required filter refuses is not preferred to one that it accepts", "statement": "Designs refused by a filter rank behind those it accepts, and a strictly required filter excludes them. (False of the code: what the filters say is discarded, only scores count, and a refusal scores zero, mostly the best.)", "quantifier": "every pool, flow, verdicts and scores", "why_tests_cant": "That verdicts decide nothing is a statement over all of them.", "anchors": ["src/advisers/MagneticAdviser.cpp: process_wound_candidate, MagneticAdviser::get_advised_magnetic (design), MagneticAdviser::score_magnetics, drop_invalid_when_valid_exists", "src/support/Utils.cpp: normalize_scoring, add_scoring"]}
{"id": "C219", "title": "A candidate that cannot be scored does not lose the others", "statement": "When a filter throws on one candidate or scores it with no number, the others are still answered. (False of the code: the whole call throws.)", "quantifier": "every pool, flow and failing candidate", "why_tests_cant": "Needs a failing candidate among good ones, wherever it is.", "anchors": ["src/advisers/MagneticAdviser.cpp: process_wound_candidate, MagneticAdviser::get_advised_magnetic (design), MagneticAdviser::score_magnetics, drop_invalid_when_valid_exists", "src/support/Utils.cpp: normalize_scoring, add_scoring"]}
{"id": "C220", "title": "The fast design answers wound designs that meet the required filters, by ascending losses", "statement": "`get_advised_magnetic_fast` answers at most as many designs as asked for, by ascending total losses, equal ones in their order, each of them wound, with finite losses above zero, and accepted by every strictly required filter; for topologies that store energy none on a ferrite toroid. (Acceptance is false of the code for filters that throw.)", "quantifier": "every set of cores, filter flow, windings and losses, including NaN and infinite ones", "why_tests_cant": "Ranges over everything winding, losses and filters can give for every core.", "anchors": ["src/advisers/MagneticAdviser.cpp: MagneticAdviser::get_advised_magnetic_fast"]}
{"id": "C221", "title": "Asking the fast design for fewer results gives the first of what asking for more gives", "statement": "The results for a smaller number asked for are the first of those for a larger one, so that one result is the best of ten; and a feasible core is not missed because of how many were asked for. (False of the code beyond ten results, and for cores behind two hundred ferrite toroids.)", "quantifier": "every set of cores, filter flow and pair of numbers of results", "why_tests_cant": "Compares two runs, over every catalogue.", "anchors": ["src/advisers/MagneticAdviser.cpp: MagneticAdviser::get_advised_magnetic_fast"]}
{"id": "C222", "title": "A combination of windings is a circuit of them", "statement": "Every combination that `calculate_coil_combinations` answers is a series and parallel circuit of different windings of the coil, all of one isolation side, whose turns and number of parallels are those of that circuit; and every winding is there on its own. (Not every such circuit is: never three equal windings in parallel.)", "quantifier": "every coil and number of windings wanted", "why_tests_cant": "Ranges over every coil; the combinations of combinations grow over three levels.", "anchors": ["src/advisers/MagneticCombinator.cpp: MagneticCombinator::calculate_coil_combinations, calculate_combinations, get_compulsory_series_connections, repeated_windings"]}
{"id": "C223", "title": "A winding with a tap is only combined with the one it is tapped with, in series", "statement": "In `calculate_combinations` two windings that share a pin, end of the one and beginning of the other, are only combined with each other and only in series. (False of the code: in parallel too, and with others that come first.)", "quantifier": "every list of combinations", "why_tests_cant": "Every assignment of pins to windings.", "anchors": ["src/advisers/MagneticCombinator.cpp: MagneticCombinator::calculate_coil_combinations, calculate_combinations, get_compulsory_series_connections, repeated_windings"]}
{"id": "C224", "title": "A virtual magnetic meets the requirements with windings that are not used twice", "statement": "Each magnetic that `calculate_virtual_magnetics` answers has one winding more than there are turns ratios; the first is of the primary side and meets the inductance, each other meets its turns ratio, and no winding of the coil is in two of them. (The call is undefined if the magnetic has no manufacturer information, and throws if that has no reference.)", "quantifier": "every coil, inductance check and list of turns ratios", "why_tests_cant": "Folds over combinations, virtual magnetics and requirements of any number.", "anchors": ["src/advisers/MagneticCombinator.cpp: MagneticCombinator::calculate_virtual_magnetics, get_winding_indexes"]}
{"id": "C225", "title": "A virtual winding can be traced back to the circuit it stands for", "statement": "The combination recorded under the name of a winding of a virtual magnetic is the one that the winding was made of. (False of the code: the same windings in series and in parallel share a name.)", "quantifier": "every coil, inductance check and list of turns ratios", "why_tests_cant": "The record is shared by all the virtual magnetics of a call; which one is the last depends on all of them.", "anchors": ["src/advisers/MagneticCombinator.cpp: MagneticCombinator::calculate_virtual_magnetics, get_winding_indexes"]}
{"id": "C226", "title": "Every way of using the windings that meets the requirements is found", "statement": "If a combination of the primary side meets the inductance and further ones, without common windings, the turns ratios, then a virtual magnetic of exactly these is answered. (False of the code with turns ratios: only one of all those with the same windings in the same order.)", "quantifier": "every coil, inductance check and turns ratio", "why_tests_cant": "Existence over everything that meets the requirements.", "anchors": ["src/advisers/MagneticCombinator.cpp: MagneticCombinator::calculate_virtual_magnetics, get_winding_indexes"]}
{"id": "C227", "title": "Going back to the windings of the coil keeps ampere turns and volts per turn", "statement": "`devirtualize_mas` gives the windings in series the current of the virtual winding and its voltage by turns, those in parallel its voltage and together its current, so that the ampere turns stay. (False of the code, which scales the current of those in series and gives each in parallel the whole of it.)", "quantifier": "every combination and excitation", "why_tests_cant": "Holds for all numbers of windings, turns and excitations.", "anchors": ["src/advisers/MagneticCombinator.cpp: MagneticCombinator::devirtualize_mas", "src/processors/Inputs.cpp: Inputs::get_excitation_with_proportional_current, get_excitation_with_proportional_voltage"]}
{"id": "C228", "title": "Windings that a virtual magnetic does not use carry nothing", "statement": "`devirtualize_mas` gives each winding of the coil the share of the virtual winding that has it, and nothing to the others. (False of the code: these are given a made up sinusoid, and the call is undefined if the first winding is one of them.)", "quantifier": "every coil and list of virtual windings", "why_tests_cant": "Ranges over every coil and every selection of its windings.", "anchors": ["src/advisers/MagneticCombinator.cpp: MagneticCombinator::devirtualize_mas", "src/processors/Inputs.cpp: Inputs::get_excitation_with_proportional_current, get_excitation_with_proportional_voltage"]}
{"id": "C229", "title": "The turns sized for a minimum inductance reach it", "statement": "`calculate_number_turns_from_gapping_and_inductance` for a minimum answers turns with which the core, at the operating point, has at least that inductance, and no fewer turns do. (False of the code without an operating point, and where a hundred more turns are not enough.)", "quantifier": "every core, material behaviour, gapping and inductance", "why_tests_cant": "Ranges over every dependence of the inductance on the turns; the iteration may settle, swing or run out.", "anchors": ["src/physical_models/MagnetizingInductance.cpp: MagnetizingInductance::calculate_number_turns_from_gapping_and_inductance"]}
{"id": "C230", "title": "The turns sized for a nominal inductance are the nearest", "statement": "`calculate_number_turns_from_gapping_and_inductance` for a nominal value answers the number of turns whose inductance is nearest to it. (False of the code without an operating point, and where the inductance does not go with the square of the turns.)", "quantifier": "every core, material behaviour, gapping and inductance", "why_tests_cant": "No other number of turns may be nearer, for every dependence on the turns.", "anchors": ["src/physical_models/MagnetizingInductance.cpp: MagnetizingInductance::calculate_number_turns_from_gapping_and_inductance"]}
{"id": "C231", "title": "The gap for some turns and an inductance has the reluctance that they need", "statement": "`calculate_gapping_from_number_turns_and_inductance` answers a gap with which the core has the inductance to a thousandth, or that is a few micrometres from the one that has it. (False of the code for what is answered: it is rounded to a tenth of a millimetre, and inductances out of reach are answered all the same.)", "quantifier": "every core whose reluctance grows with the gap, every number of turns and inductance", "why_tests_cant": "The search has a hundred steps of a size that halves; that it gets there is an induction over all of them.", "anchors": ["src/physical_models/MagnetizingInductance.cpp: MagnetizingInductance::calculate_gapping_from_number_turns_and_inductance"]}
{"id": "C232", "title": "The gap takes the bias into account", "statement": "`calculate_gapping_from_number_turns_and_inductance` uses the permeability that the material has with the bias of the operating point. (False of the code if the magnetizing current is not given: the one taken from the current is looked for in a copy made before.)", "quantifier": "every dependence of the permeability on the bias", "why_tests_cant": "Ranges over every material curve and operating point.", "anchors": ["src/physical_models/MagnetizingInductance.cpp: MagnetizingInductance::calculate_gapping_from_number_turns_and_inductance"]}
{"id": "C233", "title": "The gap for a saturation keeps the flux density", "statement": "`calculate_gap_from_saturation_constraint` answers a gap with which the turns nearest to the inductance have no more than the flux density that is asked for. (False of the code for inductances far below what one turn has.)", "quantifier": "every core, inductance, current and flux density", "why_tests_cant": "Fifteen gaps are tried; that one of them is enough depends on all of the quantities.", "anchors": ["src/physical_models/MagnetizingInductance.cpp: MagnetizingInductance::calculate_gap_from_saturation_constraint"]}
{"id": "C234", "title": "Gap and turns found together keep the flux density", "statement": "`calculate_optimal_gap_and_turns` answers a gap of no more than four tenths of the column and turns that together keep the flux density, with a tolerance of a twentieth; or no gap; or that the core is too small. (False of the code with fringing: the correction made when it is not kept answers the same gap with as many turns or more, so never helps.)", "quantifier": "every core, model of reluctance, inductance, current and flux density", "why_tests_cant": "Holds for every reluctance with the gap, of which the model of fringing is one.", "anchors": ["src/physical_models/MagnetizingInductance.cpp: MagnetizingInductance::calculate_optimal_gap_and_turns, MagnetizingInductance::calculate_turns_for_gap, MagnetizingInductance::calculate_flux_density_peak"]}
{"id": "C235", "title": "The least turns for some volt-seconds", "statement": "The turns from volt-seconds, or from the peak of a sinusoidal voltage, and a flux density are the least, one at least, with which that flux density is kept, and the flux density calculated for them says so.", "quantifier": "every area, voltage, frequency and flux density", "why_tests_cant": "Rounding up at every boundary.", "anchors": ["src/physical_models/MagnetizingInductance.cpp: MagnetizingInductance::calculate_turns_from_volt_seconds_and_max_flux_density, MagnetizingInductance::calculate_turns_from_voltage_and_max_flux_density, MagnetizingInductance::calculate_flux_density_peak_from_voltage, MagnetizingInductance::calculate_flux_density_peak_from_volt_seconds"]}
{"id": "C236", "title": "The inductance of drums lies between its physical bounds", "statement": "The inductance of an open drum lies between that of the two bounds it is put together from, goes with the square of the turns, grows with the permeability and never exceeds what the shape allows whatever the material; with two materials it lies between what it has with either; a drum without all its dimensions, with gaps, without the material of its shell or with a wrong number of materials is refused.", "quantifier": "every shape that can be made, every permeability, number of turns and list of materials", "why_tests_cant": "An inequality between transcendental functions of the whole range of shapes.", "anchors": ["src/physical_models/MagnetizingInductance.cpp: MagnetizingInductance::calculate_open_core_magnetizing_inductance, MagnetizingInductance::calculate_semishielded_drum_magnetizing_inductance, MagnetizingInductance::calculate_drum_ring_magnetizing_inductance, MagnetizingInductance::calculate_inductance_and_magnetic_flux_density"]}
{"id": "C237", "title": "The inductance is the one with the bias of the operating point", "statement": "`calculate_inductance_and_magnetic_flux_density` answers the inductance whose own flux has the bias that the permeability was taken at. (False of the code with gaps: one correction is made of the permeability without bias; what is answered is never below the right one.)", "quantifier": "every core with gaps, material curve and magnetizing current", "why_tests_cant": "A fixed point of every material curve.", "anchors": ["src/physical_models/MagnetizingInductance.cpp: MagnetizingInductance::calculate_inductance_and_magnetic_flux_density", "src/processors/Inputs.cpp: Inputs::set_current_as_magnetizing_current, can_be_common_mode_choke, is_multiport_inductor, calculate_induced_voltage"]}
{"id": "C238", "title": "Asking for the inductance twice gives the same answer", "statement": "Calling with the same operating point again gives the same inductance, although the operating point is written to. (False of the code: the voltage that the first call leaves changes where the second takes the magnetizing current from.)", "quantifier": "every core, coil and operating point", "why_tests_cant": "A history of calls on a shared operating point.", "anchors": ["src/physical_models/MagnetizingInductance.cpp: MagnetizingInductance::calculate_inductance_and_magnetic_flux_density", "src/processors/Inputs.cpp: Inputs::set_current_as_magnetizing_current, can_be_common_mode_choke, is_multiport_inductor, calculate_induced_voltage"]}
{"id": "C239", "title": "The frequency of an excitation is replaced only by one that drives it", "statement": "Processing an operating point keeps a frequency of 400 Hz or more; a lower one is replaced only by the dominant frequency of the current or of the voltage, of 400 Hz at least, and only if its amplitude is more than twice that at the frequency stated; one that is not positive or not a number is replaced by the dominant one, if there is one; and processing again changes nothing.", "quantifier": "every list of harmonics in voltage and current, and every frequency stated", "why_tests_cant": "Depends on all amplitudes of two spectra at once.", "anchors": ["src/processors/Inputs.cpp: Inputs::process_operating_point"]}
{"id": "C240", "title": "Whether the magnetizing current holds the offset", "statement": "The offset of the current is part of the magnetizing current for a single winding without turns ratios, and otherwise exactly when the voltage is hardly ever near zero and the windings do not conduct power at the same times, within a tenth of the points. (Undefined where the first winding has no voltage, or a winding fewer points than the first.)", "quantifier": "every operating point: any number of windings and points", "why_tests_cant": "Sets of points of every size are compared.", "anchors": ["src/processors/Inputs.cpp: Inputs::include_dc_offset_into_magnetizing_current, Inputs::is_instantaneously_conducting_power, Inputs::include_dc_offset_into_magnetizing_current_rosano"]}
{"id": "C241", "title": "What is taken for a choke or a multiport inductor", "statement": "An operating point of two to four windings is that of a common mode choke when their spectra agree to a ten-thousandth, or else their effective currents to a twentieth; of a differential mode choke when the topology says so. The order of the windings does not matter. (False of the code: the twentieth is of the first, and spectra of different lengths are undefined.)", "quantifier": "every operating point", "why_tests_cant": "Boundaries and orders over windings and harmonics.", "anchors": ["src/processors/Inputs.cpp: Inputs::can_be_common_mode_choke, Inputs::can_be_differential_mode_choke, Inputs::is_multiport_inductor"]}
{"id": "C242", "title": "The magnetizing current obeys Faraday's law", "statement": "`calculate_magnetizing_current` answers, at each time of the voltage, a current that grows from point to point by the voltage times the step over the inductance, and whose average is the offset given, for any voltage with increasing times; the offset in the processed data is the middle of the waveform less it; an inductance that is not positive is refused. (False of the code for the labels of a flyback or a unipolar triangle, which take nothing from the voltage; and undefined for a current that has not been processed.)", "quantifier": "every voltage waveform, inductance, current and offset", "why_tests_cant": "Every waveform; the induction is over its points.", "anchors": ["src/processors/Inputs.cpp: Inputs::calculate_magnetizing_current"]}
{"id": "C243", "title": "The magnetizing current of the voltage a current induces is that current", "statement": "For a sampled or imported current, `calculate_induced_voltage` followed by `calculate_magnetizing_current` with the same inductance gives the current back, but for its average.", "quantifier": "every current with increasing times and positive inductance", "why_tests_cant": "A round trip over every waveform.", "anchors": ["src/processors/Inputs.cpp: Inputs::calculate_induced_voltage, Inputs::calculate_magnetizing_current"]}
{"id": "C244", "title": "The offset added is the middle of the current", "statement": "The offset that `calculate_magnetizing_current` takes from the current is the middle of its range. (False of the code for a current of zero, which adds half of the largest number there is, and for negative ones, which add a positive offset.)", "quantifier": "every current", "why_tests_cant": "Every waveform.", "anchors": ["src/processors/Inputs.cpp: Inputs::calculate_magnetizing_current, Inputs::get_ac_ripple"]}
{"id": "C245", "title": "A differential mode choke sees the sum of its currents", "statement": "`get_differential_mode_choke_magnetizing_current` answers the sum of the currents of the windings, at every time; the order of the other windings does not matter, balanced currents leave nothing, and other than two to four windings are refused. (False of the code for currents of a power of two of points: they are added point to point, whatever their times, and refused with others that are sampled.)", "quantifier": "every two to four currents", "why_tests_cant": "Every combination of waveforms and their times.", "anchors": ["src/processors/Inputs.cpp: Inputs::get_differential_mode_choke_magnetizing_current"]}
{"id": "C246", "title": "Reflecting a signal conserves power and volt-seconds", "statement": "`reflect_waveform` of voltage and current conserves the power at every point, and is undone by the inverse ratio; with a label, what it builds is complementary: a flyback secondary conducts only when the primary does not and starts at its peak; unipolar waveforms keep their average, with the sign that balances the volt-seconds. (False of the code at a duty cycle of one, which divides by zero.)", "quantifier": "every signal, ratio and label", "why_tests_cant": "Every waveform.", "anchors": ["src/processors/Inputs.cpp: Inputs::reflect_waveform"]}
{"id": "C247", "title": "Reading inputs completes every operating point or leaves them as they were", "statement": "After `check_integrity`, every winding of every operating point has a current, given or derived from its voltage, every signal a waveform with times, and there is a winding for each turns ratio; what was given is kept; a second check changes nothing; and when it throws the operating points are what they were. (Undefined for a primary with only a current beside a winding with only a voltage.)", "quantifier": "every list of operating points and requirements", "why_tests_cant": "Every combination of what is given and what is missing, over windings and operating points.", "anchors": ["src/processors/Inputs.cpp: Inputs::check_integrity, Inputs::standardize_waveform"]}
{"id": "C248", "title": "Processing keeps the magnetizing current given and works out the others of the voltages of their windings", "statement": "`process_operating_point` keeps the magnetizing current given to the first winding; otherwise all windings of a choke get one and the same, differential mode before common mode, and in anything else each winding gets that of its own voltage; with a voltage missing among several windings no magnetizing current is touched; every operating point uses the inductance at its own position. (Undefined without windings; a single winding with only a current has its magnetizing current overwritten.)", "quantifier": "every operating point and list of inductances", "why_tests_cant": "Every combination of given and missing signals.", "anchors": ["src/processors/Inputs.cpp: Inputs::process_operating_point, Inputs::process"]}
{"id": "C249", "title": "A simulation is that of each of its operating points", "statement": "`MagneticSimulator::simulate` of several operating points answers exactly what simulating each of them alone does, in their order, or nothing; the outputs of each are its inductance, leakage at its frequency unless a quick simulation is asked for, core losses and the temperatures they lead to, and the winding losses at that temperature; a quick simulation answers the same but for the leakage; an operating point without one excitation per winding is refused before anything is calculated; and nothing is undefined where none of the models it uses is.", "quantifier": "every magnetic, list of operating points and set of models", "why_tests_cant": "Each operating point runs after the others on the same object and the same global settings.", "anchors": ["src/processors/MagneticSimulator.cpp: MagneticSimulator::simulate"]}
{"id": "C250", "title": "A simulation keeps the conditions and the settings", "statement": "The operating points answered have the ambient temperature and the cooling of those given, and all of their excitations but the flux density that the models leave; the global settings a simulation changes are as they were after it, whether it answers or throws.", "quantifier": "every magnetic, list of operating points, set of models and settings", "why_tests_cant": "Exceptions may come out of any of the models at any operating point.", "anchors": ["src/processors/MagneticSimulator.cpp: MagneticSimulator::simulate"]}
{"id": "C251", "title": "A simulator uses the reluctance model it was asked for", "statement": "A simulator calculates inductances with the reluctance model that was last asked for, and with that of the settings if none was. (False of the code: the name asked for is stored and never read; the model is always that of the settings when the simulator was made.)", "quantifier": "every sequence of calls on a simulator", "why_tests_cant": "Depends on the history of an object.", "anchors": ["src/processors/MagneticSimulator.cpp: MagneticSimulator::simulate", "src/processors/MagneticSimulator.h: MagneticSimulator::set_reluctance_model_name"]}
{"id": "C252", "title": "A datasheet summarises all the operating points it was built of", "statement": "`build_datasheet` is refused exactly when there are no outputs or not one per operating point; its temperatures are the range of the ambient temperatures; its saturation current is that at the hottest operating point; the rise and the thermal resistance are of the worst operating point with core losses; the input voltages are the range over the operating points; inductance, leakage, switching frequency and resistances are those of the first one; the impedance has 51 points, ten per decade, with the self-resonant frequency among them, and the maximum is their largest; output voltages are those of the secondaries by position. (The last is false of the code: secondaries without an rms value are left out and the following ones take their places.)", "quantifier": "every magnetic, list of operating points and outputs", "why_tests_cant": "Extremes over lists of any length.", "anchors": ["src/processors/MagneticSimulator.cpp: MagneticSimulator::build_datasheet"]}
{"id": "C253", "title": "Building a datasheet replaces the datasheet only", "statement": "Building the datasheet of a magnetic keeps everything else the manufacturer says of it, and building it again is the same as building it once.", "quantifier": "every magnetic with or without manufacturer information", "why_tests_cant": "History of calls.", "anchors": ["src/processors/MagneticSimulator.cpp: MagneticSimulator::build_datasheet"]}
{"id": "C254", "title": "Completed inputs have all signals of all windings", "statement": "`inputs_autocomplete` answers, for every winding of every operating point, current, voltage and magnetizing current with waveforms that have times, harmonics and processed data; keeps the values, labels, harmonics, processed data and frequencies given; answers one isolation side per winding, those given by position; completing again changes nothing; and magnetizing currents of all windings stand for the same ampere-turns. (False of the code: operating points with currents alone, which the check of integrity accepts, are always refused; and the secondaries' magnetizing currents are worked out with the inductance referred to the primary.)", "quantifier": "every inputs: any number of operating points and windings, any signals given or missing", "why_tests_cant": "Every combination of what is given and missing.", "anchors": ["src/support/Utils.cpp: inputs_autocomplete, standardize_signal_descriptor"]}
{"id": "C255", "title": "A completed core is of the type of its shape", "statement": "`magnetic_autocomplete` answers a core whose type and magnetic circuit are those of the family of its shape, with the rest of the shape as it was; it has a processed description, and the processed and the geometrical description that were given; with a processed description the gaps are kept, except in toroids, which have none; and a two-piece set with a gap of negative length is refused.", "quantifier": "every magnetic, configuration and catalogue", "why_tests_cant": "Every family and every combination of descriptions given and missing.", "anchors": ["src/support/Utils.cpp: magnetic_autocomplete"]}
{"id": "C256", "title": "Completing a core keeps its materials", "statement": "The materials of the pieces of a core are the same before and after `magnetic_autocomplete`. (False of the code: of several, the first alone is kept.)", "quantifier": "every magnetic", "why_tests_cant": "Any number of pieces.", "anchors": ["src/support/Utils.cpp: magnetic_autocomplete", "src/constructive_models/Core.cpp: Core::resolve_material, Core::resolve_materials"]}
{"id": "C257", "title": "Completed windings lack nothing and keep what was given", "statement": "`magnetic_autocomplete` answers as many windings as there were, each with the name, turns and parallels it had, or those by default, and with all data of its wire: what was given of it, its outer dimensions and the materials of its coating; a winding is named in a refusal only if its wire has no outer dimensions; and different windings have different names. (The last is false of the code: the name by default can be that of another winding.)", "quantifier": "every magnetic, with any number of windings", "why_tests_cant": "Any number of windings and every combination of data.", "anchors": ["src/support/Utils.cpp: magnetic_autocomplete"]}
{"id": "C258", "title": "The configuration sets the orientation and the alignment", "statement": "With `windingOrientation`, `sectionAlignment`, `layersOrientation` or `turnsAlignment` in the configuration, what is missing of them in the magnetic is completed with those values, and what is there is kept. (False of the code: the values are overwritten instead of read, so that any of them has the same effect; and an alignment that is given is replaced when the orientation is missing.)", "quantifier": "every magnetic and configuration", "why_tests_cant": "All values of the configuration.", "anchors": ["src/support/Utils.cpp: magnetic_autocomplete"]}
{"id": "C259", "title": "Completion winds what is not wound and keeps what is", "statement": "`magnetic_autocomplete` keeps turns, sections and layers of a coil that has turns, unless real winding geometry is asked for; otherwise it winds with the pattern of the configuration, once; or else with that of the sections, in their order; or else with each winding once, repeated as often as the interleaving level says; with the design's inputs; and every layer has the data of its insulation.", "quantifier": "every magnetic, configuration and inputs", "why_tests_cant": "Any number of sections and windings.", "anchors": ["src/support/Utils.cpp: magnetic_autocomplete"]}
{"id": "C260", "title": "Completing a magnetic is defined and once is enough", "statement": "`magnetic_autocomplete` of a magnetic with at least one winding answers or throws, and completing what it answered changes nothing. (False of the code when the bobbin has a functional description and no processed one: it is read all the same.)", "quantifier": "every magnetic and configuration", "why_tests_cant": "All inputs; and histories of calls.", "anchors": ["src/support/Utils.cpp: magnetic_autocomplete"]}
{"id": "C261", "title": "A completed magnetizing current carries the bias of the inductor", "statement": "After `mas_autocomplete` every winding of every operating point has the magnetizing current that its voltage has with the inductance of the completed magnetic there, and its mean is the bias of the current. (The last is false of the code: the bias is left out for all but ramps, so that currents with any bias are given the same magnetizing current.)", "quantifier": "every operating point and current", "why_tests_cant": "All waveforms.", "anchors": ["src/support/Utils.cpp: mas_autocomplete, inputs_autocomplete", "src/processors/Inputs.cpp: Inputs::calculate_magnetizing_current"]}
{"id": "C262", "title": "Fringing never raises the reluctance of a gap", "statement": "Every gap model answers, for every gap with a length, a reluctance that is positive and not above that of the same gap without fringing, and a fringing factor of one or more. (False of the models of Partridge, Balakrishnan, Muehlethaler and Stenglein for gaps that are long, or near a yoke.)", "quantifier": "every gap model, every length, area, section and distance to the surfaces", "why_tests_cant": "Real numbers: any geometry, with logarithms.", "anchors": ["src/physical_models/Reluctance.cpp: get_gap_reluctance of ReluctanceZhangModel, ReluctanceMuehlethalerModel, ReluctanceEffectiveAreaModel, ReluctanceEffectiveLengthModel, ReluctancePartridgeModel, ReluctanceStengleinModel, ReluctanceClassicModel, ReluctanceBalakrishnanModel", "src/physical_models/Reluctance.h: ReluctanceModel"]}
{"id": "C263", "title": "A longer gap has more reluctance", "statement": "For every gap model, of two gaps of the same section the longer one, which is not farther from the nearest normal surface, has more reluctance. (False of the models of the effective area and of the effective length, whose answers are the same, for gaps longer than the column is wide.)", "quantifier": "every gap model and any two gaps", "why_tests_cant": "Any pair of real lengths.", "anchors": ["src/physical_models/Reluctance.cpp: get_gap_reluctance of ReluctanceZhangModel, ReluctanceMuehlethalerModel, ReluctanceEffectiveAreaModel, ReluctanceEffectiveLengthModel, ReluctancePartridgeModel, ReluctanceStengleinModel, ReluctanceClassicModel, ReluctanceBalakrishnanModel", "src/physical_models/Reluctance.h: ReluctanceModel"]}
{"id": "C264", "title": "A gap without length adds nothing", "statement": "Every gap model answers a gap of length zero with no reluctance, a fringing factor of one and no energy. (False of the model of Muehlethaler, that divides zero by zero.)", "quantifier": "every gap model and every geometry", "why_tests_cant": "Every geometry at the limit.", "anchors": ["src/physical_models/Reluctance.cpp: get_gap_reluctance of ReluctanceZhangModel, ReluctanceMuehlethalerModel, ReluctanceEffectiveAreaModel, ReluctanceEffectiveLengthModel, ReluctancePartridgeModel, ReluctanceStengleinModel, ReluctanceClassicModel, ReluctanceBalakrishnanModel", "src/physical_models/Reluctance.h: ReluctanceModel"]}
{"id": "C265", "title": "The reluctance, the fringing factor and the energy of a gap agree", "statement": "In the answer of every gap model the reluctance is that of the gap without fringing divided by the fringing factor, and the energy is half the reluctance times the square of the flux at saturation. (False of the model of Muehlethaler in round columns, as a comment in the code says.)", "quantifier": "every gap model, every gap and saturation", "why_tests_cant": "All real geometries.", "anchors": ["src/physical_models/Reluctance.cpp: get_gap_reluctance of ReluctanceZhangModel, ReluctanceMuehlethalerModel, ReluctanceEffectiveAreaModel, ReluctanceEffectiveLengthModel, ReluctancePartridgeModel, ReluctanceStengleinModel, ReluctanceClassicModel, ReluctanceBalakrishnanModel", "src/physical_models/Reluctance.h: ReluctanceModel"]}
{"id": "C266", "title": "A gap model refuses what it cannot calculate", "statement": "Whatever a gap lacks, every gap model answers or throws; it throws without an area; and what it answers for a gap with a length is a positive reluctance. (False of the code: the model of Muehlethaler reads the area without looking whether it is there, and those of Muehlethaler and Stenglein answer negative reluctances.)", "quantifier": "every gap model, and every combination of data present and missing", "why_tests_cant": "All combinations of missing data, and all real geometries.", "anchors": ["src/physical_models/Reluctance.cpp: get_gap_reluctance of ReluctanceZhangModel, ReluctanceMuehlethalerModel, ReluctanceEffectiveAreaModel, ReluctanceEffectiveLengthModel, ReluctancePartridgeModel, ReluctanceStengleinModel, ReluctanceClassicModel, ReluctanceBalakrishnanModel", "src/physical_models/Reluctance.h: ReluctanceModel"]}
{"id": "C267", "title": "The energy of the gaps is that of the core that is asked about", "statement": "What a reluctance model says of the energy that the gaps of a core can store is for the saturation of that core, whatever the model was asked before; it is the sum for the gaps; and the fringing factor is the highest. (False of the code when it is asked with a permeability or for the gaps alone: the saturation is that of the last core asked about at an operating point, or 0.4 T.)", "quantifier": "every history of questions to a reluctance model, and every core", "why_tests_cant": "All histories of calls.", "anchors": ["src/physical_models/Reluctance.h: ReluctanceModel::get_gap_maximum_storable_energy", "src/physical_models/Reluctance.cpp: ReluctanceModel::get_core_reluctance, ReluctanceModel::get_gapping_reluctance, ReluctanceModel::get_ungapped_core_reluctance"]}
{"id": "C268", "title": "The answer names the gap model", "statement": "What a gap model answers for a gap, and what it answers for a core, has its name, and no two models have the same. (False of the answers for a core, whose name is always Default.)", "quantifier": "every gap model, gap and core", "why_tests_cant": "All inputs.", "anchors": ["src/physical_models/Reluctance.h: ReluctanceModel::get_gap_maximum_storable_energy", "src/physical_models/Reluctance.cpp: ReluctanceModel::get_core_reluctance, ReluctanceModel::get_gapping_reluctance, ReluctanceModel::get_ungapped_core_reluctance"]}
{"id": "C269", "title": "Energy, gap length and permeability are worked out from each other", "statement": "The permeability by energy undoes the energy of a core, and the gap length by energy the energy of a gap; a gap of the length answered for an energy stores that energy; a gap of the length answered for a flux density keeps the peak flux density of the core at or below it, for any reluctance of the rest; and the energy of a core is the sum of its parts at the saturation asked for. (False of the code: with fringing a gap of the length answered stores less, and the whole saturation is not used for the core when it is asked for.)", "quantifier": "every gap, core, energy, inductance and current", "why_tests_cant": "All real values.", "anchors": ["src/physical_models/MagneticEnergy.cpp: MagneticEnergy"]}
{"id": "C270", "title": "The required energy is that of the highest peak", "statement": "`calculate_required_magnetic_energy` answers half the inductance by the square of the highest peak of the magnetizing currents, for the minimum, nominal and maximum inductance alike, so in their order; an operating point more never lowers it; the peak of a waveform is its highest magnitude; and an operating point without a magnetizing current, or without a peak or waveform, is refused.", "quantifier": "every list of operating points and every inductance", "why_tests_cant": "Any number of operating points, and waveforms of any length.", "anchors": ["src/physical_models/MagneticEnergy.cpp: MagneticEnergy"]}
{"id": "C271", "title": "Clearances of drums with a ring fringe", "statement": "The clearance between a drum and its ring is answered with a fringing factor of one or more, and with the reluctance of the clearance without fringing divided by it; and each clearance depends on the flange that it faces and not on the other.", "quantifier": "every drum with a ring whose flanges are not thicker than the groove allows", "why_tests_cant": "All real dimensions.", "anchors": ["src/physical_models/Reluctance.cpp: ReluctanceModel::get_annular_clearance_gap_reluctance"]}
{"id": "C272", "title": "Cutting a line of a simulation file loses nothing", "statement": "A line of a file read by `CircuitSimulationReader` is cut at every separator that is outside quotes and parentheses and nowhere else, and its fields with the separator between them are the line again.", "quantifier": "every line and every separator", "why_tests_cant": "Lines of any length, with any nesting of quotes and parentheses.", "anchors": ["src/processors/CircuitSimulatorInterface.cpp: CircuitSimulationReader, CircuitSimulationReader::process_line, CircuitSimulationReader::guess_separator", "src/processors/CircuitSimulatorInterface.h: CircuitSimulationReader"]}
{"id": "C273", "title": "The separator is the one that gives the most fields", "statement": "The separator guessed for a file is, among comma, semicolon, tab and bar, the one that cuts its first line in the most fields, and there is none exactly when none of them cuts it.", "quantifier": "every first line", "why_tests_cant": "Every text.", "anchors": ["src/processors/CircuitSimulatorInterface.cpp: CircuitSimulationReader, CircuitSimulationReader::process_line, CircuitSimulationReader::guess_separator", "src/processors/CircuitSimulatorInterface.h: CircuitSimulationReader"]}
{"id": "C274", "title": "Every value is read in its own column", "statement": "The columns of a file are those its header names, and each value of each row is in the column above it, in the order of the rows; a row with too many values or one that is no number is refused. (False of the code: a column without a name before the last name gives its values to the next.)", "quantifier": "every file", "why_tests_cant": "Any number of rows, columns and empty cells.", "anchors": ["src/processors/CircuitSimulatorInterface.cpp: CircuitSimulationReader, CircuitSimulationReader::process_line, CircuitSimulationReader::guess_separator", "src/processors/CircuitSimulatorInterface.h: CircuitSimulationReader"]}
{"id": "C275", "title": "A number is read as it is written", "statement": "A cell with a number, written with sign, digits, point and exponent or some of them, is read as that number, and any other is refused. (False of the code: a number with a decimal comma loses what follows it without an error, although files of the countries that write them so are separated by semicolons, which are accepted.)", "quantifier": "every way of writing a number", "why_tests_cant": "Numbers of any length.", "anchors": ["src/processors/CircuitSimulatorInterface.cpp: CircuitSimulationReader, CircuitSimulationReader::process_line, CircuitSimulationReader::guess_separator", "src/processors/CircuitSimulatorInterface.h: CircuitSimulationReader"]}
{"id": "C276", "title": "The time of a file is its first growing column", "statement": "The time is the first column whose values never go down and end above where they start, and a file without one is refused.", "quantifier": "every file", "why_tests_cant": "Any number of columns and rows.", "anchors": ["src/processors/CircuitSimulatorInterface.cpp: CircuitSimulationReader::get_one_period, CircuitSimulationReader::extract_waveform, CircuitSimulationReader::find_time, CircuitSimulationReader::can_be_time"]}
{"id": "C277", "title": "Every sample has the time of its row", "statement": "A waveform extracted from a file pairs each value of its signal with the time in the same row, and a signal with more or fewer values than its time is refused. (False of the code when as many values are missing in both columns, in different rows.)", "quantifier": "every file and signal", "why_tests_cant": "Any pattern of missing values.", "anchors": ["src/processors/CircuitSimulatorInterface.cpp: CircuitSimulationReader::get_one_period, CircuitSimulationReader::extract_waveform, CircuitSimulationReader::find_time, CircuitSimulationReader::can_be_time"]}
{"id": "C278", "title": "Repeated times keep their last sample", "statement": "The times of an extracted waveform increase strictly; none is lost; and of the samples at one time the last is kept.", "quantifier": "every recording whose time never goes down", "why_tests_cant": "Any number of repetitions.", "anchors": ["src/processors/CircuitSimulatorInterface.cpp: CircuitSimulationReader::get_one_period, CircuitSimulationReader::extract_waveform, CircuitSimulationReader::find_time, CircuitSimulationReader::can_be_time"]}
{"id": "C279", "title": "An extracted waveform is one period", "statement": "What is extracted from a recording is a run of consecutive samples that spans one period of the frequency asked for and no sample more than needed, from time zero, and starts where the signal crosses zero if it does; a recording that is shorter than a period is refused. (False of the code: the error for short recordings cannot occur in exact arithmetic, and all of the recording is given as if it were a period.)", "quantifier": "every recording and every positive frequency", "why_tests_cant": "Recordings of any length and any real times.", "anchors": ["src/processors/CircuitSimulatorInterface.cpp: CircuitSimulationReader::get_one_period, CircuitSimulationReader::extract_waveform, CircuitSimulationReader::find_time, CircuitSimulationReader::can_be_time"]}
{"id": "C280", "title": "Signals on one time stay aligned, and the answer is for the frequency asked for", "statement": "Waveforms extracted by one reader for signals on the same time cover the same times and the same rows; and what is extracted depends on the file, the signal and the frequency asked for, not on what was asked before. (The second is false of the code: the window found first is used for any frequency later.)", "quantifier": "every history of questions to a reader", "why_tests_cant": "All histories.", "anchors": ["src/processors/CircuitSimulatorInterface.cpp: CircuitSimulationReader::get_one_period, CircuitSimulationReader::extract_waveform, CircuitSimulationReader::find_time, CircuitSimulationReader::can_be_time"]}
{"id": "C281", "title": "Windings come from the numbers in the names", "statement": "Without names given by the user, two signals are of the same winding exactly when their names have the same number (the last they have, else that of a label such as pri, sec, HV or LV), windings are in the order of these numbers and are counted from zero without gaps. (Labels of one letter count anywhere in a name, so the current and voltage of a winding called b are of different windings.)", "quantifier": "every list of columns", "why_tests_cant": "Any number of columns and any names.", "anchors": ["src/processors/CircuitSimulatorInterface.cpp: CircuitSimulationReader::extract_operating_point, CircuitSimulationReader::extract_map_column_names, CircuitSimulationReader::assign_column_names, CircuitSimulationReader::extract_winding_indexes, CircuitSimulationReader::extract_column_types, CircuitSimulationReader::guess_type_by_name", "src/processors/CircuitSimulatorInterface.h: CircuitSimulationReader"]}
{"id": "C282", "title": "The kind of a column comes from its name", "statement": "The kind that a name gives a column is that of the first group of words it has: times, magnetizing currents, currents, voltages, then words that begin with I or V; and a name of a voltage gives a voltage. (The last is false of the code: words count anywhere in a name, as Is in Isolated.)", "quantifier": "every name", "why_tests_cant": "Every text.", "anchors": ["src/processors/CircuitSimulatorInterface.cpp: CircuitSimulationReader::extract_operating_point, CircuitSimulationReader::extract_map_column_names, CircuitSimulationReader::assign_column_names, CircuitSimulationReader::extract_winding_indexes, CircuitSimulationReader::extract_column_types, CircuitSimulationReader::guess_type_by_name", "src/processors/CircuitSimulatorInterface.h: CircuitSimulationReader"]}
{"id": "C283", "title": "An operating point has the columns that were named", "statement": "For each winding and kind, an operating point has the period of the column that was named or recognised for it (the last, if several) on the time named for the winding, and nothing when there is none; windings without signals are left out at the end only; and the reader answers later questions from the same file. (The last is false of the code: after a question with names the columns not named are gone.)", "quantifier": "every reader, number of windings and names", "why_tests_cant": "Any number of columns and windings.", "anchors": ["src/processors/CircuitSimulatorInterface.cpp: CircuitSimulationReader::extract_operating_point, CircuitSimulationReader::extract_map_column_names, CircuitSimulationReader::assign_column_names, CircuitSimulationReader::extract_winding_indexes, CircuitSimulationReader::extract_column_types, CircuitSimulationReader::guess_type_by_name", "src/processors/CircuitSimulatorInterface.h: CircuitSimulationReader"]}
{"id": "C284", "title": "Extracting an operating point is always defined", "statement": "Whatever the file, the frequency and the names given, an operating point is extracted or an exception is thrown. (False of the code: the last of no times is taken if the signal and the time that the user names have no values.)", "quantifier": "every file, frequency and list of names", "why_tests_cant": "All files and names.", "anchors": ["src/processors/CircuitSimulatorInterface.cpp: CircuitSimulationReader::extract_operating_point, CircuitSimulationReader::extract_map_column_names, CircuitSimulationReader::assign_column_names, CircuitSimulationReader::extract_winding_indexes, CircuitSimulationReader::extract_column_types, CircuitSimulationReader::guess_type_by_name", "src/processors/CircuitSimulatorInterface.h: CircuitSimulationReader"]}
{"id": "C285", "title": "Recognising a signal does not depend on units", "statement": "Whether the data of a column look like a voltage or a current, and the kind recognised from them, is the same in any unit and for either sign, and for a current with any offset; a square wave is recognised as a voltage. (The last is false of the code for a wave of few samples.)", "quantifier": "all data, of any length", "why_tests_cant": "Any real data.", "anchors": ["src/processors/CircuitSimulatorInterface.cpp: CircuitSimulationReader::extract_operating_point, CircuitSimulationReader::extract_map_column_names, CircuitSimulationReader::assign_column_names, CircuitSimulationReader::extract_winding_indexes, CircuitSimulationReader::extract_column_types, CircuitSimulationReader::guess_type_by_name", "src/processors/CircuitSimulatorInterface.h: CircuitSimulationReader"]}
{"id": "C286", "title": "Asking twice gives the same answer", "statement": "A reader asked again for the operating point, or for the names, of the same number of windings at the same frequency answers the same.", "quantifier": "every reader for which the first answer is not an exception", "why_tests_cant": "All files.", "anchors": ["src/processors/CircuitSimulatorInterface.cpp: CircuitSimulationReader::extract_operating_point, CircuitSimulationReader::extract_map_column_names, CircuitSimulationReader::assign_column_names, CircuitSimulationReader::extract_winding_indexes, CircuitSimulationReader::extract_column_types, CircuitSimulationReader::guess_type_by_name", "src/processors/CircuitSimulatorInterface.h: CircuitSimulationReader"]}
{"id": "C287", "title": "The advised wires are the best of the acceptable ones", "statement": "The wires advised for a section are the beginning of a ranking of every acceptable candidate: wires of allowed types, with the parallels the current needs or one more, each turn smaller than the section, the insulation as required, and all turns within the area of the sections (within one and a half times, if no candidate is). No acceptable candidate is left out before one with a worse score, and equal scores go by smaller outer size.", "quantifier": "every list of wires, section, current, winding, setting and number of results", "why_tests_cant": "Lists of any length, and every tie.", "anchors": ["src/advisers/WireAdviser.cpp: WireAdviser::get_advised_wire, WireAdviser::create_dataset, normalize_scoring, break_score_ties", "src/advisers/MagneticFilterArea.cpp: MagneticFilterAreaNoParallels::evaluate_magnetic, MagneticFilterAreaWithParallels::evaluate_magnetic", "src/advisers/MagneticFilterImpedance.cpp: MagneticFilterEffectiveResistance::evaluate_magnetic, MagneticFilterProximityFactor::evaluate_magnetic"]}
{"id": "C288", "title": "The score of an advised wire is the sum of its shares", "statement": "The score of a candidate is one for being smaller than the section, one for insulation if it is looked at, one for its area (or a share, if nothing fits) and, for resistance, skin losses and proximity, the share that goes linearly from one at the smallest value among the acceptable candidates to zero at the largest.", "quantifier": "every list of wires and answers of the physical models", "why_tests_cant": "Sets of candidates of any size.", "anchors": ["src/advisers/WireAdviser.cpp: WireAdviser::get_advised_wire, WireAdviser::create_dataset, normalize_scoring, break_score_ties", "src/advisers/MagneticFilterArea.cpp: MagneticFilterAreaNoParallels::evaluate_magnetic, MagneticFilterAreaWithParallels::evaluate_magnetic", "src/advisers/MagneticFilterImpedance.cpp: MagneticFilterEffectiveResistance::evaluate_magnetic, MagneticFilterProximityFactor::evaluate_magnetic"]}
{"id": "C289", "title": "Advised wires carry the current with the density asked for", "statement": "The parallels of an advised wire carry the current with no more than the maximum density of current, and at most one is more than needed; an advised winding has wires. (False of the code: rectangular wires have one parallel whatever the current, and for a winding without current the first advice has zero parallels.)", "quantifier": "every wire, current and density", "why_tests_cant": "Every real current, area and density.", "anchors": ["src/advisers/WireAdviser.cpp: WireAdviser::create_dataset", "src/constructive_models/Wire.cpp: Wire::calculate_number_parallels_needed, Wire::calculate_effective_conducting_area"]}
{"id": "C290", "title": "More parallels of a wire never come first", "statement": "When a wire is advised with more parallels than needed, the same wire with those needed is advised ahead of it, with a better score.", "quantifier": "every advice", "why_tests_cant": "Every set of other candidates, which all change the scores.", "anchors": ["src/advisers/WireAdviser.cpp: WireAdviser::get_advised_wire, WireAdviser::create_dataset, normalize_scoring, break_score_ties", "src/advisers/MagneticFilterArea.cpp: MagneticFilterAreaNoParallels::evaluate_magnetic, MagneticFilterAreaWithParallels::evaluate_magnetic", "src/advisers/MagneticFilterImpedance.cpp: MagneticFilterEffectiveResistance::evaluate_magnetic, MagneticFilterProximityFactor::evaluate_magnetic"]}
{"id": "C291", "title": "The frequency handed as a depth of skin does not change the order", "statement": "The adviser hands the effective frequency to the proximity filter, which expects a depth of skin: the ranking is the same for any positive value. At frequency zero nothing can be advised.", "quantifier": "every list of candidates and positive depth", "why_tests_cant": "Every real depth.", "anchors": ["src/advisers/WireAdviser.cpp: WireAdviser::get_advised_wire, WireAdviser::create_dataset, normalize_scoring, break_score_ties", "src/advisers/MagneticFilterArea.cpp: MagneticFilterAreaNoParallels::evaluate_magnetic, MagneticFilterAreaWithParallels::evaluate_magnetic", "src/advisers/MagneticFilterImpedance.cpp: MagneticFilterEffectiveResistance::evaluate_magnetic, MagneticFilterProximityFactor::evaluate_magnetic"]}
{"id": "C292", "title": "The largest part of the section is that of the advised windings", "statement": "After a search, the proportion of area the adviser reports is the largest among the windings it advised, below one if some candidate fits and below one and a half otherwise. (False of the search of planar wires: it keeps the largest of all earlier searches.)", "quantifier": "every history of searches of an adviser", "why_tests_cant": "All histories.", "anchors": ["src/advisers/WireAdviser.cpp: WireAdviser::set_maximum_area_proportion, WireAdviser::get_advised_wire, WireAdviser::get_advised_planar_wire", "src/advisers/WireAdviser.h: WireAdviser::get_maximum_area_proportion"]}
{"id": "C293", "title": "Constraints and settings choose the wires together", "statement": "A constraint on the type of wire gives the advice over the wires of the accepted types: types left out by the settings stay out, and wires of another standard than the common one too. A section whose dimensions are two lengths accepts rectangular wires. (The last is false of the code for sections without a coordinate system, whose areas are cartesian.)", "quantifier": "every database, setting and constraint", "why_tests_cant": "Databases of any size.", "anchors": ["src/advisers/WireAdviser.cpp: WireAdviser::get_advised_wire, WireAdviser::create_dataset, normalize_scoring, break_score_ties", "src/advisers/MagneticFilterArea.cpp: MagneticFilterAreaNoParallels::evaluate_magnetic, MagneticFilterAreaWithParallels::evaluate_magnetic", "src/advisers/MagneticFilterImpedance.cpp: MagneticFilterEffectiveResistance::evaluate_magnetic, MagneticFilterProximityFactor::evaluate_magnetic"]}
{"id": "C294", "title": "Thicker copper has no smaller penalty", "statement": "The penalty of a planar copper thickness is zero up to one ounce, 0.08, 0.18, 0.30, 0.50 and 1 at two, three, four, six and ten ounces, one from there on, and never decreases with the thickness.", "quantifier": "every thickness", "why_tests_cant": "Every real thickness.", "anchors": ["src/advisers/WireAdviser.cpp: WireAdviser::get_advised_planar_wire, WireAdviser::create_planar_dataset, calculate_planar_thickness_penalty"]}
{"id": "C295", "title": "Planar candidates fill the width of the section", "statement": "Every planar candidate is lower than the section and as wide as makes its turns, with the distances between them and to the borders, exactly fill the width; with parallels there is one for each number from two (or what the current needs) to the maximum, and without them one if one wire carries the current. Turns that fit in their sections get candidates. (The last is false of the code: all turns must fit in one section.)", "quantifier": "every database of planar wires, section, winding and current", "why_tests_cant": "Every number of turns, sections and parallels.", "anchors": ["src/advisers/WireAdviser.cpp: WireAdviser::get_advised_planar_wire, WireAdviser::create_planar_dataset, calculate_planar_thickness_penalty"]}
{"id": "C296", "title": "Litz wires made up for a current suit it", "statement": "Litz wires are made up only when a solid wire would be thicker than the depth of skin; their strands are a half, a third or a fourth of that depth and at least 25 um, three to two thousand in number, and the fewest that carry the current with the density; none of the three that can be so is left out; at any temperature the answer is defined. (The last is false of the code: below about -234 C a NaN is converted to an integer.)", "quantifier": "every current, temperature and density", "why_tests_cant": "Every real value.", "anchors": ["src/advisers/WireAdviser.cpp: synthesize_litz_candidates"]}
{"id": "C297", "title": "The adviser answers for every processed current", "statement": "For a processed current and wires the physical models answer about, the adviser answers. (Partly false: direct currents make it throw, a rectangular wire without conducting area makes the whole search throw, and a current that is not processed is undefined behaviour if no wire is looked at.)", "quantifier": "every list of wires, section, current and winding", "why_tests_cant": "Lists of any length.", "anchors": ["src/advisers/WireAdviser.cpp: WireAdviser::get_advised_wire, WireAdviser::create_dataset, normalize_scoring, break_score_ties", "src/advisers/MagneticFilterArea.cpp: MagneticFilterAreaNoParallels::evaluate_magnetic, MagneticFilterAreaWithParallels::evaluate_magnetic", "src/advisers/MagneticFilterImpedance.cpp: MagneticFilterEffectiveResistance::evaluate_magnetic, MagneticFilterProximityFactor::evaluate_magnetic"]}
{"id": "C298", "title": "A hysteresis loop goes through what was measured and is the same from both sides", "statement": "The loop of a material at saturation has the saturation of the material at both tips, its remanence at no field and no flux density at its coercive force; in every loop the lower path at a field is the opposite of the upper path at the opposite field.", "quantifier": "every material with coercive force and remanence below saturation, and every peak", "why_tests_cant": "Every real material and peak.", "anchors": ["src/physical_models/AmplitudePermeability.cpp: BHLoopRoshenModel::get_hysteresis_loop, BHLoopRoshenModel::get_major_loop_parameters"]}
{"id": "C299", "title": "The loop for a field strength closes at it", "statement": "The loop for a peak of field strength has both paths at the same fields, up to the peak and on to it; the flux density rises along each; both have one positive flux density at the peak and the opposite at the opposite one; the upper path is nowhere below the lower. (False of the code beyond saturation, where the paths are moved apart instead of together; and the paths cross for a material with little remanence for its coercive force.)", "quantifier": "every material and every peak of field strength", "why_tests_cant": "Every real material and peak.", "anchors": ["src/physical_models/AmplitudePermeability.cpp: BHLoopRoshenModel::get_hysteresis_loop, BHLoopRoshenModel::get_major_loop_parameters"]}
{"id": "C300", "title": "The loop for a flux density reaches it", "statement": "The loop for a peak of flux density is answered for every peak, stays within it and within saturation, rises along each path, and its tips have that flux density. (The last is false of the code: the paths are moved by the gap at one of a handful of fields, and what is left may be less than half of what was asked for, with tips that do not meet.)", "quantifier": "every material and every peak of flux density", "why_tests_cant": "Every real material and peak.", "anchors": ["src/physical_models/AmplitudePermeability.cpp: BHLoopRoshenModel::get_hysteresis_loop, BHLoopRoshenModel::get_major_loop_parameters"]}
{"id": "C301", "title": "The amplitude permeability is that of the loop", "statement": "The amplitude permeability is refused exactly when there is neither a field strength nor a flux density; the field strength goes first; it is positive; it is the slope of the loop between its tips over the permeability of vacuum. (The last is false of the code, which takes the slope of the first piece of the upper path: next to the lower tip, over a twentieth of the field at most. Different flux densities may have the same one.)", "quantifier": "every material and peaks", "why_tests_cant": "Every real material and peak.", "anchors": ["src/physical_models/AmplitudePermeability.cpp: AmplitudePermeability::get_amplitude_permeability", "src/physical_models/InitialPermeability.cpp: InitialPermeability::get_initial_permeability"]}
{"id": "C302", "title": "The extremes of the inputs are those of all their excitations", "statement": "The largest voltage peak, voltage, current, current peak, frequency and ambient temperature of the inputs are the greatest over all operating points and windings, and those of one winding the greatest over the operating points; the order of the operating points does not matter; asking for a winding that an operating point lacks, or for processed data that is absent, is refused.", "quantifier": "every list of operating points", "why_tests_cant": "Any number of operating points and windings with any values.", "anchors": ["src/processors/Inputs.cpp: Inputs::get_maximum_voltage_peak, get_maximum_voltage_rms, get_maximum_current_rms, get_maximum_current_peak, get_maximum_current_effective_frequency, get_maximum_current_dc_bias, get_maximum_frequency, get_maximum_temperature"]}
{"id": "C303", "title": "The greatest is one of the values, also if all are negative", "statement": "The largest ambient temperature or direct current is one of those in the inputs. (False of the code if all are negative: the search starts from zero.)", "quantifier": "every list of operating points", "why_tests_cant": "Any number of operating points with any values.", "anchors": ["src/processors/Inputs.cpp: Inputs::get_maximum_voltage_peak, get_maximum_voltage_rms, get_maximum_current_rms, get_maximum_current_peak, get_maximum_current_effective_frequency, get_maximum_current_dc_bias, get_maximum_frequency, get_maximum_temperature"]}
{"id": "C304", "title": "A material suits the application it is said to have", "statement": "Which materials are accepted for power, signals or suppression follows from their tags, their losses and their complex permeability; what a material is for, once asked, stays; and it is accepted for it. (The last is false of the code for materials without losses, and for those tagged for suppression without complex permeability.)", "quantifier": "every material", "why_tests_cant": "Any combination of tags, methods and data.", "anchors": ["src/constructive_models/Core.cpp: Core::check_material_application, Core::guess_material_application", "src/advisers/CoreAdviserMaterials.cpp"]}
{"id": "C305", "title": "The candidates are all suitable materials of the preferred maker", "statement": "The candidates are the materials of the preferred maker that suit the application, in the order of the catalogue; if that maker has none that suits, those of any maker. (The last is false of the code, which falls back only if the maker has no material at all.)", "quantifier": "every catalogue, maker and application", "why_tests_cant": "Any catalogue.", "anchors": ["src/constructive_models/Core.cpp: Core::check_material_application, Core::guess_material_application", "src/advisers/CoreAdviserMaterials.cpp"]}
{"id": "C306", "title": "Materials are ranked by their losses or by their permeability", "statement": "The ranking has every candidate that can be evaluated, once; the one with lower average losses over the operating points, or with larger permeability over the required frequencies, goes first; equal ones stay in the order of the catalogue; the losses of powder materials are compared at the flux density of the design. (The last is false of the code: the direct current, in amperes, is taken for the offset of the flux density, in teslas. One value that is not a number makes the ranking undefined.)", "quantifier": "every catalogue, model of losses and list of operating points", "why_tests_cant": "Any catalogue and any values.", "anchors": ["src/advisers/CoreAdviserMaterials.cpp: CoreAdviser::add_powder_materials, add_ferrite_materials_by_losses, add_ferrite_materials_by_impedance"]}
{"id": "C307", "title": "Each magnetic is tried with the best materials and nothing is lost", "statement": "Every magnetic is tried with each of the ten best powder materials; every magnetic with the placeholder material with each of the two best ferrites, and the others stay; copies with different materials have different names and references; what is tried as powder is powder. (The last is false of the code: only the maker is looked at.)", "quantifier": "every list of magnetics", "why_tests_cant": "Any number of magnetics and materials.", "anchors": ["src/advisers/CoreAdviserMaterials.cpp: CoreAdviser::add_powder_materials, add_ferrite_materials_by_losses, add_ferrite_materials_by_impedance"]}
{"id": "C308", "title": "When powder materials are tried", "statement": "Powder materials are tried exactly when the settings allow them, the application is power and there is a direct current of more than 1 mA; the sense of the current does not matter. (The last is false of the code: a current that flows backwards does not count.)", "quantifier": "every settings, application and list of operating points", "why_tests_cant": "Any values.", "anchors": ["src/advisers/CoreAdviserMaterials.cpp: CoreAdviser::should_include_powder"]}
{"id": "C309", "title": "A core heats over the ambient with its losses", "statement": "With every model of core temperature and every core of positive size: without losses the core is at the ambient temperature, with more losses it is hotter, the thermal resistance times the losses is the rise over the ambient, and a hotter ambient makes it hotter by as much. A core that has not been processed is refused.", "quantifier": "every core, losses and ambient temperature, and the five models", "why_tests_cant": "Every real value of size, losses and temperature.", "anchors": ["src/physical_models/CoreTemperature.cpp: CoreTemperatureModel::factory, get_core_temperature of every model"]}
{"id": "C310", "title": "The models of core temperature agree on which core is cooler, and roughly on by how much", "statement": "A bigger core is cooler with the same losses; three models have a thermal resistance of the core and in the other two it falls with the losses; the rises of the models are of the same order. (The last is false of the code: that of TDK is less than a thirtieth of that of Maniktala for every core up to a cubic metre.)", "quantifier": "every core and losses, and the five models", "why_tests_cant": "Every real value of size and losses.", "anchors": ["src/physical_models/CoreTemperature.cpp: CoreTemperatureModel::factory, get_core_temperature of every model"]}
{"id": "C311", "title": "A score by a product is that of the magnetic", "statement": "The score of a magnetic by a product of losses, volume and temperature is the product of its own, whatever magnetics and filters were looked at before. (False of the code if two magnetics have the same reference, as all those without one, or the same magnetic is in other inputs.)", "quantifier": "every sequence of magnetics and filters", "why_tests_cant": "Histories of any length.", "anchors": ["src/advisers/MagneticFilterGeometry.cpp: MagneticFilterTemperatureRise, MagneticFilterLossesTimesVolume, MagneticFilterVolumeTimesTemperatureRise and the other products", "src/advisers/MagneticFilterInternal.h: cached_or_compute_scoring", "src/support/Utils.cpp: add_scoring, get_scoring, clear_scoring"]}
{"id": "C312", "title": "The product of volume and temperature rise is what it says", "statement": "Magnetics in the same ambient are ordered by their temperature rise, and by the product of their volume and their temperature rise. (The second is false of the code, which multiplies by the temperature: the order depends on the ambient.)", "quantifier": "every pair of magnetics and ambient temperature", "why_tests_cant": "Every value of size, rise and ambient.", "anchors": ["src/advisers/MagneticFilterGeometry.cpp: MagneticFilterTemperatureRise, MagneticFilterLossesTimesVolume, MagneticFilterVolumeTimesTemperatureRise and the other products", "src/advisers/MagneticFilterInternal.h: cached_or_compute_scoring", "src/support/Utils.cpp: add_scoring, get_scoring, clear_scoring"]}
{"id": "C313", "title": "Maximum dimensions are looked at as they are given", "statement": "A magnetic is accepted by the filter of maximum dimensions exactly when it fits, in some orientation, in those that are given. (False of the code if some of the three is not given: it throws for every magnetic.)", "quantifier": "every magnetic and maximum dimensions", "why_tests_cant": "Every value of size and every combination of given dimensions.", "anchors": ["src/advisers/MagneticFilterGeometry.cpp: MagneticFilterMaximumDimensions"]}
{"id": "C314", "title": "The search by losses leaves the best turns of those it tries", "statement": "With one operating point, the filters by losses leave the magnetic with the turns that have the least losses of those tried, at most ten numbers of turns that grow from the ones it had; the score is its losses; with those turns the core does not saturate and the inductance is not over the requirement; it is accepted exactly when the losses are under the budget, and a magnetic that is not scored keeps its turns. With any number, a score is not negative and the budget decides.", "quantifier": "every model of losses, saturation and inductance, and every number of turns", "why_tests_cant": "Every function from turns to losses.", "anchors": ["src/advisers/MagneticFilterLosses.cpp: MagneticFilterCoreAndDcLosses::evaluate_magnetic, MagneticFilterCoreDcAndSkinLosses::evaluate_magnetic", "src/advisers/MagneticFilterInternal.h: finalize_losses_scoring, compute_core_losses_with_negative_guard"]}
{"id": "C315", "title": "The score over several operating points is that of one magnetic", "statement": "With several operating points the score is the mean of the losses of the magnetic that is left, whatever the order of the operating points, and a magnetic that saturates at one of them is rejected. (All false of the code: the search goes on from where it stopped at the one before, so each has its losses with other turns, and if nothing could be tried the losses of the one before are counted again.)", "quantifier": "every list of operating points", "why_tests_cant": "Any number of operating points.", "anchors": ["src/advisers/MagneticFilterLosses.cpp: MagneticFilterCoreAndDcLosses::evaluate_magnetic, MagneticFilterCoreDcAndSkinLosses::evaluate_magnetic", "src/advisers/MagneticFilterInternal.h: finalize_losses_scoring, compute_core_losses_with_negative_guard"]}
{"id": "C316", "title": "The search by losses respects the requirements", "statement": "The turns that are left meet the required inductance and keep the turns ratios. (Both false of the code: an inductance that is too low is passed over, and only the turns of the first winding are set.)", "quantifier": "every requirement and list of operating points", "why_tests_cant": "Every requirement and every function from turns to losses.", "anchors": ["src/advisers/MagneticFilterLosses.cpp: MagneticFilterCoreAndDcLosses::evaluate_magnetic, MagneticFilterCoreDcAndSkinLosses::evaluate_magnetic", "src/advisers/MagneticFilterInternal.h: finalize_losses_scoring, compute_core_losses_with_negative_guard"]}
{"id": "C317", "title": "The search by losses is bounded", "statement": "At most ten numbers of turns are tried. (True of the first operating point; false afterwards: the count is not set again and wraps around.)", "quantifier": "every list of operating points", "why_tests_cant": "Any number of operating points.", "anchors": ["src/advisers/MagneticFilterLosses.cpp: MagneticFilterCoreAndDcLosses::evaluate_magnetic, MagneticFilterCoreDcAndSkinLosses::evaluate_magnetic", "src/advisers/MagneticFilterInternal.h: finalize_losses_scoring, compute_core_losses_with_negative_guard"]}
{"id": "C318", "title": "The core adviser starts from exactly the cores that fit the request", "statement": "The candidates are, in order and each once, the cores handed over whose material suits the application, whose type is allowed (only toroids for common mode chokes), that fit printed circuits if those are asked for, whose gaps fit, and whose height and distributed gaps are allowed; the cores handed over are not changed. Candidates made of shapes come in one to four stacks with different names.", "quantifier": "every list of cores, request and settings", "why_tests_cant": "Every catalogue and every combination of settings.", "anchors": ["src/advisers/CoreAdviserDataset.cpp: CoreAdviser::create_magnetic_dataset, CoreAdviser::expand_magnetic_dataset_with_stacks", "src/advisers/CoreAdviser.cpp: CoreAdviser::get_advised_core"]}
{"id": "C319", "title": "Stacks are offered only of cores that fit the request", "statement": "The stacks of the second attempt are of cores that were candidates of the first. (False of the code: neither the material, nor the types left out, nor printed circuits, nor distributed gaps are asked.)", "quantifier": "every list of cores, request and settings", "why_tests_cant": "Every catalogue and every combination of settings.", "anchors": ["src/advisers/CoreAdviserDataset.cpp: CoreAdviser::create_magnetic_dataset, CoreAdviser::expand_magnetic_dataset_with_stacks", "src/advisers/CoreAdviser.cpp: CoreAdviser::get_advised_core"]}
{"id": "C320", "title": "Advising cores does not change the catalogue", "statement": "An advice leaves the cores it is handed, those of the catalogue of the process if none are handed, as they were, so that the same advice asked again has the same candidates. (False of the code: an advice for power short of results leaves every core it stacks as a stack of four, and no later advice tries it alone.)", "quantifier": "every catalogue and every history of requests", "why_tests_cant": "Any number of requests one after another.", "anchors": ["src/advisers/CoreAdviserDataset.cpp: CoreAdviser::create_magnetic_dataset, CoreAdviser::expand_magnetic_dataset_with_stacks", "src/advisers/CoreAdviser.cpp: CoreAdviser::get_advised_core"]}
{"id": "C321", "title": "Stacks are named after their core and their number", "statement": "The stacks of one core have the name of the core with the number of stacks, once, however often it was stacked before, and no two share a reference.", "quantifier": "every name without such a mark", "why_tests_cant": "Every name and every history of stacking.", "anchors": ["src/advisers/CoreAdviserDataset.cpp: CoreAdviser::create_magnetic_dataset, CoreAdviser::expand_magnetic_dataset_with_stacks", "src/advisers/CoreAdviser.cpp: CoreAdviser::get_advised_core"]}
{"id": "C322", "title": "A transformer starts from the fewest turns that do not saturate it", "statement": "The turns a transformer starts from are the fewest whole ones that keep the peak of the flux density within the margin of saturation and the proportion of it; the candidate is dropped exactly when there are no volt-seconds, no area or no density allowed.", "quantifier": "every area, volt-seconds, saturation, margin and proportion", "why_tests_cant": "Every value.", "anchors": ["src/advisers/CoreAdviserDataset.cpp: add_initial_turns_by_inductance", "src/physical_models/MagnetizingInductance.cpp: calculate_turns_from_volt_seconds_and_max_flux_density", "src/advisers/MagneticFilterInternal.h: maximum_allowed_magnetic_flux_density"]}
{"id": "C323", "title": "The turns and the gap of an inductor belong together", "statement": "An inductor that would saturate is left with more turns and the gap solved for those turns; one that would not is left as it came. (The first is false of the code when a step of the search fails after another succeeded: the turns are of the step that failed and the gap of the one before.)", "quantifier": "every solver of gaps and model of saturation", "why_tests_cant": "Every function from turns to gaps.", "anchors": ["src/advisers/CoreAdviserDataset.cpp: add_initial_turns_by_inductance", "src/physical_models/MagnetizingInductance.cpp: calculate_turns_from_volt_seconds_and_max_flux_density", "src/advisers/MagneticFilterInternal.h: maximum_allowed_magnetic_flux_density"]}
{"id": "C324", "title": "A candidate that cannot be sized does not stop the others", "statement": "Candidates whose sizing throws an exception of the library are dropped, and only they; the others are sized and keep their order. Any other exception ends the advice with none dropped.", "quantifier": "every list of candidates and outcome of their sizing", "why_tests_cant": "Any number of candidates failing anywhere.", "anchors": ["src/advisers/CoreAdviserDataset.cpp: add_initial_turns_by_inductance", "src/physical_models/MagnetizingInductance.cpp: calculate_turns_from_volt_seconds_and_max_flux_density", "src/advisers/MagneticFilterInternal.h: maximum_allowed_magnetic_flux_density"]}
{"id": "C325", "title": "A suppressor is sized for every impedance asked for", "statement": "The inductance a suppressor is sized for is the least whose reactance reaches each impedance asked for at its frequency; it is what the turns come from exactly for candidates of one turn, for suppression, that are inductors.", "quantifier": "every list of impedances", "why_tests_cant": "Any number of impedances.", "anchors": ["src/advisers/CoreAdviserDataset.cpp: add_initial_turns_by_inductance", "src/physical_models/MagnetizingInductance.cpp: calculate_turns_from_volt_seconds_and_max_flux_density", "src/advisers/MagneticFilterInternal.h: maximum_allowed_magnetic_flux_density"]}
{"id": "C326", "title": "The dummy coil carries the current", "statement": "The coil the adviser starts from has a primary and, for chokes, a winding for each current, all with different names; for power its parallels are the fewest that keep the current within both densities allowed, at every operating point. (The last is false of the code but for the first operating point.)", "quantifier": "every list of operating points", "why_tests_cant": "Any number of operating points and windings.", "anchors": ["src/advisers/CoreAdviserDataset.cpp: get_dummy_coil"]}
{"id": "C327", "title": "Shapes made to measure have the area product required", "statement": "A shape made to measure has exactly the area product required, while that of the shape it is made of is between an eighty-first of it and sixteen times it, and falls short, or exceeds, beyond; its tolerances stay in order.", "quantifier": "every positive area product and every shape", "why_tests_cant": "Every real number.", "anchors": ["src/advisers/CoreAdviserDataset.cpp: CoreAdviser::create_custom_core_shapes, scale_core_shape"]}
{"id": "C328", "title": "The alternatives to a material are exactly those that fit, best first", "statement": "The alternatives offered to a core material are, in descending order of total and as many as asked for, exactly the other materials of the catalogue that fit it and whose weighted Curie temperature and losses are known; no total is below zero nor above the sum of the positive weights.", "quantifier": "every catalogue, reference, temperature, weights and number of results", "why_tests_cant": "Every catalogue and every combination of weights.", "anchors": ["src/advisers/CoreMaterialCrossReferencer.cpp: CoreMaterialCrossReferencer::get_cross_referenced_core_material, CoreMaterialCrossReferencer::apply_filters", "src/advisers/CrossReferencerCommon.h"]}
{"id": "C329", "title": "A closer material ranks no lower", "statement": "A material that is at least as close to the reference as another in every weighted dimension has a total at least as large, and one with the very values of the reference ranks no lower than any.", "quantifier": "every catalogue, reference and weights", "why_tests_cant": "Every pair of materials in every catalogue.", "anchors": ["src/advisers/CoreMaterialCrossReferencer.cpp: CoreMaterialCrossReferencer::get_cross_referenced_core_material, CoreMaterialCrossReferencer::apply_filters", "src/advisers/CrossReferencerCommon.h"]}
{"id": "C330", "title": "A material lacking data is left out, it does not stop the search", "statement": "A material of the catalogue of which a weighted value is unknown is left out of the alternatives, and the others are ranked. (False of the code for permeability, saturation and resistivity: one such material makes every call it fits fail.)", "quantifier": "every catalogue and reference", "why_tests_cant": "Every catalogue, with data missing anywhere.", "anchors": ["src/advisers/CoreMaterialCrossReferencer.cpp: CoreMaterialCrossReferencer::get_cross_referenced_core_material, CoreMaterialCrossReferencer::apply_filters", "src/advisers/CrossReferencerCommon.h"]}
{"id": "C331", "title": "Earlier calls do not change the alternatives", "statement": "The alternatives to a material depend on the calls made before only through the last manufacturer asked for and, when the call gives no weights, the last weights given.", "quantifier": "every history of calls", "why_tests_cant": "Any number of calls in any order.", "anchors": ["src/advisers/CoreMaterialCrossReferencer.cpp: CoreMaterialCrossReferencer::get_cross_referenced_core_material, CoreMaterialCrossReferencer::apply_filters", "src/advisers/CrossReferencerCommon.h"]}
{"id": "C332", "title": "The report of scores is of the last call", "statement": "After a call the report of scores lists the materials compared in it. (False of the code: it also lists those of every earlier call, even the reference itself.)", "quantifier": "every history of calls", "why_tests_cant": "Any number of calls in any order.", "anchors": ["src/advisers/CoreMaterialCrossReferencer.cpp: CoreMaterialCrossReferencer::get_cross_referenced_core_material, CoreMaterialCrossReferencer::apply_filters", "src/advisers/CrossReferencerCommon.h"]}
{"id": "C333", "title": "Materials not offered do not change the order of those offered", "statement": "Adding to the catalogue a material that is not offered leaves the order of the others. (True of materials that do not fit; false of those left out for unknown losses or Curie temperature.)", "quantifier": "every catalogue and reference", "why_tests_cant": "Every catalogue.", "anchors": ["src/advisers/CoreMaterialCrossReferencer.cpp: CoreMaterialCrossReferencer::get_cross_referenced_core_material, CoreMaterialCrossReferencer::apply_filters", "src/advisers/CrossReferencerCommon.h"]}
{"id": "C334", "title": "The thinnest tape of a material", "statement": "The thinnest tape of an insulation material is the thinnest of those it states, and the two ways of asking agree. (They disagree when it states none: one says 0, the other the largest double.)", "quantifier": "every list of tapes", "why_tests_cant": "Any number of tapes.", "anchors": ["src/constructive_models/InsulationMaterial.cpp: InsulationMaterial::get_thinner_tape, InsulationMaterial::get_thinner_tape_thickness, InsulationMaterial::extract_available_thicknesses"]}
{"id": "C335", "title": "Available thicknesses are listed once", "statement": "The available thicknesses of an insulation material are exactly those stated, with the voltage each withstands, each once, and extracting them again changes nothing.", "quantifier": "every list of tapes", "why_tests_cant": "Any number of tapes, repeated anywhere.", "anchors": ["src/constructive_models/InsulationMaterial.cpp: InsulationMaterial::get_thinner_tape, InsulationMaterial::get_thinner_tape_thickness, InsulationMaterial::extract_available_thicknesses"]}
{"id": "C336", "title": "Insulation between windings lies along the windings", "statement": "The layers and the section of insulation between two windings have their thickness in the direction in which the windings are stacked, whatever orientation is asked for the layers.", "quantifier": "every window, orientation and thickness", "why_tests_cant": "Every combination.", "anchors": ["src/constructive_models/Coil.cpp: Coil::calculate_insulation, Coil::calculate_mechanical_insulation, Coil::calculate_custom_thickness_insulation"]}
{"id": "C337", "title": "Mechanical insulation is one tape that fills its section", "statement": "Between every two different windings, and only those, mechanical insulation is one layer of the thinnest tape of the default material, which fills its section and is what the interface reports.", "quantifier": "every number of windings, window and material", "why_tests_cant": "Any number of windings.", "anchors": ["src/constructive_models/Coil.cpp: Coil::calculate_insulation, Coil::calculate_mechanical_insulation, Coil::calculate_custom_thickness_insulation"]}
{"id": "C338", "title": "Insulation of a chosen thickness is reported as such", "statement": "Insulation of a thickness chosen by the user is one layer of that thickness that fills its section, and the interface reports that thickness. (The last is false of the code: it reports the tape of the default material.)", "quantifier": "every thickness, window and material", "why_tests_cant": "Every thickness.", "anchors": ["src/constructive_models/Coil.cpp: Coil::calculate_insulation, Coil::calculate_mechanical_insulation, Coil::calculate_custom_thickness_insulation"]}
{"id": "C339", "title": "Insulation estimated by the adviser of coils fits its section", "statement": "The layers of the estimate of insulation used by the adviser of coils add up to the thickness of their section. (False of the code without margin tape: three layers in a section as thick as one.)", "quantifier": "every window, material and setting", "why_tests_cant": "Every thickness.", "anchors": ["src/constructive_models/Coil.cpp: Coil::calculate_insulation, Coil::calculate_mechanical_insulation, Coil::calculate_custom_thickness_insulation"]}
{"id": "C340", "title": "The insulation chosen is the thinnest that complies", "statement": "The insulation between two windings is of the first of the materials of the catalogue, by name, whose interface for the two wires is the thinnest.", "quantifier": "every catalogue, pair of wires and requirement", "why_tests_cant": "Every catalogue.", "anchors": ["src/constructive_models/Coil.cpp: Coil::calculate_insulation, Coil::calculate_mechanical_insulation, Coil::calculate_custom_thickness_insulation"]}
{"id": "C341", "title": "Insulation fails only when no material complies", "statement": "When the coordinator answers for every material, the insulation between two windings is built exactly when some material offers an interface, and otherwise an exception is raised.", "quantifier": "every catalogue, pair of wires and requirement", "why_tests_cant": "Every catalogue.", "anchors": ["src/constructive_models/Coil.cpp: Coil::calculate_insulation, Coil::calculate_mechanical_insulation, Coil::calculate_custom_thickness_insulation"]}
{"id": "C342", "title": "The layers built add up to the insulation required", "statement": "The layers of insulation built between two windings add up to the thickness reported, that complies with the standard. (False of the code whenever the material is sold in two thicknesses: layers are counted as the thickest tape and built as the thinnest.)", "quantifier": "every catalogue, pair of wires and requirement", "why_tests_cant": "Every catalogue.", "anchors": ["src/constructive_models/Coil.cpp: Coil::calculate_insulation, Coil::calculate_mechanical_insulation, Coil::calculate_custom_thickness_insulation"]}
{"id": "C343", "title": "A coil is accepted exactly when everything in it fits", "statement": "A wound coil is reported as fitting exactly when it has sections and layers, no section with windings is over its room, no layer is over its room, the sections fit each window, and no turn lies out of the windows, each within the tolerance of the settings.", "quantifier": "every coil, bobbin and setting", "why_tests_cant": "Every number of sections, layers, turns and windows.", "anchors": ["src/constructive_models/Coil.cpp: Coil::are_sections_and_layers_fitting", "src/constructive_models/Coil.h"]}
{"id": "C344", "title": "An accepted coil is within its bobbin", "statement": "In a coil reported as fitting, no layer is filled beyond 1 (1.001 when squishing is allowed) but for rounding to six decimals, and every turn lies inside a winding window but for a nanometre, horizontally unless overflow is allowed.", "quantifier": "every coil, bobbin and setting", "why_tests_cant": "Every number of layers and turns.", "anchors": ["src/constructive_models/Coil.cpp: Coil::are_sections_and_layers_fitting", "src/constructive_models/Coil.h"]}
{"id": "C345", "title": "Allowing more never turns down a coil", "statement": "Allowing layers to be squished or turns to overflow horizontally never makes a coil that fits be reported as not fitting.", "quantifier": "every coil and pair of settings", "why_tests_cant": "Every coil.", "anchors": ["src/constructive_models/Coil.cpp: Coil::are_sections_and_layers_fitting", "src/constructive_models/Coil.h"]}
{"id": "C346", "title": "How full a section is does not depend on the order of its layers", "statement": "The filling factors of a section say whether its layers fit in it, whatever their order. (True when all its layers have one orientation; false for layers of both, as may be read from a file.)", "quantifier": "every list of layers of a section", "why_tests_cant": "Every list of layers in every order.", "anchors": ["src/constructive_models/Coil.cpp: Coil::are_sections_and_layers_fitting", "src/constructive_models/Coil.h"]}
{"id": "C347", "title": "The area occupied counts everything once", "statement": "The filling factor by area of a coil is the area of its turns and margins, each once, over that of its window.", "quantifier": "every coil", "why_tests_cant": "Any number of turns and sections.", "anchors": ["src/constructive_models/Coil.cpp: Coil::calculate_filling_factor", "src/constructive_models/Coil.h"]}
{"id": "C348", "title": "The fit reported agrees with the acceptance", "statement": "The filling factors reported of a coil say that it fits exactly when the sections of the coil are accepted. (True of one window but for rounding; false of two windows, whose sections are all measured against the first, and of a coil over its window by less than half a millionth.)", "quantifier": "every coil", "why_tests_cant": "Every coil and bobbin.", "anchors": ["src/constructive_models/Coil.cpp: Coil::calculate_filling_factor", "src/constructive_models/Coil.h"]}
{"id": "C349", "title": "A coil reported as fitting overflows in no dimension", "statement": "When the filling factors reported of a coil say that it fits, none of them is above 1. (Holds in the direction in which the sections are stacked; false in the other.)", "quantifier": "every coil", "why_tests_cant": "Every coil.", "anchors": ["src/constructive_models/Coil.cpp: Coil::calculate_filling_factor", "src/constructive_models/Coil.h"]}
{"id": "C350", "title": "Windings around two columns share their region evenly", "statement": "When windings around the main column and around a lateral one share a region, both get the same width, half of what the walls of their bobbins leave, side by side and without overlap.", "quantifier": "every region and thickness of wall", "why_tests_cant": "Every size.", "anchors": ["src/constructive_models/Coil.cpp: Coil::split_shared_window_groups, Coil::create_default_groups, Coil::assign_windings_to_columns"]}
{"id": "C351", "title": "Sharing keeps the groups and stays inside", "statement": "Sharing regions keeps the number, order, names, windows, windings and heights of the groups; every new region lies inside the old one, and has some width exactly when the wall is thinner than the region. Nothing changes unless a winding is around a lateral column.", "quantifier": "every bobbin and list of groups", "why_tests_cant": "Any number of windows and groups.", "anchors": ["src/constructive_models/Coil.cpp: Coil::split_shared_window_groups, Coil::create_default_groups, Coil::assign_windings_to_columns"]}
{"id": "C352", "title": "Each winding is placed once, in the window it asks for", "statement": "In a bobbin of several windows, each winding is in the group of the window it asks for, or of the first if it asks for none, and in no other; there is a group for each window.", "quantifier": "every bobbin and list of windings", "why_tests_cant": "Any number of windings and windows.", "anchors": ["src/constructive_models/Coil.cpp: Coil::split_shared_window_groups, Coil::create_default_groups, Coil::assign_windings_to_columns"]}
{"id": "C353", "title": "A winding cannot ask for a window that does not exist", "statement": "Winding a coil one of whose windings asks for a window that the bobbin does not have is refused. (False of the code when the bobbin has one window: what is asked is ignored.)", "quantifier": "every bobbin and list of windings", "why_tests_cant": "Any number of windings and windows.", "anchors": ["src/constructive_models/Coil.cpp: Coil::split_shared_window_groups, Coil::create_default_groups, Coil::assign_windings_to_columns"]}
{"id": "C354", "title": "Assigning windings to columns places each exactly once", "statement": "When windings are assigned to columns, each is in exactly one column, or the assignment is refused. (False of the code: one assigned to two columns is placed in both, and one assigned to none is left out. The lists given are honoured otherwise.)", "quantifier": "every bobbin, number of windings and assignment", "why_tests_cant": "Every assignment.", "anchors": ["src/constructive_models/Coil.cpp: Coil::split_shared_window_groups, Coil::create_default_groups, Coil::assign_windings_to_columns"]}
{"id": "C355", "title": "The window of a group is the one it was made for", "statement": "Asking for the window of a group made for a window answers that window, also after regions are shared.", "quantifier": "every bobbin and list of windings", "why_tests_cant": "Any number of windows.", "anchors": ["src/constructive_models/Coil.cpp: Coil::find_window_index_for_group, Coil::create_default_groups"]}
{"id": "C356", "title": "Undoing the placement restores the coil", "statement": "Undoing the placement of a coil in its windows restores the positions of sections and layers and the positions, lengths and orientations of turns.", "quantifier": "every coil and bobbin", "why_tests_cant": "Any number of sections, layers and turns.", "anchors": ["src/constructive_models/Coil.cpp: Coil::apply_group_window_sides, Coil::rewind_layers_and_turns, Coil::delimit_and_compact"]}
{"id": "C357", "title": "Placing twice is placing once", "statement": "Placing a placed coil changes nothing.", "quantifier": "every coil and bobbin", "why_tests_cant": "Every state of the coil.", "anchors": ["src/constructive_models/Coil.cpp: Coil::apply_group_window_sides, Coil::rewind_layers_and_turns, Coil::delimit_and_compact"]}
{"id": "C358", "title": "What is wound in a region is placed in it", "statement": "What is wound within a distance of the centre of its region is placed within that distance of the centre of the region on its own side.", "quantifier": "every region, position and distance", "why_tests_cant": "Every position.", "anchors": ["src/constructive_models/Coil.cpp: Coil::apply_group_window_sides, Coil::rewind_layers_and_turns, Coil::delimit_and_compact"]}
{"id": "C359", "title": "Turns have their second crossing", "statement": "When second crossings are asked for and the bobbin has several windows, every turn placed carries its second crossing, the mirror of the first about the axis of its column, also after it is wound or compacted again. (False of the code after winding again when no section is around a lateral column nor on the negative side.)", "quantifier": "every coil and history of winding", "why_tests_cant": "Every history.", "anchors": ["src/constructive_models/Coil.cpp: Coil::apply_group_window_sides, Coil::rewind_layers_and_turns, Coil::delimit_and_compact"]}
{"id": "C360", "title": "No two groups wound occupy the same region", "statement": "After regions are shared no two groups with windings occupy the same region, or the coil is refused. (False of the code for two groups around lateral columns when there is one around the main column.)", "quantifier": "every bobbin and list of groups", "why_tests_cant": "Any number of groups.", "anchors": ["src/constructive_models/Coil.cpp: Coil::split_shared_window_groups, Coil::create_default_groups, Coil::assign_windings_to_columns"]}
{"id": "C361", "title": "A turn farther from its column is longer", "statement": "The length of a turn grows with its distance to the axis of its column, is never negative, and is the perimeter of the wall and of a circle of the distance to it.", "quantifier": "every column and position", "why_tests_cant": "Every position.", "anchors": ["src/constructive_models/Coil.cpp: Coil::get_turn_length_in_frame"]}
{"id": "C362", "title": "Margin tape gives every pair of windings its distance", "statement": "After winding without equalising margins, the two sections at the sides of every insulation have on both edges at least half of the distance their windings need, so that the path over each edge has the whole; margins given by the user are never lowered.", "quantifier": "every layout of sections, distance between windings and margins given", "why_tests_cant": "Any number of sections.", "anchors": ["src/constructive_models/Coil.cpp: Coil::apply_margin_tape, Coil::plan_section_group"]}
{"id": "C363", "title": "Equalising margins in a toroid keeps the distances", "statement": "In a toroid the margins that face each other across an insulation add up to the same before and after they are equalised, the pair of the last and the first section included.", "quantifier": "every layout of sections, space and margins", "why_tests_cant": "Any number of sections.", "anchors": ["src/constructive_models/Coil.cpp: Coil::equalize_margins, Coil::plan_section_group"]}
{"id": "C364", "title": "Equalising margins in a rectangular window keeps the distances", "statement": "In a rectangular window the path over each edge between two neighbouring sections is the same before and after margins are equalised. (True of two sections; false of three, where the second pair changes the margin of the section shared with the first.)", "quantifier": "every layout of sections, space and margins", "why_tests_cant": "Any number of sections.", "anchors": ["src/constructive_models/Coil.cpp: Coil::equalize_margins, Coil::plan_section_group"]}
{"id": "C365", "title": "The last and the first section of a toroid have their distance", "statement": "In a toroid the margins between the last and the first section add up to the distance their windings need. (True of two sections; false of three.)", "quantifier": "every layout of sections and distance between windings", "why_tests_cant": "Any number of sections.", "anchors": ["src/constructive_models/Coil.cpp: Coil::apply_margin_tape, Coil::plan_section_group"]}
{"id": "C366", "title": "Winding again changes no margins", "statement": "Winding a coil again with the same layout gives the same margins. (True when margins are not equalised; false when they are: they grow every time, towards a limit.)", "quantifier": "every coil and number of times it is wound", "why_tests_cant": "Any number of times.", "anchors": ["src/constructive_models/Coil.cpp: Coil::wind, Coil::wind_inner, Coil::plan_section_group"]}
{"id": "C367", "title": "Margins of a wound coil follow their windings", "statement": "When a coil that was wound is read and wound again, a section in the place of one of its winding keeps its margins exactly; otherwise it gets the largest margin its winding had on each edge, and none if its winding had no section.", "quantifier": "every list of sections and new layout", "why_tests_cant": "Any number of sections, before and after.", "anchors": ["src/constructive_models/Coil.cpp: Coil::wind, Coil::wind_inner, Coil::plan_section_group"]}
{"id": "C368", "title": "Margins given before winding are those of the first sections", "statement": "Margins preloaded are used in order for the sections of the next winding. (True of a coil without margins; false of one that was wound or preloaded before: they are added after those.)", "quantifier": "every list of margins and history", "why_tests_cant": "Any history.", "anchors": ["src/constructive_models/Coil.cpp: Coil::preload_margins"]}
{"id": "C369", "title": "Winding that does not succeed leaves the margins alone", "statement": "When winding fails without turns or throws, the margins used by later windings are what they were. (True when it fails; false when it throws after margins were recovered.)", "quantifier": "every coil and way of failing", "why_tests_cant": "Every state of the coil.", "anchors": ["src/constructive_models/Coil.cpp: Coil::wind, Coil::wind_inner, Coil::plan_section_group"]}
{"id": "C370", "title": "Insulation is removed only where margins replace it", "statement": "In a toroid the insulation between two sections is dropped only if the margins between those sections are larger. (True of windings that follow each other once; false of those that do so several times, and of the last section with the first.)", "quantifier": "every layout of sections, distance, margins and insulation", "why_tests_cant": "Any number of sections.", "anchors": ["src/constructive_models/Coil.cpp: Coil::remove_insulation_if_margin_is_enough, Coil::plan_section_group"]}
{"id": "C371", "title": "The rings of a toroid hold exactly the turns of the section", "statement": "The turns given to the rings of a section of a toroid add up to the turns of the section, in the least number of rings that can hold them.", "quantifier": "every wire, angle, number of turns and blocked slots", "why_tests_cant": "Any number of turns and rings.", "anchors": ["src/constructive_models/Coil.cpp: get_number_layers_needed_and_number_physical_turns"]}
{"id": "C372", "title": "Every ring gets some turns and no more than it holds", "statement": "Every ring of a section of a toroid gets at least one turn and at most those that fit. (True when no slots are blocked by leads; with slots of outer rings blocked a ring may get a negative number.)", "quantifier": "every wire, angle, number of turns and blocked slots", "why_tests_cant": "Any number of turns and rings.", "anchors": ["src/constructive_models/Coil.cpp: get_number_layers_needed_and_number_physical_turns"]}
{"id": "C373", "title": "Inner rings hold no more than outer ones", "statement": "With no blocked slots no ring of a toroid holds more turns than one farther out, and a ring that holds several turns has the angle for them.", "quantifier": "every wire, angle and ring", "why_tests_cant": "Every depth.", "anchors": ["src/constructive_models/Coil.cpp: get_number_layers_needed_and_number_physical_turns"]}
{"id": "C374", "title": "Angles and distances on a circumference agree", "statement": "The angle a distance takes at a radius is between 0 and 360 degrees, does not grow with the radius nor shrink with the distance, and turned back gives the distance, if it is no longer than the diameter.", "quantifier": "every distance and radius", "why_tests_cant": "Every real number.", "anchors": ["src/support/Utils.cpp: wound_distance_to_angle, angle_to_wound_distance"]}
{"id": "C375", "title": "Planning a section of a toroid ends", "statement": "The search for the rings and the margins of a section of a toroid ends, whatever the wire, the angle, the turns, the margins and the blocked slots.", "quantifier": "every section, wire and margins", "why_tests_cant": "The number of rounds depends on the data.", "anchors": ["src/constructive_models/Coil.cpp: Coil::wind_by_round_sections, get_number_layers_needed_and_number_physical_turns"]}
{"id": "C376", "title": "Layers of a toroid have all the turns of their section", "statement": "When the layers of a section of a toroid are accepted they have all its turns. (True when the section asks for no number of layers and an average layer holds some turn; otherwise turns may be lost, or memory read out of bounds.)", "quantifier": "every section and wire", "why_tests_cant": "Any number of turns.", "anchors": ["src/constructive_models/Coil.cpp: Coil::wind_by_round_layers"]}
{"id": "C377", "title": "Layers of a toroid stay in their section", "statement": "The layers of a section of a toroid do not overlap and are within the section. (True when the section has room for the insulation between layers; a section beside others is not given any.)", "quantifier": "every section, wire and insulation", "why_tests_cant": "Any number of layers.", "anchors": ["src/constructive_models/Coil.cpp: Coil::wind_by_round_layers"]}
{"id": "C378", "title": "Parallels wound together have room in every layer", "statement": "When a section of a toroid is wound with its parallels side by side, every layer holds at least one turn of each parallel.", "quantifier": "every section with some turn in each layer", "why_tests_cant": "Any number of layers and parallels.", "anchors": ["src/constructive_models/Coil.cpp: Coil::wind_by_round_layers"]}
{"id": "C379", "title": "Thermal resistances of faces", "statement": "The resistance between two faces that touch is the same from both sides, is that of their ways in series, and does not grow with the area of contact; coatings add to it; convection carries the coefficient times the exposed area.", "quantifier": "all faces, areas and coefficients", "why_tests_cant": "Every real number.", "anchors": ["src/physical_models/ThermalNode.cpp: ThermalNodeQuadrant::calculateConductionResistance, calculateConvectionResistance"]}
{"id": "C380", "title": "The faces of a turn have the surface of its wire", "statement": "The faces that the thermal network gives to a turn around a column have together the surface of its wire, with the length the turn is wound with, and the face towards the column is not the largest. (True right of the axis and off the wall of the column; a turn left of the axis gets next to no surface.)", "quantifier": "every column, wire and place", "why_tests_cant": "Every shape and real number.", "anchors": ["src/physical_models/ThermalNode.cpp: ThermalNetworkNode::initializeConcentricTurnQuadrants, computeTurnLengthAtRadius"]}
{"id": "C381", "title": "The faces of a turn of a toroid have the surface of its wire", "statement": "The faces of the two halves of a turn of a toroid have together the surface of its wire. (False: they do not depend on the length of the turn but on how far the halves are from the axis.)", "quantifier": "every wire, turn and toroid", "why_tests_cant": "Every real number.", "anchors": ["src/physical_models/ThermalNode.cpp: ThermalNetworkNode::initializeToroidalQuadrants", "src/physical_models/Temperature.cpp: Temperature::createTurnNodes"]}
{"id": "C382", "title": "Exposure of a face", "statement": "The exposed part of a face is what its turns do not cover, between nothing and everything, whatever their order, and one turn more exposes no more.", "quantifier": "all faces and lists of turns", "why_tests_cant": "Any number of turns.", "anchors": ["src/physical_models/ThermalNode.cpp: ThermalNetworkNode::calculateToroidalSurfaceCoverage, calculateConcentricSurfaceCoverage"]}
{"id": "C383", "title": "Every turn covers one segment of a toroid", "statement": "In the thermal network of a toroid every turn covers exactly one segment of the core. (Every turn covers some segment; one near a border covers two, and a turn wound over another covers the core again.)", "quantifier": "every number of segments and angle", "why_tests_cant": "Any number of segments and turns.", "anchors": ["src/physical_models/Temperature.cpp: Temperature::createToroidalCoreNodes"]}
{"id": "C384", "title": "Convection in still air", "statement": "Still air cools a surface at least as much as it conducts, the same whether surface or air is hotter, no less with a larger difference about the same mean temperature, and no less upwards than downwards; the number of Prandtl of the air is between 0.68 and 0.72 and does not grow with temperature.", "quantifier": "all temperatures above absolute zero, lengths and orientations", "why_tests_cant": "Real powers; the correlation changes at a threshold.", "anchors": ["src/physical_models/ThermalResistance.cpp: ThermalResistance::calculateNaturalConvectionCoefficient"]}
{"id": "C385", "title": "Faster air cools no less", "statement": "The coefficient of forced convection does not decrease with the speed of the air, also where the flow becomes turbulent. (True of air that moves; a slow enough draught cools less than air said not to move.)", "quantifier": "all speeds, lengths and temperatures", "why_tests_cant": "Real powers; the correlation changes at a threshold.", "anchors": ["src/physical_models/ThermalResistance.cpp: ThermalResistance::calculateForcedConvectionCoefficient"]}
{"id": "C386", "title": "Turns that touch are near", "statement": "The thermal network takes two turns around a column to be near each other, whichever comes first, when their surfaces are no farther apart than a quarter of the thinner wire. (True of round wires; flat turns that touch with their narrow sides are taken to be apart.)", "quantifier": "all places and dimensions of turns", "why_tests_cant": "Every real number.", "anchors": ["src/physical_models/Temperature.cpp: Temperature::createConcentricTurnToTurnConnections"]}
{"id": "C387", "title": "Connected faces look at each other", "statement": "Heat goes between the faces of two turns that look at each other: opposite faces, each towards the other turn in the direction in which it is farther, whichever comes first.", "quantifier": "all places of turns", "why_tests_cant": "Every real number.", "anchors": ["src/physical_models/Temperature.cpp: Temperature::createConcentricTurnToTurnConnections"]}
{"id": "C388", "title": "Every pair of turns is connected at most once", "statement": "In the thermal network of a coil every pair of turns that should be connected is, once, and no turn is connected with itself; building fails only if some pair makes it fail.", "quantifier": "all lists of turns", "why_tests_cant": "Any number of turns.", "anchors": ["src/physical_models/Temperature.cpp: Temperature::createConcentricTurnToTurnConnections"]}
{"id": "C389", "title": "The insulation between two turns decides whether they are connected", "statement": "Whether solid insulation separates two turns is looked up for those turns. (True of coils with one winding; turns of other windings are mistaken for turns with the same numbers of the coil, so that touching turns of a second winding may be disconnected.)", "quantifier": "all coils", "why_tests_cant": "Any number of windings and turns.", "anchors": ["src/physical_models/Temperature.cpp: Temperature::createConcentricTurnToTurnConnections, Temperature::createTurnNodes", "src/physical_models/Temperature.cpp: Temperature::getInsulationLayerThermalResistance"]}
{"id": "C390", "title": "What a connection of turns resists", "statement": "Two turns are connected exactly when they are near, no insulation is found between them and their faces have an area; the connection then resists as their coatings; if the insulation cannot be found the network is built as without it. (The last is false: building fails.)", "quantifier": "all turns, insulation and coatings", "why_tests_cant": "Any number of layers.", "anchors": ["src/physical_models/Temperature.cpp: Temperature::createConcentricTurnToTurnConnections, Temperature::createTurnNodes", "src/physical_models/Temperature.cpp: Temperature::getInsulationLayerThermalResistance"]}
{"id": "C391", "title": "Insulation in the way does not depend on the order of turns", "statement": "Whether a layer of insulation is in the way of two turns does not depend on which comes first. (True of turns of the same dimensions beside or over each other; of staggered turns it does.)", "quantifier": "all turns and layers", "why_tests_cant": "Every real number.", "anchors": ["src/physical_models/Temperature.cpp: Temperature::createConcentricTurnToTurnConnections"]}
{"id": "C392", "title": "The layers of insulation between two turns", "statement": "The insulation between two turns is, from both of them, every layer of some thickness between their places. (True but for turns of a toroid on both sides of the angle zero, between which only the layers before zero are found.)", "quantifier": "all layers and places", "why_tests_cant": "Any number of layers.", "anchors": ["src/physical_models/StrayCapacitance.cpp: StrayCapacitance::get_insulation_layers_between_two_turns"]}
{"id": "C393", "title": "Turns of a toroid have a face for each other", "statement": "A turn of a toroid always has a face that looks at a given other one within 45 degrees, and none looks at it more.", "quantifier": "all angles and directions", "why_tests_cant": "Every angle.", "anchors": ["src/physical_models/Temperature.cpp: Temperature::createToroidalTurnToTurnConnections"]}
{"id": "C394", "title": "What the temperature filter asks", "statement": "The filter by temperature scores a component with the temperature for the mean of the core losses of its operating points, at the ambient temperature of the last and with the cooling of the first; it accepts what is not above the limit, and a failure of the losses of a point is never an answer.", "quantifier": "all operating points, loss models and thermal models", "why_tests_cant": "Any number of operating points.", "anchors": ["src/advisers/MagneticFilterAdvanced.cpp: MagneticFilterTemperature::evaluate_magnetic"]}
{"id": "C395", "title": "A component that is accepted by temperature stays below the limit", "statement": "A component accepted by the filter stays within the limit at each of its operating points, whatever their order. (False: losses are averaged and only the last ambient temperature counts. True is that with one ambient temperature a rejected component has a point above the limit, and one with all points above it is rejected.)", "quantifier": "all operating points and thermal models that do not fall with losses", "why_tests_cant": "Any number of operating points.", "anchors": ["src/advisers/MagneticFilterAdvanced.cpp: MagneticFilterTemperature::evaluate_magnetic"]}
{"id": "C396", "title": "The score by leakage", "statement": "Components of one winding are accepted without a score; others with the leakage over the magnetizing inductance, which must be positive; the leakage is written to the output of each operating point, and nothing else in the outputs changes.", "quantifier": "all components, frequencies and outputs", "why_tests_cant": "Any number of points and outputs.", "anchors": ["src/advisers/MagneticFilterAdvanced.cpp: MagneticFilterLeakageInductance::evaluate_magnetic"]}
{"id": "C397", "title": "The wires of the estimated cost carry the current", "statement": "The parallels estimated for a set of operating points are the fewest with which no primary current is denser than allowed.", "quantifier": "all currents and skin depths", "why_tests_cant": "Every real number.", "anchors": ["src/advisers/MagneticFilterEnergyCost.cpp: MagneticFilterEstimatedCost"]}
{"id": "C398", "title": "The estimated cost grows with the turns", "statement": "A component is accepted exactly when the wires of all its windings fit in what the margin leaves of the window; fewer turns are never rejected where more are accepted, nor cost more.", "quantifier": "all windows, turns, ratios and margins", "why_tests_cant": "Every real number.", "anchors": ["src/advisers/MagneticFilterEnergyCost.cpp: MagneticFilterEstimatedCost"]}
{"id": "C399", "title": "Margins and thick wires in toroids", "statement": "A toroid is rejected without a score exactly when the margin is above half the radial height or the skin depth reaches it; a margin that is not rejected leaves at least five sixths of the window.", "quantifier": "all toroids and margins", "why_tests_cant": "Every real number.", "anchors": ["src/advisers/MagneticFilterEnergyCost.cpp: MagneticFilterEstimatedCost"]}
{"id": "C400", "title": "The score by cost", "statement": "The cost of a component is its number of layers plus the cost of its wires: litz by its strands, enamel by its grade, insulation by its layers with one as three and two as four; it fails exactly when a number that is needed is missing.", "quantifier": "all wires and coils", "why_tests_cant": "Any number of wires and strands.", "anchors": ["src/advisers/MagneticFilterEnergyCost.cpp: MagneticFilterCost::evaluate_magnetic", "src/constructive_models/Wire.cpp: Wire::get_relative_cost"]}
{"id": "C401", "title": "The score by magnetomotive force", "statement": "The score is the largest, over operating points and over the layers from the first one on, of the net ampere turns of the layers, with windings that are not primary against the primary.", "quantifier": "all coils and currents", "why_tests_cant": "Any number of layers and points.", "anchors": ["src/advisers/MagneticFilterAdvanced.cpp: MagnetomotiveForce::evaluate_magnetic"]}
{"id": "C402", "title": "A loaded file keeps the inductance of each operating point", "statement": "On loading a file each operating point is processed with the magnetizing inductance of its own output; without inductances in the outputs all are with the one computed, and a file where it cannot be computed is refused. (The first is true only up to the first output without inductance; after it points get the inductance of another one.)", "quantifier": "all files", "why_tests_cant": "Any number of outputs and points.", "anchors": ["src/constructive_models/Mas.cpp: from_file", "src/processors/Inputs.cpp: Inputs::process"]}
{"id": "C403", "title": "The resistivity of a core", "statement": "It is refused without data, constant with one value, and otherwise interpolated between data with temperatures, those nearer than a billionth of a degree to the one kept before dropped.", "quantifier": "all data and temperatures", "why_tests_cant": "Any number of data.", "anchors": ["src/physical_models/Resistivity.cpp: ResistivityCoreMaterialModel::get_resistivity"]}
{"id": "C404", "title": "The resistivity of a core is the one given at the temperatures given", "statement": "At each temperature of the data the resistivity is the one given there. (True of data with rising temperatures; others reach the spline as they are.)", "quantifier": "all data", "why_tests_cant": "Any number of data.", "anchors": ["src/physical_models/Resistivity.cpp: ResistivityCoreMaterialModel::get_resistivity"]}
{"id": "C405", "title": "The resistivity of a wire is linear in temperature", "statement": "It is the reference at the reference temperature and changes by the coefficient for each degree; it is positive exactly above the temperature where the line crosses zero.", "quantifier": "all temperatures and materials", "why_tests_cant": "Every real number.", "anchors": ["src/physical_models/Resistivity.cpp: ResistivityWireMaterialModel::get_resistivity"]}
{"id": "C406", "title": "Windings wound together share one slice of the window", "statement": "Before wires are known the shares of the windings add up to the whole window, every group of windings wound together gets the same part of it, and its members share it equally. (The sum always holds; windings are one group only when their lists name the same windings, and a chain of windings is split.)", "quantifier": "all coils and lists of windings wound together", "why_tests_cant": "Any number of windings, any lists.", "anchors": ["src/advisers/CoilAdviser.cpp: calculate_winding_window_proportion_per_winding"]}
{"id": "C407", "title": "Shares of the window by wire", "statement": "Once wires are known each group gets the part of the window that the area of its wires is of all, with places for its leads, shared equally by its members; the shares add up to the whole, and no winding with turns is left without one; without sizes the given shares are kept.", "quantifier": "all coils, wires, patterns and settings", "why_tests_cant": "Any number of windings, every size.", "anchors": ["src/advisers/CoilAdviser.cpp: calculate_winding_window_proportion_per_wire_combination"]}
{"id": "C408", "title": "A combination that can be wound is not refused beforehand", "statement": "The check before the second attempt at winding never refuses wires whose turns go into their sections in whole layers of whole turns. (True of windings on their own; each member of a group wound together is checked against a part of the section, so a group that fits can be refused.)", "quantifier": "all windows, wires and shares", "why_tests_cant": "Any number of windings, every size.", "anchors": ["src/advisers/CoilAdviser.cpp: combination_is_packable"]}
{"id": "C409", "title": "The walk through the wires ends and repeats nothing", "statement": "The combinations of wires that are tried go one wire further each time, in the winding whose wire scores worst of those that have another; every combination has a wire of each winding, none is tried twice, and the last one has the last wire of each. Not every combination is tried.", "quantifier": "all lists of wires and scores", "why_tests_cant": "Any number of windings and wires.", "anchors": ["src/advisers/CoilAdviser.cpp: get_advised_coil_for_pattern", "src/advisers/CoilAdviser.cpp: get_advised_planar_coil_for_pattern"]}
{"id": "C410", "title": "Windings wound together get the same wire", "statement": "In every combination tried the windings wound together have one wire. (True when all but the first name the first one first; three that name each other in other orders get different wires.)", "quantifier": "all coils and combinations", "why_tests_cant": "Any number of windings, any lists.", "anchors": ["src/advisers/CoilAdviser.cpp: get_advised_coil_for_pattern", "src/advisers/CoilAdviser.cpp: get_advised_planar_coil_for_pattern"]}
{"id": "C411", "title": "What the coil adviser gives", "statement": "The adviser gives at most the number of coils asked for: the best valid ones, or when none is valid the best of the others marked as invalid; when a valid coil has windings on a lateral leg one of those given has. (False when asked for none while there is a lateral one: the last element of an empty vector is used.)", "quantifier": "all candidates and numbers of results", "why_tests_cant": "Any number of candidates.", "anchors": ["src/advisers/CoilAdviser.cpp: get_advised_coil"]}
{"id": "C412", "title": "The wires offered", "statement": "The wires offered are those of an accepted type with the preferred standard, or without a standard; if there is none, those of an accepted type; in the order of the catalogue, each once.", "quantifier": "all catalogues and standards", "why_tests_cant": "Any number of wires.", "anchors": ["src/advisers/CoilAdviser.cpp: get_advised_coil"]}
{"id": "C413", "title": "The layers of a planar coil", "statement": "The stack has no more layers than the maximum set, every winding has its layers in it, and the order follows the pattern asked for. (Each winding gets the layers decided for it, in the order of windings whatever the pattern; parallels may exceed the maximum; windings with a small share have no layer.)", "quantifier": "all shares, numbers of layers, repetitions and patterns", "why_tests_cant": "Any number of windings and layers.", "anchors": ["src/advisers/CoilAdviser.cpp: get_planar_stackup"]}
{"id": "C414", "title": "Each standard shape is searched once", "statement": "Of the shapes in the catalogue, which has each under its name and its aliases, every name is searched once and none is left out; the request is refused exactly when a shape has no name.", "quantifier": "all catalogues of shapes", "why_tests_cant": "Any number of shapes and aliases.", "anchors": ["src/advisers/CoreAdviser.cpp: CoreAdviser::get_advised_core"]}
{"id": "C415", "title": "Advised cores keep to the constraints", "statement": "Whatever the mode, only cores accepted by the constraints are searched, and a constraint that says nothing about cores does not change the advice. (True of available cores and of the families of standard shapes; constraints on materials do nothing for standard shapes, none does for custom ones, and any constraint at all drops the search of the other catalogue.)", "quantifier": "all catalogues, constraints and modes", "why_tests_cant": "Any catalogue and search.", "anchors": ["src/advisers/CoreAdviser.cpp: CoreAdviser::get_advised_core"]}
{"id": "C416", "title": "Cores from the other catalogue are marked", "statement": "Standard shapes are answered from the catalogue of available cores only for power and when they give nothing themselves; then every result says so in the name of its core, and in its reference if it has manufacturer information, with its score unchanged.", "quantifier": "all catalogues and searches", "why_tests_cant": "Any number of results.", "anchors": ["src/advisers/CoreAdviser.cpp: tag_results_as_available_fallback", "src/advisers/CoreAdviser.cpp: CoreAdviser::get_advised_core"]}
{"id": "C417", "title": "Inputs that are not processed are refused by name", "statement": "The core adviser refuses inputs exactly when a current lacks its processed data, its effective frequency or its effective value, and names the first such winding of the first such operating point and what it lacks.", "quantifier": "all inputs", "why_tests_cant": "Any number of operating points and windings.", "anchors": ["src/advisers/CoreAdviser.cpp: throw_if_inputs_are_not_processed"]}
{"id": "C418", "title": "Scores by winding are means", "statement": "The filters by effective resistance and by proximity reject a component exactly when its windings are not as many as the excitations of the first operating point, and otherwise score it with the mean over its windings, which is between the least and the largest; without windings the score is not a number.", "quantifier": "all components and scores of windings", "why_tests_cant": "Any number of windings.", "anchors": ["src/advisers/MagneticFilterImpedance.cpp: MagneticFilterEffectiveResistance::evaluate_magnetic", "src/advisers/MagneticFilterImpedance.cpp: MagneticFilterProximityFactor::evaluate_magnetic"]}
{"id": "C419", "title": "The factor of proximity", "statement": "The factor depends on strands and parallels only through the number of conductors; it grows with the square of turns and conductors, and never falls with the dimension of a conductor nor rises with the depth of the skin.", "quantifier": "all wires, turns and parallels", "why_tests_cant": "Every number.", "anchors": ["src/advisers/MagneticFilterImpedance.cpp: MagneticFilterProximityFactor::evaluate_magnetic"]}
{"id": "C420", "title": "Fewer turns on a smaller core score no worse", "statement": "The filter by number of turns rejects nothing, and of two components the one with fewer turns on a core that is not wider never scores worse. (True of processed cores; a core that is not processed is scored by its turns without its width.)", "quantifier": "all components", "why_tests_cant": "Any number of windings, every width.", "anchors": ["src/advisers/MagneticFilterGeometry.cpp: MagneticFilterTurnCount::evaluate_magnetic"]}
{"id": "C421", "title": "The score by dimensions", "statement": "A component is rejected exactly when its core is planar and wound wires are asked for; its score is the volume of the box around the core, deepened to hold all layers on both sides of the column, and layers never make it smaller.", "quantifier": "all cores and coils", "why_tests_cant": "Any number of layers, every size.", "anchors": ["src/advisers/MagneticFilterGeometry.cpp: MagneticFilterDimensions::evaluate_magnetic"]}
{"id": "C422", "title": "Scores of coils are fair", "statement": "Every coil that is scored comes out once, among the valid ones exactly if all filters accept it, in the order of the input; its score is between zero and the sum of the weights, and a coil as good as another for every filter never scores less, and scores more if it is better for one with a weight. A score that is not a number makes the scoring throw.", "quantifier": "all lists of coils and of filters that are not logarithmic, with weights that are not negative", "why_tests_cant": "Any number of coils and filters, every score.", "anchors": ["src/advisers/CoilAdviser.cpp: CoilAdviser::score_magnetics"]}
{"id": "C423", "title": "Rejected coils do not decide among valid ones", "statement": "The order of the valid coils does not depend on the coils that are rejected. (True of one filter; with more, a rejected coil stretches the range of one of them and may change the best.)", "quantifier": "all lists of coils and filters", "why_tests_cant": "Any number of coils and filters.", "anchors": ["src/advisers/CoilAdviser.cpp: CoilAdviser::score_magnetics"]}
{"id": "C424", "title": "The power that sets the budget of losses", "statement": "The power is the largest over the operating points of the mean of the products of voltage and current of the primary, sampled alike if they are not as many; the losses are changed to those of Steinmetz exactly when a current has more than twice the points of the setting; a point without voltage or current is refused.", "quantifier": "all operating points", "why_tests_cant": "Any number of points and samples.", "anchors": ["src/advisers/MagneticFilterInternal.h: compute_maximum_power_mean_and_maybe_force_steinmetz", "src/advisers/MagneticFilterInternal.h: require_voltage_and_current_for_power"]}
{"id": "C425", "title": "The power is averaged over time", "statement": "The power of an operating point is the mean over time of the product of voltage and current. (False of waveforms with as many points that are not evenly spaced: it is the mean over the points, between the least and the largest power of them.)", "quantifier": "all operating points", "why_tests_cant": "Any waveform.", "anchors": ["src/advisers/MagneticFilterInternal.h: compute_maximum_power_mean_and_maybe_force_steinmetz", "src/advisers/MagneticFilterInternal.h: require_voltage_and_current_for_power"]}
{"id": "C426", "title": "The score by losses", "statement": "The filters by losses reject a component exactly when its windings are not as many as the excitations of the first operating point, and otherwise score it with the mean over the points of the losses of core and windings; without points the score is not a number.", "quantifier": "all components and operating points", "why_tests_cant": "Any number of points, every loss.", "anchors": ["src/advisers/MagneticFilterLosses.cpp: MagneticFilterLosses::evaluate_magnetic", "src/advisers/MagneticFilterLosses.cpp: MagneticFilterLossesNoProximity::evaluate_magnetic"]}
{"id": "C427", "title": "Outputs of the score by losses", "statement": "After scoring, the outputs hold the losses of each operating point at its place, and whatever else was in them is kept; nothing is written for a component that is rejected; when the losses of a point throw, those of the points before stay written.", "quantifier": "all components, points and outputs before", "why_tests_cant": "Any number of points and outputs, any point that fails.", "anchors": ["src/advisers/MagneticFilterLosses.cpp: MagneticFilterLosses::evaluate_magnetic", "src/advisers/MagneticFilterLosses.cpp: MagneticFilterLossesNoProximity::evaluate_magnetic"]}
{"id": "C428", "title": "Scores by losses and volume reject what the losses reject", "statement": "The filters by losses and volume score a component with the mean of its losses times its volume, and reject it when the filter by losses does. (The second is false: a component with other windings than excitations is accepted with the score zero, and none scores less.)", "quantifier": "all components and operating points", "why_tests_cant": "Any number of points, every loss and volume.", "anchors": ["src/advisers/MagneticFilterGeometry.cpp: MagneticFilterLossesTimesVolume::evaluate_magnetic", "src/advisers/MagneticFilterGeometry.cpp: MagneticFilterLossesNoProximityTimesVolume::evaluate_magnetic", "src/advisers/MagneticFilterInternal.h: cached_or_compute_scoring"]}
{"id": "C429", "title": "Images are reflections in the walls of the window", "statement": "The field of a turn of round or Litz wire in a rectangular window is induced by the turn and by its images in the cells around the window, within the mirroring dimension; each image is got by reflections in the walls from cell to cell, lies in its own cell, and there is no other.", "quantifier": "all windows, turns and mirroring dimensions", "why_tests_cant": "Any dimension, every place and size.", "anchors": ["src/support/CoilMesher.cpp: CoilMesherCenterModel::generate_mesh_inducing_turn"]}
{"id": "C430", "title": "Currents of images follow the permeability", "statement": "The turn carries its whole current, its images less the farther their cell and more the higher the permeability of the core, and those of a core without permeability carry nothing. (The last is false when the mirroring dimension is more than one: images two cells away carry a third of the current, reversed.)", "quantifier": "all permeabilities and cells", "why_tests_cant": "Every permeability, any cell.", "anchors": ["src/support/CoilMesher.cpp: CoilMesherCenterModel::generate_mesh_inducing_turn"]}
{"id": "C431", "title": "A turn that returns through a window carries nothing together", "statement": "A turn is mirrored in the walls of the window that contains it, of windows of one width side by side, and its second crossing in those of its own window with the current reversed, so that all points carry nothing together; a second crossing in open air has no images.", "quantifier": "all windows and crossings", "why_tests_cant": "Any number of windows, every place.", "anchors": ["src/support/CoilMesher.cpp: CoilMesherCenterModel::generate_mesh_inducing_turn"]}
{"id": "C432", "title": "Images of toroids are inversions in the walls", "statement": "The images of a crossing of a toroid in the inner and outer walls are on its ray at the distance whose product with its own is the square of the radius, on the other side of the wall, with the share of the current that the permeability sets; the crossings in the bore and outside carry nothing together.", "quantifier": "all toroids, turns and mirroring dimensions", "why_tests_cant": "Every place and radius.", "anchors": ["src/support/CoilMesher.cpp: CoilMesherCenterModel::generate_mesh_inducing_turn"]}
{"id": "C433", "title": "Each selected harmonic has its field", "statement": "The fields that a coil induces, and those it is induced at, are returned for each selected harmonic with data, once and in rising order of the harmonics, however far apart they are.", "quantifier": "all selections of harmonics", "why_tests_cant": "Any number of harmonics; the bound of the loop grows as it reads.", "anchors": ["src/support/CoilMesher.cpp: CoilMesher::generate_mesh_inducing_coil", "src/support/CoilMesher.cpp: CoilMesher::generate_mesh_induced_coil"]}
{"id": "C434", "title": "Points of flat turns are on their faces and evenly across them", "statement": "The field at a turn of rectangular, planar or foil wire is computed at the middles of its four faces and, with fringing, at the middles of from eight to thirty-two equal parts across its wide side; and likewise about its second crossing when the core is no toroid.", "quantifier": "all wires, places and crossings", "why_tests_cant": "Every size and place.", "anchors": ["src/support/CoilMesher.cpp: CoilMesherWangModel::generate_mesh_induced_turn"]}
{"id": "C435", "title": "Conductors of flat turns are inside them, on the side of their label", "statement": "A turn of rectangular, planar or foil wire induces the field with two conductors inside the wire, each on the side that its label says. (False for wires that are not flat enough: with a width below 66/49 of the height that on the right is labelled left, and below two thirds they are outside the wire.)", "quantifier": "all wires and places", "why_tests_cant": "Every size and place.", "anchors": ["src/support/CoilMesher.cpp: CoilMesherWangModel::generate_mesh_inducing_turn"]}
{"id": "C436", "title": "The field assumes the conductors where the mesh has put them", "statement": "The depth below the face that the field of a flat turn is computed with is that of the conductors of the mesh. (False except for square wires: the field takes the width for the height.)", "quantifier": "all wires", "why_tests_cant": "Every width and height.", "anchors": ["src/support/CoilMesher.cpp: CoilMesherWangModel::generate_mesh_inducing_turn", "src/physical_models/MagneticField.cpp: MagneticFieldStrengthWangModel::get_magnetic_field_strength_between_two_points"]}
{"id": "C437", "title": "Points of round turns share their length", "statement": "The points at which the field of a round turn is computed stand together for the whole length of the turn, half each when it has a second crossing and the core is no toroid.", "quantifier": "all turns and crossings", "why_tests_cant": "Every place and length.", "anchors": ["src/support/CoilMesher.cpp: CoilMesherCenterModel::generate_mesh_induced_turn", "src/support/CoilMesher.cpp: lateral_multi_column_secondary_crossing"]}
{"id": "C438", "title": "The points of a grid are the middles of its cells", "statement": "The points of the grid of a winding window are the middles of equal cells that fill it, and the area returned is that of a cell. (The first is false of toroids: their points go from edge to edge, farther apart than the cells.)", "quantifier": "all windows and numbers of points", "why_tests_cant": "Any number of points, every size.", "anchors": ["src/support/CoilMesher.cpp: CoilMesher::generate_mesh_induced_grid"]}
{"id": "C439", "title": "Each winding window is meshed once", "statement": "With all windows asked for, each winding window that has its centre and sizes is meshed, those at one place once, and only if their cells have one area; without any it throws.", "quantifier": "all lists of windows", "why_tests_cant": "Any number of windows, every place and size.", "anchors": ["src/support/CoilMesher.cpp: CoilMesher::generate_mesh_induced_grid"]}
{"id": "C440", "title": "The points of a grid are those near turns and outside them", "statement": "The points of a grid that are kept are exactly those near some turn or not passed by all, unless turns are ignored, and outside of all turns if those inside are not wanted. (The last is false of planar wires whose turns are ignored.)", "quantifier": "all points, turns and settings", "why_tests_cant": "Any number of turns, every place and size.", "anchors": ["src/support/CoilMesher.cpp: CoilMesher::generate_mesh_induced_grid", "src/support/CoilMesher.cpp: is_inside_turns", "src/support/CoilMesher.cpp: is_far_from_turns", "src/support/CoilMesher.cpp: is_passed_from_all_turns"]}
{"id": "C441", "title": "The selection of the harmonics of a mesh ends", "statement": "The harmonics of a mesh are those that reach the threshold, or a threefold multiple of it when they are more than the amplitudes of the first winding, or the fundamental when none does; and the selection ends. (The last is false for the threshold zero, when some winding has more harmonics than the first has amplitudes: the call repeats itself with the same threshold.)", "quantifier": "all operating points and thresholds", "why_tests_cant": "Any number of windings and harmonics; the calls nest without bound.", "anchors": ["src/support/CoilMesher.cpp: CoilMesher::get_common_harmonic_indexes"]}
{"id": "C442", "title": "A conductor of round wire makes the field of a straight current", "statement": "In the model of Binns and Lawrenson a conductor that is not rotated makes, outside its wire, a field across the way to the point, clockwise, as strong as its current over the circumference of the circle through the point; inside its wire it makes none.", "quantifier": "all currents, places and radii", "why_tests_cant": "Real numbers.", "anchors": ["src/physical_models/MagneticField.cpp: MagneticFieldStrengthBinnsLawrensonModel::get_magnetic_field_strength_between_two_points"]}
{"id": "C443", "title": "The field of a turn of finite length is weaker by its length over the hypotenuse", "statement": "In the model of Lammeraner the field of a conductor of round wire is that of a straight current, times the length of the turn over the square root of the sum of the squares of length and distance; inside its wire it is zero.", "quantifier": "all currents, lengths, places and radii", "why_tests_cant": "Real numbers.", "anchors": ["src/physical_models/MagneticField.cpp: MagneticFieldStrengthLammeranerModel::get_magnetic_field_strength_between_two_points"]}
{"id": "C444", "title": "The rotation of a round conductor does not change its field", "statement": "A round wire looks the same from every side, so the rotation of its turn does not change its field. (False in the model of Binns and Lawrenson: the field is turned by the angle of the turn, as that of flat wires, whose places are turned back before.)", "quantifier": "all rotations, currents and places", "why_tests_cant": "Real angles.", "anchors": ["src/physical_models/MagneticField.cpp: MagneticFieldStrengthBinnsLawrensonModel::get_magnetic_field_strength_between_two_points", "src/support/CoilMesher.cpp: CoilMesher (toroidal inducing points)"]}
{"id": "C445", "title": "The field of Dowell is the staircase of the ampere-turns", "statement": "In the model of Dowell the fields of the conductors add up to the ampere-turns of those nearer to the axis, and half of those at the same distance, over the breadth of the window; without a breadth it throws.", "quantifier": "all lists of conductors and breadths", "why_tests_cant": "Any number of conductors.", "anchors": ["src/physical_models/MagneticField.cpp: MagneticFieldStrengthDowellModel::get_magnetic_field_strength_between_two_points"]}
{"id": "C446", "title": "A gap has an equivalent wire exactly within the range of validity", "statement": "In the model of Albach a gap has an equivalent wire exactly if the check of its validity passes; if it passes for a gap it passes for every shorter one of the same section, for all up to a quarter of the column, and for none from three tenths on.", "quantifier": "all gaps", "why_tests_cant": "Numbers without bound.", "anchors": ["src/physical_models/MagneticField.cpp: MagneticFieldStrengthAlbachModel::is_gap_within_validity_range", "src/physical_models/MagneticField.cpp: MagneticFieldStrengthAlbachModel::get_equivalent_inducing_point_for_gap"]}
{"id": "C447", "title": "The equivalent wire of a gap is inside its column", "statement": "The equivalent wire of a gap is at its height, within half of its section of its middle, on the side of the axis for lateral gaps, and carries at least four times the field times the length of the gap.", "quantifier": "all gaps and fields that are not negative", "why_tests_cant": "Numbers without bound.", "anchors": ["src/physical_models/MagneticField.cpp: MagneticFieldStrengthAlbachModel::is_gap_within_validity_range", "src/physical_models/MagneticField.cpp: MagneticFieldStrengthAlbachModel::get_equivalent_inducing_point_for_gap"]}
{"id": "C448", "title": "The axial field of a gap has one direction in its window", "statement": "In the model of Roshen the axial field of a gap has the same direction at all points of the window beside it, and is weaker than nine tenths of the field of the gap. (False for gaps of lateral columns: nearer to the middle of the edge than half the length of the gap the field turns round and is stronger than that.)", "quantifier": "all gaps and points", "why_tests_cant": "Real numbers.", "anchors": ["src/physical_models/MagneticField.cpp: MagneticFieldStrengthRoshenModel::get_magnetic_field_strength_between_gap_and_point"]}
{"id": "C449", "title": "The radial field of a gap is mirrored about its middle", "statement": "In the model of Roshen the radial field of a gap is opposite at points mirrored about its middle, and positive above it.", "quantifier": "all gaps and points", "why_tests_cant": "Real numbers.", "anchors": ["src/physical_models/MagneticField.cpp: MagneticFieldStrengthRoshenModel::get_magnetic_field_strength_between_gap_and_point"]}
