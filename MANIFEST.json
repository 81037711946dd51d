{
 "claims": [
  {
   "property": "C01",
   "status": "proved",
   "theorems": [
    "Verif.Cache.cache_content",
    "Verif.Cache.cache_observations"
   ],
   "note": "Keyed store refinement over all operation sequences."
  },
  {
   "property": "C02",
   "status": "partial",
   "theorems": [
    "Verif.Catalog.frozen_unchanged_partial",
    "Verif.Catalog.frozen_call_would_not_change_partial",
    "Verif.Catalog.frozen_evict_changes",
    "Verif.Catalog.frozen_scope_end_changes"
   ],
   "note": "Holds for every guarded call; false for evict and for scopes ending while frozen (witnesses)."
  },
  {
   "property": "C03",
   "status": "proved",
   "theorems": [
    "Verif.Catalog.scope_restores",
    "Verif.Catalog.scope_leak_when_not_nested",
    "Verif.Catalog.scope_leak_after_move_assign"
   ],
   "note": "All properly nested traces; witnesses show that nesting is needed."
  },
  {
   "property": "C04",
   "status": "partial",
   "theorems": [
    "Verif.Catalog.overlay_lookup",
    "Verif.Catalog.overlay_families",
    "Verif.Catalog.scope_lookup_partial",
    "Verif.Catalog.replace_scope_shows_internal"
   ],
   "note": "Content of the overlay fully proved; lookups in an empty kind of a Replace scope load the embedded catalogue (witness)."
  },
  {
   "property": "C05",
   "status": "partial",
   "theorems": [
    "Verif.LibCtx.load_success",
    "Verif.LibCtx.load_failure_partial",
    "Verif.LibCtx.load_not_atomic"
   ],
   "note": "A failing kind leaves that kind and all later kinds as they were; the mode and the kinds before it keep the new content (witness), so the load is not atomic."
  },
  {
   "property": "C06",
   "status": "proved",
   "theorems": [
    "Verif.LibCtx.acceptsEnum_iff",
    "Verif.LibCtx.accepts_iff",
    "Verif.LibCtx.filterCores_spec",
    "Verif.LibCtx.filterWires_spec"
   ],
   "note": "All catalogues and constraint sets."
  },
  {
   "property": "C07",
   "status": "partial",
   "theorems": [
    "Verif.NumberTurns.combinations_good_partial",
    "Verif.NumberTurns.ratios_positive",
    "Verif.NumberTurns.first_call_ignores_multiple",
    "Verif.NumberTurns.bad_combination_after_exception",
    "Verif.NumberTurns.bad_combination_returned",
    "Verif.NumberTurns.next_is_first_fit",
    "Verif.NumberTurns.gives_up_only_without_fit"
   ],
   "note": "Each combination is good for the multiple of the previous call; the current multiple is ignored and a divergence exception leaves a bad combination (witnesses)."
  },
  {
   "property": "C08",
   "status": "proved",
   "theorems": [
    "Verif.Migration.migrate_idempotent",
    "Verif.Migration.scalars_kept",
    "Verif.Migration.strings_respelled",
    "Verif.Migration.arrays_kept",
    "Verif.Migration.objects_kept",
    "Verif.Migration.nothing_added",
    "Verif.Migration.costs",
    "Verif.Migration.current_unchanged",
    "Verif.Migration.migrated_is_current",
    "Verif.Migration.free_text_rewritten",
    "Verif.Migration.nested_cost_not_migrated",
    "Verif.Migration.strings_same_value"
   ],
   "note": "All JSON documents, the whole table. A free text equal to a legacy spelling is rewritten too, and the inside of a cost is not migrated (theorems)."
  },
  {
   "property": "C09",
   "status": "proved",
   "theorems": [
    "Verif.Requirements.check_throws_iff",
    "Verif.Requirements.check_accepts_iff",
    "Verif.Requirements.check_interval",
    "Verif.Requirements.check_nominal_self",
    "Verif.Requirements.check_negative_nominal_rejects_all",
    "Verif.Requirements.check_nominal_below_minimum_unnoticed"
   ],
   "note": "Exact acceptance set for every presence pattern."
  },
  {
   "property": "C10",
   "status": "proved",
   "theorems": [
    "Verif.Requirements.resolve_none_iff",
    "Verif.Requirements.resolve_within",
    "Verif.Requirements.resolve_ordered",
    "Verif.Requirements.resolve_value",
    "Verif.Requirements.resolve_plain"
   ],
   "note": "Every presence pattern and preference."
  },
  {
   "property": "C100",
   "status": "partial",
   "theorems": [
    "Verif.Gapping.distributed_along_column",
    "Verif.Gapping.overlapping_gaps_accepted",
    "Verif.Gapping.room_of_first_length"
   ],
   "note": "equal steps, symmetry and distances of gaps of one length are proved; false that gaps never overlap, and that distances are right for gaps of different lengths"
  },
  {
   "property": "C101",
   "status": "partial",
   "theorems": [
    "Verif.Gapping.placed_gaps_stay",
    "Verif.Gapping.second_pass",
    "Verif.Gapping.centred_gaps_same_room",
    "Verif.Gapping.ground_gap_loses_room",
    "Verif.Gapping.ground_gap_refused_again"
   ],
   "note": "false for one ground gap: its distance goes down by half its length the second time, and it is refused when longer than half its column; proved for gaps whose places are given, and for the rest of what a gap says"
  },
  {
   "property": "C102",
   "status": "partial",
   "theorems": [
    "Verif.Gapping.distribute_defined",
    "Verif.Gapping.process_defined",
    "Verif.Gapping.failure_keeps_gapping",
    "Verif.Gapping.ungappable",
    "Verif.Gapping.drum_ring_gaps",
    "Verif.Gapping.short_gaps_fit",
    "Verif.Gapping.long_gaps_refused",
    "Verif.Gapping.stacked_gaps",
    "Verif.Gapping.stacking_gaps_again",
    "Verif.Gapping.stacked_twice",
    "Verif.Gapping.process_or_throw",
    "Verif.Gapping.length_set",
    "Verif.Gapping.length_too_long_not_told",
    "Verif.Gapping.created_gapping",
    "Verif.Gapping.ground_is_distributed",
    "Verif.Gapping.uneven_flanges",
    "Verif.Gapping.created_everywhere"
   ],
   "note": "false that setting a length tells when it does not fit, and that gaps keep the area of the stack when the data of a core is processed again without its gaps"
  },
  {
   "property": "C103",
   "status": "partial",
   "theorems": [
    "Verif.CoreData.declared_windows_kept",
    "Verif.CoreData.one_window_per_column_partial",
    "Verif.CoreData.columns_distinct",
    "Verif.CoreData.windows_refused_iff",
    "Verif.CoreData.windows_processed_again",
    "Verif.CoreData.surplus_windows_duplicated"
   ],
   "note": "false with the setting of one window per column when a core declares more windows than that: columns get two windows instead of the exception"
  },
  {
   "property": "C104",
   "status": "proved",
   "theorems": [
    "Verif.CoreData.fits_as_it_is",
    "Verif.CoreData.fits_turned",
    "Verif.CoreData.fits_monotone"
   ],
   "note": "for a core that is processed"
  },
  {
   "property": "C105",
   "status": "proved",
   "theorems": [
    "Verif.Inductance.energy_of_any_currents",
    "Verif.Inductance.leakage_bounds"
   ],
   "note": "the field is taken to be linear in the currents; exact arithmetic"
  },
  {
   "property": "C106",
   "status": "partial",
   "theorems": [
    "Verif.Inductance.pair_leakage",
    "Verif.Inductance.short_circuit_partial",
    "Verif.Inductance.short_circuit_across",
    "Verif.Inductance.short_circuit_differs"
   ],
   "note": "false that the inductance matrix with a winding in short circuit gives the leakage of the pair: it gives less on one column, more on two; both differences are exact in the theorems"
  },
  {
   "property": "C107",
   "status": "partial",
   "theorems": [
    "Verif.Inductance.matrix_by_names",
    "Verif.Inductance.same_names_lost",
    "Verif.Inductance.inductances_passive",
    "Verif.Inductance.two_matrices",
    "Verif.Inductance.two_matrices_differ",
    "Verif.Inductance.definite_partial",
    "Verif.Inductance.definite_fails",
    "Verif.Inductance.mutual_of_the_core",
    "Verif.Inductance.coupling_within_one",
    "Verif.Inductance.coupling_without_leakage",
    "Verif.Inductance.network_passive",
    "Verif.Inductance.coupling_never_beyond"
   ],
   "note": "false for windings of the same name, that couplings are always below one, and that mutual inductance and coupling asked for on their own are those of the matrix: they leave out the mutual leakage"
  },
  {
   "property": "C108",
   "status": "proved",
   "theorems": [
    "Verif.Inductance.inversion",
    "Verif.Inductance.inversion_definite"
   ],
   "note": "exact arithmetic: with doubles a pivot of a singular matrix may be a rounding error instead of zero"
  },
  {
   "property": "C109",
   "status": "partial",
   "theorems": [
    "Verif.Inductance.effective_leakages",
    "Verif.Inductance.model_given",
    "Verif.Inductance.build_from_leakage_partial",
    "Verif.Inductance.short_row_undefined",
    "Verif.Inductance.output_inductance_partial",
    "Verif.Inductance.output_inductance_one_column",
    "Verif.Inductance.output_inductance_wrong"
   ],
   "note": "false that the output inductance is what is measured, unless the first winding has no leakage at all; false that a leakage matrix of other sizes is refused"
  },
  {
   "property": "C11",
   "status": "partial",
   "theorems": [
    "Verif.Scoring.normalize_linear",
    "Verif.Scoring.normalize_log_partial",
    "Verif.Scoring.normalize_throws_iff",
    "Verif.Scoring.normalize_map",
    "Verif.Scoring.addScores_spec",
    "Verif.Scoring.log_out_of_range"
   ],
   "note": "Linear mode complete; logarithmic mode for values that are zero or at least 1e-10 and not all zero; a positive value below 1e-10 next to a zero gets a negative score (witness)."
  },
  {
   "property": "C110",
   "status": "proved",
   "theorems": [
    "Verif.Thermal.heat_balance",
    "Verif.Thermal.losses_come_out"
   ],
   "note": "exact arithmetic"
  },
  {
   "property": "C111",
   "status": "proved",
   "theorems": [
    "Verif.Thermal.links_conduct",
    "Verif.Thermal.connected_solved",
    "Verif.Thermal.cut_off_refused"
   ],
   "note": "exact arithmetic: with doubles a pivot of a singular matrix may be a rounding error above 1e-15 instead of zero"
  },
  {
   "property": "C112",
   "status": "proved",
   "theorems": [
    "Verif.Thermal.no_colder",
    "Verif.Thermal.no_hotter",
    "Verif.Thermal.more_losses",
    "Verif.Thermal.sink_helps"
   ],
   "note": "at the same resistances"
  },
  {
   "property": "C113",
   "status": "proved",
   "theorems": [
    "Verif.Thermal.only_settled",
    "Verif.Thermal.iterations_bounded",
    "Verif.Thermal.settled_balance",
    "Verif.Thermal.given_kept",
    "Verif.Thermal.never_colder",
    "Verif.Thermal.unpowered_ambient",
    "Verif.Thermal.failure_leaves_nodes",
    "Verif.Thermal.ambient_chosen",
    "Verif.Thermal.radiation_through",
    "Verif.Thermal.recalculated_others"
   ],
   "note": "whether the iteration converges is not claimed; exact arithmetic"
  },
  {
   "property": "C114",
   "status": "partial",
   "theorems": [
    "Verif.Thermal.maximum_bounds",
    "Verif.Thermal.maximum_is_hottest_partial",
    "Verif.Thermal.maximum_not_hottest",
    "Verif.Thermal.resistance_explains_rise",
    "Verif.Thermal.bulk_agrees",
    "Verif.Thermal.averages_between",
    "Verif.Thermal.all_named",
    "Verif.Thermal.last_of_a_name"
   ],
   "note": "false that the maximum is the temperature of a part when all are colder than the ambient, on a cold plate"
  },
  {
   "property": "C115",
   "status": "partial",
   "theorems": [
    "Verif.Thermal.concentric_losses_kept",
    "Verif.Thermal.concentric_losses_nonneg",
    "Verif.Thermal.toroidal_losses_kept_partial",
    "Verif.Thermal.no_segments_lose",
    "Verif.Thermal.toroidal_turns_kept",
    "Verif.Thermal.concentric_turns_kept_partial",
    "Verif.Thermal.losses_required",
    "Verif.Thermal.spare_losses_dropped",
    "Verif.Thermal.turn_losses_all"
   ],
   "note": "false with zero segments, and with losses of more turns than a coil that is not of a toroid has"
  },
  {
   "property": "C116",
   "status": "partial",
   "theorems": [
    "Verif.Thermal.cooling_priority",
    "Verif.Thermal.cooling_unknown",
    "Verif.Thermal.heatsink_adds",
    "Verif.Thermal.heatsink_needs_yoke",
    "Verif.Thermal.coldPlate_adds",
    "Verif.Thermal.plate_interface_partial",
    "Verif.Thermal.plate_ignores_interface",
    "Verif.Thermal.forced_changes",
    "Verif.Thermal.moving_air_alone",
    "Verif.Thermal.slow_air_cools_worse",
    "Verif.Thermal.forced_mixed"
   ],
   "note": "false that the interface resistance of a cold plate is used when no thickness is given, and that moving air never cools worse than still air"
  },
  {
   "property": "C117",
   "status": "proved",
   "theorems": [
    "Verif.Thermal.by_component_largest",
    "Verif.Thermal.per_turn_largest",
    "Verif.Thermal.turn_halves",
    "Verif.Thermal.at_point_nearest",
    "Verif.Thermal.at_point_refused"
   ],
   "note": "nodes have at least two coordinates"
  },
  {
   "property": "C118",
   "status": "partial",
   "theorems": [
    "Verif.Thermal.radiation_exact",
    "Verif.Thermal.radiation_symmetric",
    "Verif.Thermal.table_interpolates",
    "Verif.Thermal.table_ends",
    "Verif.Thermal.table_empty",
    "Verif.Thermal.repeated_temperature_nan",
    "Verif.Thermal.material_table",
    "Verif.Thermal.material_never_ends",
    "Verif.Thermal.radiation_through",
    "Verif.Thermal.recalculated_others"
   ],
   "note": "false for a table with a temperature twice, and for a wire material without a table, whose conductivity by name is never given"
  },
  {
   "property": "C119",
   "status": "partial",
   "theorems": [
    "Verif.Waveforms.average_between",
    "Verif.Waveforms.average_multiplied",
    "Verif.Waveforms.average_raised",
    "Verif.Waveforms.average_added",
    "Verif.Waveforms.average_without_times"
   ],
   "note": "a waveform without times has no average: the times are read without a test"
  },
  {
   "property": "C12",
   "status": "partial",
   "theorems": [
    "Verif.Scoring.cross_reranked",
    "Verif.Scoring.cross_tie_neutral",
    "Verif.Scoring.cross_tie_at_zero_not_neutral",
    "Verif.Scoring.cross_nan_first",
    "Verif.Scoring.reported_range_partial",
    "Verif.Scoring.reportFilter_eq",
    "Verif.Scoring.report_range_partial",
    "Verif.Scoring.reported_negative"
   ],
   "note": "Totals and order fully characterised when the first score is finite and none is +inf; reported scores leave [0,1] for raw values under the floor, ties at zero are not neutral, NaN in front swamps all scores (witnesses)."
  },
  {
   "property": "C120",
   "status": "proved",
   "theorems": [
    "Verif.Waveforms.sizes_must_agree",
    "Verif.Waveforms.subtract_added",
    "Verif.Waveforms.added_pointwise",
    "Verif.Waveforms.shift_empty",
    "Verif.Waveforms.shift_moves",
    "Verif.Waveforms.shift_shift",
    "Verif.Waveforms.shift_turn",
    "Verif.Waveforms.shift_back"
   ],
   "note": "exact arithmetic: doubles round in sums"
  },
  {
   "property": "C121",
   "status": "partial",
   "theorems": [
    "Verif.Waveforms.sampled_on_waveform",
    "Verif.Waveforms.onWaveform_unique",
    "Verif.Waveforms.sampled_between",
    "Verif.Waveforms.sampled_succeeds",
    "Verif.Waveforms.late_start_refused",
    "Verif.Waveforms.early_start_refused",
    "Verif.Waveforms.timeless_slow_refused"
   ],
   "note": "success needs times from zero on, which is where samples start; others are refused"
  },
  {
   "property": "C122",
   "status": "proved",
   "theorems": [
    "Verif.Waveforms.sampled_multiplied",
    "Verif.Waveforms.sampled_raised",
    "Verif.Waveforms.sampled_added",
    "Verif.Waveforms.frequency_unused",
    "Verif.Waveforms.signals_added"
   ],
   "note": "exact arithmetic; labels are left aside for the sum, which carries that of the first"
  },
  {
   "property": "C123",
   "status": "partial",
   "theorems": [
    "Verif.Waveforms.sampled_is_sampled",
    "Verif.Waveforms.sampled_again_shorter",
    "Verif.Waveforms.sampled_again_example",
    "Verif.Waveforms.signals_drift"
   ],
   "note": "false that sampling again gives the same: the period shrinks by one sample each time"
  },
  {
   "property": "C124",
   "status": "partial",
   "theorems": [
    "Verif.Waveforms.compressed_points",
    "Verif.Waveforms.compressed_extremes_partial",
    "Verif.Waveforms.tiny_extremes_lost",
    "Verif.Waveforms.slow_bend_lost"
   ],
   "note": "extremes are kept unless slopes are below 1e-9; slow bends are lost however much they bend altogether"
  },
  {
   "property": "C125",
   "status": "partial",
   "theorems": [
    "Verif.Waveforms.integral_of_derivative",
    "Verif.Waveforms.integral_of_derivative_centred",
    "Verif.Waveforms.jump_lost"
   ],
   "note": "needs times that increase strictly: jumps are lost"
  },
  {
   "property": "C126",
   "status": "partial",
   "theorems": [
    "Verif.Waveforms.largest_gathered",
    "Verif.Waveforms.volt_seconds_nonneg",
    "Verif.Waveforms.volt_seconds_scaled",
    "Verif.Waveforms.excursion_bounds",
    "Verif.Waveforms.depends_on_start",
    "Verif.Waveforms.ramp_has_none",
    "Verif.Waveforms.sinusoidal_fallback",
    "Verif.Waveforms.point_is_largest"
   ],
   "note": "false that the start does not matter; every interval counts with the voltage at its start"
  },
  {
   "property": "C127",
   "status": "partial",
   "theorems": [
    "Verif.Waveforms.created_times_partial",
    "Verif.Waveforms.bipolar_times_go_back",
    "Verif.Waveforms.created_extremes",
    "Verif.Waveforms.created_average",
    "Verif.Waveforms.bipolar_ignores_offset",
    "Verif.Waveforms.negative_skew_ignored",
    "Verif.Waveforms.long_skew_undefined",
    "Verif.Waveforms.whole_skew"
   ],
   "note": "false for bipolar rectangular waveforms of more than half duty, offsets of bipolar ones, and skews; sines are not covered"
  },
  {
   "property": "C128",
   "status": "partial",
   "theorems": [
    "Verif.Waveforms.measured_back_partial",
    "Verif.Waveforms.rectangular_offset_lost",
    "Verif.Waveforms.secondary_duty_rounded",
    "Verif.Waveforms.deadtime_counted_as_on",
    "Verif.Waveforms.sinusoidal_duty"
   ],
   "note": "false for offsets of rectangular waveforms, duty cycles of secondary ones, and dead times from one half on"
  },
  {
   "property": "C129",
   "status": "proved",
   "theorems": [
    "Verif.Waveforms.duty_in_unit",
    "Verif.Waveforms.duty_without_times",
    "Verif.Waveforms.duty_unchanged",
    "Verif.Waveforms.duty_of_constant",
    "Verif.Waveforms.duty_of_pulses"
   ],
   "note": "exact arithmetic"
  },
  {
   "property": "C13",
   "status": "proved",
   "theorems": [
    "Verif.Adviser.cull_result",
    "Verif.Adviser.cull_stateless",
    "Verif.Adviser.gate_filters",
    "Verif.Adviser.optional_filters",
    "Verif.Adviser.turnCount_filters",
    "Verif.Adviser.pipeline_filters",
    "Verif.Adviser.order_irrelevant",
    "Verif.Adviser.fewer_turns_score_higher"
   ],
   "note": "The verdict of each filter is a parameter; filters that write their copy back are included."
  },
  {
   "property": "C130",
   "status": "partial",
   "theorems": [
    "Verif.Waveforms.unipolar_recognised_iff",
    "Verif.Waveforms.label_depends_on_unit",
    "Verif.Waveforms.shapes_recognised",
    "Verif.Waveforms.decay_labelled_triangular",
    "Verif.Waveforms.ripple_labelled_sinusoidal",
    "Verif.Waveforms.open_corners_not_triangular"
   ],
   "note": "false that units do not matter, and that curves that are no shape are custom"
  },
  {
   "property": "C131",
   "status": "partial",
   "theorems": [
    "Verif.Waveforms.basic_peaks",
    "Verif.Waveforms.constant_rectangular_undefined",
    "Verif.Waveforms.rms_bounds",
    "Verif.Waveforms.rms_below_average",
    "Verif.Waveforms.effective_frequency_between",
    "Verif.Waveforms.ac_effective_frequency_ge",
    "Verif.Waveforms.thd_scale",
    "Verif.Waveforms.given_kept"
   ],
   "note": "false that the root mean square reported is at least the average reported, and that every waveform has processed data"
  },
  {
   "property": "C132",
   "status": "proved",
   "theorems": [
    "Verif.Waveforms.scaled_period",
    "Verif.Waveforms.scaled_twice"
   ],
   "note": "exact arithmetic"
  },
  {
   "property": "C133",
   "status": "proved",
   "theorems": [
    "Verif.Fft.fft_computes_sums",
    "Verif.Fft.transform_is_fourier",
    "Verif.Fft.transform_needs_two"
   ],
   "note": "exact arithmetic; sizes up to 2^31, as unsigned int holds them"
  },
  {
   "property": "C134",
   "status": "proved",
   "theorems": [
    "Verif.Fft.inverse_undoes_transform",
    "Verif.Fft.transform_injective"
   ],
   "note": "exact arithmetic"
  },
  {
   "property": "C135",
   "status": "proved",
   "theorems": [
    "Verif.Fft.harmonics_refused",
    "Verif.Fft.harmonics_undefined",
    "Verif.Fft.harmonics_are_components",
    "Verif.Fft.first_amplitude_mean",
    "Verif.Fft.amplitude_bounds"
   ],
   "note": "exact arithmetic; no value and a single value are undefined"
  },
  {
   "property": "C136",
   "status": "proved",
   "theorems": [
    "Verif.Fft.harmonics_scaled",
    "Verif.Fft.harmonics_offset",
    "Verif.Fft.harmonics_shifted",
    "Verif.Fft.harmonics_of_sum"
   ],
   "note": "exact arithmetic"
  },
  {
   "property": "C137",
   "status": "proved",
   "theorems": [
    "Verif.Fft.mean_square",
    "Verif.Fft.harmonics_power_le"
   ],
   "note": "exact arithmetic"
  },
  {
   "property": "C138",
   "status": "partial",
   "theorems": [
    "Verif.Fft.signal_read_back",
    "Verif.Fft.reconstructed_harmonics",
    "Verif.Fft.harmonics_kept",
    "Verif.Fft.odd_setting_refused",
    "Verif.Fft.sign_of_mean_lost"
   ],
   "note": "false for settings that are not powers of two, whose signals have no harmonics, and for negative means, which come back positive"
  },
  {
   "property": "C139",
   "status": "proved",
   "theorems": [
    "Verif.Fft.trimmed_keeps",
    "Verif.Fft.trimmed_keeps_main",
    "Verif.Fft.trimmed_only_imported"
   ],
   "note": "harmonics have at least two entries, as those of four values or more do"
  },
  {
   "property": "C14",
   "status": "proved",
   "theorems": [
    "Verif.Adviser.batched_ranked",
    "Verif.Adviser.rankAndCut_ranked",
    "Verif.Adviser.batch_zero_never_finishes"
   ],
   "note": "The per-batch adviser is a parameter. A batch size of zero never finishes (theorem)."
  },
  {
   "property": "C140",
   "status": "partial",
   "theorems": [
    "Verif.Fft.sampled_first_partial",
    "Verif.Fft.times_ignored",
    "Verif.Fft.corners_taken_as_samples",
    "Verif.Fft.four_values_undistorted",
    "Verif.Fft.two_values_undefined"
   ],
   "note": "false when the number of corners is a power of two: they are taken for samples at equal steps"
  },
  {
   "property": "C141",
   "status": "partial",
   "theorems": [
    "Verif.StrayCapacitance.voltages_are",
    "Verif.StrayCapacitance.turns_follow",
    "Verif.StrayCapacitance.ends_of_parallel",
    "Verif.StrayCapacitance.voltage_within_turn",
    "Verif.StrayCapacitance.parallels_same_voltage",
    "Verif.StrayCapacitance.center_is_mean_iff",
    "Verif.StrayCapacitance.first_turn_at_whole_voltage",
    "Verif.StrayCapacitance.voltages_need_turns",
    "Verif.StrayCapacitance.excitations_read"
   ],
   "note": "exact arithmetic; the voltage at which a turn is taken is not the mean of its ends, except for the turn in the middle"
  },
  {
   "property": "C142",
   "status": "partial",
   "theorems": [
    "Verif.StrayCapacitance.layers_in_series",
    "Verif.StrayCapacitance.permittivity_between",
    "Verif.StrayCapacitance.permittivity_symmetric",
    "Verif.StrayCapacitance.no_thickness_takes_second"
   ],
   "note": "exact arithmetic; two layers without thickness depend on their order, and an infinite thickness counts as the larger permittivity"
  },
  {
   "property": "C143",
   "status": "partial",
   "theorems": [
    "Verif.StrayCapacitance.core_floats",
    "Verif.StrayCapacitance.through_core_le",
    "Verif.StrayCapacitance.winding_to_core_sum",
    "Verif.StrayCapacitance.through_core_le_windings",
    "Verif.StrayCapacitance.through_core_scaled",
    "Verif.StrayCapacitance.through_core_swap_partial",
    "Verif.StrayCapacitance.through_core_depends_on_order",
    "Verif.StrayCapacitance.through_core_uniform"
   ],
   "note": "exact arithmetic; which winding is named first matters when one has no voltage"
  },
  {
   "property": "C144",
   "status": "proved",
   "theorems": [
    "Verif.StrayCapacitance.among_turns_symmetric",
    "Verif.StrayCapacitance.among_turns_iff",
    "Verif.StrayCapacitance.among_turns_value",
    "Verif.StrayCapacitance.among_turns_self"
   ],
   "note": "which turns are next to each other, and the capacitance of two turns, are inputs of the model"
  },
  {
   "property": "C145",
   "status": "partial",
   "theorems": [
    "Verif.StrayCapacitance.loop_ends",
    "Verif.StrayCapacitance.between_windings_value",
    "Verif.StrayCapacitance.between_windings_le",
    "Verif.StrayCapacitance.between_windings_scaled",
    "Verif.StrayCapacitance.apart_windings",
    "Verif.StrayCapacitance.self_value_partial",
    "Verif.StrayCapacitance.self_le",
    "Verif.StrayCapacitance.self_apart",
    "Verif.StrayCapacitance.windings_never_refused",
    "Verif.StrayCapacitance.chain_in_series",
    "Verif.StrayCapacitance.order_of_windings_matters",
    "Verif.StrayCapacitance.spread_winding_loses_core",
    "Verif.StrayCapacitance.no_voltage_no_capacitance"
   ],
   "note": "exact arithmetic; false for the order of windings, for a winding whose turns are not next to each other (its energy to the core is left out), and for windings next to each other only at turns without voltage"
  },
  {
   "property": "C146",
   "status": "proved",
   "theorems": [
    "Verif.StrayCapacitance.among_windings_symmetric",
    "Verif.StrayCapacitance.among_windings_value",
    "Verif.StrayCapacitance.among_windings_never_refused",
    "Verif.StrayCapacitance.energy_symmetric",
    "Verif.StrayCapacitance.drop_antisymmetric",
    "Verif.StrayCapacitance.energy_of_drop"
   ],
   "note": "exact arithmetic; voltages not negative; tables by index of turn, names of turns being different"
  },
  {
   "property": "C147",
   "status": "partial",
   "theorems": [
    "Verif.StrayCapacitance.six_capacitors_energy",
    "Verif.StrayCapacitance.six_capacitors_nonneg",
    "Verif.StrayCapacitance.six_capacitors_limit",
    "Verif.StrayCapacitance.tripoles_are",
    "Verif.StrayCapacitance.tripole_not_swapped",
    "Verif.StrayCapacitance.maxwell_refused_iff",
    "Verif.StrayCapacitance.maxwell_values",
    "Verif.StrayCapacitance.maxwell_energy",
    "Verif.StrayCapacitance.maxwell_passive",
    "Verif.StrayCapacitance.maxwell_row_sum",
    "Verif.StrayCapacitance.maxwell_of_coil"
   ],
   "note": "exact arithmetic; the tripole under (second, first) is that of (first, second)"
  },
  {
   "property": "C148",
   "status": "partial",
   "theorems": [
    "Verif.StrayCapacitance.cas_refused_iff",
    "Verif.StrayCapacitance.cab_refused_iff",
    "Verif.StrayCapacitance.cas_step",
    "Verif.StrayCapacitance.cab_step",
    "Verif.StrayCapacitance.cas_between",
    "Verif.StrayCapacitance.cas_settles",
    "Verif.StrayCapacitance.fixed_point_not_root",
    "Verif.StrayCapacitance.cas_lt_two_cab",
    "Verif.StrayCapacitance.one_layer_positive",
    "Verif.StrayCapacitance.one_layer_refused",
    "Verif.StrayCapacitance.toroid_needs_core",
    "Verif.StrayCapacitance.toroid_core_term",
    "Verif.StrayCapacitance.longer_turns_less_capacitance"
   ],
   "note": "exact arithmetic; false for longer turns: the result drops where the inner term goes above 1e-13"
  },
  {
   "property": "C149",
   "status": "partial",
   "theorems": [
    "Verif.StrayCapacitance.turn_to_core_nonneg",
    "Verif.StrayCapacitance.turn_to_core_length",
    "Verif.StrayCapacitance.turn_to_core_antitone",
    "Verif.StrayCapacitance.turn_to_core_le_plate",
    "Verif.StrayCapacitance.touching_is_less"
   ],
   "note": "over the real numbers; false for a bare wire touching a bare core"
  },
  {
   "property": "C15",
   "status": "partial",
   "theorems": [
    "Verif.CrossRef.cross_reference_partial",
    "Verif.CrossRef.cross_reference_finishes",
    "Verif.CrossRef.history_partial",
    "Verif.CrossRef.limit_exceeded",
    "Verif.CrossRef.stale_reference",
    "Verif.CrossRef.second_call_looser",
    "Verif.CrossRef.cut_before_losses",
    "Verif.CrossRef.nothing_missed"
   ],
   "note": "Complete for one call on a new object up to the limit actually used. False of the code: the limit used can be up to twice the configured one (or 0.25), results of an earlier call for another reference leak into the next one, and the list is cut before the losses are looked at (witnesses). Histories are covered for one reference."
  },
  {
   "property": "C150",
   "status": "partial",
   "theorems": [
    "Verif.CoreLosses.models_exact",
    "Verif.CoreLosses.chosen_first",
    "Verif.CoreLosses.choice_refused",
    "Verif.CoreLosses.choice_settled",
    "Verif.CoreLosses.preferred_used",
    "Verif.CoreLosses.any_data_served",
    "Verif.CoreLosses.natural_never",
    "Verif.CoreLosses.method_data",
    "Verif.CoreLosses.chosen_usable_partial",
    "Verif.CoreLosses.variant_refused",
    "Verif.CoreLosses.variant_proprietary_refused",
    "Verif.CoreLosses.mass_hidden"
   ],
   "note": "data in variants other than the default one, and losses by mass beside points by volume, make a model be chosen that then refuses to work"
  },
  {
   "property": "C151",
   "status": "partial",
   "theorems": [
    "Verif.CoreLosses.range_of_frequency",
    "Verif.CoreLosses.missing_end_refused",
    "Verif.CoreLosses.below_all",
    "Verif.CoreLosses.above_all",
    "Verif.CoreLosses.hole_refused",
    "Verif.CoreLosses.coefficients_of_material",
    "Verif.CoreLosses.contiguous_served",
    "Verif.CoreLosses.hole_witness",
    "Verif.CoreLosses.radio_witness"
   ],
   "note": "frequencies in a hole between ranges are refused, and so are those below ranges that all start at 100 MHz or over"
  },
  {
   "property": "C152",
   "status": "partial",
   "theorems": [
    "Verif.CoreLosses.steinmetz_equation",
    "Verif.CoreLosses.temperature_factor",
    "Verif.CoreLosses.steinmetz_nonneg",
    "Verif.CoreLosses.steinmetz_monotone",
    "Verif.CoreLosses.steinmetz_scales",
    "Verif.CoreLosses.flux_round_trip",
    "Verif.CoreLosses.flux_from_volumetric_partial",
    "Verif.CoreLosses.flux_from_volumetric_fails"
   ],
   "note": "over the real numbers; the flux density from losses by volume is not a number where the polynomial of the temperature is negative"
  },
  {
   "property": "C153",
   "status": "partial",
   "theorems": [
    "Verif.CoreLosses.frequencyLoop_sound",
    "Verif.CoreLosses.frequency_round_trip_partial",
    "Verif.CoreLosses.frequency_of_own_range",
    "Verif.CoreLosses.frequency_settled",
    "Verif.CoreLosses.frequency_wrong_range"
   ],
   "note": "over the real numbers; two ranges of the same exponent are taken to be the same"
  },
  {
   "property": "C154",
   "status": "partial",
   "theorems": [
    "Verif.CoreLosses.strongest_spec",
    "Verif.CoreLosses.switching_own",
    "Verif.CoreLosses.switching_strongest",
    "Verif.CoreLosses.switching_ub",
    "Verif.CoreLosses.flux_peak",
    "Verif.CoreLosses.amplitude_half_partial",
    "Verif.CoreLosses.amplitude_downwards",
    "Verif.CoreLosses.peak_over_offset",
    "Verif.CoreLosses.amplitude_witness",
    "Verif.CoreLosses.harmonic_offset_witness"
   ],
   "note": "exact arithmetic; false with a bias downwards, and for the amplitude of a harmonic"
  },
  {
   "property": "C155",
   "status": "partial",
   "theorems": [
    "Verif.CoreLosses.igse_equation",
    "Verif.CoreLosses.igse_nonneg",
    "Verif.CoreLosses.igse_shift",
    "Verif.CoreLosses.igse_reversed",
    "Verif.CoreLosses.igse_scales",
    "Verif.CoreLosses.igse_faster",
    "Verif.CoreLosses.igse_refined",
    "Verif.CoreLosses.igse_triangle",
    "Verif.CoreLosses.igse_least",
    "Verif.CoreLosses.nse_is_igse",
    "Verif.CoreLosses.albach_is_mse",
    "Verif.CoreLosses.mse_equation",
    "Verif.CoreLosses.equivalent_least",
    "Verif.CoreLosses.cigse_is_igse",
    "Verif.CoreLosses.cigse_ignores_datum",
    "Verif.CoreLosses.barg_factor",
    "Verif.CoreLosses.plateau_below_zero"
   ],
   "note": "over the real numbers; the spline of Barg's model is a parameter; ciGSE does not take the coefficients set for it, and Barg's model takes a waveform below zero for a plateau"
  },
  {
   "property": "C156",
   "status": "partial",
   "theorems": [
    "Verif.CoreLosses.one_period_whole",
    "Verif.CoreLosses.points_in_bounds",
    "Verif.CoreLosses.last_interval_missing"
   ],
   "note": "exact arithmetic; the last interval is left out for three or more periods"
  },
  {
   "property": "C157",
   "status": "partial",
   "theorems": [
    "Verif.CoreLosses.bias_bounds",
    "Verif.CoreLosses.bias_none",
    "Verif.CoreLosses.bias_ratio",
    "Verif.CoreLosses.bias_even",
    "Verif.CoreLosses.bias_monotone",
    "Verif.CoreLosses.corrected_scaled",
    "Verif.CoreLosses.corrected_number",
    "Verif.CoreLosses.volumetric_agrees_partial",
    "Verif.CoreLosses.roshen_disagrees"
   ],
   "note": "exact arithmetic; losses by volume asked for alone are not corrected for Roshen's model"
  },
  {
   "property": "C158",
   "status": "partial",
   "theorems": [
    "Verif.CoreLosses.semishielded_sum",
    "Verif.CoreLosses.flux_continuous",
    "Verif.CoreLosses.area_steinmetz_partial",
    "Verif.CoreLosses.area_igse",
    "Verif.CoreLosses.semishielded_nan"
   ],
   "note": "over the real numbers; with iGSE the waveform is not scaled, and losses that are not a number are given"
  },
  {
   "property": "C159",
   "status": "partial",
   "theorems": [
    "Verif.CoreLosses.maker_published",
    "Verif.CoreLosses.maker_nonneg",
    "Verif.CoreLosses.micrometals_round_trip_partial",
    "Verif.CoreLosses.micrometals_linear_nan",
    "Verif.CoreLosses.magnetics_round_trip",
    "Verif.CoreLosses.poco_round_trip_partial",
    "Verif.CoreLosses.magnetec_round_trip",
    "Verif.CoreLosses.magnetics_bias_fails"
   ],
   "note": "over the real numbers; false for Micrometals without quadratic coefficient, and for a biased flux density"
  },
  {
   "property": "C16",
   "status": "partial",
   "theorems": [
    "Verif.Datasheet.select_judged",
    "Verif.Datasheet.no_datasheet",
    "Verif.Datasheet.accepted_iff",
    "Verif.Datasheet.points_holds",
    "Verif.Datasheet.headroom_eq_margin",
    "Verif.Datasheet.limits_iff",
    "Verif.Datasheet.winding_beyond_list_unchecked",
    "Verif.Datasheet.rejected_with_best_score",
    "Verif.Datasheet.other_entries_ignored"
   ],
   "note": "Hypothesis: the published saturation currents are not negative. Witnesses: a rejection can carry the best score, windings beyond the published list and entries other than the selected ones are not checked."
  },
  {
   "property": "C160",
   "status": "partial",
   "theorems": [
    "Verif.CoreLosses.frequency_nearest",
    "Verif.CoreLosses.frequencies_tried",
    "Verif.CoreLosses.frequency_of_nothing",
    "Verif.CoreLosses.amplitudes_tried",
    "Verif.CoreLosses.flux_nearest_partial",
    "Verif.CoreLosses.flux_of_nothing",
    "Verif.CoreLosses.flux_stops_early"
   ],
   "note": "exact arithmetic; the search of the flux density ends early if losses do not grow with it"
  },
  {
   "property": "C161",
   "status": "partial",
   "theorems": [
    "Verif.CoreLosses.clean_spec",
    "Verif.CoreLosses.too_few",
    "Verif.CoreLosses.ranges_follow_partial",
    "Verif.CoreLosses.assigned",
    "Verif.CoreLosses.refusal_spec",
    "Verif.CoreLosses.empty_range_hole",
    "Verif.CoreLosses.no_ranges"
   ],
   "note": "exact arithmetic; the fit itself is not modelled; a range without points leaves a hole"
  },
  {
   "property": "C162",
   "status": "partial",
   "theorems": [
    "Verif.CoreLosses.loop_points",
    "Verif.CoreLosses.loop_symmetric",
    "Verif.CoreLosses.loop_increasing",
    "Verif.CoreLosses.loop_encloses",
    "Verif.CoreLosses.tips_meet_partial",
    "Verif.CoreLosses.hysteresis_area_partial",
    "Verif.CoreLosses.hysteresis_nonneg",
    "Verif.CoreLosses.small_swing_unmoved",
    "Verif.CoreLosses.hysteresis_collapses"
   ],
   "note": "exact arithmetic; false for swings below half the flux density of the upper branch at the coercive force, where no shift is found and the branches are compared at different fields"
  },
  {
   "property": "C163",
   "status": "partial",
   "theorems": [
    "Verif.CoreLosses.resistivity_positive",
    "Verif.CoreLosses.eddy_equation",
    "Verif.CoreLosses.excess_equation",
    "Verif.CoreLosses.eddy_nonneg",
    "Verif.CoreLosses.eddy_least",
    "Verif.CoreLosses.components_add_partial",
    "Verif.CoreLosses.components_short",
    "Verif.CoreLosses.ring_agrees_iff",
    "Verif.CoreLosses.ring_witness"
   ],
   "note": "over the real numbers; false with bias, which corrects the sum and not its parts, and for the losses by volume asked for alone, which are those of a ring of fixed size"
  },
  {
   "property": "C164",
   "status": "partial",
   "theorems": [
    "Verif.CoreLosses.series_exact_partial",
    "Verif.CoreLosses.series_understated",
    "Verif.CoreLosses.series_vanishes",
    "Verif.CoreLosses.series_witness",
    "Verif.CoreLosses.factor_losses",
    "Verif.CoreLosses.factor_no_current"
   ],
   "note": "over the real numbers; turns are truncated, so the resistance is less than asked for, and none under one turn; without current the conversion of turns is undefined"
  },
  {
   "property": "C165",
   "status": "partial",
   "theorems": [
    "Verif.Impedance.tank_circuit",
    "Verif.Impedance.tank_defined",
    "Verif.Impedance.impedance_circuit",
    "Verif.Impedance.impedance_passive",
    "Verif.Impedance.reactance_sign",
    "Verif.Impedance.resonance_turns",
    "Verif.Impedance.leakage_tanks",
    "Verif.Impedance.differential_one_winding",
    "Verif.Impedance.q_factor"
   ],
   "note": "over the real and complex numbers, for frequencies other than zero; false for the differential mode, which has the resistance of the first winding alone"
  },
  {
   "property": "C166",
   "status": "partial",
   "theorems": [
    "Verif.Impedance.ungapped_inductance_partial",
    "Verif.Impedance.gapped_inductance",
    "Verif.Impedance.gapped_right_iff",
    "Verif.Impedance.gapped_witness",
    "Verif.Impedance.tank_capacitance",
    "Verif.Impedance.resonance_of_tank",
    "Verif.Impedance.fast_resonance_high",
    "Verif.Impedance.resonance_without_temperature",
    "Verif.Impedance.resonance_temperature_witness"
   ],
   "note": "over the real numbers; false with gaps, with the fast model of capacitance of several windings, and for the temperature"
  },
  {
   "property": "C167",
   "status": "partial",
   "theorems": [
    "Verif.Impedance.permittivity_order",
    "Verif.Impedance.permittivity_interpolates",
    "Verif.Impedance.zero_frequency_undefined",
    "Verif.Impedance.permittivity_fallback",
    "Verif.Impedance.attenuation_without_data",
    "Verif.Impedance.attenuation_passive",
    "Verif.Impedance.attenuation_defined",
    "Verif.Impedance.attenuation_dc",
    "Verif.Impedance.attenuation_symmetric"
   ],
   "note": "over the real and complex numbers; false for points at zero frequency"
  },
  {
   "property": "C168",
   "status": "partial",
   "theorems": [
    "Verif.Impedance.minimum_turns",
    "Verif.Impedance.minimum_turns_gives_up",
    "Verif.Impedance.minimum_turns_without_requirement",
    "Verif.Impedance.four_turns",
    "Verif.Impedance.others_kept"
   ],
   "note": "the impedance and the self resonance are any functions of the turns; false for the other windings, which keep the turns they had while trying"
  },
  {
   "property": "C169",
   "status": "partial",
   "theorems": [
    "Verif.Sweeper.axis_spans",
    "Verif.Sweeper.axis_ratio",
    "Verif.Sweeper.each_plots",
    "Verif.Sweeper.one_winding_plots",
    "Verif.Sweeper.common_plots",
    "Verif.Sweeper.differential_plots",
    "Verif.Sweeper.windings_add",
    "Verif.Sweeper.no_points",
    "Verif.Sweeper.flux_same",
    "Verif.Sweeper.volt_seconds_fall",
    "Verif.Sweeper.losses_rise",
    "Verif.Sweeper.differential_reference"
   ],
   "note": "over the real numbers; asked for no points two sweeps read out of a vector; the sweep of core losses of one winding keeps the flux density of its current at every frequency"
  },
  {
   "property": "C17",
   "status": "partial",
   "theorems": [
    "Verif.Closest.closest_valid",
    "Verif.Closest.closest_is_neighbour",
    "Verif.Closest.closest_partial",
    "Verif.Closest.getClosest_correct",
    "Verif.Closest.closest_wrong"
   ],
   "note": "The index is valid and adjacent to the target; it is not always the nearest (witness)."
  },
  {
   "property": "C170",
   "status": "partial",
   "theorems": [
    "Verif.Wire.effective_is_partial",
    "Verif.Wire.effective_dc",
    "Verif.Wire.effective_mono_partial",
    "Verif.Wire.effective_bounds_partial",
    "Verif.Wire.foils_refused",
    "Verif.Wire.foils_witness",
    "Verif.Wire.foils_short",
    "Verif.Wire.rectangular_bounds",
    "Verif.Wire.rectangular_interpolated"
   ],
   "note": "over an ordered field; false for several foils, planar or rectangular conductors, whose number is counted twice in the part without current"
  },
  {
   "property": "C171",
   "status": "proved",
   "theorems": [
    "Verif.Wire.parallels_least",
    "Verif.Wire.parallels_all",
    "Verif.Wire.parallels_positive"
   ],
   "note": "over an ordered field with floors; zero parallels for no current"
  },
  {
   "property": "C172",
   "status": "partial",
   "theorems": [
    "Verif.Wire.outer_round_any_history",
    "Verif.Wire.outer_insulated_any_history",
    "Verif.Wire.outer_insulated_refused",
    "Verif.Wire.outer_listed",
    "Verif.Wire.filling_listed",
    "Verif.Wire.outer_thinner",
    "Verif.Wire.outer_thicker",
    "Verif.Wire.outer_round_listed",
    "Verif.Wire.outer_insulated_listed",
    "Verif.Wire.filling_round_history",
    "Verif.Wire.filling_served_history",
    "Verif.Wire.packing_history",
    "Verif.Wire.outer_stale",
    "Verif.Wire.matching_iff"
   ],
   "note": "the spline is any that passes through its points, with three or more diameters; proved of the outer diameters of round wires with one catalogue; false of filling factors, of the packing of insulated litz and when the catalogue is replaced"
  },
  {
   "property": "C173",
   "status": "partial",
   "theorems": [
    "Verif.Wire.bare_packed",
    "Verif.Wire.insulated_packed",
    "Verif.Wire.bare_more",
    "Verif.Wire.bare_wider",
    "Verif.Wire.served_layers",
    "Verif.Wire.served_negative"
   ],
   "note": "over the real numbers, given the outer diameter of the strand; false for a negative number of servings, which is not refused"
  },
  {
   "property": "C174",
   "status": "partial",
   "theorems": [
    "Verif.Wire.label_round_trip_partial",
    "Verif.Wire.label_temperature_lost",
    "Verif.Wire.label_voltage_rounded",
    "Verif.Wire.label_layers_lost",
    "Verif.Wire.label_none",
    "Verif.Wire.label_enamel_undefined"
   ],
   "note": "whole temperatures and voltages; false for other temperature ratings than 155 and 180 degrees, for breakdown voltages above 1 kV that are not of whole hundreds and for other numbers of layers"
  },
  {
   "property": "C175",
   "status": "partial",
   "theorems": [
    "Verif.Wire.equivalent_same",
    "Verif.Wire.equivalent_type",
    "Verif.Wire.equivalent_refused",
    "Verif.Wire.equivalent_area_partial",
    "Verif.Wire.equivalent_area_fails",
    "Verif.Wire.equivalent_empty"
   ],
   "note": "over an ordered field with floors; the lookup of the closest wire is given; false from planar to foil, and for the area when the strand found is not of the skin depth"
  },
  {
   "property": "C176",
   "status": "partial",
   "theorems": [
    "Verif.Wire.foil_cut",
    "Verif.Wire.planar_cut",
    "Verif.Wire.foil_area",
    "Verif.Wire.foil_area_stale",
    "Verif.Wire.cut_again",
    "Verif.Wire.layers_worth",
    "Verif.Wire.layers_others",
    "Verif.Wire.thickness_fits",
    "Verif.Wire.thickness_stated"
   ],
   "note": "over an ordered field; false for the area of foils; a zero voltage has no answer"
  },
  {
   "property": "C177",
   "status": "partial",
   "theorems": [
    "Verif.Bobbin.processed_as_drawn",
    "Verif.Bobbin.processed_toroid",
    "Verif.Bobbin.refused_unchanged",
    "Verif.Bobbin.accepted_iff",
    "Verif.Bobbin.processed_twice",
    "Verif.Bobbin.positive_window_partial",
    "Verif.Bobbin.construct_processes",
    "Verif.Bobbin.construct_keeps",
    "Verif.Bobbin.negative_window_accepted",
    "Verif.Bobbin.missing_thickness_accepted"
   ],
   "note": "over an ordered field; false when both the width and the height come out negative, and for a thickness that is missing, which counts as none"
  },
  {
   "property": "C178",
   "status": "partial",
   "theorems": [
    "Verif.Bobbin.quick_lines_core",
    "Verif.Bobbin.quick_made",
    "Verif.Bobbin.quick_toroid",
    "Verif.Bobbin.quick_by_dimensions",
    "Verif.Bobbin.quick_for_core",
    "Verif.Bobbin.quick_for_toroid",
    "Verif.Bobbin.nothing_left_accepted",
    "Verif.Bobbin.negative_thickness_inconsistent"
   ],
   "note": "over an ordered field, thicknesses not negative; a bobbin thicker than the window is made with nothing left, and a negative thickness may leave an inconsistent one"
  },
  {
   "property": "C179",
   "status": "proved",
   "theorems": [
    "Verif.Bobbin.window_from_catalogue",
    "Verif.Bobbin.filling_outside",
    "Verif.Bobbin.proportion_outside",
    "Verif.Bobbin.filling_between",
    "Verif.Bobbin.quick_for_core"
   ],
   "note": "over an ordered field, for any splines; windows of positive width and height"
  },
  {
   "property": "C18",
   "status": "proved",
   "theorems": [
    "Verif.Text.ndjson_feeds_lines",
    "Verif.Text.ndjson_round_trip",
    "Verif.Text.ndjson_round_trip_crlf",
    "Verif.Text.crlf_blank_line_not_skipped",
    "Verif.Text.stripCr_eq"
   ],
   "note": "All byte strings; a blank line ended by CR LF is handed to the parser (witness)."
  },
  {
   "property": "C180",
   "status": "partial",
   "theorems": [
    "Verif.Bobbin.spline_points",
    "Verif.Bobbin.spline_determined_partial",
    "Verif.Bobbin.equal_widths_unspecified",
    "Verif.Bobbin.no_samples_undefined",
    "Verif.Bobbin.scan_accounts",
    "Verif.Bobbin.sample_of_row",
    "Verif.Bobbin.least_positive",
    "Verif.Bobbin.splines_first_partial",
    "Verif.Bobbin.splines_not_rebuilt"
   ],
   "note": "over an ordered field; false with equal widths, with no usable bobbin and when the catalogue is replaced"
  },
  {
   "property": "C181",
   "status": "partial",
   "theorems": [
    "Verif.Bobbin.dimensions_answered",
    "Verif.Bobbin.area_answered",
    "Verif.Bobbin.fits_answered",
    "Verif.Bobbin.no_such_window",
    "Verif.Bobbin.coordinates_unchecked",
    "Verif.Bobbin.unprocessed_undefined",
    "Verif.Bobbin.orientation_set",
    "Verif.Bobbin.orientation_last",
    "Verif.Bobbin.sections_default_partial",
    "Verif.Bobbin.default_of_first"
   ],
   "note": "false of coordinates, whose index is not checked, of bobbins not processed, and of the defaults of a window with another shape than the first"
  },
  {
   "property": "C182",
   "status": "partial",
   "theorems": [
    "Verif.Bobbin.faces_rectangular",
    "Verif.Bobbin.faces_round",
    "Verif.Bobbin.faces_ordered",
    "Verif.Bobbin.extremes_rectangular",
    "Verif.Bobbin.extremes_round_zero",
    "Verif.Bobbin.depth_never_written",
    "Verif.Bobbin.extremes_undefined"
   ],
   "note": "over an ordered field; false of the extremes of toroids and of bobbins with a rectangular column processed from their dimensions"
  },
  {
   "property": "C183",
   "status": "partial",
   "theorems": [
    "Verif.Filters.Sweep.one_point_ends",
    "Verif.Filters.Sweep.one_point_honest",
    "Verif.Filters.Sweep.saturated_at_start",
    "Verif.Filters.Sweep.too_little_inductance_counterexample"
   ],
   "note": "over an ordered field, losses not integrated over temperature, physics as arbitrary functions of the turns; false of a requirement with a lower bound, as too little inductance does not stop the sweep"
  },
  {
   "property": "C184",
   "status": "partial",
   "theorems": [
    "Verif.Filters.Sweep.kept_was_measured_partial",
    "Verif.Filters.Sweep.bell_once",
    "Verif.Filters.Sweep.repeated_point_counterexample",
    "Verif.Filters.Sweep.saturates_at_first_counterexample",
    "Verif.Filters.Sweep.unmeasured_point_counterexample",
    "Verif.Filters.Sweep.no_points"
   ],
   "note": "false: each loss was measured and the mean is under the limit, but they may be of different coils, one of which saturates at another point, or of another point"
  },
  {
   "property": "C185",
   "status": "proved",
   "theorems": [
    "Verif.Filters.Gates.saturation_kept_iff",
    "Verif.Filters.Gates.no_excitation_not_kept",
    "Verif.Filters.Gates.saturation_any_order",
    "Verif.Filters.Gates.saturation_score_bounded",
    "Verif.Filters.Gates.saturation_no_points"
   ],
   "note": "over an ordered field; flux densities and currents of saturation are data; without operating points the score is not a number"
  },
  {
   "property": "C186",
   "status": "partial",
   "theorems": [
    "Verif.Filters.Gates.density_kept_iff",
    "Verif.Filters.Gates.density_score_bounded",
    "Verif.Filters.Gates.density_later_point_counterexample"
   ],
   "note": "each operating point has as many windings as the coil; otherwise a later one is read outside its vector"
  },
  {
   "property": "C187",
   "status": "proved",
   "theorems": [
    "Verif.Filters.Gates.transformer_agrees",
    "Verif.Filters.Gates.single_side_iff",
    "Verif.Filters.Gates.inductance_kept_meets",
    "Verif.Filters.Gates.suppression_kept"
   ],
   "note": "over an ordered field; the inductances are data, a requirement of zero or none asks for nothing"
  },
  {
   "property": "C188",
   "status": "partial",
   "theorems": [
    "Verif.Filters.Gates.energy_kept_iff",
    "Verif.Filters.Gates.enough_energy_kept_partial",
    "Verif.Filters.Gates.energy_order_counterexample",
    "Verif.Filters.Gates.energy_loses_inductance_counterexample"
   ],
   "note": "false: only the first operating point decides, and the inductance in the outputs is lost"
  },
  {
   "property": "C189",
   "status": "partial",
   "theorems": [
    "Verif.Filters.Gates.impedance_kept_iff",
    "Verif.Filters.Gates.impedance_score_nonneg",
    "Verif.Filters.Gates.impedance_score_zero",
    "Verif.Filters.Gates.impedance_score_monotone",
    "Verif.Filters.Gates.impedance_empty_counterexample"
   ],
   "note": "for any function that is not negative from one and grows; an empty list of requirements gives a score that is not a number"
  },
  {
   "property": "C19",
   "status": "proved",
   "theorems": [
    "Verif.Text.micro_spec",
    "Verif.Text.micro_wellFormed",
    "Verif.Text.micro_idempotent",
    "Verif.Text.micro_encodings_agree",
    "Verif.Text.micro_breaks_other_utf8"
   ],
   "note": "All byte strings; other letters whose encoding ends in B5 are damaged (witness)."
  },
  {
   "property": "C190",
   "status": "proved",
   "theorems": [
    "Verif.Filters.Gates.ratios_kept_meet",
    "Verif.Filters.Gates.ratios_score",
    "Verif.Filters.Gates.no_ratios_kept"
   ],
   "note": "over an ordered field"
  },
  {
   "property": "C191",
   "status": "partial",
   "theorems": [
    "Verif.Filters.Choke.choke_kept_meets",
    "Verif.Filters.Choke.choke_by_steps",
    "Verif.Filters.Choke.choke_square_law",
    "Verif.Filters.Choke.choke_gives_up_counterexample",
    "Verif.Filters.Choke.choke_nothing_required"
   ],
   "note": "what is kept meets; the fewest turns when the search goes by steps, or with an impedance that grows with the square of the turns; otherwise the search may give up a magnetic that meets"
  },
  {
   "property": "C192",
   "status": "partial",
   "theorems": [
    "Verif.Patterns.patterns_wind_each_once",
    "Verif.Patterns.patterns_bounded",
    "Verif.Patterns.patterns_undefined_iff",
    "Verif.Patterns.three_sides_covered",
    "Verif.Patterns.sides_uncovered_counterexample",
    "Verif.Patterns.patterns_repeated_counterexample",
    "Verif.Patterns.real_offers_reverses",
    "Verif.Patterns.first_pattern",
    "Verif.Patterns.sides_completed"
   ],
   "note": "false: undefined on a toroid of eight sides or more, three sides not in increasing order are not all covered, and a pattern may be offered more than once"
  },
  {
   "property": "C193",
   "status": "partial",
   "theorems": [
    "Verif.Patterns.integrity_winds",
    "Verif.Patterns.integrity_sections",
    "Verif.Patterns.integrity_again",
    "Verif.Patterns.integrity_unchecked_counterexample"
   ],
   "note": "for patterns of windings that exist; one of others is read outside the vector"
  },
  {
   "property": "C194",
   "status": "partial",
   "theorems": [
    "Verif.Patterns.all_tried_partial",
    "Verif.Patterns.only_first_merged",
    "Verif.Patterns.not_all_tried_counterexample",
    "Verif.Patterns.repetitions_listed"
   ],
   "note": "false: the repetitions that a pattern leaves are the ones the next is tried with"
  },
  {
   "property": "C195",
   "status": "partial",
   "theorems": [
    "Verif.Filters.Insulation.wire_accepted",
    "Verif.Filters.Insulation.sheet_accepted_counterexample",
    "Verif.Filters.Insulation.insulation_kept",
    "Verif.Filters.Insulation.few_requirements_counterexample"
   ],
   "note": "the requirements of each combination are a parameter; a foil or planar wire meets any, the score is always zero, and fewer requirements than windings are read outside the vector"
  },
  {
   "property": "C196",
   "status": "proved",
   "theorems": [
    "Verif.Filters.Memo.gap_in_first_crossing",
    "Verif.Filters.Memo.gap_closest",
    "Verif.Filters.Memo.gap_in_range",
    "Verif.Filters.Memo.constant_factor"
   ],
   "note": "over an ordered field; the lengths scanned, that the code takes with equal ratios between them, are any list in increasing order; rounding of doubles not modelled"
  },
  {
   "property": "C197",
   "status": "partial",
   "theorems": [
    "Verif.Filters.Memo.fringing_fresh_partial",
    "Verif.Filters.Memo.fringing_history_counterexample"
   ],
   "note": "false: cores of the same shape with as many gaps share a maximum even if all those of one are residual; the limit is fixed"
  },
  {
   "property": "C198",
   "status": "partial",
   "theorems": [
    "Verif.Filters.Memo.area_product_kept_partial",
    "Verif.Filters.Memo.area_product_order_counterexample"
   ],
   "note": "the area product of the core and the utilization are parameters; false: the flux density of the first operating point is used for all those after"
  },
  {
   "property": "C199",
   "status": "partial",
   "theorems": [
    "Verif.Magnetic.parts_after",
    "Verif.Magnetic.first_answer_partial",
    "Verif.Magnetic.refused_question",
    "Verif.Magnetic.answers_never_change",
    "Verif.Magnetic.fits_never_changes",
    "Verif.Magnetic.stale_dimensions"
   ],
   "note": "The claim is false of the code (stale_dimensions, answers_never_change); proved for the first answer after any history without questions."
  },
  {
   "property": "C20",
   "status": "proved",
   "theorems": [
    "Verif.Text.split_isSplit",
    "Verif.Text.split_round_trip",
    "Verif.Text.isSplit_unique",
    "Verif.Text.split_empty_diverges"
   ],
   "note": "All strings and non-empty delimiters; never returns for an empty delimiter."
  },
  {
   "property": "C200",
   "status": "partial",
   "theorems": [
    "Verif.Magnetic.dimensions_refused",
    "Verif.Magnetic.dimensions_hold_core_and_bobbin",
    "Verif.Magnetic.dimensions_hold_turns_partial",
    "Verif.Magnetic.dimensions_least",
    "Verif.Magnetic.depth_answered",
    "Verif.Magnetic.ring_does_not_fit"
   ],
   "note": "False of the code for turns outside the core and bobbin (ring_does_not_fit); proved for the core, the bobbin and turns within them, and that nothing larger than that is answered."
  },
  {
   "property": "C201",
   "status": "proved",
   "theorems": [
    "Verif.Magnetic.rated_refused",
    "Verif.Magnetic.rated_found",
    "Verif.Magnetic.rated_close",
    "Verif.Magnetic.rated_refused_below_a_million",
    "Verif.Magnetic.steady_is_a_solution",
    "Verif.Magnetic.steady_settles"
   ],
   "note": "The rise is any function of the current; the message of the refusal says 1 MA, but nothing above 524288 A is tried (rated_refused_below_a_million). That the thermal model itself increases with the current is a hypothesis of rated_close."
  },
  {
   "property": "C202",
   "status": "proved",
   "theorems": [
    "Verif.Magnetic.saturation_identity",
    "Verif.Magnetic.saturation_ampere_turns",
    "Verif.Magnetic.saturation_antitone"
   ],
   "note": "The inductance and flux density are those the models give."
  },
  {
   "property": "C203",
   "status": "partial",
   "theorems": [
    "Verif.Magnetic.same_iff",
    "Verif.Magnetic.same_equivalence",
    "Verif.Magnetic.same_refused",
    "Verif.Magnetic.gaps_do_not_count",
    "Verif.Magnetic.sameWire_iff",
    "Verif.Magnetic.sameWire_reflexive_symmetric",
    "Verif.Magnetic.sameWire_transitive_partial",
    "Verif.Magnetic.sameWire_not_transitive",
    "Verif.Magnetic.sameWire_by_name",
    "Verif.Magnetic.sameInputs_iff",
    "Verif.Magnetic.sameMas_iff"
   ],
   "note": "Magnetics, inputs and designs: proved. Wires: not transitive (sameWire_not_transitive). Gaps are not read (gaps_do_not_count)."
  },
  {
   "property": "C204",
   "status": "partial",
   "theorems": [
    "Verif.Magnetic.read_back_partial",
    "Verif.Magnetic.read_keeps_the_old",
    "Verif.Magnetic.read_keeps_the_dimensions"
   ],
   "note": "False of the code for objects already in use (read_keeps_the_old); proved for those that lack the parts the one written lacks."
  },
  {
   "property": "C205",
   "status": "partial",
   "theorems": [
    "Verif.Advice.relaxed_advised",
    "Verif.Advice.strict_advised",
    "Verif.Advice.advised_meets",
    "Verif.Advice.advised_few",
    "Verif.Advice.shared_reference_counterexample",
    "Verif.Advice.catalogue_matched"
   ],
   "note": "Complete but for the score: results are stored by reference, so parts with the same reference share the score of the last (witness). What filters, simulator and sort do is a parameter; infinite scores are an outcome apart."
  },
  {
   "property": "C206",
   "status": "partial",
   "theorems": [
    "Verif.Advice.retry_finds_nothing"
   ],
   "note": "The claim is false of the code: proved that the retry finds nothing, whatever the catalogue and the flow, when the filters only look at the parts."
  },
  {
   "property": "C207",
   "status": "partial",
   "theorems": [
    "Verif.Advice.aborted_partial",
    "Verif.Advice.eight_in_a_row_abort",
    "Verif.Advice.never_aborts_behind",
    "Verif.Advice.aborted_not_consecutive"
   ],
   "note": "Proved: giving up means eight parts failed with that error, and eight in a row on the first strict filter suffice. False: consecutive (aborted_not_consecutive); every catalogue that fails throughout behind an accepting filter is answered as empty (never_aborts_behind)."
  },
  {
   "property": "C208",
   "status": "partial",
   "theorems": [
    "Verif.Advice.weights_enter_twice",
    "Verif.Advice.order_not_documented",
    "Verif.Advice.recorded"
   ],
   "note": "The claim is false of the code: the exact formula is proved for every flow without repeated filters, and a witness shows another order than the documented one."
  },
  {
   "property": "C209",
   "status": "partial",
   "theorems": [
    "Verif.Advice.rejected_score_zero",
    "Verif.Advice.relaxed_rejected_first",
    "Verif.Advice.strict_rejected_disturbs"
   ],
   "note": "Proved for filters that are not strictly required and have no logarithm. False for strictly required ones (witnesses)."
  },
  {
   "property": "C21",
   "status": "partial",
   "theorems": [
    "Verif.Settings.reset_restores",
    "Verif.Settings.reset_getters",
    "Verif.Settings.reset_throws_iff",
    "Verif.Settings.reset_keeps_debug",
    "Verif.Settings.accessor_pairs",
    "Verif.Settings.set_get",
    "Verif.Settings.guard_restores",
    "Verif.Settings.exec_frame",
    "Verif.Settings.guarded_leaves_no_trace",
    "Verif.Settings.guards_never_terminate"
   ],
   "note": "All members extracted from the source; every member is restored by reset except the public _debug (witness). Guards proved for all programs, including exceptions and nesting."
  },
  {
   "property": "C210",
   "status": "partial",
   "theorems": [
    "Verif.Advice.default_gates",
    "Verif.Advice.default_keeps",
    "Verif.Advice.default_flow_advises_rejected"
   ],
   "note": "The claim is false of the code: proved exactly which parts the default flow keeps, with a witness."
  },
  {
   "property": "C211",
   "status": "proved",
   "theorems": [
    "Verif.Advice.Restore.settings_restored",
    "Verif.Advice.Restore.catalogues_agree"
   ],
   "note": "For every state, call and sequence of calls; searches are given by what they load, whether they throw and whether they find."
  },
  {
   "property": "C212",
   "status": "partial",
   "theorems": [
    "Verif.Advice.Restore.frozen_untouched",
    "Verif.Advice.Restore.unfrozen_never_terminates",
    "Verif.Advice.Restore.terminated_iff",
    "Verif.Advice.Restore.nothing_found_terminates",
    "Verif.Advice.Restore.above_600"
   ],
   "note": "Proved: nothing is changed. The rest is false of the code: exactly when the process ends is proved, with a witness."
  },
  {
   "property": "C213",
   "status": "partial",
   "theorems": [
    "Verif.Advice.Restore.scope_seen_partial",
    "Verif.Advice.Restore.scope_loses_inventory",
    "Verif.Advice.Restore.scope_emptied",
    "Verif.Advice.Restore.above_600"
   ],
   "note": "Proved below 600 V or without toroids, and not for suppression; false otherwise, and after a search that finds nothing."
  },
  {
   "property": "C214",
   "status": "partial",
   "theorems": [
    "Verif.Advice.Restore.application_kept",
    "Verif.Advice.Restore.application_sticks",
    "Verif.Advice.Restore.application_as_asked_partial",
    "Verif.Advice.Restore.choke_before_power"
   ],
   "note": "Proved as long as everything before was for power; false afterwards, for every sequence of requests."
  },
  {
   "property": "C215",
   "status": "partial",
   "theorems": [
    "Verif.Advice.Design.pool_bounded",
    "Verif.Advice.Design.pool_validated",
    "Verif.Advice.Design.retry_bounded_partial",
    "Verif.Advice.Design.retry_overflows"
   ],
   "note": "Complete for the first search, and the validation for both. The retry exceeds the bound (witness) by at most forty."
  },
  {
   "property": "C216",
   "status": "partial",
   "theorems": [
    "Verif.Advice.Design.sections_never_compared",
    "Verif.Advice.Design.same_sections_twice"
   ],
   "note": "The claim is false of the code: sections and margins are proved to decide nothing."
  },
  {
   "property": "C217",
   "status": "proved",
   "theorems": [
    "Verif.Advice.Design.best_answered",
    "Verif.Advice.Design.designs_answered",
    "Verif.Advice.Design.score_is_sum",
    "Verif.Advice.Design.stack_factor"
   ],
   "note": "Filters and sort are parameters; scores that are not finite are an outcome apart."
  },
  {
   "property": "C218",
   "status": "partial",
   "theorems": [
    "Verif.Advice.Design.verdict_ignored",
    "Verif.Advice.Design.rejected_design_first"
   ],
   "note": "The claim is false of the code: verdicts and strict requirements are proved to decide nothing, with a witness."
  },
  {
   "property": "C219",
   "status": "partial",
   "theorems": [
    "Verif.Advice.Design.one_bad_design_loses_all"
   ],
   "note": "The claim is false of the code: proved that one such candidate of the pool suffices to lose all."
  },
  {
   "property": "C22",
   "status": "partial",
   "theorems": [
    "Verif.Settings.margin_at_least_one_partial",
    "Verif.Settings.margin_never_below_one",
    "Verif.Settings.rejected_changes_nothing",
    "Verif.Settings.margin_rejected_iff",
    "Verif.Settings.derating_rejected_iff",
    "Verif.Settings.gate_keeps_below_saturation",
    "Verif.Settings.gate_complete",
    "Verif.Settings.maximumAllowedFlux_safe",
    "Verif.Settings.derating_never_cooler",
    "Verif.Settings.margin_nan_accepted"
   ],
   "note": "Holds for all programs that pass no NaN; a NaN margin is accepted and disables the saturation gate (witness)."
  },
  {
   "property": "C220",
   "status": "partial",
   "theorems": [
    "Verif.Advice.Fast.evaluated_iff",
    "Verif.Advice.Fast.fast_answers",
    "Verif.Advice.Fast.no_ferrite_toroid",
    "Verif.Advice.Fast.unjudged_answered"
   ],
   "note": "Complete, with the exact condition for each core; a strictly required filter that throws lets the design through (witness). Gapping, turns and the first filters are given functions of the list of cores."
  },
  {
   "property": "C221",
   "status": "partial",
   "theorems": [
    "Verif.Advice.Fast.fewer_are_first",
    "Verif.Advice.Fast.fewer_are_first_small",
    "Verif.Advice.Fast.more_finds_better",
    "Verif.Advice.Fast.starved"
   ],
   "note": "Proved up to ten results, and for catalogues below the cap. False otherwise (witnesses)."
  },
  {
   "property": "C222",
   "status": "partial",
   "theorems": [
    "Verif.Combinator.combinations_sound",
    "Verif.Combinator.alone_there",
    "Verif.Combinator.no_three_in_parallel"
   ],
   "note": "Sound for every coil, by induction over the levels. Three windings in parallel are never found (witness)."
  },
  {
   "property": "C223",
   "status": "partial",
   "theorems": [
    "Verif.Combinator.tapped_first_partial",
    "Verif.Combinator.tapped_in_parallel",
    "Verif.Combinator.tapped_second_combined"
   ],
   "note": "Proved for the tap of the first of two; false for the second and for parallel (witnesses)."
  },
  {
   "property": "C224",
   "status": "proved",
   "theorems": [
    "Verif.Combinator.virtuals_sound",
    "Verif.Combinator.labelled_spec"
   ],
   "note": "For every check of the inductance and of the ratios."
  },
  {
   "property": "C225",
   "status": "partial",
   "theorems": [
    "Verif.Combinator.found_again_partial",
    "Verif.Combinator.series_found_as_parallel"
   ],
   "note": "The same windings always; the same combination when there is no other of them. False otherwise (witness)."
  },
  {
   "property": "C226",
   "status": "partial",
   "theorems": [
    "Verif.Combinator.all_found_partial",
    "Verif.Combinator.grouping_lost",
    "Verif.Combinator.parallel_lost"
   ],
   "note": "Proved without turns ratios; with one, up to grouping. False otherwise (witnesses)."
  },
  {
   "property": "C227",
   "status": "partial",
   "theorems": [
    "Verif.Combinator.alone_unchanged",
    "Verif.Combinator.series_loses",
    "Verif.Combinator.parallel_multiplies"
   ],
   "note": "Holds for windings on their own; for all others the exact deviation is proved."
  },
  {
   "property": "C228",
   "status": "partial",
   "theorems": [
    "Verif.Combinator.devirtualize_spec"
   ],
   "note": "Exact: what each winding is given and when the call is undefined. That the others get nothing is false: `expected` is `madeUp` for them."
  },
  {
   "property": "C229",
   "status": "partial",
   "theorems": [
    "Verif.Magnetizing.minimum_cleared_partial",
    "Verif.Magnetizing.least_turns",
    "Verif.Magnetizing.minimum_missed",
    "Verif.Magnetizing.no_point_below_minimum",
    "Verif.Magnetizing.at_least_one_turn"
   ],
   "note": "For any inductance as a function of the turns; least where the reluctance does not depend on the turns. Witnesses where it is not reached."
  },
  {
   "property": "C23",
   "status": "proved",
   "theorems": [
    "Verif.Insulation.interp_total",
    "Verif.Insulation.interp_at_row",
    "Verif.Insulation.interp_between",
    "Verif.Insulation.interp_below",
    "Verif.Insulation.interp_beyond",
    "Verif.Insulation.interp_mono",
    "Verif.Insulation.interp_ge_first",
    "Verif.Insulation.interp_single_row",
    "Verif.Insulation.lookupLe_spec",
    "Verif.Insulation.lookupLt_spec",
    "Verif.Insulation.lookupLe_mono",
    "Verif.Insulation.lookupLt_mono"
   ],
   "note": "All tables with increasing first column and at least two rows; a table with one row gives DBL_MAX beyond it (witness)."
  },
  {
   "property": "C230",
   "status": "partial",
   "theorems": [
    "Verif.Magnetizing.best_of_three_partial",
    "Verif.Magnetizing.nearest_turns",
    "Verif.Magnetizing.nominal_missed",
    "Verif.Magnetizing.no_point_not_nearest",
    "Verif.Magnetizing.at_least_one_turn"
   ],
   "note": "Best of three for any function; nearest of all where the reluctance does not depend on the turns. Witnesses otherwise."
  },
  {
   "property": "C231",
   "status": "partial",
   "theorems": [
    "Verif.Magnetizing.Gap.gap_found_partial",
    "Verif.Magnetizing.Gap.gap_rounded",
    "Verif.Magnetizing.Gap.least_gap",
    "Verif.Magnetizing.Gap.rounded_away",
    "Verif.Magnetizing.Gap.longest_gap"
   ],
   "note": "Convergence of the search from the residual gap to 85 millimetres, by induction over its steps; the rounding afterwards is bounded and loses small gaps (witness). Number of distributed gaps is not modelled."
  },
  {
   "property": "C232",
   "status": "partial",
   "theorems": [
    "Verif.Magnetizing.Gap.settled_partial",
    "Verif.Magnetizing.Gap.bias_ignored"
   ],
   "note": "With a magnetizing current given: settled, or ten corrections. False otherwise: any material gives the same."
  },
  {
   "property": "C233",
   "status": "partial",
   "theorems": [
    "Verif.Magnetizing.Saturation.turns_at_gap",
    "Verif.Magnetizing.Saturation.saturation_gap_partial",
    "Verif.Magnetizing.Saturation.saturation_missed"
   ],
   "note": "The first gap that meets it is answered, within ratios of areas and flux that are stated; witness outside."
  },
  {
   "property": "C234",
   "status": "partial",
   "theorems": [
    "Verif.Magnetizing.Saturation.ungapped_fits",
    "Verif.Magnetizing.Saturation.gapped_spec",
    "Verif.Magnetizing.Saturation.correction_does_not_help",
    "Verif.Magnetizing.Saturation.gapped_fits_partial",
    "Verif.Magnetizing.Saturation.fits_without_fringing",
    "Verif.Magnetizing.Saturation.gap_over_limit"
   ],
   "note": "For every model of the reluctance. Kept exactly when the first check holds; the correction never helps (proved) and the limit is exceeded (witness)."
  },
  {
   "property": "C235",
   "status": "proved",
   "theorems": [
    "Verif.Magnetizing.Saturation.turns_from_volt_seconds",
    "Verif.Magnetizing.Saturation.turns_from_voltage",
    "Verif.Magnetizing.Saturation.degenerate"
   ],
   "note": "Least turns and the flux density for them; what is answered without area, frequency or limit."
  },
  {
   "property": "C236",
   "status": "proved",
   "theorems": [
    "Verif.Magnetizing.Drum.demagnetizing_range",
    "Verif.Magnetizing.Drum.rod_range",
    "Verif.Magnetizing.Drum.lower_le_upper",
    "Verif.Magnetizing.Drum.open_between",
    "Verif.Magnetizing.Drum.open_turns",
    "Verif.Magnetizing.Drum.open_limited",
    "Verif.Magnetizing.Drum.open_mono",
    "Verif.Magnetizing.Drum.open_refused",
    "Verif.Magnetizing.Drum.sectioned_between",
    "Verif.Magnetizing.Drum.sectioned_sum",
    "Verif.Magnetizing.Drum.semishielded_needs",
    "Verif.Magnetizing.Drum.ring_ways",
    "Verif.Magnetizing.Drum.tolerance_around",
    "Verif.Magnetizing.Drum.demagnetizing_third",
    "Verif.Magnetizing.Drum.sizes_of"
   ],
   "note": "Over the reals, with the demagnetizing factor as it is written, for every aspect."
  },
  {
   "property": "C237",
   "status": "partial",
   "theorems": [
    "Verif.Magnetizing.Bias.inductance_alone",
    "Verif.Magnetizing.Bias.inductance_ungapped_partial",
    "Verif.Magnetizing.Bias.inductance_unbiased",
    "Verif.Magnetizing.Bias.true_below",
    "Verif.Magnetizing.Bias.not_the_true_one"
   ],
   "note": "Exact without gaps or without dependence on the bias; never below otherwise, and more than twice as much in the witness."
  },
  {
   "property": "C238",
   "status": "partial",
   "theorems": [
    "Verif.Magnetizing.Bias.given_used",
    "Verif.Magnetizing.Bias.given_ignored",
    "Verif.Magnetizing.Bias.left_complete",
    "Verif.Magnetizing.Bias.repeatable_partial",
    "Verif.Magnetizing.Bias.asked_twice",
    "Verif.Magnetizing.Bias.asked_twice_given",
    "Verif.Magnetizing.Bias.voltage_alone"
   ],
   "note": "The same when the voltage is given, or for one winding without a magnetizing current given; witnesses for the rest."
  },
  {
   "property": "C239",
   "status": "proved",
   "theorems": [
    "Verif.Excitation.effective_spec",
    "Verif.Excitation.amplitudeAt_spec",
    "Verif.Excitation.stated_high",
    "Verif.Excitation.replaced_by",
    "Verif.Excitation.repaired",
    "Verif.Excitation.settle_again"
   ],
   "note": "For every list of harmonics; the harmonics are compared through their amplitudes only, as the code does."
  },
  {
   "property": "C24",
   "status": "proved",
   "theorems": [
    "Verif.Insulation.coordinate_most_demanding",
    "Verif.Insulation.coordinate_total",
    "Verif.Insulation.coordinate_mono",
    "Verif.Insulation.coordinate_set",
    "Verif.Insulation.coordinate_mono_req",
    "Verif.Insulation.canFullyInsulated_iff"
   ],
   "note": "All lists of standards; each standard is an arbitrary function."
  },
  {
   "property": "C240",
   "status": "partial",
   "theorems": [
    "Verif.Excitation.conducting_spec",
    "Verif.Excitation.rosano_spec",
    "Verif.Excitation.includeOffset_spec",
    "Verif.Excitation.first_without_voltage",
    "Verif.Excitation.fewer_points_read",
    "Verif.Excitation.five_and_three"
   ],
   "note": "The decision in full where it is defined; the cases where it is not, with a witness."
  },
  {
   "property": "C241",
   "status": "partial",
   "theorems": [
    "Verif.Excitation.commonMode_spec",
    "Verif.Excitation.commonMode_by_rms",
    "Verif.Excitation.choke_depends_on_order",
    "Verif.Excitation.without_harmonics_agrees",
    "Verif.Excitation.fewer_harmonics_read",
    "Verif.Excitation.differentialMode_spec",
    "Verif.Excitation.multiport_spec",
    "Verif.Excitation.multiport_edges"
   ],
   "note": "The decisions in full; witness that the order matters, and reads past the end."
  },
  {
   "property": "C242",
   "status": "partial",
   "theorems": [
    "Verif.Excitation.faraday",
    "Verif.Excitation.faraday_unique",
    "Verif.Excitation.processed_offset",
    "Verif.Excitation.ramp_from_current",
    "Verif.Excitation.from_voltage",
    "Verif.Excitation.unprocessed_undefined"
   ],
   "note": "Faraday's law for every voltage with increasing times; the labels for which the voltage is not read, and the undefined case. Harmonics and processed data are parameters."
  },
  {
   "property": "C243",
   "status": "proved",
   "theorems": [
    "Verif.Excitation.magnetizing_of_induced",
    "Verif.Excitation.inducedSteps_each"
   ],
   "note": "For sampled and imported currents, before the voltage is sampled again and compressed."
  },
  {
   "property": "C244",
   "status": "partial",
   "theorems": [
    "Verif.Excitation.offset_is_middle",
    "Verif.Excitation.no_offset",
    "Verif.Excitation.zero_current_offset",
    "Verif.Excitation.negative_current_offset"
   ],
   "note": "The middle for currents that stay above a twentieth of their largest value; what zero and negative currents add."
  },
  {
   "property": "C245",
   "status": "partial",
   "theorems": [
    "Verif.Excitation.choke_sums",
    "Verif.Excitation.choke_order",
    "Verif.Excitation.choke_balanced",
    "Verif.Excitation.choke_refused",
    "Verif.Excitation.choke_ignores_times",
    "Verif.Excitation.choke_four_and_five"
   ],
   "note": "Point by point in full; witnesses that it is not the sum in time."
  },
  {
   "property": "C246",
   "status": "partial",
   "theorems": [
    "Verif.Excitation.reflect_back",
    "Verif.Excitation.reflect_power",
    "Verif.Excitation.reflect_average",
    "Verif.Excitation.reflect_flyback",
    "Verif.Excitation.reflect_balance",
    "Verif.Excitation.reflect_full_duty",
    "Verif.Excitation.reflect_fields"
   ],
   "note": "Over any ordered field; the duty cycle of one is an explicit outcome."
  },
  {
   "property": "C247",
   "status": "partial",
   "theorems": [
    "Verif.Excitation.checked_complete",
    "Verif.Excitation.checked_again",
    "Verif.Excitation.failed_check_keeps",
    "Verif.Excitation.derived_current",
    "Verif.Excitation.made_secondary",
    "Verif.Excitation.missing_windings",
    "Verif.Excitation.empty_point_refused",
    "Verif.Excitation.nothing_refused",
    "Verif.Excitation.current_beside_voltage_undefined",
    "Verif.Excitation.given_times"
   ],
   "note": "For every list of operating points; waveforms out of processed data or harmonics are parameters. The undefined case is proved for every such pair."
  },
  {
   "property": "C248",
   "status": "partial",
   "theorems": [
    "Verif.Excitation.process_kinds",
    "Verif.Excitation.without_voltage_none",
    "Verif.Excitation.single_current",
    "Verif.Excitation.no_windings_undefined",
    "Verif.Excitation.voltages_alone_refused",
    "Verif.Excitation.inductance_per_point",
    "Verif.Excitation.process_all",
    "Verif.Excitation.reflected_voltage",
    "Verif.Excitation.reflected_current"
   ],
   "note": "For every operating point after its frequencies are settled; the voltage induced and the current of a common mode choke are parameters here."
  },
  {
   "property": "C249",
   "status": "proved",
   "theorems": [
    "Verif.Simulator.simulate_each",
    "Verif.Simulator.simulated_outputs",
    "Verif.Simulator.miscounted_refused",
    "Verif.Simulator.fast_same",
    "Verif.Simulator.simulate_defined"
   ],
   "note": "For any models of inductance, losses and temperature that leave the settings as they were (`Quiet`), each a function that answers, throws or is undefined."
  },
  {
   "property": "C25",
   "status": "proved",
   "theorems": [
    "Verif.Insulation.search_total",
    "Verif.Insulation.search_smallest_safe",
    "Verif.Insulation.search_mono",
    "Verif.Insulation.safe_mono_microns",
    "Verif.Insulation.reported_thickness_safe",
    "Verif.Insulation.search_nan_never_returns"
   ],
   "note": "All finite voltages; with a NaN voltage the search never returns (theorem)."
  },
  {
   "property": "C250",
   "status": "proved",
   "theorems": [
    "Verif.Simulator.conditions_kept",
    "Verif.Simulator.excitations_kept",
    "Verif.Simulator.settings_kept"
   ],
   "note": "The state after an exception is part of the model."
  },
  {
   "property": "C251",
   "status": "partial",
   "theorems": [
    "Verif.Simulator.reluctance_of_settings_partial",
    "Verif.Simulator.reluctance_ignored",
    "Verif.Simulator.reluctance_witness"
   ],
   "note": "Holds when no model is asked for; asking has no effect, with a witness."
  },
  {
   "property": "C252",
   "status": "partial",
   "theorems": [
    "Verif.Simulator.Sheet.datasheet_refused",
    "Verif.Simulator.Sheet.datasheet_temperatures",
    "Verif.Simulator.Sheet.datasheet_saturation",
    "Verif.Simulator.Sheet.datasheet_worst",
    "Verif.Simulator.Sheet.datasheet_input",
    "Verif.Simulator.Sheet.datasheet_first",
    "Verif.Simulator.Sheet.datasheet_outputs_partial",
    "Verif.Simulator.Sheet.outputs_shift",
    "Verif.Simulator.Sheet.curve_frequencies",
    "Verif.Simulator.Sheet.curve_largest"
   ],
   "note": "Output voltages by position only when all secondaries have an rms value, with a witness. Part number, description, material, and the real and imaginary parts and phases of the impedance are not modelled."
  },
  {
   "property": "C253",
   "status": "proved",
   "theorems": [
    "Verif.Simulator.Sheet.attached",
    "Verif.Simulator.Sheet.attached_again"
   ],
   "note": "The datasheet and the rest of the information are abstract."
  },
  {
   "property": "C254",
   "status": "partial",
   "theorems": [
    "Verif.Autocomplete.inputs_complete",
    "Verif.Autocomplete.voltage_needed",
    "Verif.Autocomplete.sides_complete",
    "Verif.Autocomplete.inputs_again",
    "Verif.Autocomplete.secondary_current_of_primary_inductance",
    "Verif.Autocomplete.magnetizing_duty"
   ],
   "note": "In full for inputs with all the voltages; the refusal of currents alone for every input; idempotence when there is no magnetic; a witness for the ampere-turns. Processing, harmonics and sampling are parameters; the reconstruction of waveforms too."
  },
  {
   "property": "C255",
   "status": "proved",
   "theorems": [
    "Verif.Autocomplete.Magnetic.core_kind",
    "Verif.Autocomplete.Magnetic.descriptions_kept",
    "Verif.Autocomplete.Magnetic.negative_gap_refused"
   ],
   "note": "For any catalogues and any processing of cores, which are parameters."
  },
  {
   "property": "C256",
   "status": "partial",
   "theorems": [
    "Verif.Autocomplete.Magnetic.grades_kept_partial",
    "Verif.Autocomplete.Magnetic.grades_lost",
    "Verif.Autocomplete.Magnetic.second_grade_lost"
   ],
   "note": "Kept with a single material; with several, the loss of all but the first is proved for every core."
  },
  {
   "property": "C257",
   "status": "partial",
   "theorems": [
    "Verif.Autocomplete.Magnetic.windings_complete",
    "Verif.Autocomplete.Magnetic.default_coating",
    "Verif.Autocomplete.Magnetic.refused_wire_unsized",
    "Verif.Autocomplete.Magnetic.names_distinct_partial",
    "Verif.Autocomplete.Magnetic.names_repeated"
   ],
   "note": "In full but for the names, that are different if those by default are not given to other windings, with a witness."
  },
  {
   "property": "C258",
   "status": "partial",
   "theorems": [
    "Verif.Autocomplete.Magnetic.default_orientation",
    "Verif.Autocomplete.Magnetic.configuration_ignored",
    "Verif.Autocomplete.Magnetic.asked_orientation_lost",
    "Verif.Autocomplete.Magnetic.alignment_left_missing",
    "Verif.Autocomplete.Magnetic.alignment_replaced"
   ],
   "note": "The defaults without a configuration; that values in the configuration make no difference is proved for every magnetic, with witnesses."
  },
  {
   "property": "C259",
   "status": "proved",
   "theorems": [
    "Verif.Autocomplete.Magnetic.winding_kept",
    "Verif.Autocomplete.Magnetic.layers_complete",
    "Verif.Autocomplete.Magnetic.wound_pattern",
    "Verif.Autocomplete.Magnetic.level_wraps",
    "Verif.Autocomplete.Magnetic.layer_insulation"
   ],
   "note": "Winding itself is a parameter; levels up to 255, since the level is taken modulo 256 (`level_wraps`)."
  },
  {
   "property": "C26",
   "status": "partial",
   "theorems": [
    "Verif.SectionInterface.times_pos",
    "Verif.SectionInterface.times_antitone",
    "Verif.SectionInterface.tape_is_thickest",
    "Verif.SectionInterface.interface_partial",
    "Verif.SectionInterface.thickness_exact",
    "Verif.SectionInterface.too_thin",
    "Verif.SectionInterface.type_leaks_on_exception",
    "Verif.SectionInterface.times_sum",
    "Verif.SectionInterface.no_tape_no_interface",
    "Verif.SectionInterface.no_superfluous_tape"
   ],
   "note": "Number of layers and choice of tape; the thickness can fall short of the distance through insulation (witness) because of the integer conversion, and an exception leaves another insulation type behind (witness)."
  },
  {
   "property": "C260",
   "status": "partial",
   "theorems": [
    "Verif.Autocomplete.Magnetic.complete_defined",
    "Verif.Autocomplete.Magnetic.complete_again",
    "Verif.Autocomplete.Magnetic.unprocessed_bobbin",
    "Verif.Autocomplete.Magnetic.columns_of_core"
   ],
   "note": "Defined for bobbins with a winding window or without any description, with a witness otherwise; once is enough for magnetics that have turns and placements of gaps that leave none in toroids and none negative."
  },
  {
   "property": "C261",
   "status": "partial",
   "theorems": [
    "Verif.Autocomplete.mas_points",
    "Verif.Autocomplete.ramp_biased_partial",
    "Verif.Autocomplete.bias_invisible",
    "Verif.Autocomplete.completed_unbiased",
    "Verif.Autocomplete.bias_lost_example"
   ],
   "note": "Which magnetizing current every winding gets is proved in full; that the bias is lost, for every current that is not a ramp. The processing of operating points and the simulation are parameters."
  },
  {
   "property": "C262",
   "status": "partial",
   "theorems": [
    "Verif.Reluctance.fringing_lowers",
    "Verif.Reluctance.partridge_range_partial",
    "Verif.Reluctance.balakrishnan_range_partial",
    "Verif.Reluctance.muehlethaler_range_partial",
    "Verif.Reluctance.partridge_raises",
    "Verif.Reluctance.stenglein_negative"
   ],
   "note": "In full for Zhang, effective area, effective length and classic; exactly up to which length for Partridge and Balakrishnan, sufficient for Muehlethaler; witnesses for Partridge and Stenglein."
  },
  {
   "property": "C263",
   "status": "partial",
   "theorems": [
    "Verif.Reluctance.longer_gap_more_reluctance",
    "Verif.Reluctance.longer_gap_more_reluctance_partial",
    "Verif.Reluctance.longer_gap_less_reluctance",
    "Verif.Reluctance.effective_same"
   ],
   "note": "In full for Zhang, Partridge, Balakrishnan and classic; up to the width of the column for effective area and length, with a witness; nothing is proved for Muehlethaler and Stenglein."
  },
  {
   "property": "C264",
   "status": "partial",
   "theorems": [
    "Verif.Reluctance.no_length_no_reluctance",
    "Verif.Reluctance.muehlethaler_no_length"
   ],
   "note": "In full for every model but that of Muehlethaler, for which the failure is proved for every gap."
  },
  {
   "property": "C265",
   "status": "partial",
   "theorems": [
    "Verif.Reluctance.factor_and_energy_agree",
    "Verif.Reluctance.muehlethaler_agrees_partial",
    "Verif.Reluctance.muehlethaler_round_disagrees",
    "Verif.Reluctance.less_reluctance_less_energy"
   ],
   "note": "In full for every model but that of Muehlethaler; for it in columns that are not round, with the failure in round ones."
  },
  {
   "property": "C266",
   "status": "partial",
   "theorems": [
    "Verif.Reluctance.defined",
    "Verif.Reluctance.without_area_refused",
    "Verif.Reluctance.muehlethaler_without_area",
    "Verif.Reluctance.positive_reluctance_partial",
    "Verif.Reluctance.stenglein_negative",
    "Verif.Reluctance.muehlethaler_negative"
   ],
   "note": "In full but for Muehlethaler and Stenglein, with witnesses."
  },
  {
   "property": "C267",
   "status": "partial",
   "theorems": [
    "Verif.Reluctance.point_uses_own_saturation",
    "Verif.Reluctance.gapping_sums",
    "Verif.Reluctance.permeability_uses_last_saturation",
    "Verif.Reluctance.energy_depends_on_history"
   ],
   "note": "In full when asked at an operating point; otherwise which saturation is used is proved for every history, with a witness."
  },
  {
   "property": "C268",
   "status": "partial",
   "theorems": [
    "Verif.Reluctance.gap_answer_named",
    "Verif.Reluctance.core_answer_not_named"
   ],
   "note": "In full for gaps; the failure is proved for every core."
  },
  {
   "property": "C269",
   "status": "partial",
   "theorems": [
    "Verif.Reluctance.energy_permeability_inverse",
    "Verif.Reluctance.ungapped_energy_is_of_flux",
    "Verif.Reluctance.length_energy_inverse",
    "Verif.Reluctance.length_by_energy_stores_partial",
    "Verif.Reluctance.length_by_energy_stores_other",
    "Verif.Reluctance.length_by_saturation_holds",
    "Verif.Reluctance.core_energy_sums",
    "Verif.Reluctance.whole_saturation_not_used"
   ],
   "note": "The length by energy stores the energy without fringing, with a witness otherwise; the length by saturation holds for the fringing that was used; the whole saturation is not used, for every core."
  },
  {
   "property": "C27",
   "status": "partial",
   "theorems": [
    "Verif.WireRequirements.no_margin_needed",
    "Verif.WireRequirements.one_per_winding",
    "Verif.WireRequirements.different_sides_protected",
    "Verif.WireRequirements.inputs_unchanged_partial",
    "Verif.WireRequirements.type_overwritten",
    "Verif.WireRequirements.sides_filled",
    "Verif.WireRequirements.reinforced_one_per_side",
    "Verif.WireRequirements.needs_margin_exact",
    "Verif.WireRequirements.reinforced_kept_iff",
    "Verif.WireRequirements.sides_after"
   ],
   "note": "All numbers of windings, sides and patterns; the insulation type of the inputs is overwritten for basic and supplementary insulation without margin tape (witness)."
  },
  {
   "property": "C270",
   "status": "proved",
   "theorems": [
    "Verif.Reluctance.required_energy_of_highest_peak",
    "Verif.Reluctance.required_energy_ordered",
    "Verif.Reluctance.peak_of_waveform",
    "Verif.Reluctance.peak_in_waveform",
    "Verif.Reluctance.required_energy_refused"
   ],
   "note": "Processing of currents that are not processed is not modelled."
  },
  {
   "property": "C271",
   "status": "proved",
   "theorems": [
    "Verif.Reluctance.clearance_fringed",
    "Verif.Reluctance.clearance_faces_flange"
   ],
   "note": "Over reals, for positive lengths and flanges."
  },
  {
   "property": "C272",
   "status": "proved",
   "theorems": [
    "Verif.Reader.fields_joined",
    "Verif.Reader.cut_outside",
    "Verif.Reader.plain_lines"
   ],
   "note": "For every separator that is not a quote or parenthesis, so for the four candidates."
  },
  {
   "property": "C273",
   "status": "proved",
   "theorems": [
    "Verif.Reader.separator_guessed",
    "Verif.Reader.no_separator"
   ],
   "note": "The first in the list wins among equals."
  },
  {
   "property": "C274",
   "status": "partial",
   "theorems": [
    "Verif.Reader.values_in_their_columns_partial",
    "Verif.Reader.unnamed_shifts",
    "Verif.Reader.row_refused"
   ],
   "note": "In full when empty header cells come after the last name; witness otherwise."
  },
  {
   "property": "C275",
   "status": "partial",
   "theorems": [
    "Verif.Reader.number_read",
    "Verif.Reader.decimal_comma",
    "Verif.Reader.decimal_comma_counterexample",
    "Verif.Reader.not_a_number"
   ],
   "note": "Numbers are read exactly, as rationals; hexadecimal, infinity and not-a-number are not modelled; the loss with a decimal comma is proved for every number."
  },
  {
   "property": "C276",
   "status": "proved",
   "theorems": [
    "Verif.Reader.time_found",
    "Verif.Reader.time_not_found"
   ],
   "note": "A column without values before the time makes the reader throw another error."
  },
  {
   "property": "C277",
   "status": "partial",
   "theorems": [
    "Verif.Reader.rows_paired_partial",
    "Verif.Reader.lengths_refused",
    "Verif.Reader.missing_shifts"
   ],
   "note": "In full when no row lacks a value in either column; witness otherwise."
  },
  {
   "property": "C278",
   "status": "proved",
   "theorems": [
    "Verif.Reader.collapse_increasing",
    "Verif.Reader.collapse_times",
    "Verif.Reader.collapse_last"
   ],
   "note": ""
  },
  {
   "property": "C279",
   "status": "partial",
   "theorems": [
    "Verif.Reader.one_period_partial",
    "Verif.Reader.starts_at_crossing",
    "Verif.Reader.never_insufficient",
    "Verif.Reader.short_recording",
    "Verif.Reader.short_recording_counterexample"
   ],
   "note": "In full for recordings of at least a period; for shorter ones the failure is proved for all. Numbers are those of an ordered field."
  },
  {
   "property": "C28",
   "status": "proved",
   "theorems": [
    "Verif.EnumJson.dimensionalValues_faithful",
    "Verif.EnumJson.gappingType_faithful",
    "Verif.EnumJson.coreCrossReferencerFilters_faithful",
    "Verif.EnumJson.coreMaterialCrossReferencerFilters_faithful",
    "Verif.EnumJson.orderedIsolationSide_faithful",
    "Verif.EnumJson.painterModes_faithful",
    "Verif.EnumJson.magneticFilters_faithful",
    "Verif.EnumJson.magneticFieldStrengthModels_faithful",
    "Verif.EnumJson.magneticFieldStrengthFringingEffectModels_faithful",
    "Verif.EnumJson.reluctanceModels_faithful",
    "Verif.EnumJson.coreLossesModels_faithful",
    "Verif.EnumJson.coreThermalResistanceModels_faithful",
    "Verif.EnumJson.coreTemperatureModels_faithful",
    "Verif.EnumJson.windingSkinEffectLossesModels_faithful",
    "Verif.EnumJson.windingProximityEffectLossesModels_faithful",
    "Verif.EnumJson.strayCapacitanceModels_faithful",
    "Verif.EnumJson.circuitSimulatorExporterModels_faithful",
    "Verif.EnumJson.coreAdviserFilters_faithful",
    "Verif.EnumJson.coreAdviserModes_faithful",
    "Verif.EnumJson.operation_round_trip",
    "Verif.EnumJson.operations_round_trip",
    "Verif.EnumJson.filter_identifier_rejected",
    "Verif.EnumJson.dimensionalValues_named",
    "Verif.EnumJson.gappingType_named",
    "Verif.EnumJson.coreCrossReferencerFilters_named",
    "Verif.EnumJson.coreMaterialCrossReferencerFilters_named",
    "Verif.EnumJson.orderedIsolationSide_named",
    "Verif.EnumJson.painterModes_named",
    "Verif.EnumJson.magneticFilters_named",
    "Verif.EnumJson.magneticFieldStrengthModels_named",
    "Verif.EnumJson.magneticFieldStrengthFringingEffectModels_named",
    "Verif.EnumJson.reluctanceModels_named",
    "Verif.EnumJson.coreLossesModels_named",
    "Verif.EnumJson.coreThermalResistanceModels_named",
    "Verif.EnumJson.coreTemperatureModels_named",
    "Verif.EnumJson.windingSkinEffectLossesModels_named",
    "Verif.EnumJson.windingProximityEffectLossesModels_named",
    "Verif.EnumJson.strayCapacitanceModels_named",
    "Verif.EnumJson.circuitSimulatorExporterModels_named",
    "Verif.EnumJson.coreAdviserFilters_named",
    "Verif.EnumJson.coreAdviserModes_named"
   ],
   "note": "All serialised enumerations, tables extracted from the source; all JSON documents for the rejection."
  },
  {
   "property": "C280",
   "status": "partial",
   "theorems": [
    "Verif.Reader.same_places",
    "Verif.Reader.frequency_ignored",
    "Verif.Reader.asked_before_counterexample"
   ],
   "note": "The alignment in full; that the frequency is not looked at is proved for every later question, with a witness on operating points."
  },
  {
   "property": "C281",
   "status": "partial",
   "theorems": [
    "Verif.Reader.number_of_digits",
    "Verif.Reader.number_of_label",
    "Verif.Reader.labels_named",
    "Verif.Reader.windings_compact",
    "Verif.Reader.winding_order",
    "Verif.Reader.windings_refused",
    "Verif.Reader.letter_counterexample"
   ],
   "note": "In full from the numbers on; the labels of one letter have a witness."
  },
  {
   "property": "C282",
   "status": "partial",
   "theorems": [
    "Verif.Reader.kind_by_name",
    "Verif.Reader.usual_names",
    "Verif.Reader.voltage_mistaken_counterexample"
   ],
   "note": "The groups in full, for every name; voltages with witnesses."
  },
  {
   "property": "C283",
   "status": "partial",
   "theorems": [
    "Verif.Reader.point_waveforms",
    "Verif.Reader.named_columns",
    "Verif.Reader.columns_gone_counterexample"
   ],
   "note": "In full for one question; that columns not named are gone is proved, with a witness."
  },
  {
   "property": "C284",
   "status": "partial",
   "theorems": [
    "Verif.Reader.automatic_defined",
    "Verif.Reader.extract_undefined",
    "Verif.Reader.named_defined_partial",
    "Verif.Reader.named_undefined"
   ],
   "note": "In full without names, and with names when no column of the file is without values; a waveform is undefined exactly when both columns are; witness on a file."
  },
  {
   "property": "C285",
   "status": "partial",
   "theorems": [
    "Verif.Reader.voltage_scale",
    "Verif.Reader.current_affine",
    "Verif.Reader.kind_scale",
    "Verif.Reader.few_samples",
    "Verif.Reader.square_counterexample",
    "Verif.Reader.voltage_offset_counterexample"
   ],
   "note": "The invariances in full; witness for square waves."
  },
  {
   "property": "C286",
   "status": "proved",
   "theorems": [
    "Verif.Reader.asked_twice",
    "Verif.Reader.named_twice"
   ],
   "note": "With the reader left as it was after the first answer."
  },
  {
   "property": "C287",
   "status": "proved",
   "theorems": [
    "Verif.WireAdvice.ranking",
    "Verif.WireAdvice.advised_offered",
    "Verif.WireAdvice.advised_complete",
    "Verif.WireAdvice.advised_sorted",
    "Verif.WireAdvice.no_sections",
    "Verif.WireAdvice.dataset_mem",
    "Verif.WireAdvice.sectionArea_eq",
    "Verif.WireAdvice.sizes_eq",
    "Verif.WireAdvice.metric_eq"
   ],
   "note": "Over an ordered field; what the physical models answer is a parameter; a section has two dimensions and a positive area."
  },
  {
   "property": "C288",
   "status": "proved",
   "theorems": [
    "Verif.WireAdvice.ranking",
    "Verif.WireAdvice.share_unique",
    "Verif.WireAdvice.share_bounds",
    "Verif.WireAdvice.share_mono",
    "Verif.WireAdvice.normal_agrees",
    "Verif.WireAdvice.smallest_eq"
   ],
   "note": "`normal_agrees`: the normalisation is the one modelled in Scoring."
  },
  {
   "property": "C289",
   "status": "partial",
   "theorems": [
    "Verif.WireAdvice.advised_density_partial",
    "Verif.WireAdvice.needed_least",
    "Verif.WireAdvice.rectangular_over_density",
    "Verif.WireAdvice.no_current_no_parallels"
   ],
   "note": "In full for wires that are not rectangular; witnesses for rectangular wires and for a winding without current."
  },
  {
   "property": "C29",
   "status": "partial",
   "theorems": [
    "Verif.Lookups.get_wires_correct_partial",
    "Verif.Lookups.get_wires_stale"
   ],
   "note": "Holds when the size tells catalogues apart; stale after a same-size replacement (witness)."
  },
  {
   "property": "C290",
   "status": "proved",
   "theorems": [
    "Verif.WireAdvice.fewer_ahead"
   ],
   "note": "For windings with turns, a positive frequency and wires with conductors and sizes."
  },
  {
   "property": "C291",
   "status": "proved",
   "theorems": [
    "Verif.WireAdvice.depth_irrelevant",
    "Verif.WireAdvice.no_frequency",
    "Verif.WireAdvice.direct_current_throws"
   ],
   "note": "Over an ordered field; doubles could overflow."
  },
  {
   "property": "C292",
   "status": "partial",
   "theorems": [
    "Verif.WireAdvice.proportion_advised",
    "Verif.WireAdvice.proportion_planar",
    "Verif.WireAdvice.planar_remembers",
    "Verif.WireAdvice.sectionArea_eq"
   ],
   "note": "In full for the search over all types; the planar search reports the larger of its own and the previous one, with a witness."
  },
  {
   "property": "C293",
   "status": "partial",
   "theorems": [
    "Verif.WireAdvice.constraint_eq",
    "Verif.WireAdvice.advised_from",
    "Verif.WireAdvice.fromDatabase_mem",
    "Verif.WireAdvice.sameStandard_iff",
    "Verif.WireAdvice.no_coordinates_no_rectangular"
   ],
   "note": "In full except for sections without a coordinate system, with a witness."
  },
  {
   "property": "C294",
   "status": "proved",
   "theorems": [
    "Verif.WireAdvice.penalty_values",
    "Verif.WireAdvice.penalty_pieces",
    "Verif.WireAdvice.penalty_mono",
    "Verif.WireAdvice.penalty_bounds",
    "Verif.WireAdvice.planar_parallel_mem"
   ],
   "note": ""
  },
  {
   "property": "C295",
   "status": "partial",
   "theorems": [
    "Verif.WireAdvice.planar_parallel_mem",
    "Verif.WireAdvice.planar_parallel_complete",
    "Verif.WireAdvice.planar_single_mem",
    "Verif.WireAdvice.planar_single_complete",
    "Verif.WireAdvice.planar_dataset_mem",
    "Verif.WireAdvice.turnsPerSection_least",
    "Verif.WireAdvice.planar_nothing",
    "Verif.WireAdvice.planar_sections_ignored"
   ],
   "note": "In full but for the turns that fit in their sections only, with a witness; that nothing is offered then is proved for all."
  },
  {
   "property": "C296",
   "status": "partial",
   "theorems": [
    "Verif.WireAdvice.synthesize_spec",
    "Verif.WireAdvice.synthesize_complete",
    "Verif.WireAdvice.synthesize_cold"
   ],
   "note": "In full where the answer is defined; the undefined behaviour is proved for every such temperature. The square root is a parameter."
  },
  {
   "property": "C297",
   "status": "partial",
   "theorems": [
    "Verif.WireAdvice.advise_total",
    "Verif.WireAdvice.not_processed",
    "Verif.WireAdvice.rectangular_needs_area",
    "Verif.WireAdvice.direct_current_throws",
    "Verif.WireAdvice.no_frequency"
   ],
   "note": "Totality under the stated conditions; witnesses where they fail."
  },
  {
   "property": "C298",
   "status": "proved",
   "theorems": [
    "Verif.Hysteresis.saturation_loop",
    "Verif.Hysteresis.field_mirror",
    "Verif.Hysteresis.flux_mirror"
   ],
   "note": "Over an ordered field; materials with a coercive force and a remanence, both positive and below saturation."
  },
  {
   "property": "C299",
   "status": "partial",
   "theorems": [
    "Verif.Hysteresis.field_rises",
    "Verif.Hysteresis.field_closes_partial",
    "Verif.Hysteresis.field_lens_partial",
    "Verif.Hysteresis.beyond_saturation_crosses",
    "Verif.Hysteresis.low_remanence_crosses"
   ],
   "note": "Up to saturation, for peaks that are not within 1e-6 of one of the fixed fields; witnesses beyond saturation and for little remanence."
  },
  {
   "property": "C30",
   "status": "proved",
   "theorems": [
    "Verif.Lookups.findExact_iff",
    "Verif.Lookups.findExact_none_iff",
    "Verif.Lookups.findBobbin_spec",
    "Verif.Lookups.findCore_some",
    "Verif.Lookups.findCore_none_iff",
    "Verif.Lookups.findMaterial_spec",
    "Verif.Lookups.tryFindShape_spec"
   ],
   "note": "All lookups by name."
  },
  {
   "property": "C300",
   "status": "partial",
   "theorems": [
    "Verif.Hysteresis.flux_within",
    "Verif.Hysteresis.flux_not_reached"
   ],
   "note": "Everything but reaching the flux density, with a witness for that."
  },
  {
   "property": "C301",
   "status": "partial",
   "theorems": [
    "Verif.Hysteresis.amplitude_needs_peak",
    "Verif.Hysteresis.amplitude_field_first",
    "Verif.Hysteresis.amplitude_pos",
    "Verif.Hysteresis.amplitude_tip",
    "Verif.Hysteresis.not_average_slope",
    "Verif.Hysteresis.flux_same_amplitude"
   ],
   "note": "What is answered is stated exactly up to saturation; witnesses that it is not the slope between the tips and that it does not tell flux densities apart."
  },
  {
   "property": "C302",
   "status": "proved",
   "theorems": [
    "Verif.Maxima.voltage_all",
    "Verif.Maxima.current_all",
    "Verif.Maxima.voltage_one",
    "Verif.Maxima.current_one",
    "Verif.Maxima.frequency_max",
    "Verif.Maxima.temperature_max",
    "Verif.Maxima.order_irrelevant",
    "Verif.Maxima.all_is_largest_one",
    "Verif.Maxima.no_winding"
   ],
   "note": "Over an ordered field; the greatest or zero, as the code has it (see C303)."
  },
  {
   "property": "C303",
   "status": "partial",
   "theorems": [
    "Verif.Maxima.greatest_of_nonneg",
    "Verif.Maxima.zero_of_neg",
    "Verif.Maxima.cold_is_zero",
    "Verif.Maxima.backwards_is_zero",
    "Verif.Maxima.below_zero"
   ],
   "note": "True if one value is not negative; false otherwise, for every such list, with a witness."
  },
  {
   "property": "C304",
   "status": "partial",
   "theorems": [
    "Verif.Materials.suits_power",
    "Verif.Materials.suits_signal",
    "Verif.Materials.suits_suppression",
    "Verif.Materials.resolve_stable",
    "Verif.Materials.guess_suits_partial",
    "Verif.Materials.guess_not_accepted",
    "Verif.Materials.tag_not_accepted"
   ],
   "note": "The acceptance is stated exactly; agreement with the guess for materials with losses and without tags; two witnesses against it otherwise."
  },
  {
   "property": "C305",
   "status": "partial",
   "theorems": [
    "Verif.Materials.candidates_mem",
    "Verif.Materials.candidates_order",
    "Verif.Materials.preferred_hides"
   ],
   "note": "Stated exactly, with a witness against the fallback."
  },
  {
   "property": "C306",
   "status": "partial",
   "theorems": [
    "Verif.Materials.ferrite_ranked",
    "Verif.Materials.powder_ranked",
    "Verif.Materials.impedance_ranked",
    "Verif.Materials.average_mean",
    "Verif.Materials.amperes_as_teslas",
    "Verif.Materials.nan_undefined"
   ],
   "note": "The models of losses and permeability are parameters; stable sort; witnesses for the direct current taken as flux density and for values that are not numbers."
  },
  {
   "property": "C307",
   "status": "partial",
   "theorems": [
    "Verif.Materials.powder_tried",
    "Verif.Materials.ferrite_tried",
    "Verif.Materials.names_differ",
    "Verif.Materials.ferrite_as_powder"
   ],
   "note": "Everything but that powder is powder, with a witness."
  },
  {
   "property": "C308",
   "status": "partial",
   "theorems": [
    "Verif.Materials.powder_included",
    "Verif.Materials.backwards_no_powder"
   ],
   "note": "Stated exactly; a backward current never counts."
  },
  {
   "property": "C309",
   "status": "proved",
   "theorems": [
    "Verif.CoreTemp.at_ambient",
    "Verif.CoreTemp.hotter",
    "Verif.CoreTemp.resistance_rise",
    "Verif.CoreTemp.ambient_shifts",
    "Verif.CoreTemp.negative_losses",
    "Verif.CoreTemp.refused"
   ],
   "note": "Over the reals, with real powers; values that are not finite are an outcome."
  },
  {
   "property": "C31",
   "status": "partial",
   "theorems": [
    "Verif.Catalog.families_nodup",
    "Verif.Catalog.families_complete_partial",
    "Verif.Catalog.families_exact_partial",
    "Verif.Catalog.families_missing_after_load_databases",
    "Verif.Catalog.families_stale_after_overwrite"
   ],
   "note": "No duplicates in all histories; exactness needs no shapes through load_databases and one family per name (witnesses otherwise)."
  },
  {
   "property": "C310",
   "status": "partial",
   "theorems": [
    "Verif.CoreTemp.bigger_cooler",
    "Verif.CoreTemp.linear_resistance",
    "Verif.CoreTemp.power_resistance",
    "Verif.CoreTemp.amidon_above",
    "Verif.CoreTemp.tdk_far_below"
   ],
   "note": "Everything but agreement in size, which is false for every core up to a cubic metre."
  },
  {
   "property": "C311",
   "status": "partial",
   "theorems": [
    "Verif.CoreTemp.scores_own",
    "Verif.CoreTemp.shared_reference",
    "Verif.CoreTemp.stale_inputs"
   ],
   "note": "For every history if references are distinct; witnesses otherwise."
  },
  {
   "property": "C312",
   "status": "partial",
   "theorems": [
    "Verif.CoreTemp.rise_order",
    "Verif.CoreTemp.product_order_partial",
    "Verif.CoreTemp.ambient_reverses"
   ],
   "note": "By the rise always; by the product at 0 degrees; a witness at 85."
  },
  {
   "property": "C313",
   "status": "partial",
   "theorems": [
    "Verif.CoreTemp.dimensions_three",
    "Verif.CoreTemp.dimensions_some",
    "Verif.CoreTemp.height_alone"
   ],
   "note": "With all three or none given; with some, it throws for every magnetic. The score is given squared."
  },
  {
   "property": "C314",
   "status": "proved",
   "theorems": [
    "Verif.LossSweep.one_point",
    "Verif.LossSweep.untouched",
    "Verif.LossSweep.budget_decides",
    "Verif.LossSweep.tried_grow"
   ],
   "note": "The models are functions of the turns; exact numbers; shapes other than those with integrated windings for the theorems on one operating point."
  },
  {
   "property": "C315",
   "status": "partial",
   "theorems": [
    "Verif.LossSweep.mixed_turns",
    "Verif.LossSweep.order_matters",
    "Verif.LossSweep.saturated_accepted",
    "Verif.LossSweep.saturates_before"
   ],
   "note": "False, with witnesses; true with one operating point (C314)."
  },
  {
   "property": "C316",
   "status": "partial",
   "theorems": [
    "Verif.LossSweep.low_inductance",
    "Verif.LossSweep.ratio_lost",
    "Verif.LossSweep.ratio_kept_iff"
   ],
   "note": "False, with witnesses; the ratio is kept exactly if the turns are."
  },
  {
   "property": "C317",
   "status": "partial",
   "theorems": [
    "Verif.LossSweep.one_point",
    "Verif.LossSweep.limit_wraps"
   ],
   "note": "At most ten with one operating point; a witness of forty with two."
  },
  {
   "property": "C318",
   "status": "proved",
   "theorems": [
    "Verif.Dataset.candidates_exact",
    "Verif.Dataset.admitted_iff",
    "Verif.Dataset.shape_stacks"
   ],
   "note": "What a core is processed to, and whether its gaps fit, are fields of the core; exceptions while processing are not modelled."
  },
  {
   "property": "C319",
   "status": "partial",
   "theorems": [
    "Verif.Dataset.stacks_offered",
    "Verif.Dataset.stacks_refused_alone",
    "Verif.Dataset.stacks_offered_partial",
    "Verif.Dataset.stacked_families"
   ],
   "note": "False, with witnesses of each of the four; the checks that are made hold of every stack."
  },
  {
   "property": "C32",
   "status": "proved",
   "theorems": [
    "Verif.Pattern.derived_pattern",
    "Verif.Pattern.derivable_iff",
    "Verif.Pattern.never_ub"
   ],
   "note": "All coils."
  },
  {
   "property": "C320",
   "status": "partial",
   "theorems": [
    "Verif.Dataset.catalogue_kept_partial",
    "Verif.Dataset.starved_restacks",
    "Verif.Dataset.never_alone_again",
    "Verif.Dataset.lost_after_starved",
    "Verif.Dataset.repeated_advice_differs"
   ],
   "note": "False, with a witness; what is lost is lost for every later history; true of the advice that finds enough, is not for power or has stacks turned off."
  },
  {
   "property": "C321",
   "status": "proved",
   "theorems": [
    "Verif.Dataset.stack_names",
    "Verif.Dataset.stacked_cores_share_name",
    "Verif.Dataset.stack_references"
   ],
   "note": "Names without a mark of their own; the regular expression is modelled on characters. The dataset of cores with stacks puts the number in the reference and leaves the names of the cores equal."
  },
  {
   "property": "C322",
   "status": "proved",
   "theorems": [
    "Verif.Dataset.transformer_fewest",
    "Verif.Dataset.transformer_dropped_iff",
    "Verif.Dataset.allowed_within"
   ],
   "note": "Exact numbers; the search for a gap of a resonant transformer is not modelled."
  },
  {
   "property": "C323",
   "status": "partial",
   "theorems": [
    "Verif.Dataset.turns_grow",
    "Verif.Dataset.regap_together_partial",
    "Verif.Dataset.regap_torn",
    "Verif.Dataset.regap_one_step",
    "Verif.Dataset.regap_untouched"
   ],
   "note": "False when a step fails, with a witness; true if none fails; with a current proportional to the turns one step is enough."
  },
  {
   "property": "C324",
   "status": "proved",
   "theorems": [
    "Verif.Dataset.sized_exactly",
    "Verif.Dataset.foreign_aborts"
   ],
   "note": "What a candidate that throws was changed to before is not modelled; it is dropped, or the advice ends."
  },
  {
   "property": "C325",
   "status": "proved",
   "theorems": [
    "Verif.Dataset.impedance_reached",
    "Verif.Dataset.impedance_sized_iff"
   ],
   "note": "Exact numbers, with the constant 2 pi a parameter."
  },
  {
   "property": "C326",
   "status": "partial",
   "theorems": [
    "Verif.Dataset.dummy_windings",
    "Verif.Dataset.dummy_density_partial",
    "Verif.Dataset.dummy_first_only",
    "Verif.Dataset.dummy_dense_later",
    "Verif.Dataset.dummy_single"
   ],
   "note": "True of the first operating point; false of the others, with a witness."
  },
  {
   "property": "C327",
   "status": "proved",
   "theorems": [
    "Verif.Dataset.custom_exact",
    "Verif.Dataset.custom_clamped",
    "Verif.Dataset.scaled_ordered",
    "Verif.Dataset.scaled_undimensioned"
   ],
   "note": "Over the reals; the area product is taken to scale with the fourth power, and the choice of the shape is not modelled here."
  },
  {
   "property": "C328",
   "status": "proved",
   "theorems": [
    "Verif.MaterialRef.results_exact"
   ],
   "note": "Exact numbers; the values of the materials are parameters that may be numbers, not numbers or exceptions."
  },
  {
   "property": "C329",
   "status": "proved",
   "theorems": [
    "Verif.MaterialRef.closer_ranks",
    "Verif.MaterialRef.twin_first"
   ],
   "note": "Exact numbers."
  },
  {
   "property": "C33",
   "status": "partial",
   "theorems": [
    "Verif.Harmonics.main_exact",
    "Verif.Harmonics.main_exact_chosen",
    "Verif.Harmonics.main_proper",
    "Verif.Harmonics.dominant_included",
    "Verif.Harmonics.threshold_monotone",
    "Verif.Harmonics.main_ub_iff",
    "Verif.Harmonics.operating_point_union",
    "Verif.Harmonics.common_union",
    "Verif.Harmonics.excitation_union",
    "Verif.Harmonics.operating_point_not_sorted",
    "Verif.Harmonics.overloads_agree",
    "Verif.Harmonics.overloads_disagree",
    "Verif.Harmonics.nothing_above_one"
   ],
   "note": "Complete for one excitation with thresholds up to one; the indexes merged over windings are not in increasing order, a threshold above one selects nothing, and the two overloads disagree on a spectrum without AC (witnesses)."
  },
  {
   "property": "C330",
   "status": "partial",
   "theorems": [
    "Verif.MaterialRef.raises_iff",
    "Verif.MaterialRef.one_unknown_aborts"
   ],
   "note": "False for three of the five dimensions; when a call throws is characterised exactly."
  },
  {
   "property": "C331",
   "status": "proved",
   "theorems": [
    "Verif.MaterialRef.answer_of_history"
   ],
   "note": "The scored values and the log are not modelled."
  },
  {
   "property": "C332",
   "status": "partial",
   "theorems": [
    "Verif.MaterialRef.listed_stays",
    "Verif.MaterialRef.compared_listed",
    "Verif.MaterialRef.report_of_older_calls"
   ],
   "note": "False, with a witness; what was compared is listed."
  },
  {
   "property": "C333",
   "status": "partial",
   "theorems": [
    "Verif.MaterialRef.unfit_irrelevant_partial",
    "Verif.MaterialRef.excluded_reorders"
   ],
   "note": "True of materials that do not fit; false of those excluded by unknown data, with a witness."
  },
  {
   "property": "C334",
   "status": "partial",
   "theorems": [
    "Verif.Strips.thinnest_spec",
    "Verif.Strips.thinner_agree_partial",
    "Verif.Strips.thinner_disagree"
   ],
   "note": "The queries agree whenever a thickness is stated and disagree otherwise."
  },
  {
   "property": "C335",
   "status": "proved",
   "theorems": [
    "Verif.Strips.available"
   ],
   "note": "Exact numbers."
  },
  {
   "property": "C336",
   "status": "proved",
   "theorems": [
    "Verif.Strips.along_windings",
    "Verif.Strips.thickness_direction"
   ],
   "note": "For round windows the label of orientation is that asked for, the dimensions are those of the windings."
  },
  {
   "property": "C337",
   "status": "proved",
   "theorems": [
    "Verif.Strips.mechanical_fills",
    "Verif.Strips.mem_pairs"
   ],
   "note": "The default material states a thickness."
  },
  {
   "property": "C338",
   "status": "partial",
   "theorems": [
    "Verif.Strips.custom_fills_partial",
    "Verif.Strips.custom_misreported"
   ],
   "note": "What is built has the thickness; what is reported has not."
  },
  {
   "property": "C339",
   "status": "partial",
   "theorems": [
    "Verif.Strips.simple_fills_partial",
    "Verif.Strips.simple_overflows"
   ],
   "note": "True with margin tape; false without."
  },
  {
   "property": "C34",
   "status": "partial",
   "theorems": [
    "Verif.WireByDim.find_closest",
    "Verif.WireByDim.find_outcome",
    "Verif.WireByDim.litz_gives_empty_wire"
   ],
   "note": "The wire returned is the closest; when only litz wires or none match, a default-constructed wire is returned instead of an error (theorem)."
  },
  {
   "property": "C340",
   "status": "proved",
   "theorems": [
    "Verif.Strips.material_least"
   ],
   "note": "The coordination of the standards is modelled in SectionInterface; its distances and voltages are parameters."
  },
  {
   "property": "C341",
   "status": "proved",
   "theorems": [
    "Verif.Strips.built_iff"
   ],
   "note": "Exact numbers."
  },
  {
   "property": "C342",
   "status": "partial",
   "theorems": [
    "Verif.Strips.layers_fill_partial",
    "Verif.Strips.layers_short",
    "Verif.Strips.half_insulation"
   ],
   "note": "True when every material states one thickness; false otherwise, with a witness of half the distance required."
  },
  {
   "property": "C343",
   "status": "proved",
   "theorems": [
    "Verif.Fitting.accepted_iff"
   ],
   "note": "Exact numbers with rounding to six decimals; not a number and infinity are explicit. Names and dimensions are taken as present."
  },
  {
   "property": "C344",
   "status": "proved",
   "theorems": [
    "Verif.Fitting.accepted_inside",
    "Verif.Fitting.turn_window"
   ],
   "note": "Exact numbers."
  },
  {
   "property": "C345",
   "status": "proved",
   "theorems": [
    "Verif.Fitting.settings_monotone"
   ],
   "note": "Exact numbers."
  },
  {
   "property": "C346",
   "status": "partial",
   "theorems": [
    "Verif.Fitting.section_factors_partial",
    "Verif.Fitting.order_matters",
    "Verif.Fitting.no_room"
   ],
   "note": "True for one orientation, false for two, with a witness."
  },
  {
   "property": "C347",
   "status": "proved",
   "theorems": [
    "Verif.Fitting.area_exact",
    "Verif.Fitting.area_whole",
    "Verif.Fitting.area_round"
   ],
   "note": "Names of layers are distinct."
  },
  {
   "property": "C348",
   "status": "partial",
   "theorems": [
    "Verif.Fitting.reported_iff_partial",
    "Verif.Fitting.two_windows_misreported",
    "Verif.Fitting.barely_misreported"
   ],
   "note": "Exact for one window up to rounding; two witnesses otherwise."
  },
  {
   "property": "C349",
   "status": "partial",
   "theorems": [
    "Verif.Fitting.fitting_factors_partial",
    "Verif.Fitting.overflow_reported_fitting",
    "Verif.Fitting.other_factor"
   ],
   "note": "Proved along the stacking; a witness across it, for a coil as read from a file."
  },
  {
   "property": "C35",
   "status": "proved",
   "theorems": [
    "Verif.Sampling.isSizePowerOf2_iff",
    "Verif.Sampling.roundUpSize_next",
    "Verif.Sampling.roundUpSize_fixed_iff",
    "Verif.Sampling.roundUpSize_isPower",
    "Verif.Sampling.roundUp_robust",
    "Verif.Sampling.roundUp_doubles_when_quotient_rounds_up"
   ],
   "note": "Exact logarithms, plus a robustness bound on the rounding error of the quotient of logarithms and what happens beyond it."
  },
  {
   "property": "C350",
   "status": "proved",
   "theorems": [
    "Verif.Columns.shared_halves",
    "Verif.Columns.lateral_iff"
   ],
   "note": "Exact numbers; rectangular windows."
  },
  {
   "property": "C351",
   "status": "proved",
   "theorems": [
    "Verif.Columns.shared_inside",
    "Verif.Columns.share_keeps"
   ],
   "note": "Exact numbers; rectangular windows."
  },
  {
   "property": "C352",
   "status": "proved",
   "theorems": [
    "Verif.Columns.default_placement"
   ],
   "note": "Windings are identified by their index."
  },
  {
   "property": "C353",
   "status": "partial",
   "theorems": [
    "Verif.Columns.bad_window_partial",
    "Verif.Columns.bad_window_ignored"
   ],
   "note": "True of several windows, false of one."
  },
  {
   "property": "C354",
   "status": "partial",
   "theorems": [
    "Verif.Columns.assigned_partial",
    "Verif.Columns.assigned_twice"
   ],
   "note": "What is assigned is honoured; that each is assigned once is not checked."
  },
  {
   "property": "C355",
   "status": "proved",
   "theorems": [
    "Verif.Columns.window_found",
    "Verif.Columns.window_exists"
   ],
   "note": "Groups as made by the library."
  },
  {
   "property": "C356",
   "status": "proved",
   "theorems": [
    "Verif.Columns.placement_undone"
   ],
   "note": "The turns around lateral columns have the length of a turn at their distance, as the winder gives them. Second crossings remain until placed again."
  },
  {
   "property": "C357",
   "status": "proved",
   "theorems": [
    "Verif.Columns.placed_once"
   ],
   "note": "Exact numbers."
  },
  {
   "property": "C358",
   "status": "proved",
   "theorems": [
    "Verif.Columns.placed_in_region"
   ],
   "note": "Exact numbers."
  },
  {
   "property": "C359",
   "status": "partial",
   "theorems": [
    "Verif.Columns.crossing_opposite_partial",
    "Verif.Columns.crossings_lost",
    "Verif.Columns.axis_of_column"
   ],
   "note": "Proved of the first placement; false after winding again when nothing is moved."
  },
  {
   "property": "C36",
   "status": "proved",
   "theorems": [
    "Verif.Logger.log_exact",
    "Verif.Logger.log_order",
    "Verif.Logger.off_is_not_silent"
   ],
   "note": "All configuration histories; level OFF does not silence messages logged at OFF."
  },
  {
   "property": "C360",
   "status": "partial",
   "theorems": [
    "Verif.Columns.no_overlap_partial",
    "Verif.Columns.laterals_overlap"
   ],
   "note": "Proved of lateral groups only and of a main and a lateral one; false of two lateral ones beside a main one, on a bobbin as read from a file."
  },
  {
   "property": "C361",
   "status": "proved",
   "theorems": [
    "Verif.Columns.length_grows"
   ],
   "note": "Pi is any positive number."
  },
  {
   "property": "C362",
   "status": "proved",
   "theorems": [
    "Verif.Margins.tape_floor"
   ],
   "note": "Exact numbers. The vector of margins is a function that is zero beyond its size."
  },
  {
   "property": "C363",
   "status": "proved",
   "theorems": [
    "Verif.Margins.gaps_kept",
    "Verif.Margins.round_distance"
   ],
   "note": "Exact numbers; any layout."
  },
  {
   "property": "C364",
   "status": "partial",
   "theorems": [
    "Verif.Margins.edges_kept_partial",
    "Verif.Margins.edges_short"
   ],
   "note": "Proved of two sections; a witness of three."
  },
  {
   "property": "C365",
   "status": "partial",
   "theorems": [
    "Verif.Margins.closing_gap_partial",
    "Verif.Margins.closing_gap_open"
   ],
   "note": "Proved of two sections; a witness of three."
  },
  {
   "property": "C366",
   "status": "partial",
   "theorems": [
    "Verif.Margins.settled_partial",
    "Verif.Margins.rewinding_grows"
   ],
   "note": "Proved without equalising; with it, the margins after any number of windings of two sections in closed form."
  },
  {
   "property": "C367",
   "status": "proved",
   "theorems": [
    "Verif.Margins.recovered_follow",
    "Verif.Margins.recovered_only"
   ],
   "note": "The layout of one group; names of windings are distinct."
  },
  {
   "property": "C368",
   "status": "partial",
   "theorems": [
    "Verif.Margins.preloaded_partial",
    "Verif.Margins.preloaded_elsewhere"
   ],
   "note": "Proved of an empty vector; the negation of any other."
  },
  {
   "property": "C369",
   "status": "partial",
   "theorems": [
    "Verif.Margins.failed_restores_partial",
    "Verif.Margins.thrown_keeps"
   ],
   "note": "Proved of failures; false of an exception."
  },
  {
   "property": "C37",
   "status": "proved",
   "theorems": [
    "Verif.Sampling.linearSpaced_length",
    "Verif.Sampling.linearSpaced_ends",
    "Verif.Sampling.linearSpaced_one",
    "Verif.Sampling.linearSpaced_increasing",
    "Verif.Sampling.linspace_eq_linearSpaced",
    "Verif.Sampling.logarithmicSpaced_length",
    "Verif.Sampling.logarithmicSpaced_ends",
    "Verif.Sampling.logarithmicSpaced_increasing",
    "Verif.Sampling.logarithmicSpaced_ratio"
   ],
   "note": "Exact arithmetic."
  },
  {
   "property": "C370",
   "status": "partial",
   "theorems": [
    "Verif.Margins.removed_partial",
    "Verif.Margins.removed_for_others",
    "Verif.Margins.removed_at_closing"
   ],
   "note": "The angle of a distance is any monotone function."
  },
  {
   "property": "C371",
   "status": "proved",
   "theorems": [
    "Verif.Rings.turns_distributed"
   ],
   "note": "Capacities are any, at least one as in the code; no overflow of 64 bits."
  },
  {
   "property": "C372",
   "status": "partial",
   "theorems": [
    "Verif.Rings.turns_fit_partial",
    "Verif.Rings.rings_fit",
    "Verif.Rings.negative_turns"
   ],
   "note": "Proved without blocked slots; a witness with them."
  },
  {
   "property": "C373",
   "status": "proved",
   "theorems": [
    "Verif.Rings.capacity_shrinks",
    "Verif.Rings.radius_positive"
   ],
   "note": "Exact numbers."
  },
  {
   "property": "C374",
   "status": "proved",
   "theorems": [
    "Verif.Rings.woundAngle_chord",
    "Verif.Rings.woundAngle_inverse"
   ],
   "note": "Real arc sine; radii that are not negative."
  },
  {
   "property": "C375",
   "status": "proved",
   "theorems": [
    "Verif.Rings.section_planned",
    "Verif.Rings.plan_settled"
   ],
   "note": "Real numbers; a bound on the rounds is given."
  },
  {
   "property": "C376",
   "status": "partial",
   "theorems": [
    "Verif.Rings.all_placed_partial",
    "Verif.Rings.asked_beyond",
    "Verif.Rings.turns_lost"
   ],
   "note": "Proved of sections as planned; two witnesses otherwise."
  },
  {
   "property": "C377",
   "status": "partial",
   "theorems": [
    "Verif.Rings.layers_inside_partial",
    "Verif.Rings.layers_outside"
   ],
   "note": "Without rounding to nine decimals."
  },
  {
   "property": "C378",
   "status": "proved",
   "theorems": [
    "Verif.Rings.parallels_together"
   ],
   "note": "Each layer has some turn, see C372."
  },
  {
   "property": "C379",
   "status": "proved",
   "theorems": [
    "Verif.Faces.touching_comm",
    "Verif.Faces.touching_series",
    "Verif.Faces.touching_antitone",
    "Verif.Faces.joined_coated",
    "Verif.Faces.convection_exact",
    "Verif.Faces.convection_antitone",
    "Verif.Faces.joined_series"
   ],
   "note": "Exact numbers."
  },
  {
   "property": "C38",
   "status": "proved",
   "theorems": [
    "Verif.Collisions.rect_collision_iff",
    "Verif.Collisions.rect_collision_sound_complete",
    "Verif.Collisions.round_collision_sound_complete",
    "Verif.Collisions.missing_coordinates_ub"
   ],
   "note": "All layouts; exact arithmetic with the code's decimal rounding."
  },
  {
   "property": "C380",
   "status": "partial",
   "theorems": [
    "Verif.Faces.faces_add_up_partial",
    "Verif.Faces.length_of_coil",
    "Verif.Faces.inner_smaller",
    "Verif.Faces.left_of_axis"
   ],
   "note": "Proved of turns right of the axis and off the column; those left of the axis characterised."
  },
  {
   "property": "C381",
   "status": "partial",
   "theorems": [
    "Verif.Faces.halves_add_up_partial",
    "Verif.Faces.length_ignored",
    "Verif.Faces.halves_by_radius",
    "Verif.Faces.toroid_surface_wrong"
   ],
   "note": "Proved only of halves whose place is not known; otherwise what the faces are, and a witness."
  },
  {
   "property": "C382",
   "status": "proved",
   "theorems": [
    "Verif.Faces.exposure_range",
    "Verif.Faces.exposure_exact",
    "Verif.Faces.exposure_covered",
    "Verif.Faces.exposure_perm",
    "Verif.Faces.exposure_antitone"
   ],
   "note": "Exact numbers."
  },
  {
   "property": "C383",
   "status": "partial",
   "theorems": [
    "Verif.Faces.counted_somewhere",
    "Verif.Faces.counted_once_partial",
    "Verif.Faces.counted_twice",
    "Verif.Faces.stacked_turns",
    "Verif.Faces.turn_somewhere"
   ],
   "note": "Proved a tenth of a segment away from borders; two witnesses."
  },
  {
   "property": "C384",
   "status": "proved",
   "theorems": [
    "Verif.Faces.still_conducts",
    "Verif.Faces.still_symmetric",
    "Verif.Faces.still_mono",
    "Verif.Faces.up_cools_more",
    "Verif.Faces.prandtl_range"
   ],
   "note": "Real numbers."
  },
  {
   "property": "C385",
   "status": "partial",
   "theorems": [
    "Verif.Faces.moving_mono",
    "Verif.Faces.moving_stopped",
    "Verif.Faces.slow_below_stopped"
   ],
   "note": "Proved of air that moves; a slow draught is shown to cool less than none. Real numbers."
  },
  {
   "property": "C386",
   "status": "partial",
   "theorems": [
    "Verif.Contacts.near_comm",
    "Verif.Contacts.near_round_partial",
    "Verif.Contacts.flat_apart",
    "Verif.Contacts.flat_stacked"
   ],
   "note": "Proved of round wires; flat ones characterised. The square root is a parameter."
  },
  {
   "property": "C387",
   "status": "proved",
   "theorems": [
    "Verif.Contacts.facing_towards",
    "Verif.Contacts.facing_swap"
   ],
   "note": "Turns at the same place excepted in the second."
  },
  {
   "property": "C388",
   "status": "proved",
   "theorems": [
    "Verif.Contacts.links_spec",
    "Verif.Contacts.links_throw"
   ],
   "note": "What becomes of a pair is a parameter."
  },
  {
   "property": "C389",
   "status": "partial",
   "theorems": [
    "Verif.Contacts.numbers_spec",
    "Verif.Contacts.insulation_partial",
    "Verif.Contacts.wrong_insulation"
   ],
   "note": "Proved of one winding; a witness with two."
  },
  {
   "property": "C39",
   "status": "partial",
   "theorems": [
    "Verif.Cache.energy_filter_correct",
    "Verif.Cache.energy_maximum_correct",
    "Verif.Cache.energy_filter_stale_after_evict",
    "Verif.Cache.energy_filter_misses_after_load",
    "Verif.Cache.energy_filter_after_clear",
    "Verif.Cache.energy_read_correct"
   ],
   "note": "Exact right after precalculation; counterexamples after a later evict or load, because the energy index is not maintained."
  },
  {
   "property": "C390",
   "status": "partial",
   "theorems": [
    "Verif.Contacts.linked_iff",
    "Verif.Contacts.link_resistance",
    "Verif.Contacts.unknown_insulation",
    "Verif.Contacts.contact_faces",
    "Verif.Contacts.layers_in_series"
   ],
   "note": "Proved but for insulation that cannot be found, where it is refuted for all turns."
  },
  {
   "property": "C391",
   "status": "partial",
   "theorems": [
    "Verif.Contacts.between_comm_partial",
    "Verif.Contacts.between_order"
   ],
   "note": "A witness otherwise."
  },
  {
   "property": "C392",
   "status": "partial",
   "theorems": [
    "Verif.Contacts.tapes_between",
    "Verif.Contacts.tapes_round_partial",
    "Verif.Contacts.tapes_round_comm",
    "Verif.Contacts.tapes_round_across",
    "Verif.Contacts.tapes_round_missed"
   ],
   "note": "Proved but for turns on both sides of the angle zero, characterised, with a witness."
  },
  {
   "property": "C393",
   "status": "proved",
   "theorems": [
    "Verif.Contacts.looks_found"
   ],
   "note": "Cosine and sine of the angle are any numbers whose squares add up to one."
  },
  {
   "property": "C394",
   "status": "proved",
   "theorems": [
    "Verif.Costs.temperature_of",
    "Verif.Costs.temperature_without",
    "Verif.Costs.temperature_fails"
   ],
   "note": "The losses and the thermal network are parameters."
  },
  {
   "property": "C395",
   "status": "partial",
   "theorems": [
    "Verif.Costs.between_points_partial",
    "Verif.Costs.mean_hides",
    "Verif.Costs.order_matters"
   ],
   "note": "False as a whole; witnesses."
  },
  {
   "property": "C396",
   "status": "proved",
   "theorems": [
    "Verif.Costs.leakage_single",
    "Verif.Costs.leakage_ratio",
    "Verif.Costs.leakage_outputs"
   ],
   "note": "The models of inductances are parameters."
  },
  {
   "property": "C397",
   "status": "proved",
   "theorems": [
    "Verif.Costs.density_within"
   ],
   "note": "Skin depth and filling factor are parameters."
  },
  {
   "property": "C398",
   "status": "proved",
   "theorems": [
    "Verif.Costs.straight_cost",
    "Verif.Costs.straight_no_room",
    "Verif.Costs.fewer_turns"
   ],
   "note": ""
  },
  {
   "property": "C399",
   "status": "proved",
   "theorems": [
    "Verif.Costs.round_margin",
    "Verif.Costs.round_cost"
   ],
   "note": ""
  },
  {
   "property": "C40",
   "status": "partial",
   "theorems": [
    "Verif.Catalog.reset_refreshes_cores_partial",
    "Verif.Catalog.reset_keeps_stale_cores"
   ],
   "note": "Holds when a flag differs from its default at the reset; stale otherwise (witness)."
  },
  {
   "property": "C400",
   "status": "proved",
   "theorems": [
    "Verif.Costs.wire_costs",
    "Verif.Costs.wire_missing",
    "Verif.Costs.cost_score"
   ],
   "note": ""
  },
  {
   "property": "C401",
   "status": "proved",
   "theorems": [
    "Verif.Costs.magnetomotive_spec"
   ],
   "note": "Of coils whose data are complete; the rounding of turns is a parameter."
  },
  {
   "property": "C402",
   "status": "partial",
   "theorems": [
    "Verif.Loading.own_inductance_partial",
    "Verif.Loading.inductance_by_count",
    "Verif.Loading.computed_inductance",
    "Verif.Loading.requirement_unused",
    "Verif.Loading.shifted"
   ],
   "note": "A witness after an output without inductance."
  },
  {
   "property": "C403",
   "status": "proved",
   "theorems": [
    "Verif.Resistivity.core_resistivity"
   ],
   "note": "The spline is a parameter."
  },
  {
   "property": "C404",
   "status": "partial",
   "theorems": [
    "Verif.Resistivity.core_goes_through_partial",
    "Verif.Resistivity.falling_data",
    "Verif.Resistivity.one_temperature"
   ],
   "note": "Of rising data, for any spline that goes through its points."
  },
  {
   "property": "C405",
   "status": "proved",
   "theorems": [
    "Verif.Resistivity.wire_linear",
    "Verif.Resistivity.wire_positive",
    "Verif.Resistivity.wire_negative"
   ],
   "note": ""
  },
  {
   "property": "C406",
   "status": "partial",
   "theorems": [
    "Verif.CoilAdvice.equal_sum",
    "Verif.CoilAdvice.equal_group_partial",
    "Verif.CoilAdvice.same_group_partial",
    "Verif.CoilAdvice.chain_split"
   ],
   "note": "A witness of a chain; shares from the inputs, without any in the coil, are not modelled."
  },
  {
   "property": "C407",
   "status": "proved",
   "theorems": [
    "Verif.CoilAdvice.areas_spec",
    "Verif.CoilAdvice.wire_sum",
    "Verif.CoilAdvice.wire_share",
    "Verif.CoilAdvice.wire_positive"
   ],
   "note": ""
  },
  {
   "property": "C408",
   "status": "partial",
   "theorems": [
    "Verif.CoilAdvice.guard_accepts_partial",
    "Verif.CoilAdvice.section_passes_only",
    "Verif.CoilAdvice.group_refused"
   ],
   "note": "Of windings on their own; a witness for a group."
  },
  {
   "property": "C409",
   "status": "proved",
   "theorems": [
    "Verif.CoilAdvice.step_worst",
    "Verif.CoilAdvice.walk_ends",
    "Verif.CoilAdvice.not_all_tried"
   ],
   "note": "The exits for enough results leave a first part of the walk."
  },
  {
   "property": "C41",
   "status": "proved",
   "theorems": [
    "Verif.Catalog.active_count_exact"
   ],
   "note": "All traces over distinct scope objects."
  },
  {
   "property": "C410",
   "status": "partial",
   "theorems": [
    "Verif.CoilAdvice.mirrored_alone",
    "Verif.CoilAdvice.mirrored_wire",
    "Verif.CoilAdvice.mirrored_group_partial",
    "Verif.CoilAdvice.ring_differs",
    "Verif.CoilAdvice.pair_again"
   ],
   "note": "When all name the first one first; a witness otherwise."
  },
  {
   "property": "C411",
   "status": "partial",
   "theorems": [
    "Verif.CoilAdvice.give_number",
    "Verif.CoilAdvice.give_valid",
    "Verif.CoilAdvice.give_invalid",
    "Verif.CoilAdvice.give_best",
    "Verif.CoilAdvice.give_lateral",
    "Verif.CoilAdvice.none_undefined"
   ],
   "note": "Of at least one result; a witness of none."
  },
  {
   "property": "C412",
   "status": "proved",
   "theorems": [
    "Verif.CoilAdvice.offered_iff",
    "Verif.CoilAdvice.offered_order",
    "Verif.CoilAdvice.unnamed_standard"
   ],
   "note": ""
  },
  {
   "property": "C413",
   "status": "partial",
   "theorems": [
    "Verif.CoilAdvice.stack_count",
    "Verif.CoilAdvice.stack_order",
    "Verif.CoilAdvice.allocated",
    "Verif.CoilAdvice.stack_within_partial",
    "Verif.CoilAdvice.parallels_over",
    "Verif.CoilAdvice.pattern_unused",
    "Verif.CoilAdvice.no_layer"
   ],
   "note": "Without parallels; witnesses."
  },
  {
   "property": "C414",
   "status": "proved",
   "theorems": [
    "Verif.CoreModes.shapes_once"
   ],
   "note": "Without constraints; with them C415."
  },
  {
   "property": "C415",
   "status": "partial",
   "theorems": [
    "Verif.CoreModes.constrained_partial",
    "Verif.CoreModes.material_ignored",
    "Verif.CoreModes.wire_constraint_changes"
   ],
   "note": "False as a whole; the searches are parameters."
  },
  {
   "property": "C416",
   "status": "proved",
   "theorems": [
    "Verif.CoreModes.fallback_tagged"
   ],
   "note": "The searches are parameters."
  },
  {
   "property": "C417",
   "status": "proved",
   "theorems": [
    "Verif.CoreModes.processed_required"
   ],
   "note": ""
  },
  {
   "property": "C418",
   "status": "proved",
   "theorems": [
    "Verif.Filters.Gates.windings_accepted",
    "Verif.Filters.Gates.windings_mean",
    "Verif.Filters.Gates.windings_none"
   ],
   "note": "The scores of the windings are parameters."
  },
  {
   "property": "C419",
   "status": "proved",
   "theorems": [
    "Verif.Filters.Gates.proximity_total",
    "Verif.Filters.Gates.proximity_grows",
    "Verif.Filters.Gates.proximity_square"
   ],
   "note": "The product of integers is taken without overflow."
  },
  {
   "property": "C42",
   "status": "partial",
   "theorems": [
    "Verif.Logger.threads_linearisable_partial",
    "Verif.Logger.received_was_checked",
    "Verif.Logger.overtaken_message_reaches_new_sink"
   ],
   "note": "Linearisable when no call changes the configuration between check and delivery; otherwise a message may reach a sink registered after its check (witness)."
  },
  {
   "property": "C420",
   "status": "partial",
   "theorems": [
    "Verif.Filters.Gates.turns_score",
    "Verif.Filters.Gates.fewer_turns_partial",
    "Verif.Filters.Gates.unprocessed_turns"
   ],
   "note": "Of processed cores; a witness. Widths that are not finite are not modelled."
  },
  {
   "property": "C421",
   "status": "proved",
   "theorems": [
    "Verif.Filters.Gates.dimensions_score",
    "Verif.Filters.Gates.dimensions_grow"
   ],
   "note": ""
  },
  {
   "property": "C422",
   "status": "proved",
   "theorems": [
    "Verif.CoilScores.scores_fair",
    "Verif.CoilScores.one_nan_throws"
   ],
   "note": "Filters answer the same for the same coil; those that are logarithmic are not in the statement."
  },
  {
   "property": "C423",
   "status": "partial",
   "theorems": [
    "Verif.CoilScores.one_filter_order_partial",
    "Verif.CoilScores.rejected_decides"
   ],
   "note": "With one filter; a witness with two."
  },
  {
   "property": "C424",
   "status": "proved",
   "theorems": [
    "Verif.PowerMean.largest_mean",
    "Verif.PowerMean.power_missing"
   ],
   "note": "The sampling is a parameter that gives as many points as asked for."
  },
  {
   "property": "C425",
   "status": "partial",
   "theorems": [
    "Verif.PowerMean.mean_between_partial",
    "Verif.PowerMean.not_over_time"
   ],
   "note": "Bounds of the mean; a witness that it is not over time."
  },
  {
   "property": "C426",
   "status": "proved",
   "theorems": [
    "Verif.LossScore.score_mean",
    "Verif.LossScore.mismatch_rejected"
   ],
   "note": "The losses are parameters."
  },
  {
   "property": "C427",
   "status": "proved",
   "theorems": [
    "Verif.LossScore.outputs_written",
    "Verif.LossScore.left_half_written",
    "Verif.LossScore.mismatch_rejected"
   ],
   "note": "The losses are parameters."
  },
  {
   "property": "C428",
   "status": "partial",
   "theorems": [
    "Verif.LossScore.product_partial",
    "Verif.LossScore.mismatch_best"
   ],
   "note": "Of components that the filter by losses accepts; the negation for the others. Losses kept by reference are in C311, of the area CoreTemp."
  },
  {
   "property": "C429",
   "status": "proved",
   "theorems": [
    "Verif.Images.reflected_iff",
    "Verif.Images.in_cell",
    "Verif.Images.lattice_spec",
    "Verif.Images.own_walls",
    "Verif.Images.only_walls"
   ],
   "note": "Wires that are not round have other meshes and are not modelled here."
  },
  {
   "property": "C43",
   "status": "partial",
   "theorems": [
    "Verif.Adviser.gate_weight_irrelevant",
    "Verif.Adviser.gate_zero_weight",
    "Verif.Adviser.optional_zero_weight_passes_all",
    "Verif.Adviser.optional_weight_matters",
    "Verif.Adviser.losses_all_or_some"
   ],
   "note": "Proved for the filters that always gate; false for losses, minimum impedance, temperature and turn count, which pass everything at weight zero (theorem and witness), and the suppression pipelines pass everything when the losses filter rejects everything."
  },
  {
   "property": "C430",
   "status": "partial",
   "theorems": [
    "Verif.Images.share_range",
    "Verif.Images.share_mono",
    "Verif.Images.air_no_images_partial",
    "Verif.Images.air_images"
   ],
   "note": "The last claim for the default dimension; the negation for two."
  },
  {
   "property": "C431",
   "status": "proved",
   "theorems": [
    "Verif.Images.balanced",
    "Verif.Images.inside_spec",
    "Verif.Images.own_window",
    "Verif.Images.return_walls"
   ],
   "note": "Windows of different widths are left out of the choice of the window."
  },
  {
   "property": "C432",
   "status": "proved",
   "theorems": [
    "Verif.Images.kelvin_spec",
    "Verif.Images.kelvin_sides",
    "Verif.Images.toroid_balanced",
    "Verif.Images.crossing_spec"
   ],
   "note": "Crossings within a picometre of the axis have no images and are left out of the balance."
  },
  {
   "property": "C433",
   "status": "proved",
   "theorems": [
    "Verif.Images.all_harmonics"
   ],
   "note": ""
  },
  {
   "property": "C434",
   "status": "proved",
   "theorems": [
    "Verif.FlatMesh.sample_spec",
    "Verif.FlatMesh.sample_count",
    "Verif.FlatMesh.induced_spec"
   ],
   "note": "Sizes are positive."
  },
  {
   "property": "C435",
   "status": "partial",
   "theorems": [
    "Verif.FlatMesh.sides_partial",
    "Verif.FlatMesh.foil_sides_partial",
    "Verif.FlatMesh.right_is_left"
   ],
   "note": "Exactly which wires have their conductors inside and on their sides; a wire that does not."
  },
  {
   "property": "C436",
   "status": "partial",
   "theorems": [
    "Verif.FlatMesh.assumed_iff",
    "Verif.FlatMesh.assumed_partial",
    "Verif.FlatMesh.other_depth"
   ],
   "note": "Exactly for square wires; a planar track for which it fails."
  },
  {
   "property": "C437",
   "status": "proved",
   "theorems": [
    "Verif.FlatMesh.lengths_shared"
   ],
   "note": ""
  },
  {
   "property": "C438",
   "status": "partial",
   "theorems": [
    "Verif.Grid.single_cells",
    "Verif.Grid.region_cells",
    "Verif.Grid.toroid_area_partial",
    "Verif.Grid.toroid_edges"
   ],
   "note": "Cores that are no toroids in full; of toroids the area of the cells, and the negation for the points."
  },
  {
   "property": "C439",
   "status": "proved",
   "theorems": [
    "Verif.Grid.regions_spec",
    "Verif.Grid.no_region"
   ],
   "note": "Places and areas as near as the code compares them: a billionth of a metre and a millionth of the area."
  },
  {
   "property": "C44",
   "status": "proved",
   "theorems": [
    "Verif.Adviser.margin_or_marked",
    "Verif.Adviser.pruning_never_empties"
   ],
   "note": "The filters are parameters; the stages after saturation are assumed to keep its verdict."
  },
  {
   "property": "C440",
   "status": "partial",
   "theorems": [
    "Verif.Grid.kept_spec",
    "Verif.Grid.passed_iff",
    "Verif.Grid.none_inside_partial",
    "Verif.Grid.planar_inside"
   ],
   "note": "The exact selection; the negation of the last claim for planar wires whose turns are ignored. Turns have dimensions."
  },
  {
   "property": "C441",
   "status": "partial",
   "theorems": [
    "Verif.MeshHarmonics.ends_partial",
    "Verif.MeshHarmonics.common_spec",
    "Verif.MeshHarmonics.never_ends"
   ],
   "note": "The selection in full; its end for thresholds above zero, and the negation for zero. Currents have their harmonics."
  },
  {
   "property": "C442",
   "status": "proved",
   "theorems": [
    "Verif.LineField.binns_ampere",
    "Verif.LineField.binns_inside",
    "Verif.LineField.binns_defined"
   ],
   "note": "Round and Litz wires and conductors without wire, over the reals."
  },
  {
   "property": "C443",
   "status": "proved",
   "theorems": [
    "Verif.LineField.lammeraner_ampere",
    "Verif.LineField.lammeraner_inside"
   ],
   "note": "For places that differ; flat wires use the model of Binns and Lawrenson."
  },
  {
   "property": "C444",
   "status": "partial",
   "theorems": [
    "Verif.LineField.rotation_partial",
    "Verif.LineField.turned_eq",
    "Verif.LineField.rotation_matters"
   ],
   "note": "Rotations by no angle, and the turn by every angle; the negation for a right angle, at every place outside the wire."
  },
  {
   "property": "C445",
   "status": "proved",
   "theorems": [
    "Verif.LineField.dowell_staircase",
    "Verif.LineField.dowell_throws"
   ],
   "note": "The sum over the conductors is that of the fields of each."
  },
  {
   "property": "C446",
   "status": "proved",
   "theorems": [
    "Verif.GapWire.valid_iff",
    "Verif.GapWire.valid_shorter",
    "Verif.GapWire.valid_bounds"
   ],
   "note": "Sections of a width above zero and lengths that are not negative; exact numbers."
  },
  {
   "property": "C447",
   "status": "proved",
   "theorems": [
    "Verif.GapWire.wire_spec"
   ],
   "note": "The same; the field of the wire itself is not modelled."
  },
  {
   "property": "C448",
   "status": "partial",
   "theorems": [
    "Verif.Fringing.axial_right_partial",
    "Verif.Fringing.axial_left",
    "Verif.Fringing.edge_sides"
   ],
   "note": "Proved to the right of the edge, where the window of a central column is; the negation to its left, where that of a lateral one is."
  },
  {
   "property": "C449",
   "status": "proved",
   "theorems": [
    "Verif.Fringing.radial_mirror",
    "Verif.Fringing.radial_sign"
   ],
   "note": "Points that are not at the ends of the edge."
  },
  {
   "property": "C45",
   "status": "proved",
   "theorems": [
    "Verif.Adviser.golden_close",
    "Verif.Adviser.golden_total",
    "Verif.Adviser.gap_in_window",
    "Verif.Adviser.max_gap_above_limits"
   ],
   "note": "Exact arithmetic with the golden ratio itself instead of its 16-digit literal. The reported maximum can exceed the column and fringing limits (witness)."
  },
  {
   "property": "C46",
   "status": "proved",
   "theorems": [
    "Verif.Adviser.reject_gaps",
    "Verif.Adviser.reject_gaps_empty"
   ],
   "note": "The fringing verdict is a parameter."
  },
  {
   "property": "C47",
   "status": "proved",
   "theorems": [
    "Verif.Adviser.fan_out"
   ],
   "note": ""
  },
  {
   "property": "C48",
   "status": "partial",
   "theorems": [
    "Verif.Adviser.postProcess_spec",
    "Verif.Adviser.bestBuildable_props",
    "Verif.Adviser.standard_cores_ranked_partial",
    "Verif.Adviser.standard_cores_not_ranked",
    "Verif.Adviser.batches_repeat_shapes"
   ],
   "note": "Complete for one ranked list. For standard cores ferrite and powder lists are concatenated without sorting, so the result is not ranked (witness); unique shapes are lost when batches are merged (witness)."
  },
  {
   "property": "C49",
   "status": "partial",
   "theorems": [
    "Verif.CrossRef.own_contribution_partial",
    "Verif.CrossRef.saturation_misattributed"
   ],
   "note": "Proved for the four geometric filters. The saturation scores of the losses filter are credited to other cores (witness)."
  },
  {
   "property": "C50",
   "status": "partial",
   "theorems": [
    "Verif.Catalog.load_shows_file_partial",
    "Verif.Catalog.load_cores_appends",
    "Verif.Catalog.load_shapes_shows_file_partial",
    "Verif.Catalog.load_advanced_updates",
    "Verif.Catalog.file_ignored_without_internal_data"
   ],
   "note": "Complete while internal data are on. After load_databases without internal data the files given to the loaders are ignored silently (witness)."
  },
  {
   "property": "C51",
   "status": "partial",
   "theorems": [
    "Verif.Catalog.failed_load_prefix_partial",
    "Verif.Catalog.truncated_catalogue_after_failed_load",
    "Verif.Catalog.corrupt_core_stays"
   ],
   "note": "False: what was read before the failure stays and hides the failure from later queries, and a refused core stays in the catalogue (witnesses). Proved: exactly the lines before the failure are kept."
  },
  {
   "property": "C52",
   "status": "proved",
   "theorems": [
    "Verif.Catalog.advisers_keep_scope",
    "Verif.Catalog.advisers_refill"
   ],
   "note": ""
  },
  {
   "property": "C53",
   "status": "partial",
   "theorems": [
    "Verif.Standards.withstand664_mono",
    "Verif.Standards.withstand623_mono",
    "Verif.Standards.withstand603_mono",
    "Verif.Standards.withstand615_mono_partial",
    "Verif.Standards.withstand_never_lowered_partial",
    "Verif.Standards.withstand615_category_lowers"
   ],
   "note": "Complete for IEC 60664, IEC 62368 and IEC 60335; the shipped tables meet the hypotheses (Shipped.sound). For IEC 61558 up to 1000 V or at equal category and class: beyond, the extrapolated columns of table 14 cross (witness)."
  },
  {
   "property": "C54",
   "status": "partial",
   "theorems": [
    "Verif.Standards.clearance664_mono",
    "Verif.Standards.clearance623_mono",
    "Verif.Standards.clearance615_mono_partial",
    "Verif.Standards.clearance603_mono_partial",
    "Verif.Standards.clearance_never_lowered_partial",
    "Verif.Standards.clearance615_voltage_lowers",
    "Verif.Standards.clearance615_altitude_lowers",
    "Verif.Standards.clearance603_primary_lowers"
   ],
   "note": "Complete for IEC 60664 and IEC 62368. False for IEC 61558 where table 104 ends and across 2000 m, and for IEC 60335 when the primary voltage rises above the others (witnesses); proved otherwise."
  },
  {
   "property": "C55",
   "status": "partial",
   "theorems": [
    "Verif.Standards.creepage664_mono",
    "Verif.Standards.creepage623_mono",
    "Verif.Standards.creepage615_mono_partial",
    "Verif.Standards.creepage603_mono_partial",
    "Verif.Standards.creepage664_mono_partial",
    "Verif.Standards.creepage_never_lowered_partial",
    "Verif.Standards.creepage664_voltage_lowers",
    "Verif.Standards.creepage664_class_lowers"
   ],
   "note": "Complete without the clearance, and with it for IEC 62368. With the clearance it inherits the conditions of the clearance, and IEC 60664 leaves the clearance out for some of the more demanding inputs (witnesses)."
  },
  {
   "property": "C56",
   "status": "proved",
   "theorems": [
    "Verif.Standards.dti_mono",
    "Verif.Standards.dti_never_lowered",
    "Verif.Standards.dti623_required",
    "Verif.Standards.dti_answers"
   ],
   "note": ""
  },
  {
   "property": "C57",
   "status": "partial",
   "theorems": [
    "Verif.Standards.creepage_covers_clearance",
    "Verif.Standards.creepage_covers_clearance_rounded_partial",
    "Verif.Standards.creepage664_below_clearance",
    "Verif.Standards.creepage603_rounds_below"
   ],
   "note": "Proved for IEC 62368 and IEC 61558, and up to the rounding to five decimals for IEC 60335 and for IEC 60664 when it does not leave the clearance out. Otherwise false (witnesses)."
  },
  {
   "property": "C58",
   "status": "proved",
   "theorems": [
    "Verif.Standards.never_odd",
    "Verif.Standards.answers664",
    "Verif.Standards.answers_others",
    "Verif.Standards.Shipped.sound"
   ],
   "note": "The tables are transcribed from the JSON literals of Insulation.h."
  },
  {
   "property": "C59",
   "status": "partial",
   "theorems": [
    "Verif.Standards.withstand_frequency",
    "Verif.Standards.creepage623_frequency_partial",
    "Verif.Standards.homogeneous_increase_dead",
    "Verif.Standards.clearance664_frequency_lowers",
    "Verif.Standards.clearance623_frequency_lowers",
    "Verif.Standards.creepage603_frequency_lowers",
    "Verif.Standards.creepage615_frequency_lowers"
   ],
   "note": "Proved for the withstand voltages and for the creepage distance of IEC 62368. False for the clearance of IEC 60664 and IEC 62368 and for the creepage distance of IEC 60335 and IEC 61558 (witnesses). The correction for the homogeneous field in IEC 60664 is never applied (theorem)."
  },
  {
   "property": "C60",
   "status": "partial",
   "theorems": [
    "Verif.Standards.withstand664_covers",
    "Verif.Standards.withstand623_covers",
    "Verif.Standards.t26_covers",
    "Verif.Standards.withstand603_covers",
    "Verif.Standards.withstand615_covers_partial",
    "Verif.Standards.withstand615_below_working_voltage",
    "Verif.Standards.withstand_covers_working_voltage"
   ],
   "note": "Complete for IEC 60664, IEC 62368 and the coordinator with one of them. IEC 60335 asks for nothing for functional insulation. IEC 61558 falls below the working voltage beyond 5000 V (witness)."
  },
  {
   "property": "C61",
   "status": "proved",
   "theorems": [
    "Verif.Standards.creepage664_doubles",
    "Verif.Standards.creepage603_doubles",
    "Verif.Standards.creepage623_doubles"
   ],
   "note": ""
  },
  {
   "property": "C62",
   "status": "proved",
   "theorems": [
    "Verif.Standards.clearance664_altitude",
    "Verif.Standards.clearance623_altitude"
   ],
   "note": ""
  },
  {
   "property": "C63",
   "status": "proved",
   "theorems": [
    "Verif.Standards.clearance664_covers",
    "Verif.Standards.impulse_next_step",
    "Verif.Standards.clearance623_covers",
    "Verif.Standards.clearance615_covers",
    "Verif.Standards.clearance603_covers"
   ],
   "note": "Stated for wound components in IEC 60664 and IEC 62368 and for basic insulation in IEC 60664; for the strong classes the impulse voltage is characterised on its own (impulse_next_step)."
  },
  {
   "property": "C64",
   "status": "proved",
   "theorems": [
    "Verif.Winding.sections_hold_every_turn",
    "Verif.Winding.sections_never_unassigned",
    "Verif.Winding.sections_zero_repetitions",
    "Verif.Winding.sections_no_turns"
   ],
   "note": "The two conditions on the inputs are needed: zero repetitions is undefined behaviour, and a winding without turns throws."
  },
  {
   "property": "C65",
   "status": "proved",
   "theorems": [
    "Verif.Winding.sections_even",
    "Verif.Winding.sections_consecutive",
    "Verif.Winding.sections_whole"
   ],
   "note": ""
  },
  {
   "property": "C66",
   "status": "proved",
   "theorems": [
    "Verif.Winding.sections_not_empty"
   ],
   "note": ""
  },
  {
   "property": "C67",
   "status": "partial",
   "theorems": [
    "Verif.Winding.sections_stacked",
    "Verif.Winding.sections_fill_window_partial",
    "Verif.Winding.sections_overflow_window",
    "Verif.Winding.sections_mixed_orientation"
   ],
   "note": "Side by side without condition. The size is that of the group when the group is oriented as the coil and no insulation wraps around from the last winding to the first; otherwise the sections stick out (witnesses)."
  },
  {
   "property": "C68",
   "status": "partial",
   "theorems": [
    "Verif.Winding.round_sections_hold_every_turn",
    "Verif.Winding.round_contiguous_never_unassigned",
    "Verif.Winding.round_sections_unassigned"
   ],
   "note": "Conservation in full. Winding a round window with overlapping sections throws for some ordinary coils (witness); with contiguous sections never."
  },
  {
   "property": "C69",
   "status": "partial",
   "theorems": [
    "Verif.Winding.layers_hold_every_turn",
    "Verif.Winding.layers_zero_drops_turns",
    "Verif.Winding.layers_blocked_drops_turns"
   ],
   "note": "Complete for a number of layers left to the library or above zero, without connection blocking. Asked for zero layers, or with connections that leave a layer less space than a row of parallels, turns are lost without an error (witnesses)."
  },
  {
   "property": "C70",
   "status": "proved",
   "theorems": [
    "Verif.Winding.layers_never_empty",
    "Verif.Winding.layers_succeed",
    "Verif.Winding.layers_given_empty_iff",
    "Verif.Winding.layers_given_empty_example"
   ],
   "note": "With connection blocking, each layer has to have space for one row of parallels."
  },
  {
   "property": "C71",
   "status": "partial",
   "theorems": [
    "Verif.Winding.layers_fit_turns",
    "Verif.Winding.layers_fit_parallels",
    "Verif.Winding.layers_one_turn",
    "Verif.Winding.layers_fit_blocked",
    "Verif.Winding.layers_within_section",
    "Verif.Winding.layers_overflow_ignored",
    "Verif.Winding.layers_overflow_honoured",
    "Verif.Winding.layers_real_overfull"
   ],
   "note": "Proved for one parallel after another, for the same number of turns of each parallel wound together, for foils and for layers sized around connections. With overflow allowed, and with real winding geometry in a section set to one parallel after another, parallels wound together overfill layers (witnesses)."
  },
  {
   "property": "C72",
   "status": "partial",
   "theorems": [
    "Verif.Winding.layers_stacked",
    "Verif.Winding.layers_placed",
    "Verif.Winding.layers_inside_section",
    "Verif.Winding.layers_bottom_ignores_insulation"
   ],
   "note": "Complete but for insulation between layers, which the alignment of contiguous layers does not count (witness)."
  },
  {
   "property": "C73",
   "status": "partial",
   "theorems": [
    "Verif.Winding.turns_complete",
    "Verif.Winding.turns_match_layers",
    "Verif.Winding.turns_succeed",
    "Verif.Winding.turns_real_loses_turn"
   ],
   "note": "Proved from the functional description to the turns for one group without real winding geometry, and from layers to turns for any layers. With real winding geometry a turn can be lost (witness)."
  },
  {
   "property": "C74",
   "status": "proved",
   "theorems": [
    "Verif.Winding.turns_placed",
    "Verif.Winding.turns_spacing",
    "Verif.Winding.turns_apart",
    "Verif.Winding.turns_inside_layer",
    "Verif.Winding.turns_spread_ends",
    "Verif.Winding.turns_back_and_forth",
    "Verif.Winding.turns_back_and_forth_wound",
    "Verif.Winding.single_turn_layers_turn_around",
    "Verif.Winding.sections_turn_around"
   ],
   "note": "rectangular windows without planar wires; places up to 1.5 nm of rounding, common to a layer"
  },
  {
   "property": "C75",
   "status": "partial",
   "theorems": [
    "Verif.Winding.turns_never_overlap",
    "Verif.Winding.turns_apart_in_coil",
    "Verif.Winding.sections_apart",
    "Verif.Winding.layers_of_section"
   ],
   "note": "Proved for one group, without connection blocking and without real winding geometry. The conditions cannot be dropped: see the witnesses of C71 and C72."
  },
  {
   "property": "C76",
   "status": "proved",
   "theorems": [
    "Verif.Winding.sections_by_group",
    "Verif.Winding.sections_keep_margins"
   ],
   "note": ""
  },
  {
   "property": "C77",
   "status": "partial",
   "theorems": [
    "Verif.Permeability.answers_keep_no_memory_partial",
    "Verif.Permeability.name_reused_answers_with_old_material"
   ],
   "note": "false of the code when a name comes to stand for another material (catalogue reload, inline material); proved for histories where each name always stands for the same material; formulas and the derivation of complex points are parameters"
  },
  {
   "property": "C78",
   "status": "proved",
   "theorems": [
    "Verif.Permeability.above_curie_is_one",
    "Verif.Permeability.permeability_at_measured_temperature",
    "Verif.Permeability.permeability_at_measured_frequency",
    "Verif.Permeability.permeability_at_measured_bias",
    "Verif.Permeability.saturation_never_raises"
   ],
   "note": "the spline is a parameter assumed to go through its points; frequencies and biases need three points (see C81)"
  },
  {
   "property": "C79",
   "status": "partial",
   "theorems": [
    "Verif.Permeability.permeability_at_least_one_partial",
    "Verif.Permeability.permeability_below_vacuum"
   ],
   "note": "false of the code when two conditions are asked for together; proved when at most one is"
  },
  {
   "property": "C80",
   "status": "proved",
   "theorems": [
    "Verif.Permeability.complex_at_measured",
    "Verif.Permeability.complex_constant_outside",
    "Verif.Permeability.complex_real_at_least_one",
    "Verif.Permeability.resistance_nonneg",
    "Verif.Permeability.resistance_proportional_outside",
    "Verif.Permeability.resistance_at_measured",
    "Verif.Permeability.resistance_needs_measurements"
   ],
   "note": ""
  },
  {
   "property": "C81",
   "status": "partial",
   "theorems": [
    "Verif.Permeability.permeability_defined_partial",
    "Verif.Permeability.point_without_frequency_undefined",
    "Verif.Permeability.two_frequencies_undefined",
    "Verif.Permeability.two_biases_undefined"
   ],
   "note": "false of the code; proved for data whose points used for a dependency all have it, at one or at least three values"
  },
  {
   "property": "C82",
   "status": "proved",
   "theorems": [
    "Verif.WoundWith.together_turns_kept",
    "Verif.WoundWith.together_wound"
   ],
   "note": "what winds sections, layers and turns is a parameter; the second theorem is about a coil not wound before (see C85)"
  },
  {
   "property": "C83",
   "status": "partial",
   "theorems": [
    "Verif.WoundWith.sections_keep_windings_partial",
    "Verif.WoundWith.layers_keep_windings_partial",
    "Verif.WoundWith.turns_keep_windings_partial",
    "Verif.WoundWith.failed_sections_lose_windings"
   ],
   "note": "false of the code when what winds throws; proved for every step that ends without an exception"
  },
  {
   "property": "C84",
   "status": "partial",
   "theorems": [
    "Verif.WoundWith.wound_together_iff_partial",
    "Verif.WoundWith.list_of_first_ignored",
    "Verif.WoundWith.chain_not_wound",
    "Verif.WoundWith.unlike_refused"
   ],
   "note": "false of the code for one-sided lists and for chains; proved for lists that agree with each other"
  },
  {
   "property": "C85",
   "status": "partial",
   "theorems": [
    "Verif.WoundWith.section_shared_partial",
    "Verif.WoundWith.rewound_section_lost"
   ],
   "note": "false of the code for a coil wound before with more windings; proved for a coil not wound before whose lists agree"
  },
  {
   "property": "C86",
   "status": "partial",
   "theorems": [
    "Verif.WindingLosses.skin_ignores_history_partial",
    "Verif.WindingLosses.wire_of_same_name",
    "Verif.WindingLosses.wire_of_same_size"
   ],
   "note": "false of the code for wires of the same name, or without name and of the same outer size; proved for histories in which such wires have the same factor"
  },
  {
   "property": "C87",
   "status": "proved",
   "theorems": [
    "Verif.WindingLosses.shares_add_to_one",
    "Verif.WindingLosses.winding_losses_from_resistance",
    "Verif.WindingLosses.turn_shares",
    "Verif.WindingLosses.connection_lengths",
    "Verif.WindingLosses.connection_lengths_given"
   ],
   "note": "names of windings taken as different where turns are looked up; doubles are exact numbers"
  },
  {
   "property": "C88",
   "status": "partial",
   "theorems": [
    "Verif.WindingLosses.totals_agree_partial",
    "Verif.WindingLosses.elements_agree",
    "Verif.WindingLosses.connections_lost",
    "Verif.WindingLosses.total_covers_turns"
   ],
   "note": "false of the code with the copper of connections, which is in the total but not in any part; proved in full without it, and with it that the sums over turns, layers, sections and windings agree among themselves"
  },
  {
   "property": "C89",
   "status": "partial",
   "theorems": [
    "Verif.WindingLosses.losses_defined_partial",
    "Verif.WindingLosses.parallel_past_the_end",
    "Verif.WindingLosses.harmonics_empty"
   ],
   "note": "false of the code for a turn of a parallel that its winding does not have and for harmonics that are empty; proved for all other input, with currents already processed and formulas and field that are defined"
  },
  {
   "property": "C90",
   "status": "proved",
   "theorems": [
    "Verif.WindingLosses.prune_keeps",
    "Verif.WindingLosses.prune_defined",
    "Verif.WindingLosses.prune_empty"
   ],
   "note": "for the currents and without a given main harmonic; harmonics without the first entry, or amplitudes without frequency, are read past the end, which the second and third theorem state"
  },
  {
   "property": "C91",
   "status": "partial",
   "theorems": [
    "Verif.Names.section_names_match",
    "Verif.Names.section_names_unique_partial",
    "Verif.Names.section_names_clash",
    "Verif.Names.section_names_shared",
    "Verif.Names.layer_names_unique",
    "Verif.Names.turn_names_unique"
   ],
   "note": "false of the code for a winding named like insulation and for groups of the user that share a winding; proved for names of windings that are different and do not begin with 'Insulation between ', and with several groups that share no winding and names without ' and'; layers and turns in full, given different names of sections and windings. Rectangular windows; windings wound together, which are renamed, not included"
  },
  {
   "property": "C92",
   "status": "partial",
   "theorems": [
    "Verif.Names.turn_index_present",
    "Verif.Names.turn_index_only",
    "Verif.Names.turn_by_name_partial",
    "Verif.Names.turn_by_name_stale",
    "Verif.Names.winding_index_partial",
    "Verif.Names.winding_index_stale"
   ],
   "note": "the index of a turn is proved in full; false of the code for a turn after winding again and for the index of a winding after windings are replaced; proved for histories without those"
  },
  {
   "property": "C93",
   "status": "proved",
   "theorems": [
    "Verif.Names.beginning_names",
    "Verif.Names.beginning_names_unique",
    "Verif.Names.beginning_numbers",
    "Verif.Names.ending_number"
   ],
   "note": "parallels are not negative"
  },
  {
   "property": "C94",
   "status": "proved",
   "theorems": [
    "Verif.WindingLosses.proximity_from_own_field"
   ],
   "note": "distances are compared by their squares; the losses per metre of some points are a parameter, and the names of windings are different"
  },
  {
   "property": "C95",
   "status": "proved",
   "theorems": [
    "Verif.Network.fluxes_obey_laws",
    "Verif.Network.flux_of_one_column",
    "Verif.Network.fluxes_of_currents",
    "Verif.Network.built_is_sound"
   ],
   "note": "exact numbers: rounding of doubles in the elimination is not modelled"
  },
  {
   "property": "C96",
   "status": "proved",
   "theorems": [
    "Verif.Network.inductances_of_a_circuit",
    "Verif.Network.short_circuit_bounds",
    "Verif.Network.built_is_sound"
   ],
   "note": "exact numbers; windings on columns of the network, which is what C98 gives"
  },
  {
   "property": "C97",
   "status": "partial",
   "theorems": [
    "Verif.Network.built_is_sound",
    "Verif.Network.ordered_left_to_right",
    "Verif.Network.gaps_in_series",
    "Verif.Network.lumped_on_main_partial",
    "Verif.Network.centre_of_three",
    "Verif.Network.one_of_two",
    "Verif.Network.gapping_reluctance",
    "Verif.Network.return_gaps_not_lumped",
    "Verif.Network.more_gaps_less_reluctance",
    "Verif.Network.gaps_read_past_end"
   ],
   "note": "false for gaps in other columns than the main one when the returns are not alike: the network puts each in series with its own column and the lumped model all of them in parallel; and gaps without coordinates are processed again after they were counted, so that reluctances can be read past the end"
  },
  {
   "property": "C98",
   "status": "partial",
   "theorems": [
    "Verif.Network.windings_in_their_columns_partial",
    "Verif.Network.windings_accepted",
    "Verif.Network.two_columns_refused",
    "Verif.Network.other_placement_iff",
    "Verif.Network.section_without_window_moves"
   ],
   "note": "false for a winding with a section that names no window and another around another column, which is not refused and all of it is attributed to the other column"
  },
  {
   "property": "C99",
   "status": "partial",
   "theorems": [
    "Verif.Gapping.gaps_on_columns",
    "Verif.Gapping.every_column_gapped",
    "Verif.Gapping.ground_gaps_on_winding_column",
    "Verif.Gapping.one_gap_per_column",
    "Verif.Gapping.spacer_separates_partial",
    "Verif.Gapping.spacer_with_residuals",
    "Verif.Gapping.surplus_spacers"
   ],
   "note": "false for spacers written with residual gaps, or more spacers than columns: they go to the winding column only, as if they were ground"
  }
 ]
}