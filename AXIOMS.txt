C01 Jaxions.C01_fold_keeps_field: propext, Classical.choice, Quot.sound
C01 Jaxions.C01_unfold_keeps_field: propext, Classical.choice, Quot.sound
C01 Jaxions.C01_history: propext, Classical.choice, Quot.sound
C01 Jaxions.C01_roundtrip_cells: propext, Classical.choice, Quot.sound
C01 Jaxions.C01_layout_bijective: propext, Classical.choice, Quot.sound
C02 Jaxions.C02_z_slice: propext, Classical.choice, Quot.sound
C02 Jaxions.C02_refused: propext
C02 Jaxions.C02_x_slice_partial: propext, Classical.choice, Quot.sound
C02 Jaxions.C02_x_slice_deep_overflow: propext, Classical.choice, Quot.sound
C02 Jaxions.C02_depth_index_not_refused: propext
C02 Jaxions.C02_length_index_not_refused: propext
C03 Jaxions.C03_coords_of_number: propext, Classical.choice, Quot.sound
C03 Jaxions.C03_number_of_coords: propext, Classical.choice, Quot.sound
C03 Jaxions.C03_padded: propext, Classical.choice, Quot.sound
C03 Jaxions.C03_padded_number: propext, Classical.choice, Quot.sound
C03 Jaxions.C03_neighbours: propext, Classical.choice, Quot.sound
C03 Jaxions.C03_neighbours_in_grid: propext, Classical.choice, Quot.sound
C03 Jaxions.C03_length_one: none
C04 Jaxions.Simd.C04_rotations: propext, Classical.choice, Quot.sound
C04 Jaxions.Simd.C04_step_is_shift: none
C04 Jaxions.Stencil.C04_laplacian: propext, Classical.choice, Quot.sound
C04 Jaxions.Stencil.C04_substep: propext, Classical.choice, Quot.sound
C04 Jaxions.Stencil.C04_row_condition: propext, Classical.choice, Quot.sound
C05 Jaxions.C05_tiles_exactly_once: propext, Classical.choice, Quot.sound
C05 Jaxions.C05_idx_guard_exactly_once_partial: propext, Classical.choice, Quot.sound
C05 Jaxions.C05_idx_guard_double_visit: none
C06 Jaxions.C06_exactly_once_iff: propext, Classical.choice, Quot.sound
C06 Jaxions.C06_unguarded_iff: propext, Classical.choice, Quot.sound
C06 Jaxions.C06_bulk_reads_no_ghost: propext, Classical.choice, Quot.sound
C07 Jaxions.C07_pieces_general: propext, Classical.choice, Quot.sound
C07 Jaxions.C07_pieces_ghosts: propext, Classical.choice, Quot.sound
C08 Jaxions.C08_matching_general: propext, Classical.choice, Quot.sound
C08 Jaxions.C08_matching_ghosts: propext, Classical.choice, Quot.sound
C08 Jaxions.C08_peers_in_range: propext, Classical.choice, Quot.sound
C09 Jaxions.C09_exchange: propext, Classical.choice, Quot.sound
C09 Jaxions.C09_exchange_ghosts: propext, Classical.choice, Quot.sound
C09 Jaxions.C09_nearest: propext, Quot.sound
C09 Jaxions.C09_velocity_overwritten: propext, Classical.choice, Quot.sound
C10 Jaxions.Cluster.C10_gathered_result: propext, Classical.choice, Quot.sound
C10 Jaxions.Cluster.C10_rank_count_independent: propext, Classical.choice, Quot.sound
C10 Jaxions.Cluster.C10_always_finishes: propext, Classical.choice, Quot.sound
C11 Jaxions.Integrator.C11_base_methods: propext, Classical.choice, Quot.sound
C11 Jaxions.Integrator.C11_other_methods_partial: propext, Classical.choice, Quot.sound
C11 Jaxions.Integrator.C11_spectral_out_of_bounds: propext, Classical.choice, Quot.sound
C11 Jaxions.Integrator.C11_full_spectral_falls_short: propext, Classical.choice, Quot.sound
C11 Jaxions.Integrator.C11_lowmem_never_drifts: propext, Classical.choice, Quot.sound
C12 Jaxions.Integrator.C12_saxion_reversible: propext, Classical.choice, Quot.sound
C12 Jaxions.Integrator.C12_axion_reversible_partial: propext, Classical.choice, Quot.sound
C12 Jaxions.Integrator.C12_axion_time_dependent: propext, Classical.choice, Quot.sound
C12 Jaxions.Integrator.C12_rkn4_not_reversible: propext, Classical.choice, Quot.sound
C12 Jaxions.Integrator.C12_zero_step: propext, Quot.sound
C13 Jaxions.Weights.C13_exact: propext, Classical.choice, Quot.sound
C13 Jaxions.Weights.C13_laplacian_exact: propext, Classical.choice, Quot.sound
C13 Jaxions.Weights.C13_radius_six_undefined: propext, Classical.choice, Quot.sound
C14 Jaxions.Cosmo.C14_mode: propext, Classical.choice, Quot.sound
C14 Jaxions.Cosmo.C14_positive: propext, Classical.choice, Quot.sound
C14 Jaxions.Cosmo.C14_saxion_bound: propext, Classical.choice, Quot.sound
C14 Jaxions.Cosmo.C14_axion_bound: propext, Classical.choice, Quot.sound
C14 Jaxions.Cosmo.C14_paxion_bound: propext, Classical.choice, Quot.sound
C14 Jaxions.Cosmo.C14_threshold: propext, Classical.choice, Quot.sound
C14 Jaxions.Cosmo.C14_threshold_grav: propext, Classical.choice, Quot.sound
C14 Jaxions.Cosmo.C14_wide_stencil: propext, Classical.choice, Quot.sound
C14 Jaxions.Cosmo.C14_unknown_types: propext, Classical.choice, Quot.sound
C15 Jaxions.SetField.C15_one_call: propext, Quot.sound
C15 Jaxions.SetField.C15_sequence: propext, Quot.sound
C15 Jaxions.SetField.C15_refused: propext
C15 Jaxions.SetField.C15_fits_from_saxion: propext, Classical.choice, Quot.sound
C15 Jaxions.SetField.C15_naxion_not_refused: propext, Quot.sound
C15 Jaxions.SetField.C15_paxion_to_axion: propext, Quot.sound
C15 Jaxions.SetField.C15_axion_created_overlap: propext, Classical.choice, Quot.sound
C16 Jaxions.Mem.C16_accounting: propext, Classical.choice, Quot.sound
C16 Jaxions.Mem.C16_all_freed: propext, Classical.choice, Quot.sound
C16 Jaxions.Mem.C16_released_once: propext, Classical.choice, Quot.sound
C16 Jaxions.Lifetime.C16_field_released: propext, Classical.choice, Quot.sound
C16 Jaxions.Lifetime.C16_axion_like_released: propext, Classical.choice, Quot.sound
C16 Jaxions.Lifetime.C16_switched_field_leaks: propext, Classical.choice, Quot.sound
C16 Jaxions.Lifetime.C16_axion_to_saxion_bad_free: propext, Classical.choice, Quot.sound
C16 Jaxions.Lifetime.C16_paxion_leaks: propext, Classical.choice, Quot.sound
C17 Jaxions.Tunable.C17_blocks_divide: propext, Classical.choice, Quot.sound
C17 Jaxions.Tunable.C17_never_repeats: propext, Classical.choice, Quot.sound
C17 Jaxions.Tunable.C17_terminates: propext, Classical.choice, Quot.sound
C17 Jaxions.Tunable.C17_nothing_skipped: propext, Classical.choice, Quot.sound
C17 Jaxions.Tunable.C17_init: propext, Quot.sound
C17 Jaxions.Tunable.C17_small_grid_diverges: propext, Classical.choice, Quot.sound
C18 Jaxions.Tuner.C18_fastest: propext, Classical.choice, Quot.sound
C18 Jaxions.Tuner.C18_slowest_rank: propext, Quot.sound
C18 Jaxions.Tuner.C18_cache_match: propext, Quot.sound
C18 Jaxions.Tuner.C18_cache_round_trip: propext, Classical.choice, Quot.sound
C18 Jaxions.Tuner.C18_precision_ignored: propext, Classical.choice, Quot.sound
C18 Jaxions.Tuner.C18_unnamed_type: none
C19 Jaxions.Cosmo.C19_total: propext, Classical.choice, Quot.sound
C19 Jaxions.Cosmo.C19_is_law: propext, Classical.choice, Quot.sound
C19 Jaxions.Cosmo.C19_nonneg: propext, Classical.choice, Quot.sound
C19 Jaxions.Cosmo.C19_continuous: propext, Classical.choice, Quot.sound
C19 Jaxions.Cosmo.C19_monotone: propext, Classical.choice, Quot.sound
C19 Jaxions.Cosmo.C19_in_time: propext, Classical.choice, Quot.sound
C19 Jaxions.Cosmo.C19_monotone_in_time: propext, Classical.choice, Quot.sound
C20 Jaxions.Binner.C20_bin: propext, Classical.choice, Quot.sound
C20 Jaxions.Binner.C20_inside: propext, Classical.choice, Quot.sound
C20 Jaxions.Binner.C20_counts: propext, Classical.choice, Quot.sound
C20 Jaxions.Binner.C20_limits: propext, Classical.choice, Quot.sound
C20 Jaxions.Binner.C20_normalised: propext, Classical.choice, Quot.sound
C20 Jaxions.Binner.C20_second_run: propext, Classical.choice, Quot.sound
C21 Jaxions.Peaks.C21_top: propext, Classical.choice, Quot.sound
C21 Jaxions.Peaks.C21_scan: propext, Classical.choice, Quot.sound
C21 Jaxions.Peaks.C21_maximum_rejected: propext, Classical.choice, Quot.sound
C22 Jaxions.Winding.C22_even: propext, Classical.choice, Quot.sound
C22 Jaxions.Winding.C22_cyclic: propext, Quot.sound
C22 Jaxions.Winding.C22_reverse: propext, Classical.choice, Quot.sound
C22 Jaxions.Winding.C22_values: propext, Classical.choice, Quot.sound
C22 Jaxions.Winding.C22_values_clear: propext, Classical.choice, Quot.sound
C22 Jaxions.Winding.C22_builds_agree: propext, Quot.sound
C22 Jaxions.Winding.C22_vector: propext, Classical.choice, Quot.sound
C22 Jaxions.Winding.C22_wall: propext, Classical.choice, Quot.sound
C22 Jaxions.Winding.C22_vector_misses: propext, Classical.choice, Quot.sound
C22 Jaxions.Winding.C22_winding: propext, Classical.choice, Quot.sound
C22 Jaxions.Winding.C22_winding_vector: propext, Classical.choice, Quot.sound
C22 Jaxions.Winding.C22_rotation: propext, Classical.choice, Quot.sound
C23 Jaxions.Winding.C23_cube: propext, Classical.choice, Quot.sound
C23 Jaxions.Winding.C23_no_end: propext, Classical.choice, Quot.sound
C23 Jaxions.Winding.C23_box: propext, Classical.choice, Quot.sound
C23 Jaxions.Winding.C23_plane: propext, Classical.choice, Quot.sound
C23 Jaxions.Winding.C23_vector: propext, Classical.choice, Quot.sound
C23 Jaxions.Winding.C23_no_end_vector: propext, Classical.choice, Quot.sound
C24 Jaxions.StringMap.C24_kernel: propext, Classical.choice, Quot.sound
C24 Jaxions.StringMap.C24_rank: propext, Classical.choice, Quot.sound
C24 Jaxions.StringMap.C24_map: propext, Classical.choice, Quot.sound
C24 Jaxions.StringMap.C24_totals: propext, Classical.choice, Quot.sound
C24 Jaxions.StringMap.C24_charge_zero: propext, Classical.choice, Quot.sound
C24 Jaxions.StringMap.C24_positions: propext, Classical.choice, Quot.sound
C24 Jaxions.StringMap.C24_rotation: propext, Classical.choice, Quot.sound
C24 Jaxions.StringMap.C24_rotation_avx512: propext, Quot.sound
C24 Jaxions.StringMap.C24_displaced: propext, Classical.choice, Quot.sound
C24 Jaxions.StringMap.C24_overflow: propext, Quot.sound
C25 Jaxions.Mend.C25_turns: propext, Classical.choice, Quot.sound
C25 Jaxions.Mend.C25_mends: propext, Classical.choice, Quot.sound
C25 Jaxions.Mend.C25_smooth_unchanged: propext, Classical.choice, Quot.sound
C25 Jaxions.Mend.C25_idempotent: propext, Classical.choice, Quot.sound
C25 Jaxions.Mend.C25_line: propext, Classical.choice, Quot.sound
C25 Jaxions.Mend.C25_avx512_hangs: propext, Classical.choice, Quot.sound
C25 Jaxions.Mend.C25_velocity: propext, Classical.choice, Quot.sound
C25 Jaxions.Mend.C25_slope_radiation: propext, Classical.choice, Quot.sound
C26 Jaxions.Spectrum.bin_floor: propext, Classical.choice, Quot.sound
C26 Jaxions.Spectrum.C26_bin: propext, Classical.choice, Quot.sound
C26 Jaxions.Spectrum.C26_fill: propext, Classical.choice, Quot.sound
C26 Jaxions.Spectrum.C26_gradient: propext, Classical.choice, Quot.sound
C26 Jaxions.Spectrum.C26_count: propext, Classical.choice, Quot.sound
C26 Jaxions.Spectrum.C26_total: propext, Classical.choice, Quot.sound
C26 Jaxions.Spectrum.C26_twice: propext, Classical.choice, Quot.sound
C26 Jaxions.Spectrum.C26_potential_gradient: propext, Classical.choice, Quot.sound
C26 Jaxions.Spectrum.C26_no_bins: propext, Classical.choice, Quot.sound
C26 Jaxions.Spectrum.C26_odd: propext, Classical.choice, Quot.sound
C26 Jaxions.Spectrum.C26_even: propext, Classical.choice, Quot.sound
C27 Jaxions.Pad.C27_pad: propext, Classical.choice, Quot.sound
C27 Jaxions.Pad.C27_pad_apart: propext, Classical.choice, Quot.sound
C27 Jaxions.Pad.C27_unpad: propext, Classical.choice, Quot.sound
C27 Jaxions.Pad.C27_unpad_forward: propext, Classical.choice, Quot.sound
C27 Jaxions.Pad.C27_unpad_apart: propext, Classical.choice, Quot.sound
C27 Jaxions.Pad.C27_round_trip: propext, Classical.choice, Quot.sound
C27 Jaxions.Pad.C27_half: propext, Classical.choice, Quot.sound
C27 Jaxions.Pad.C27_prun: propext, Classical.choice, Quot.sound
C27 Jaxions.Pad.C27_start: propext, Classical.choice, Quot.sound
C27 Jaxions.Pad.C27_start_loses: propext, Classical.choice, Quot.sound
C27 Jaxions.Pad.C27_room_m2: propext, Quot.sound
C27 Jaxions.Pad.C27_room_m: propext, Classical.choice, Quot.sound
C28 Jaxions.Reduce.C28_in_place: propext, Classical.choice, Quot.sound
C28 Jaxions.Reduce.C28_ranks: propext, Classical.choice, Quot.sound
C28 Jaxions.Reduce.C28_constant: propext, Classical.choice, Quot.sound
C28 Jaxions.Reduce.C28_subset: propext, Classical.choice, Quot.sound
C28 Jaxions.Reduce.C28_bounds: propext, Classical.choice, Quot.sound
C28 Jaxions.Reduce.C28_cherry: propext, Quot.sound
C28 Jaxions.Reduce.C28_field: propext, Quot.sound
C28 Jaxions.Reduce.C28_new_saxion: propext, Quot.sound
C28 Jaxions.Reduce.C28_new_axion_lost: propext, Quot.sound
C28 Jaxions.Reduce.C28_dims: propext
C29 Jaxions.MaskBall.C29_safe: propext, Classical.choice, Quot.sound
C29 Jaxions.MaskBall.C29_safe_receive: propext, Classical.choice, Quot.sound
C29 Jaxions.MaskBall.C29_sound: propext, Classical.choice, Quot.sound
C29 Jaxions.MaskBall.C29_own: propext, Classical.choice, Quot.sound
C29 Jaxions.MaskBall.C29_exact: propext, Classical.choice, Quot.sound
C29 Jaxions.MaskBall.C29_runs: propext, Classical.choice, Quot.sound
C29 Jaxions.MaskBall.C29_race: propext, Classical.choice, Quot.sound
C29 Jaxions.MaskBall.C29_thin: propext, Classical.choice, Quot.sound
C29 Jaxions.MaskBall.C29_one_slice: propext, Classical.choice, Quot.sound
C30 Jaxions.Smooth.C30_smooth: propext, Classical.choice, Quot.sound
C30 Jaxions.Smooth.C30_ranks: propext, Classical.choice, Quot.sound
C30 Jaxions.Smooth.C30_total: propext, Classical.choice, Quot.sound
C30 Jaxions.Smooth.C30_bounds: propext, Classical.choice, Quot.sound
C30 Jaxions.Smooth.C30_constant: propext, Classical.choice, Quot.sound
C30 Jaxions.Smooth.C30_run: propext, Classical.choice, Quot.sound
C30 Jaxions.Smooth.C30_lowmem: propext, Quot.sound
C31 Jaxions.Plans.C31_once: propext, Classical.choice, Quot.sound
C31 Jaxions.Plans.C31_defined: propext, Classical.choice, Quot.sound
C31 Jaxions.Plans.C31_meaning: propext, Classical.choice, Quot.sound
C31 Jaxions.Plans.C31_meaning_unique: propext, Quot.sound
C31 Jaxions.Plans.C31_run: propext, Classical.choice, Quot.sound
C31 Jaxions.Plans.C31_run_unknown: propext, Classical.choice, Quot.sound
C31 Jaxions.Plans.C31_keep: propext, Classical.choice, Quot.sound
C31 Jaxions.Plans.C31_create: propext, Classical.choice, Quot.sound
C31 Jaxions.Plans.C31_remove: propext, Classical.choice, Quot.sound
C31 Jaxions.Plans.C31_shutdown: propext, Classical.choice, Quot.sound
C31 Jaxions.Plans.C31_shutdown_flag: propext, Classical.choice, Quot.sound
C31 Jaxions.Plans.C31_shutdown_off: propext, Quot.sound
C31 Jaxions.Plans.C31_lookup_blocks: propext, Classical.choice, Quot.sound
C31 Jaxions.Plans.C31_second_field: propext, Classical.choice, Quot.sound
C31 Jaxions.Plans.C31_other_field_closed: propext, Quot.sound
C31 Jaxions.Plans.C31_close_empty: propext, Quot.sound
C31 Jaxions.Plans.C31_close_twice: propext, Quot.sound
C31 Jaxions.Plans.C31_unknown_kind: propext, Quot.sound
C31 Jaxions.Plans.C31_assign_double: propext, Quot.sound
C32 Jaxions.Log.C32_text: propext, Quot.sound
C32 Jaxions.Log.C32_text_long: propext, Quot.sound
C32 Jaxions.Log.C32_pack: propext, Classical.choice, Quot.sound
C32 Jaxions.Log.C32_pack_long: propext, Quot.sound
C32 Jaxions.Log.C32_label: propext
C32 Jaxions.Log.C32_sound: propext, Quot.sound
C32 Jaxions.Log.C32_error_sent: propext, Quot.sound
C32 Jaxions.Log.C32_errors_once: propext, Quot.sound
C32 Jaxions.Log.C32_zero: propext
C32 Jaxions.Log.C32_errors_delivered: propext, Quot.sound
C32 Jaxions.Log.C32_duplicate: propext, Quot.sound
C32 Jaxions.Log.C32_lost: propext, Quot.sound
C32 Jaxions.Log.C32_prompt: propext
C32 Jaxions.Log.C32_flush_lost: propext
C33 Jaxions.PropChoice.C33_refused: propext, Quot.sound
C33 Jaxions.PropChoice.C33_asked_unique: none
C33 Jaxions.PropChoice.C33_resolve: propext, Classical.choice, Quot.sound
C33 Jaxions.PropChoice.C33_made_or_exit: propext, Quot.sound
C33 Jaxions.PropChoice.C33_default: propext, Classical.choice, Quot.sound
C33 Jaxions.PropChoice.C33_two_integrators: propext, Classical.choice, Quot.sound
C33 Jaxions.PropChoice.C33_fold: propext, Quot.sound
C33 Jaxions.PropChoice.C33_neighbours: propext, Classical.choice, Quot.sound
C33 Jaxions.PropChoice.C33_order: propext, Quot.sound
C33 Jaxions.PropChoice.C33_both_spectral: propext, Quot.sound
C33 Jaxions.PropChoice.C33_lap0_spec: propext
C33 Jaxions.PropChoice.C33_om4: propext, Quot.sound
C33 Jaxions.PropChoice.C33_potential: propext, Quot.sound
C33 Jaxions.PropChoice.C33_potential_table: propext
C33 Jaxions.PropChoice.C33_kernel_unset: propext
C34 Jaxions.Derived.C34_options: propext, Classical.choice, Quot.sound
C34 Jaxions.Derived.C34_msa: propext, Classical.choice, Quot.sound
C34 Jaxions.Derived.C34_msa_max: propext, Classical.choice, Quot.sound
C34 Jaxions.Derived.C34_logi: propext, Classical.choice, Quot.sound
C34 Jaxions.Derived.C34_llcf_exact: propext, Classical.choice, Quot.sound
C34 Jaxions.Derived.C34_llcf_msa: propext, Classical.choice, Quot.sound
C34 Jaxions.Derived.C34_logi_missed: propext, Classical.choice, Quot.sound
C34 Jaxions.Derived.C34_order: propext, Classical.choice, Quot.sound
C34 Jaxions.Derived.C34_mink_then_frw: propext, Classical.choice, Quot.sound
C34 Jaxions.Derived.C34_saxion_mass: propext, Classical.choice, Quot.sound
C35 Jaxions.Projector.C35_map: propext, Classical.choice, Quot.sound
C35 Jaxions.Projector.C35_ranks: propext, Classical.choice, Quot.sound
C35 Jaxions.Projector.C35_file: propext, Classical.choice, Quot.sound
C36 Jaxions.Header.C36_fresh: propext, Quot.sound
C36 Jaxions.Header.C36_exact: propext, Quot.sound
C36 Jaxions.Header.C36_qcd_damping: propext, Quot.sound
C36 Jaxions.Header.C36_pq_lost: propext
C36 Jaxions.Header.C36_theta_lost: propext
C36 Jaxions.Header.C36_restart: propext, Quot.sound
C36 Jaxions.Header.C36_restart_damping: propext, Quot.sound
C36 Jaxions.Header.C36_damping_changes_potential: propext, Quot.sound
C37 Jaxions.ConfIO.C37_once: propext, Classical.choice, Quot.sound
C37 Jaxions.ConfIO.C37_write: propext, Classical.choice, Quot.sound
C37 Jaxions.ConfIO.C37_read_refused: propext
C37 Jaxions.ConfIO.C37_read: propext, Classical.choice, Quot.sound
C37 Jaxions.ConfIO.C37_round_trip: propext, Classical.choice, Quot.sound
C37 Jaxions.ConfIO.C37_naxion: propext
C38 Jaxions.Save.C38_values: propext, Classical.choice, Quot.sound
C38 Jaxions.Save.C38_layout_iff: propext, Classical.choice, Quot.sound
C38 Jaxions.Save.C38_next_step: propext, Classical.choice, Quot.sound
C38 Jaxions.Save.C38_flags: propext, Quot.sound
C38 Jaxions.Save.C38_momentum_lost: propext, Quot.sound
C38 Jaxions.Save.C38_written: propext, Quot.sound
C38 Jaxions.Save.C38_others: propext
C38 Jaxions.Save.C38_window: propext, Classical.choice, Quot.sound
C38 Jaxions.Save.C38_history: propext, Classical.choice, Quot.sound
C38 Jaxions.Save.C38_restart_lost: propext, Classical.choice, Quot.sound
C38 Jaxions.Save.C38_create_failed: propext
C39 Jaxions.CheckTime.C39_agree: propext, Classical.choice, Quot.sound
C39 Jaxions.CheckTime.C39_end: propext, Classical.choice, Quot.sound
C39 Jaxions.CheckTime.C39_matched: propext, Classical.choice, Quot.sound
C39 Jaxions.CheckTime.C39_together: propext, Classical.choice, Quot.sound
C39 Jaxions.CheckTime.C39_progress: propext, Classical.choice, Quot.sound
C39 Jaxions.CheckTime.C39_cause: propext, Classical.choice, Quot.sound
C39 Jaxions.CheckTime.C39_effect: propext, Classical.choice, Quot.sound
C39 Jaxions.CheckTime.C39_save_honoured: propext, Classical.choice, Quot.sound
C39 Jaxions.CheckTime.C39_save_once: propext, Classical.choice, Quot.sound
C39 Jaxions.CheckTime.C39_settled: propext, Classical.choice, Quot.sound
C40 Jaxions.TimeLoop.C40_running: propext, Classical.choice, Quot.sound
C40 Jaxions.TimeLoop.C40_run: propext, Classical.choice, Quot.sound
C40 Jaxions.TimeLoop.C40_last: propext, Classical.choice, Quot.sound
C40 Jaxions.TimeLoop.C40_first: propext, Classical.choice, Quot.sound
C40 Jaxions.TimeLoop.C40_near_start_skipped: propext, Classical.choice, Quot.sound
C40 Jaxions.TimeLoop.C40_restart_jumps: propext, Classical.choice, Quot.sound
C40 Jaxions.TimeLoop.C40_single_outside: propext, Classical.choice, Quot.sound
C40 Jaxions.TimeLoop.C40_fixed_step_short: propext, Classical.choice, Quot.sound
C40 Jaxions.TimeLoop.C40_last_not_loaded: propext, Classical.choice, Quot.sound
C40 Jaxions.TimeLoop.C40_theta_maps: propext, Classical.choice, Quot.sound
C41 Jaxions.Header.C41_text: propext, Classical.choice, Quot.sound
C41 Jaxions.Header.C41_attribute: propext, Classical.choice, Quot.sound
C41 Jaxions.Header.C41_transfer: propext, Quot.sound
C41 Jaxions.Header.C41_read_overrun: propext
C41 Jaxions.Header.C41_path: propext, Classical.choice, Quot.sound
C41 Jaxions.Header.C41_path_iff: propext, Classical.choice, Quot.sound
C41 Jaxions.Header.C41_duplicate_attribute: propext
C42 Jaxions.SaxKernel.C42_parts: propext, Classical.choice, Quot.sound
C42 Jaxions.SaxKernel.C42_rho: propext, Classical.choice, Quot.sound
C42 Jaxions.SaxKernel.C42_exact: propext, Classical.choice, Quot.sound
C43 Jaxions.Tracker.C43_lists: propext, Classical.choice, Quot.sound
C43 Jaxions.Tracker.C43_found: propext, Classical.choice, Quot.sound
C43 Jaxions.Tracker.C43_complete: propext, Classical.choice, Quot.sound
C43 Jaxions.Tracker.C43_series_partial: propext, Classical.choice, Quot.sound
C43 Jaxions.Tracker.C43_unfolded_misread: propext, Classical.choice, Quot.sound
C43 Jaxions.Tracker.C43_convert: propext, Classical.choice, Quot.sound
C43 Jaxions.Tracker.C43_print: propext, Classical.choice, Quot.sound
C44 Jaxions.MeasList.C44_columns: propext, Classical.choice, Quot.sound
C44 Jaxions.MeasList.C44_old: propext, Classical.choice, Quot.sound
C44 Jaxions.MeasList.C44_merge: propext, Quot.sound
C44 Jaxions.MeasList.C44_increasing: propext, Classical.choice, Quot.sound
C44 Jaxions.MeasList.C44_nothing_lost_partial: propext, Quot.sound
C44 Jaxions.MeasList.C44_file: propext, Classical.choice, Quot.sound
C44 Jaxions.MeasList.C44_maps_lost: propext, Quot.sound
C44 Jaxions.MeasList.C44_unknown_name: propext, Classical.choice, Quot.sound
C44 Jaxions.MeasList.C44_first_time_unset: propext, Quot.sound
C45 Jaxions.Integrator.C45_saxion_on_time: propext, Quot.sound
C45 Jaxions.Integrator.C45_axion_late: propext, Classical.choice, Quot.sound
C46 Jaxions.Spectral.C46_saxion_stage: propext, Classical.choice, Quot.sound
C46 Jaxions.Spectral.C46_saxion_partial: propext, Classical.choice, Quot.sound
C46 Jaxions.Spectral.C46_saxion_frozen: propext, Classical.choice, Quot.sound
C46 Jaxions.Spectral.C46_saxion_mispaired: propext, Classical.choice, Quot.sound
C46 Jaxions.Spectral.C46_axion_partial: propext, Classical.choice, Quot.sound
C46 Jaxions.Spectral.C46_axion_frozen: propext, Classical.choice, Quot.sound
C46 Jaxions.Spectral.C46_axion_reads_padding: propext, Quot.sound
C47 Jaxions.Header.C47_exact: propext
C47 Jaxions.Header.C47_others: none
C47 Jaxions.Header.C47_frw_lost: propext, Classical.choice, Quot.sound
C48 Jaxions.Fourier.C48_round_trip_partial: propext, Classical.choice, Quot.sound
C48 Jaxions.Fourier.C48_ghosts_out_of_bounds: propext, Classical.choice, Quot.sound
C48 Jaxions.Fourier.C48_axion_out_of_bounds: propext, Classical.choice, Quot.sound
C48 Jaxions.Fourier.C48_axion_velocity_scaled: propext, Classical.choice, Quot.sound
C48 Jaxions.Fourier.C48_velocity_skipped: propext
C49 Jaxions.SaxKernel.C49_force: propext, Classical.choice, Quot.sound
C49 Jaxions.SaxKernel.C49_variant: propext, Classical.choice, Quot.sound
C49 Jaxions.SaxKernel.C49_two: propext, Classical.choice, Quot.sound
C49 Jaxions.SaxKernel.C49_cosine_double: propext, Classical.choice, Quot.sound
C49 Jaxions.SaxKernel.C49_double_wrong: propext, Classical.choice, Quot.sound
C49 Jaxions.SaxKernel.C49_precisions: propext, Classical.choice, Quot.sound
C50 Jaxions.SaxKernel.C50_mass: propext, Classical.choice, Quot.sound
C50 Jaxions.SaxKernel.C50_variant: propext, Classical.choice, Quot.sound
C51 Jaxions.Energy.C51_wrap: propext, Classical.choice, Quot.sound
C51 Jaxions.Energy.C51_wrap_half: propext, Classical.choice, Quot.sound
C51 Jaxions.Energy.C51_wrap_far: propext, Classical.choice, Quot.sound
C51 Jaxions.Energy.C51_axion: propext, Classical.choice, Quot.sound
C51 Jaxions.Energy.C51_axion_mean: propext, Classical.choice, Quot.sound
C51 Jaxions.Energy.C51_axion_avx512: propext, Classical.choice, Quot.sound
C51 Jaxions.Energy.C51_axion_avx512_wrong: propext, Classical.choice, Quot.sound
C52 Jaxions.Energy.C52_potential: propext, Classical.choice, Quot.sound
C52 Jaxions.Energy.C52_single: propext, Classical.choice, Quot.sound
C52 Jaxions.Energy.C52_double: propext, Classical.choice, Quot.sound
C52 Jaxions.Energy.C52_double_no_kinetic: propext, Classical.choice, Quot.sound
C52 Jaxions.Energy.C52_double_masked_undefined: propext, Classical.choice, Quot.sound
C52 Jaxions.Energy.C52_parts: propext, Classical.choice, Quot.sound
C52 Jaxions.Energy.C52_two_minima_constant: propext, Classical.choice, Quot.sound
C53 Jaxions.Energy.C53_mean: propext, Classical.choice, Quot.sound
C53 Jaxions.Energy.C53_double: propext, Classical.choice, Quot.sound
C53 Jaxions.Energy.C53_file: propext, Classical.choice, Quot.sound
C53 Jaxions.Energy.C53_lowmem_zero: propext, Classical.choice, Quot.sound
C53 Jaxions.Energy.C53_no_mask: propext, Classical.choice, Quot.sound
C53 Jaxions.Energy.C53_axion: propext, Classical.choice, Quot.sound
C54 Jaxions.ToTheta.C54_convert: propext, Classical.choice, Quot.sound
C54 Jaxions.ToTheta.C54_velocity: propext, Classical.choice, Quot.sound
C54 Jaxions.ToTheta.C54_derivative: propext, Classical.choice, Quot.sound
C54 Jaxions.ToTheta.C54_gravity: propext, Classical.choice, Quot.sound
C54 Jaxions.ToTheta.C54_back: propext, Classical.choice, Quot.sound
C54 Jaxions.ToTheta.C54_back_velocity: propext, Classical.choice, Quot.sound
C54 Jaxions.ToTheta.C54_round_trip: propext, Classical.choice, Quot.sound
C54 Jaxions.ToTheta.C54_initial: propext, Classical.choice, Quot.sound
C54 Jaxions.ToTheta.C54_low_memory: propext, Classical.choice, Quot.sound
C55 Jaxions.Shift.C55_cubic: propext, Classical.choice, Quot.sound
C55 Jaxions.Shift.C55_vacuum: propext, Classical.choice, Quot.sound
C55 Jaxions.Shift.C55_minimum: propext, Classical.choice, Quot.sound
C55 Jaxions.Shift.C55_third: propext, Classical.choice, Quot.sound
C55 Jaxions.Shift.C55_second: propext, Classical.choice, Quot.sound
C55 Jaxions.Shift.C55_second_heavy: propext, Classical.choice, Quot.sound
C55 Jaxions.Shift.C55_two: propext, Classical.choice, Quot.sound
C55 Jaxions.Shift.C55_time: propext, Classical.choice, Quot.sound
C56 Jaxions.Norm.C56_normalise: propext, Classical.choice, Quot.sound
C56 Jaxions.Norm.C56_m2: propext, Classical.choice, Quot.sound
C56 Jaxions.Norm.C56_wrong_index: propext, Classical.choice, Quot.sound
C56 Jaxions.Norm.C56_core: propext, Classical.choice, Quot.sound
C56 Jaxions.Norm.C56_turn: propext, Classical.choice, Quot.sound
C57 Jaxions.Expand.C57_expand: propext, Classical.choice, Quot.sound
C57 Jaxions.Expand.C57_points: propext, Quot.sound
C57 Jaxions.Expand.C57_ranks: propext, Classical.choice, Quot.sound
C57 Jaxions.Expand.C57_range: propext, Classical.choice, Quot.sound
C57 Jaxions.Expand.C57_two_factors: propext, Classical.choice, Quot.sound
C57 Jaxions.Expand.C57_overshoot: propext, Classical.choice, Quot.sound
C57 Jaxions.Expand.C57_race: propext, Classical.choice, Quot.sound
C57 Jaxions.Expand.C57_lowmem: propext, Classical.choice, Quot.sound
C58 Jaxions.ThetaKernel.C58_cosine: propext, Classical.choice, Quot.sound
C58 Jaxions.ThetaKernel.C58_free: propext, Classical.choice, Quot.sound
C58 Jaxions.ThetaKernel.C58_linear_double: propext, Classical.choice, Quot.sound
C58 Jaxions.ThetaKernel.C58_linear_single: propext, Classical.choice, Quot.sound
C58 Jaxions.ThetaKernel.C58_linear_precisions: propext, Classical.choice, Quot.sound
C58 Jaxions.ThetaKernel.C58_not_evolved: propext, Quot.sound
C58 Jaxions.ThetaKernel.C58_motion: propext, Classical.choice, Quot.sound
C58 Jaxions.ThetaKernel.C58_wrapped_laplacian: propext, Classical.choice, Quot.sound
C58 Jaxions.ThetaKernel.C58_wrapped_rate: propext, Classical.choice, Quot.sound
C58 Jaxions.ThetaKernel.C58_wrap_velocity: propext, Classical.choice, Quot.sound
C58 Jaxions.ThetaKernel.C58_half_turn: propext, Classical.choice, Quot.sound
C58 Jaxions.ThetaKernel.C58_drift: propext, Classical.choice, Quot.sound
C58 Jaxions.ThetaKernel.C58_drift_builds: propext
C58 Jaxions.ThetaKernel.C58_drift_avx512: propext, Classical.choice, Quot.sound
C58 Jaxions.ThetaKernel.C58_drift_eight: propext, Classical.choice, Quot.sound
C59 Jaxions.Run.C59_substep: propext, Classical.choice, Quot.sound
C59 Jaxions.Run.C59_run: propext, Classical.choice, Quot.sound
C59 Jaxions.Run.C59_axion: propext, Classical.choice, Quot.sound
C59 Jaxions.Run.C59_saxion: propext, Classical.choice, Quot.sound
C59 Jaxions.Run.C59_same: propext, Classical.choice, Quot.sound
C59 Jaxions.Run.C59_holding: propext, Quot.sound
C60 Jaxions.Gravity.C60_poisson: propext, Classical.choice, Quot.sound
C60 Jaxions.Gravity.C60_layers: propext, Classical.choice, Quot.sound
C60 Jaxions.Gravity.C60_stretched: propext, Classical.choice, Quot.sound
C60 Jaxions.Gravity.C60_unique: propext, Classical.choice, Quot.sound
C60 Jaxions.Gravity.C60_mean: propext, Classical.choice, Quot.sound
C60 Jaxions.Gravity.C60_contrast: propext, Classical.choice, Quot.sound
C60 Jaxions.Gravity.C60_mean_ranks: propext, Classical.choice, Quot.sound
C60 Jaxions.Gravity.C60_normalise: propext, Classical.choice, Quot.sound
C60 Jaxions.Gravity.C60_reduced_first: propext, Quot.sound
C60 Jaxions.Gravity.C60_reduced_wrong: propext, Quot.sound
C60 Jaxions.Gravity.C60_reduced_nan: propext, Classical.choice, Quot.sound
C60 Jaxions.Gravity.Red.C60_reduce: propext, Classical.choice, Quot.sound
C60 Jaxions.Gravity.Red.C60_expand: propext, Classical.choice, Quot.sound
C60 Jaxions.Gravity.Red.C60_blocks: propext, Classical.choice, Quot.sound
C60 Jaxions.Gravity.C60_relax: propext, Classical.choice, Quot.sound
C60 Jaxions.Gravity.C60_double: propext, Quot.sound
C61 Jaxions.WKB.C61_phase_iff: propext, Classical.choice, Quot.sound
C61 Jaxions.WKB.C61_phase_wrong: propext, Classical.choice, Quot.sound
C61 Jaxions.WKB.C61_massphase: propext, Classical.choice, Quot.sound
C61 Jaxions.WKB.C61_wronskian: propext, Classical.choice, Quot.sound
C61 Jaxions.WKB.C61_real: propext, Classical.choice, Quot.sound
C61 Jaxions.WKB.C61_start: propext, Classical.choice, Quot.sound
C61 Jaxions.WKB.C61_table_add: propext, Classical.choice, Quot.sound
C61 Jaxions.WKB.C61_compose: propext, Classical.choice, Quot.sound
C61 Jaxions.WKB.C61_motion: propext, Classical.choice, Quot.sound
C61 Jaxions.WKB.C61_table_range: propext, Classical.choice, Quot.sound
C61 Jaxions.WKB.C61_number_iff: propext, Quot.sound
C61 Jaxions.WKB.C61_number_wrong: propext, Quot.sound
C61 Jaxions.WKB.C61_field: propext, Classical.choice, Quot.sound
C61 Jaxions.WKB.C61_field_start: propext, Classical.choice, Quot.sound
C62 Jaxions.Cosmo.C62_scale: propext, Classical.choice, Quot.sound
C62 Jaxions.Cosmo.C62_scale_grav: propext, Classical.choice, Quot.sound
C62 Jaxions.Cosmo.C62_mass_rate: propext, Classical.choice, Quot.sound
C62 Jaxions.Cosmo.C62_mass_rate_grav: propext, Classical.choice, Quot.sound
C62 Jaxions.Cosmo.C62_log_rate: propext, Classical.choice, Quot.sound
C62 Jaxions.Cosmo.C62_log_rate_table: propext, Classical.choice, Quot.sound
C62 Jaxions.Cosmo.C62_integral_growing: propext, Classical.choice, Quot.sound
C62 Jaxions.Cosmo.C62_integral_iff: propext, Classical.choice, Quot.sound
C62 Jaxions.Cosmo.C62_second_growing: propext, Classical.choice, Quot.sound
C62 Jaxions.Cosmo.C62_second_saturated: propext, Classical.choice, Quot.sound
C62 Jaxions.Cosmo.C62_second_no_value: propext, Classical.choice, Quot.sound
C62 Jaxions.Cosmo.C62_second_crossing: propext, Classical.choice, Quot.sound
C63 Jaxions.Paxion.C63_run: propext, Classical.choice, Quot.sound
C63 Jaxions.Paxion.C63_turn_number: propext, Classical.choice, Quot.sound
C63 Jaxions.Paxion.C63_reverse: propext, Classical.choice, Quot.sound
C63 Jaxions.Paxion.C63_kkt: propext, Classical.choice, Quot.sound
C63 Jaxions.Paxion.C63_kkt_half: propext, Classical.choice, Quot.sound
C63 Jaxions.Paxion.C63_turn_exact: propext, Classical.choice, Quot.sound
C63 Jaxions.Paxion.C63_halves: propext, Classical.choice, Quot.sound
C63 Jaxions.Paxion.C63_ood2_iff: propext, Classical.choice, Quot.sound
C63 Jaxions.Paxion.C63_kick_area: propext, Classical.choice, Quot.sound
C63 Jaxions.Paxion.C63_turn_area: propext, Classical.choice, Quot.sound
C63 Jaxions.Paxion.C63_step: propext, Classical.choice, Quot.sound
C63 Jaxions.Paxion.C63_rkn4: propext, Classical.choice, Quot.sound
C63 Jaxions.Paxion.C63_out_of_bounds: propext, Classical.choice, Quot.sound
C63 Jaxions.Paxion.C63_gravity_exact: propext, Classical.choice, Quot.sound
C63 Jaxions.Paxion.C63_stages: propext, Classical.choice, Quot.sound
C64 Jaxions.Nonrel.C64_paxion_sites: propext, Classical.choice, Quot.sound
C64 Jaxions.Nonrel.C64_paxion_bounds: propext, Classical.choice, Quot.sound
C64 Jaxions.Nonrel.C64_paxion_created_axion: propext, Classical.choice, Quot.sound
C64 Jaxions.Nonrel.C64_naxion_sites: propext, Classical.choice, Quot.sound
C64 Jaxions.Nonrel.C64_number: propext, Classical.choice, Quot.sound
C64 Jaxions.Nonrel.C64_adiabatic: propext, Classical.choice, Quot.sound
C64 Jaxions.Nonrel.C64_adiab_iff: propext, Classical.choice, Quot.sound
C64 Jaxions.Nonrel.C64_site: propext, Classical.choice, Quot.sound
C64 Jaxions.Nonrel.C64_grows: propext, Classical.choice, Quot.sound
C64 Jaxions.Nonrel.C64_kept_iff: propext, Classical.choice, Quot.sound
C64 Jaxions.Nonrel.C64_never_falls: propext, Classical.choice, Quot.sound
C64 Jaxions.Nonrel.C64_wave: propext, Classical.choice, Quot.sound
C64 Jaxions.Nonrel.C64_nax_run: propext, Classical.choice, Quot.sound
C64 Jaxions.Nonrel.C64_kkt: propext, Classical.choice, Quot.sound
C64 Jaxions.Nonrel.C64_slow_pax: propext, Classical.choice, Quot.sound
C64 Jaxions.Nonrel.C64_slow_nax: propext, Classical.choice, Quot.sound
C64 Jaxions.Nonrel.C64_average_pax: propext, Classical.choice, Quot.sound
C64 Jaxions.Nonrel.C64_average_nax: propext, Classical.choice, Quot.sound
C64 Jaxions.Nonrel.C64_rate: propext, Classical.choice, Quot.sound
C64 Jaxions.Nonrel.C64_wrong_sign: propext, Classical.choice, Quot.sound
C65 Jaxions.Energy.C65_energy: propext, Classical.choice, Quot.sound
C65 Jaxions.Energy.C65_gradient: propext, Classical.choice, Quot.sound
C65 Jaxions.Energy.C65_map_fits: propext, Classical.choice, Quot.sound
C65 Jaxions.Energy.C65_avx512_single: propext, Classical.choice, Quot.sound
C65 Jaxions.Energy.C65_avx512_double: propext, Classical.choice, Quot.sound
C65 Jaxions.Energy.C65_avx512_double_wrong: propext, Classical.choice, Quot.sound
C65 Jaxions.Energy.C65_avx_single: propext, Classical.choice, Quot.sound
C65 Jaxions.Energy.C65_average_gradient: propext, Classical.choice, Quot.sound
C65 Jaxions.Energy.C65_average_quartic: propext, Classical.choice, Quot.sound
C65 Jaxions.Energy.C65_average_mass: propext, Classical.choice, Quot.sound
C66 Jaxions.MomConf.C66_modes: propext, Classical.choice, Quot.sound
C66 Jaxions.MomConf.C66_modes_iff: propext, Classical.choice, Quot.sound
C66 Jaxions.MomConf.C66_loop: propext, Classical.choice, Quot.sound
C66 Jaxions.MomConf.C66_spectrum: propext, Classical.choice, Quot.sound
C66 Jaxions.MomConf.C66_cut_box: propext, Classical.choice, Quot.sound
C66 Jaxions.MomConf.C66_cut_beyond: propext, Classical.choice, Quot.sound
C66 Jaxions.MomConf.C66_kcole: propext, Classical.choice, Quot.sound
C66 Jaxions.MomConf.C66_table: propext, Classical.choice, Quot.sound
C66 Jaxions.MomConf.C66_table_value: propext, Classical.choice, Quot.sound
C66 Jaxions.MomConf.C66_zero_mode: propext, Classical.choice, Quot.sound
C66 Jaxions.MomConf.C66_zero_mode_velocity: propext, Classical.choice, Quot.sound
C66 Jaxions.MomConf.C66_zero_mode_random: propext, Classical.choice, Quot.sound
C66 Jaxions.MomConf.C66_velocity: propext, Classical.choice, Quot.sound
C66 Jaxions.MomConf.C66_velocity_stale: propext, Classical.choice, Quot.sound
C66 Jaxions.MomConf.C66_string_reads: propext, Classical.choice, Quot.sound
C66 Jaxions.MomConf.C66_string_mode: propext, Classical.choice, Quot.sound
C66 Jaxions.MomConf.C66_string_factor: propext, Classical.choice, Quot.sound
C66 Jaxions.MomConf.C66_string_wrap: propext, Classical.choice, Quot.sound
C66 Jaxions.MomConf.C66_independent: propext, Classical.choice, Quot.sound
C66 Jaxions.MomConf.C66_phase: propext, Classical.choice, Quot.sound
C66 Jaxions.MomConf.C66_string_terms: propext, Classical.choice, Quot.sound
C66 Jaxions.MomConf.C66_string_along: propext, Classical.choice, Quot.sound
C67 Jaxions.RandConf.C67_points: propext, Classical.choice, Quot.sound
C67 Jaxions.RandConf.C67_fixed: propext, Classical.choice, Quot.sound
C67 Jaxions.RandConf.C67_heights: propext, Classical.choice, Quot.sound
C67 Jaxions.RandConf.C67_ranks: propext, Classical.choice, Quot.sound
C67 Jaxions.RandConf.C67_deep_grid: propext, Classical.choice, Quot.sound
C67 Jaxions.RandConf.C67_mode0_sign: propext, Classical.choice, Quot.sound
C67 Jaxions.RandConf.C67_noise_iff: propext, Classical.choice, Quot.sound
C67 Jaxions.RandConf.C67_noise_angles: propext, Classical.choice, Quot.sound
C67 Jaxions.RandConf.C67_saxion_noise_iff: propext, Classical.choice, Quot.sound
C67 Jaxions.RandConf.C67_wave_iff: propext, Classical.choice, Quot.sound
C67 Jaxions.RandConf.C67_minicluster: propext, Classical.choice, Quot.sound
C67 Jaxions.RandConf.C67_minicluster0: propext, Classical.choice, Quot.sound
C67 Jaxions.RandConf.C67_axiton: propext, Classical.choice, Quot.sound
C67 Jaxions.RandConf.C67_axiton_double: propext, Classical.choice, Quot.sound
C67 Jaxions.RandConf.C67_axiton_differs: propext, Classical.choice, Quot.sound
C67 Jaxions.RandConf.C67_loop_share: propext, Classical.choice, Quot.sound
C67 Jaxions.RandConf.C67_loop_continuous: propext, Classical.choice, Quot.sound
C67 Jaxions.RandConf.C67_loop_height: propext, Classical.choice, Quot.sound
C67 Jaxions.RandConf.C67_loop_xy: propext, Classical.choice, Quot.sound
C67 Jaxions.RandConf.C67_loop_yz: propext, Classical.choice, Quot.sound
C67 Jaxions.RandConf.C67_loop_quarter: propext, Classical.choice, Quot.sound
C67 Jaxions.RandConf.C67_loop_default: propext, Classical.choice, Quot.sound
C67 Jaxions.RandConf.C67_strwave: propext, Classical.choice, Quot.sound
C67 Jaxions.RandConf.C67_strwave_zero: propext, Classical.choice, Quot.sound
C67 Jaxions.RandConf.C67_strwave_depth: propext, Classical.choice, Quot.sound
C67 Jaxions.RandConf.C67_vortices: propext, Classical.choice, Quot.sound
C68 Jaxions.AnyString.C68_link_defined: propext, Classical.choice, Quot.sound
C68 Jaxions.AnyString.C68_link: propext, Classical.choice, Quot.sound
C68 Jaxions.AnyString.C68_far: propext, Classical.choice, Quot.sound
C68 Jaxions.AnyString.C68_far_defined: propext, Classical.choice, Quot.sound
C68 Jaxions.AnyString.C68_near: propext, Classical.choice, Quot.sound
C68 Jaxions.AnyString.C68_far_reversed: propext, Classical.choice, Quot.sound
C68 Jaxions.AnyString.C68_near_reversed: propext, Classical.choice, Quot.sound
C68 Jaxions.AnyString.C68_near_asymmetric: propext, Classical.choice, Quot.sound
C68 Jaxions.AnyString.C68_copy_above: propext, Classical.choice, Quot.sound
C68 Jaxions.AnyString.C68_copy_below: propext, Classical.choice, Quot.sound
C68 Jaxions.AnyString.C68_reads_beyond: propext, Classical.choice, Quot.sound
C68 Jaxions.AnyString.C68_segments: propext, Classical.choice, Quot.sound
C68 Jaxions.AnyString.C68_gradients: propext, Classical.choice, Quot.sound
C68 Jaxions.AnyString.C68_deep_slab: propext, Classical.choice, Quot.sound
C68 Jaxions.AnyString.C68_heights: propext, Classical.choice, Quot.sound
C68 Jaxions.AnyString.C68_volume: propext, Classical.choice, Quot.sound
C68 Jaxions.AnyString.C68_along_x: propext, Classical.choice, Quot.sound
C68 Jaxions.AnyString.C68_along_y: propext, Classical.choice, Quot.sound
C68 Jaxions.AnyString.C68_edge_one: propext, Classical.choice, Quot.sound
C68 Jaxions.AnyString.C68_edge_many: propext, Classical.choice, Quot.sound
C68 Jaxions.AnyString.C68_edge_phase: propext, Classical.choice, Quot.sound
C68 Jaxions.AnyString.C68_edge_jump: propext, Classical.choice, Quot.sound
C68 Jaxions.AnyString.C68_field: propext, Classical.choice, Quot.sound
C68 Jaxions.AnyString.C68_one_rank: propext, Classical.choice, Quot.sound
C69 Jaxions.StartField.C69_pair_ops: propext, Classical.choice, Quot.sound
C69 Jaxions.StartField.C69_smooth_start: propext, Classical.choice, Quot.sound
C69 Jaxions.StartField.C69_smooth_mink: propext, Classical.choice, Quot.sound
C69 Jaxions.StartField.C69_scale_velocity: propext, Classical.choice, Quot.sound
C69 Jaxions.StartField.C69_copy_start: propext, Classical.choice, Quot.sound
C69 Jaxions.StartField.C69_copy_power: propext, Classical.choice, Quot.sound
C69 Jaxions.StartField.C69_copy_grav: propext, Classical.choice, Quot.sound
C69 Jaxions.StartField.C69_prep_time: propext, Classical.choice, Quot.sound
C69 Jaxions.StartField.C69_prep_round: propext, Classical.choice, Quot.sound
C69 Jaxions.StartField.C69_prep_late: propext, Classical.choice, Quot.sound
C69 Jaxions.StartField.C69_prep_gamma: propext, Classical.choice, Quot.sound
C69 Jaxions.StartField.C69_prep_coupling: propext, Classical.choice, Quot.sound
C69 Jaxions.StartField.C69_lola: propext, Classical.choice, Quot.sound
C69 Jaxions.StartField.C69_jump: propext, Classical.choice, Quot.sound
C69 Jaxions.StartField.C69_tkachev: propext, Classical.choice, Quot.sound
C69 Jaxions.StartField.C69_anymean: propext, Classical.choice, Quot.sound
C69 Jaxions.StartField.C69_merge: propext, Classical.choice, Quot.sound
C69 Jaxions.StartField.C69_merge_serial: propext, Classical.choice, Quot.sound
C69 Jaxions.StartField.C69_merge_race: propext, Classical.choice, Quot.sound
C69 Jaxions.StartField.C69_density_positive: propext, Classical.choice, Quot.sound
C69 Jaxions.StartField.C69_critical_inverse: propext, Classical.choice, Quot.sound
C69 Jaxions.StartField.C69_critical_range: propext, Classical.choice, Quot.sound
C69 Jaxions.StartField.C69_findct2: propext, Classical.choice, Quot.sound
C69 Jaxions.StartField.C69_goal_positive: propext, Classical.choice, Quot.sound
C70 Jaxions.Gadget.C70_gradient: propext, Classical.choice, Quot.sound
C70 Jaxions.Gadget.C70_gradient_smooth: propext, Classical.choice, Quot.sound
C70 Jaxions.Gadget.C70_velocity: propext, Classical.choice, Quot.sound
C70 Jaxions.Gadget.C70_density: propext, Classical.choice, Quot.sound
C70 Jaxions.Gadget.C70_filter_number: propext, Quot.sound
C70 Jaxions.Gadget.C70_velocity_spacing: propext, Classical.choice, Quot.sound
C70 Jaxions.Gadget.C70_gradient_outside: propext, Classical.choice, Quot.sound
C70 Jaxions.Gadget.C70_corners_iff: propext, Classical.choice, Quot.sound
C70 Jaxions.Gadget.C70_cic_linear: propext, Classical.choice, Quot.sound
C70 Jaxions.Gadget.C70_cic_between: propext, Classical.choice, Quot.sound
C70 Jaxions.Gadget.C70_mean: propext, Classical.choice, Quot.sound
C70 Jaxions.Gadget.C70_mean_odd: propext, Classical.choice, Quot.sound
C70 Jaxions.Gadget.C70_one_each_iff: propext, Classical.choice, Quot.sound
C70 Jaxions.Gadget.C70_wide_grids: propext
C70 Jaxions.Gadget.C70_total_mass: propext, Classical.choice, Quot.sound
C70 Jaxions.Gadget.C70_total_mass_iff: propext, Classical.choice, Quot.sound
C70 Jaxions.Gadget.C70_particles: propext, Classical.choice, Quot.sound
C70 Jaxions.Gadget.C70_particles_lost: propext, Classical.choice, Quot.sound
C70 Jaxions.Gadget.C70_no_particles: propext, Quot.sound
C70 Jaxions.Gadget.C70_places_iff: propext, Quot.sound
C70 Jaxions.Gadget.C70_place_inside: propext, Classical.choice, Quot.sound
C70 Jaxions.Gadget.C70_place_iff: propext, Classical.choice, Quot.sound
C70 Jaxions.Gadget.C70_buffers: propext, Quot.sound
C70 Jaxions.Gadget.C70_velocity_outside: propext, Classical.choice, Quot.sound
C70 Jaxions.Gadget.C70_smoothed_lost: propext, Classical.choice, Quot.sound
C70 Jaxions.Gadget.C70_filter_mode: propext, Quot.sound
C70 Jaxions.Gadget.C70_filter_half: propext, Classical.choice, Quot.sound
C70 Jaxions.Gadget.C70_filter_wrong: propext, Classical.choice, Quot.sound
C70 Jaxions.Gadget.C70_moved: propext, Quot.sound
C70 Jaxions.Gadget.C70_options: none
C71 Jaxions.Halo.C71_file_partial: propext, Classical.choice, Quot.sound
C71 Jaxions.Halo.C71_exchanges_end: propext, Classical.choice, Quot.sound
C71 Jaxions.Halo.C71_one_each: propext, Classical.choice, Quot.sound
C71 Jaxions.Halo.C71_waits_iff: propext, Classical.choice, Quot.sound
C71 Jaxions.Halo.C71_waits: propext, Classical.choice, Quot.sound
C71 Jaxions.Halo.C71_one_rank: propext, Classical.choice, Quot.sound
C71 Jaxions.Halo.C71_site_lost: propext, Classical.choice, Quot.sound
C71 Jaxions.Halo.C71_message: propext, Classical.choice, Quot.sound
C71 Jaxions.Halo.C71_buffers: propext, Quot.sound
C71 Jaxions.Halo.C71_buffer_overrun: propext, Quot.sound
C71 Jaxions.Halo.C71_beyond: none
C71 Jaxions.Halo.C71_first_count: propext, Classical.choice, Quot.sound
C71 Jaxions.Halo.C71_balance_partial: propext, Classical.choice, Quot.sound
C71 Jaxions.Halo.C71_balance_ends_iff: propext, Classical.choice, Quot.sound
C71 Jaxions.Halo.C71_share_in_reach: propext, Classical.choice, Quot.sound
C71 Jaxions.Halo.C71_surplus: propext, Classical.choice, Quot.sound
C71 Jaxions.Halo.C71_targets: propext, Classical.choice, Quot.sound
C71 Jaxions.Halo.C71_rank0_never_ends: propext, Classical.choice, Quot.sound
C71 Jaxions.Halo.C71_cell_behind: propext, Classical.choice, Quot.sound
C72 Jaxions.AxSpec.C72_velocity: propext, Classical.choice, Quot.sound
C72 Jaxions.AxSpec.C72_gradient_x: propext, Classical.choice, Quot.sound
C72 Jaxions.AxSpec.C72_gradient_yz: propext, Classical.choice, Quot.sound
C72 Jaxions.AxSpec.C72_phase: propext, Classical.choice, Quot.sound
C72 Jaxions.AxSpec.C72_central: propext, Classical.choice, Quot.sound
C72 Jaxions.AxSpec.C72_forward: propext, Classical.choice, Quot.sound
C72 Jaxions.AxSpec.C72_potential: propext, Classical.choice, Quot.sound
C72 Jaxions.AxSpec.C72_potential_cosine: propext, Classical.choice, Quot.sound
C72 Jaxions.AxSpec.C72_potential_linear: propext, Classical.choice, Quot.sound
C72 Jaxions.AxSpec.C72_potential_vacuum: propext, Classical.choice, Quot.sound
C72 Jaxions.AxSpec.C72_potential_mask: propext, Classical.choice, Quot.sound
C72 Jaxions.AxSpec.C72_third: propext, Classical.choice, Quot.sound
C72 Jaxions.AxSpec.C72_third_moved: propext, Classical.choice, Quot.sound
C72 Jaxions.AxSpec.C72_mask_lost: propext, Classical.choice, Quot.sound
C72 Jaxions.AxSpec.C72_old_gradient_x: propext, Classical.choice, Quot.sound
C72 Jaxions.AxSpec.C72_old_gradient_yz: propext, Classical.choice, Quot.sound
C72 Jaxions.AxSpec.C72_old_nothing: propext, Classical.choice, Quot.sound
C72 Jaxions.AxSpec.C72_old_potential: propext, Classical.choice, Quot.sound
C72 Jaxions.AxSpec.C72_old_saxion: propext, Classical.choice, Quot.sound
C72 Jaxions.AxSpec.C72_stored: propext, Classical.choice, Quot.sound
C72 Jaxions.AxSpec.C72_table_inside: propext, Classical.choice, Quot.sound
C72 Jaxions.AxSpec.C72_table_outside: propext, Classical.choice, Quot.sound
C72 Jaxions.AxSpec.C72_table_neighbours: propext, Classical.choice, Quot.sound
C72 Jaxions.AxSpec.C72_table_nodes: propext, Classical.choice, Quot.sound
C72 Jaxions.AxSpec.C72_table_jumps: propext, Classical.choice, Quot.sound
C72 Jaxions.AxSpec.C72_table_odd: propext, Classical.choice, Quot.sound
C72 Jaxions.AxSpec.C72_table_unit: propext, Classical.choice, Quot.sound
C72 Jaxions.AxSpec.C72_table_mirror: propext, Classical.choice, Quot.sound
C72 Jaxions.AxSpec.C72_table_conj: propext, Classical.choice, Quot.sound
C72 Jaxions.AxSpec.C72_gradient: propext, Classical.choice, Quot.sound
C72 Jaxions.AxSpec.C72_table_zero: propext, Classical.choice, Quot.sound
C72 Jaxions.AxSpec.C72_forward_wave: propext, Classical.choice, Quot.sound
C72 Jaxions.AxSpec.C72_central_wave: propext, Classical.choice, Quot.sound
C72 Jaxions.AxSpec.C72_central_shortest: propext, Classical.choice, Quot.sound
C72 Jaxions.AxSpec.C72_central_small: propext, Classical.choice, Quot.sound
C72 Jaxions.AxSpec.C72_forward_small: propext, Classical.choice, Quot.sound
C73 Jaxions.Spectrum.C73_power_total: propext, Classical.choice, Quot.sound
C73 Jaxions.Spectrum.C73_gradient_total: propext, Classical.choice, Quot.sound
C73 Jaxions.Spectrum.C73_energy: propext, Classical.choice, Quot.sound
C73 Jaxions.Spectrum.C73_no_empty: propext, Classical.choice, Quot.sound
C73 Jaxions.Spectrum.C73_empty: propext, Classical.choice, Quot.sound
C73 Jaxions.AxSpec.C73_saxion: propext, Classical.choice, Quot.sound
C73 Jaxions.AxSpec.C73_saxion_second: propext, Classical.choice, Quot.sound
C73 Jaxions.AxSpec.C73_size_rate: propext, Classical.choice, Quot.sound
C73 Jaxions.AxSpec.C73_size_rate_moving: propext, Classical.choice, Quot.sound
C73 Jaxions.AxSpec.C73_phase_rate_moving: propext, Classical.choice, Quot.sound
C73 Jaxions.AxSpec.C73_saxion_stored: propext, Classical.choice, Quot.sound
C73 Jaxions.AxSpec.C73_saxion_stored_axion: propext, Classical.choice, Quot.sound
C73 Jaxions.AxSpec.C73_saxion_stored_second: propext, Classical.choice, Quot.sound
C73 Jaxions.AxSpec.C73_saxion_never: propext, Classical.choice, Quot.sound
C73 Jaxions.AxSpec.C73_energy_spread: propext, Classical.choice, Quot.sound
C73 Jaxions.AxSpec.C73_energy_status: propext, Quot.sound
C73 Jaxions.AxSpec.C73_coupling_symm: propext, Classical.choice, Quot.sound
C73 Jaxions.AxSpec.C73_matrix: propext, Classical.choice, Quot.sound
C73 Jaxions.AxSpec.C73_gathered: propext, Classical.choice, Quot.sound
C74 Jaxions.Masker.C74_corner: propext, Quot.sound
C74 Jaxions.Masker.C74_premask: propext, Classical.choice, Quot.sound
C74 Jaxions.Masker.C74_ball: propext, Classical.choice, Quot.sound
C74 Jaxions.Masker.C74_ball_corners: propext, Classical.choice, Quot.sound
C74 Jaxions.Masker.C74_ball_grows: propext, Classical.choice, Quot.sound
C74 Jaxions.Masker.C74_begin: propext, Classical.choice, Quot.sound
C74 Jaxions.Masker.C74_diffuse: propext, Classical.choice, Quot.sound
C74 Jaxions.Masker.C74_diffuse_all: propext, Classical.choice, Quot.sound
C74 Jaxions.Masker.C74_diffuse_overlap: propext, Classical.choice, Quot.sound
C74 Jaxions.Masker.C74_diffuse_lost: propext, Classical.choice, Quot.sound
C74 Jaxions.Masker.C74_finish: propext, Classical.choice, Quot.sound
C74 Jaxions.Masker.C74_diff_shape: propext, Classical.choice, Quot.sound
C74 Jaxions.Masker.C74_diff: propext, Classical.choice, Quot.sound
C74 Jaxions.Masker.C74_final_range: propext, Classical.choice, Quot.sound
C74 Jaxions.Masker.C74_final_mask: propext, Classical.choice, Quot.sound
C74 Jaxions.Masker.C74_cut_pos: propext, Classical.choice, Quot.sound
C74 Jaxions.Masker.C74_cut_zero: propext, Classical.choice, Quot.sound
C74 Jaxions.Masker.C74_cut_anti: propext, Classical.choice, Quot.sound
C74 Jaxions.Masker.C74_cut_fit: propext, Classical.choice, Quot.sound
C74 Jaxions.Masker.C74_cut_step: propext, Classical.choice, Quot.sound
C74 Jaxions.Masker.C74_axiton: propext, Classical.choice, Quot.sound
C74 Jaxions.Masker.C74_axiton_kept: propext, Classical.choice, Quot.sound
C74 Jaxions.Masker.C74_axiton_fresh: propext, Classical.choice, Quot.sound
C74 Jaxions.Masker.C74_axiton_string: propext, Classical.choice, Quot.sound
C75 Jaxions.StrLen.C75_inside: propext, Classical.choice, Quot.sound
C75 Jaxions.StrLen.C75_linear: propext, Classical.choice, Quot.sound
C75 Jaxions.StrLen.C75_zero_corner: propext, Classical.choice, Quot.sound
C75 Jaxions.StrLen.C75_mean: propext, Classical.choice, Quot.sound
C75 Jaxions.StrLen.C75_six: propext, Classical.choice, Quot.sound
C75 Jaxions.StrLen.C75_cell_short: propext, Classical.choice, Quot.sound
C75 Jaxions.StrLen.C75_six_case: propext, Classical.choice, Quot.sound
C75 Jaxions.StrLen.C75_cell: propext, Classical.choice, Quot.sound
C75 Jaxions.StrLen.C75_total: propext, Classical.choice, Quot.sound
C75 Jaxions.StrLen.C75_at_most: propext, Classical.choice, Quot.sound
C75 Jaxions.StrLen.C75_straight: propext, Classical.choice, Quot.sound
C75 Jaxions.StrLen.C75_ranks: propext, Classical.choice, Quot.sound
C75 Jaxions.StrLen.C75_map: propext, Classical.choice, Quot.sound
C75 Jaxions.StrLen.C75_bound: propext, Classical.choice, Quot.sound
C75 Jaxions.StrLen.C75_addresses: propext, Quot.sound
C75 Jaxions.StrLen.C75_plaquette: propext, Classical.choice, Quot.sound
C75 Jaxions.StrLen.C75_speed: propext, Classical.choice, Quot.sound
C75 Jaxions.StrLen.C75_speed_range: propext, Classical.choice, Quot.sound
C75 Jaxions.StrLen.C75_speed_code: propext, Classical.choice, Quot.sound
C75 Jaxions.StrLen.C75_speed_none: propext, Classical.choice, Quot.sound
C75 Jaxions.StrLen.C75_rest: propext, Classical.choice, Quot.sound
C75 Jaxions.StrLen.C75_plaqs: propext, Classical.choice, Quot.sound
C75 Jaxions.StrLen.C75_physical: propext, Classical.choice, Quot.sound
C75 Jaxions.StrLen.C75_moving: propext, Classical.choice, Quot.sound
C75 Jaxions.StrLen.C75_hubble: propext, Classical.choice, Quot.sound
C75 Jaxions.StrLen.C75_radiation: propext, Classical.choice, Quot.sound
C75 Jaxions.StrLen.C75_speed_own: propext, Classical.choice, Quot.sound
C75 Jaxions.StrLen.C75_speed_ghost: propext, Classical.choice, Quot.sound
C76 Jaxions.StrEn.C76_parts: propext, Classical.choice, Quot.sound
C76 Jaxions.StrEn.C76_stored: propext, Classical.choice, Quot.sound
C76 Jaxions.StrEn.C76_any: propext, Classical.choice, Quot.sound
C76 Jaxions.StrEn.C76_ranks: propext, Classical.choice, Quot.sound
C76 Jaxions.StrEn.C76_cube: propext, Classical.choice, Quot.sound
C76 Jaxions.StrEn.C76_unmasked: propext, Classical.choice, Quot.sound
C76 Jaxions.StrEn.C76_negative: propext, Classical.choice, Quot.sound
C76 Jaxions.StrEn.C76_number: propext, Classical.choice, Quot.sound
C76 Jaxions.StrEn.C76_radiation: propext, Classical.choice, Quot.sound
C77 Jaxions.Spline.C77_called: propext, Classical.choice, Quot.sound
C77 Jaxions.Spline.C77_through: propext, Classical.choice, Quot.sound
C77 Jaxions.Spline.C77_lines: propext, Classical.choice, Quot.sound
C77 Jaxions.Spline.C77_ends: propext, Classical.choice, Quot.sound
C77 Jaxions.Spline.C77_unique: propext, Classical.choice, Quot.sound
C77 Jaxions.Spline.C77_cubic: propext, Classical.choice, Quot.sound
C77 Jaxions.Spline.C77_straight: propext, Classical.choice, Quot.sound
C77 Jaxions.Spline.C77_overshoot: propext, Classical.choice, Quot.sound
C77 Jaxions.Spline.C77_sum: propext, Classical.choice, Quot.sound
C77 Jaxions.Spline.C77_slope: propext, Classical.choice, Quot.sound
C77 Jaxions.Spline.C77_smooth: propext, Classical.choice, Quot.sound
C77 Jaxions.Spline.C77_curvature: propext, Classical.choice, Quot.sound
C77 Jaxions.Spline.C77_curvature_fails: propext, Classical.choice, Quot.sound
C77 Jaxions.Spline.C77_default: propext, Classical.choice, Quot.sound
C78 Jaxions.CosTable.C78_rows: propext, Classical.choice, Quot.sound
C78 Jaxions.CosTable.C78_last_row_lost: propext, Classical.choice, Quot.sound
C78 Jaxions.CosTable.C78_junk: propext, Quot.sound
C78 Jaxions.CosTable.C78_numbers: propext, Classical.choice, Quot.sound
C78 Jaxions.CosTable.C78_found: propext, Classical.choice, Quot.sound
C78 Jaxions.CosTable.C78_never: propext, Classical.choice, Quot.sound
C78 Jaxions.CosTable.C78_power_law: propext, Classical.choice, Quot.sound
C78 Jaxions.CosTable.C78_turn: propext, Classical.choice, Quot.sound
C78 Jaxions.CosTable.C78_acceleration: propext, Classical.choice, Quot.sound
C78 Jaxions.CosTable.C78_start: propext, Classical.choice, Quot.sound
C78 Jaxions.CosTable.C78_units: propext, Classical.choice, Quot.sound
C78 Jaxions.CosTable.C78_units_lost: propext, Classical.choice, Quot.sound
C78 Jaxions.CosTable.C78_succeeds: propext, Classical.choice, Quot.sound
C78 Jaxions.CosTable.C78_time_one: propext, Classical.choice, Quot.sound
C78 Jaxions.CosTable.C78_units_differ: propext, Classical.choice, Quot.sound
C78 Jaxions.CosTable.C78_rate: propext, Classical.choice, Quot.sound
C79 Jaxions.StrFile.C79_kept: propext, Classical.choice, Quot.sound
C79 Jaxions.StrFile.C79_cut: propext, Classical.choice, Quot.sound
C79 Jaxions.StrFile.C79_file: propext, Classical.choice, Quot.sound
C79 Jaxions.StrFile.C79_length: propext, Classical.choice, Quot.sound
C79 Jaxions.StrFile.C79_overrun: propext, Classical.choice, Quot.sound
C79 Jaxions.StrFile.C79_not_ready: propext
C79 Jaxions.StrFile.C79_strings: propext, Classical.choice, Quot.sound
C79 Jaxions.StrFile.C79_map_file: propext, Classical.choice, Quot.sound
C79 Jaxions.StrFile.C79_map: propext, Classical.choice, Quot.sound
C79 Jaxions.StrFile.C79_low_memory: propext
C80 Jaxions.MeasRun.C80_names: propext, Classical.choice, Quot.sound
C80 Jaxions.MeasRun.C80_once: propext, Quot.sound
C80 Jaxions.MeasRun.C80_ends: propext, Classical.choice, Quot.sound
C80 Jaxions.MeasRun.C80_plain: propext, Classical.choice, Quot.sound
C80 Jaxions.MeasRun.C80_saxion_W: propext, Classical.choice, Quot.sound
C80 Jaxions.MeasRun.C80_saxion_map: propext, Classical.choice, Quot.sound
C80 Jaxions.MeasRun.C80_saxion_numbers: propext, Classical.choice, Quot.sound
C80 Jaxions.MeasRun.C80_saxion_energies: propext, Classical.choice, Quot.sound
C80 Jaxions.MeasRun.C80_axion_W: propext, Classical.choice, Quot.sound
C80 Jaxions.MeasRun.C80_axion_map: propext, Classical.choice, Quot.sound
C80 Jaxions.MeasRun.C80_axion_numbers_partial: propext, Classical.choice, Quot.sound
C80 Jaxions.MeasRun.C80_other_zero: propext, Classical.choice, Quot.sound
C80 Jaxions.MeasRun.C80_not_every_radius: propext, Quot.sound
C80 Jaxions.MeasRun.C80_not_whole: propext, Quot.sound
C80 Jaxions.MeasRun.C80_not_string_energy: propext, Classical.choice, Quot.sound
C80 Jaxions.MeasRun.C80_not_both: propext, Classical.choice, Quot.sound
C80 Jaxions.MeasRun.C80_not_axitons: propext, Quot.sound
C80 Jaxions.MeasRun.C80_not_axit2: propext, Quot.sound
C80 Jaxions.MeasRun.C80_not_saxion: propext, Quot.sound
C81 Jaxions.Groups.C81_groups: propext, Classical.choice, Quot.sound
C81 Jaxions.Groups.C81_reach: propext, Classical.choice, Quot.sound
C81 Jaxions.Groups.C81_numbers: propext, Quot.sound
C81 Jaxions.Groups.C81_alone: propext, Classical.choice, Quot.sound
C81 Jaxions.Groups.C81_labels: propext, Classical.choice, Quot.sound
C81 Jaxions.Groups.C81_not_threads: propext, Quot.sound
C81 Jaxions.Groups.C81_not_labels: propext, Classical.choice, Quot.sound
C81 Jaxions.Groups.C81_not_around: propext, Quot.sound
C81 Jaxions.Groups.C81_not_folded: propext, Quot.sound
C81 Jaxions.Groups.C81_not_again: propext, Quot.sound
C82 Jaxions.SpecLap.C82_axion: propext, Classical.choice, Quot.sound
C82 Jaxions.SpecLap.C82_saxion: propext, Classical.choice, Quot.sound
C82 Jaxions.SpecLap.C82_force: propext, Classical.choice, Quot.sound
C82 Jaxions.SpecLap.C82_laplacian: propext, Classical.choice, Quot.sound
C82 Jaxions.SpecLap.C82_laplacian_real: propext, Classical.choice, Quot.sound
C82 Jaxions.SpecLap.C82_box: propext, Classical.choice, Quot.sound
C82 Jaxions.SpecLap.C82_interpolates: propext, Classical.choice, Quot.sound
C82 Jaxions.SpecLap.C82_cube: propext, Classical.choice, Quot.sound
C82 Jaxions.SpecLap.C82_not_box: propext, Classical.choice, Quot.sound
C82 Jaxions.SpecLap.C82_two: propext, Classical.choice, Quot.sound
C82 Jaxions.SpecLap.C82_variant: propext, Classical.choice, Quot.sound
C82 Jaxions.SpecLap.C82_not_force: propext, Classical.choice, Quot.sound
C82 Jaxions.SpecLap.C82_unset: propext, Classical.choice, Quot.sound
C82 Jaxions.SpecLap.C82_still: propext, Classical.choice, Quot.sound
C83 Jaxions.FullSpec.C83_axion: propext, Classical.choice, Quot.sound
C83 Jaxions.FullSpec.C83_unique: propext, Classical.choice, Quot.sound
C83 Jaxions.FullSpec.C83_free: propext, Classical.choice, Quot.sound
C83 Jaxions.FullSpec.C83_ripple: propext, Classical.choice, Quot.sound
C83 Jaxions.FullSpec.C83_double: propext, Classical.choice, Quot.sound
C83 Jaxions.FullSpec.C83_not_kept: propext, Classical.choice, Quot.sound
C83 Jaxions.FullSpec.C83_saxion: propext, Classical.choice, Quot.sound
C83 Jaxions.FullSpec.C83_unique_saxion: propext, Classical.choice, Quot.sound
C83 Jaxions.FullSpec.C83_force: propext, Classical.choice, Quot.sound
C83 Jaxions.FullSpec.C83_not_pq2: propext, Classical.choice, Quot.sound
C83 Jaxions.FullSpec.C83_unset: propext, Classical.choice, Quot.sound
C83 Jaxions.FullSpec.C83_not_narrow: propext, Classical.choice, Quot.sound
C83 Jaxions.FullSpec.C83_mass: propext, Classical.choice, Quot.sound
C83 Jaxions.FullSpec.C83_saxion_mass: propext, Classical.choice, Quot.sound
C83 Jaxions.FullSpec.C83_not_mass: propext, Classical.choice, Quot.sound
C84 Jaxions.FieldSpec.C84_bins: propext, Classical.choice, Quot.sound
C84 Jaxions.FieldSpec.C84_totals: propext, Classical.choice, Quot.sound
C84 Jaxions.FieldSpec.C84_cosine_le: propext, Classical.choice, Quot.sound
C84 Jaxions.FieldSpec.C84_not_same_sites: propext, Classical.choice, Quot.sound
C84 Jaxions.FieldSpec.C84_missing_mask: propext, Classical.choice, Quot.sound
C84 Jaxions.FieldSpec.C84_axit_velocity: propext, Classical.choice, Quot.sound
C84 Jaxions.FieldSpec.C84_axit_overwritten: propext, Classical.choice, Quot.sound
C84 Jaxions.FieldSpec.C84_axit_not_weight: propext, Classical.choice, Quot.sound
C85 Jaxions.SmoothF.C85_smooth: propext, Classical.choice, Quot.sound
C85 Jaxions.SmoothF.C85_calls: propext, Classical.choice, Quot.sound
C85 Jaxions.SmoothF.C85_unpad: propext, Classical.choice, Quot.sound
C85 Jaxions.SmoothF.C85_nothing: propext, Classical.choice, Quot.sound
C85 Jaxions.SmoothF.C85_deep: propext, Classical.choice, Quot.sound
C85 Jaxions.SmoothF.C85_transform: propext, Classical.choice, Quot.sound
C85 Jaxions.SmoothF.C85_mean: propext, Classical.choice, Quot.sound
C85 Jaxions.SmoothF.C85_zero: propext, Classical.choice, Quot.sound
C85 Jaxions.SmoothF.C85_uniform: propext, Classical.choice, Quot.sound
C85 Jaxions.SmoothF.C85_squares: propext, Classical.choice, Quot.sound
C85 Jaxions.SmoothF.C85_variance: propext, Classical.choice, Quot.sound
C85 Jaxions.SmoothF.C85_commute: propext, Classical.choice, Quot.sound
C85 Jaxions.SmoothF.C85_gauss: propext, Classical.choice, Quot.sound
C85 Jaxions.SmoothF.C85_sharp: propext, Classical.choice, Quot.sound
C85 Jaxions.SmoothF.C85_average: propext, Classical.choice, Quot.sound
C85 Jaxions.SmoothF.C85_weights: propext, Classical.choice, Quot.sound
C85 Jaxions.SmoothF.C85_not_positive: propext, Classical.choice, Quot.sound
C86 Jaxions.MeasLog.C86_list: propext, Classical.choice, Quot.sound
C86 Jaxions.MeasLog.C86_increasing: propext, Classical.choice, Quot.sound
C86 Jaxions.MeasLog.C86_steps: propext, Classical.choice, Quot.sound
C86 Jaxions.MeasLog.C86_headless: propext, Classical.choice, Quot.sound
C86 Jaxions.MeasLog.C86_read: propext, Classical.choice, Quot.sound
C86 Jaxions.MeasLog.C86_undefined: propext, Classical.choice, Quot.sound
C86 Jaxions.MeasLog.C86_no_dump: propext, Classical.choice, Quot.sound
C86 Jaxions.MeasLog.C86_per_decade: propext, Classical.choice, Quot.sound
C86 Jaxions.MeasLog.C86_kept: propext, Classical.choice, Quot.sound
C87 Jaxions.SaxRun.C87_run: propext, Classical.choice, Quot.sound
C87 Jaxions.SaxRun.C87_same: propext, Classical.choice, Quot.sound
C87 Jaxions.SaxRun.C87_phase: propext, Classical.choice, Quot.sound
C87 Jaxions.SaxRun.C87_conjugate: propext, Classical.choice, Quot.sound
C87 Jaxions.SaxRun.C87_charge: propext, Classical.choice, Quot.sound
C87 Jaxions.SaxRun.C87_conserved: propext, Classical.choice, Quot.sound
C88 Jaxions.AxionRun.C88_minus: propext, Classical.choice, Quot.sound
C88 Jaxions.AxionRun.C88_momentum: propext, Classical.choice, Quot.sound
C88 Jaxions.AxionRun.C88_superpose: propext, Classical.choice, Quot.sound
C88 Jaxions.AxionRun.C88_wave: propext, Classical.choice, Quot.sound
C88 Jaxions.AxionRun.C88_mean: propext, Classical.choice, Quot.sound
C89 Jaxions.RunSym.C89_run: propext, Classical.choice, Quot.sound
C89 Jaxions.RunSym.C89_axion: propext, Classical.choice, Quot.sound
C89 Jaxions.RunSym.C89_saxion: propext, Classical.choice, Quot.sound
C90 Jaxions.Relax.C90_relax: propext, Classical.choice, Quot.sound
C90 Jaxions.Relax.C90_never: propext, Classical.choice, Quot.sound
C90 Jaxions.Relax.C90_clock: propext, Classical.choice, Quot.sound
C90 Jaxions.Relax.C90_study: propext, Classical.choice, Quot.sound
C90 Jaxions.Relax.C90_prep: propext, Classical.choice, Quot.sound
C90 Jaxions.Relax.C90_prep_ends: propext, Classical.choice, Quot.sound
C90 Jaxions.Relax.C90_prep_study: propext, Classical.choice, Quot.sound
C91 Jaxions.Reach.C91_run: propext, Classical.choice, Quot.sound
C91 Jaxions.Reach.C91_axion: propext, Classical.choice, Quot.sound
C91 Jaxions.Reach.C91_saxion: propext, Classical.choice, Quot.sound
C91 Jaxions.Reach.C91_sharp: propext, Classical.choice, Quot.sound
C92 Jaxions.Stable.C92_energy: propext, Classical.choice, Quot.sound
C92 Jaxions.Stable.C92_bounded: propext, Classical.choice, Quot.sound
C92 Jaxions.Stable.C92_too_long: propext, Classical.choice, Quot.sound
C92 Jaxions.Stable.C92_kernel: propext, Classical.choice, Quot.sound
C93 Jaxions.DensMap.C93_skip: propext, Classical.choice, Quot.sound
C93 Jaxions.DensMap.C93_again: propext, Classical.choice, Quot.sound
C93 Jaxions.DensMap.C93_file: propext, Classical.choice, Quot.sound
C93 Jaxions.DensMap.C93_beyond: propext, Classical.choice, Quot.sound
C93 Jaxions.DensMap.C93_axion: propext, Classical.choice, Quot.sound
C93 Jaxions.DensMap.C93_saxion: propext, Classical.choice, Quot.sound
C93 Jaxions.DensMap.C93_reduced: propext, Classical.choice, Quot.sound
C93 Jaxions.DensMap.C93_reduced_radial_wrong: propext, Classical.choice, Quot.sound
C94 Jaxions.Contrast.C94_max: propext, Classical.choice, Quot.sound
C94 Jaxions.Contrast.C94_min: propext, Classical.choice, Quot.sound
C94 Jaxions.Contrast.C94_map: propext, Classical.choice, Quot.sound
C94 Jaxions.Contrast.C94_flat: propext, Classical.choice, Quot.sound
C94 Jaxions.Contrast.C94_radial: propext, Quot.sound
C94 Jaxions.Contrast.C94_write: propext, Classical.choice, Quot.sound
C94 Jaxions.Contrast.C94_file: propext, Classical.choice, Quot.sound
C95 Jaxions.RunSym.C95_axion: propext, Classical.choice, Quot.sound
C95 Jaxions.RunSym.C95_saxion: propext, Classical.choice, Quot.sound
C95 Jaxions.RunSym.C95_axion_uniform: propext, Classical.choice, Quot.sound
C95 Jaxions.RunSym.C95_saxion_uniform: propext, Classical.choice, Quot.sound
C96 Jaxions.StringLut.C96_site: propext, Classical.choice, Quot.sound
C96 Jaxions.StringLut.C96_corner: propext, Classical.choice, Quot.sound
C96 Jaxions.StringLut.C96_corner_outside: propext, Classical.choice, Quot.sound
C96 Jaxions.StringLut.C96_grid: propext, Classical.choice, Quot.sound
C96 Jaxions.StringLut.C96_stairs: propext, Classical.choice, Quot.sound
C96 Jaxions.StringLut.C96_stairs_wrong: propext, Classical.choice, Quot.sound
C96 Jaxions.StringLut.C96_symmetric: propext, Classical.choice, Quot.sound
C97 Jaxions.TuneHybrid.C97_sound: propext, Classical.choice, Quot.sound
C97 Jaxions.TuneHybrid.C97_fastest: propext, Classical.choice, Quot.sound
C97 Jaxions.TuneHybrid.C97_ranks: propext, Classical.choice, Quot.sound
C97 Jaxions.TuneHybrid.C97_ranks_wrong: propext, Classical.choice, Quot.sound
C97 Jaxions.TuneHybrid.C97_again_wrong: propext, Classical.choice, Quot.sound
C98 Jaxions.SpecFilter.C98_pick: propext, Classical.choice, Quot.sound
C98 Jaxions.SpecFilter.C98_ranks: propext, Quot.sound
C98 Jaxions.SpecFilter.C98_mode: propext, Quot.sound
C98 Jaxions.SpecFilter.C98_gauss: propext, Classical.choice, Quot.sound
C99 Jaxions.MaskMatrix.C99_gather: propext, Classical.choice, Quot.sound
C99 Jaxions.MaskMatrix.C99_rows: propext, Quot.sound
C99 Jaxions.MaskMatrix.C99_symmetric: propext, Classical.choice, Quot.sound
C99 Jaxions.MaskMatrix.C99_unmasked: propext, Classical.choice, Quot.sound
C99 Jaxions.MaskMatrix.C99_positive: propext, Classical.choice, Quot.sound
C100 Jaxions.Moore.C100_convert: propext, Classical.choice, Quot.sound
C100 Jaxions.Moore.C100_phase: propext, Classical.choice, Quot.sound
C100 Jaxions.Moore.C100_turns: propext, Classical.choice, Quot.sound
C100 Jaxions.Moore.C100_velocity: propext, Classical.choice, Quot.sound
