{
 "claims": [
  {
   "property": "C01",
   "status": "proved",
   "theorems": [
    "Jaxions.C01_fold_keeps_field",
    "Jaxions.C01_unfold_keeps_field",
    "Jaxions.C01_history",
    "Jaxions.C01_roundtrip_cells",
    "Jaxions.C01_layout_bijective"
   ],
   "note": "For every thread schedule. Hypothesis: at least one ghost slice and the lane count divides the side; C01_accepts_nondividing shows that the constructor does not enforce the latter."
  },
  {
   "property": "C02",
   "status": "partial",
   "theorems": [
    "Jaxions.C02_z_slice",
    "Jaxions.C02_refused",
    "Jaxions.C02_x_slice_partial",
    "Jaxions.C02_x_slice_deep_overflow",
    "Jaxions.C02_depth_index_not_refused",
    "Jaxions.C02_length_index_not_refused"
   ],
   "note": "Slices inside the grid are correct. The off by one guards and the overflow for deep local grids are proved as findings."
  },
  {
   "property": "C03",
   "status": "proved",
   "theorems": [
    "Jaxions.C03_coords_of_number",
    "Jaxions.C03_number_of_coords",
    "Jaxions.C03_padded",
    "Jaxions.C03_padded_number",
    "Jaxions.C03_neighbours",
    "Jaxions.C03_neighbours_in_grid",
    "Jaxions.C03_length_one"
   ],
   "note": "Index arithmetic of index.h on integers. Grid length at least two; length one is shown to give a neighbour outside the grid."
  },
  {
   "property": "C04",
   "status": "proved",
   "theorems": [
    "Jaxions.Simd.C04_rotations",
    "Jaxions.Simd.C04_step_is_shift",
    "Jaxions.Stencil.C04_laplacian",
    "Jaxions.Stencil.C04_substep",
    "Jaxions.Stencil.C04_row_condition"
   ],
   "note": "Stencil radius that fits means at least 2 NN rows per lane block; the condition is shown to be exact."
  },
  {
   "property": "C05",
   "status": "partial",
   "theorems": [
    "Jaxions.C05_tiles_exactly_once",
    "Jaxions.C05_idx_guard_exactly_once_partial",
    "Jaxions.C05_idx_guard_double_visit"
   ],
   "note": "Proved for every block size for the kernels guarded by plane. The two kernels that only guard by the last index (propNaxXeon, propPaxXeon) visit sites twice when the block height does not divide the plane; witness proved, and the divisor case proved."
  },
  {
   "property": "C06",
   "status": "proved",
   "theorems": [
    "Jaxions.C06_exactly_once_iff",
    "Jaxions.C06_unguarded_iff",
    "Jaxions.C06_bulk_reads_no_ghost"
   ],
   "note": "Exact condition: 2 Ng <= Lz or Lz = Ng for the guarded kernels, 2 Ng <= Lz for the unguarded ones. The constructor does not enforce it; recorded as a finding."
  },
  {
   "property": "C07",
   "status": "proved",
   "theorems": [
    "Jaxions.C07_pieces_general",
    "Jaxions.C07_pieces_ghosts"
   ],
   "note": ""
  },
  {
   "property": "C08",
   "status": "proved",
   "theorems": [
    "Jaxions.C08_matching_general",
    "Jaxions.C08_matching_ghosts",
    "Jaxions.C08_peers_in_range"
   ],
   "note": ""
  },
  {
   "property": "C09",
   "status": "proved",
   "theorems": [
    "Jaxions.C09_exchange",
    "Jaxions.C09_exchange_ghosts",
    "Jaxions.C09_nearest",
    "Jaxions.C09_velocity_overwritten"
   ],
   "note": "For arrays with ghost room in front (m, m2, v of PAXION) and at most Lz ghost slices. Exchange of v for other field types overwrites physical data; proved as a finding."
  },
  {
   "property": "C10",
   "status": "proved",
   "theorems": [
    "Jaxions.Cluster.C10_gathered_result",
    "Jaxions.Cluster.C10_rank_count_independent",
    "Jaxions.Cluster.C10_always_finishes"
   ],
   "note": "Asynchronous ranks, any interleaving of sends, deliveries, bulk slices, waits and boundary slices; any program whose acceleration reads at most Ng slices either side."
  },
  {
   "property": "C11",
   "status": "partial",
   "theorems": [
    "Jaxions.Integrator.C11_base_methods",
    "Jaxions.Integrator.C11_other_methods_partial",
    "Jaxions.Integrator.C11_spectral_out_of_bounds",
    "Jaxions.Integrator.C11_full_spectral_falls_short",
    "Jaxions.Integrator.C11_lowmem_never_drifts"
   ],
   "note": "Exact for the position space propagators with all five integrators and for the spectral, Naxion, Paxion methods with RKN4. False for the others; negations proved."
  },
  {
   "property": "C12",
   "status": "partial",
   "theorems": [
    "Jaxions.Integrator.C12_saxion_reversible",
    "Jaxions.Integrator.C12_axion_reversible_partial",
    "Jaxions.Integrator.C12_axion_time_dependent",
    "Jaxions.Integrator.C12_rkn4_not_reversible",
    "Jaxions.Integrator.C12_zero_step"
   ],
   "note": "Saxion: reversible for every time dependent force and every sequence of steps. Axion: reversible for forces without explicit time dependence, false with it (proved). Damping and rounding not modelled here."
  },
  {
   "property": "C13",
   "status": "partial",
   "theorems": [
    "Jaxions.Weights.C13_exact",
    "Jaxions.Weights.C13_laplacian_exact",
    "Jaxions.Weights.C13_radius_six_undefined"
   ],
   "note": "Exact for radii 1 to 5. The command line also accepts radius 6, for which the weight tables are read outside their bounds (proved)."
  },
  {
   "property": "C14",
   "status": "partial",
   "theorems": [
    "Jaxions.Cosmo.C14_mode",
    "Jaxions.Cosmo.C14_positive",
    "Jaxions.Cosmo.C14_saxion_bound",
    "Jaxions.Cosmo.C14_axion_bound",
    "Jaxions.Cosmo.C14_paxion_bound",
    "Jaxions.Cosmo.C14_threshold",
    "Jaxions.Cosmo.C14_threshold_grav",
    "Jaxions.Cosmo.C14_wide_stencil",
    "Jaxions.Cosmo.C14_unknown_types"
   ],
   "note": "Bound proved over the reals for radius one stencils and every lattice mode. False for radius 2 to 5, for frw = 1 with grav > 0 at the threshold, and the step is zero for four field types (all proved)."
  },
  {
   "property": "C15",
   "status": "partial",
   "theorems": [
    "Jaxions.SetField.C15_one_call",
    "Jaxions.SetField.C15_sequence",
    "Jaxions.SetField.C15_refused",
    "Jaxions.SetField.C15_fits_from_saxion",
    "Jaxions.SetField.C15_naxion_not_refused",
    "Jaxions.SetField.C15_paxion_to_axion",
    "Jaxions.SetField.C15_axion_created_overlap"
   ],
   "note": "Exact condition for each conversion and for sequences of them; conversions that break it are exhibited."
  },
  {
   "property": "C16",
   "status": "partial",
   "theorems": [
    "Jaxions.Mem.C16_accounting",
    "Jaxions.Mem.C16_all_freed",
    "Jaxions.Mem.C16_released_once",
    "Jaxions.Lifetime.C16_field_released",
    "Jaxions.Lifetime.C16_axion_like_released",
    "Jaxions.Lifetime.C16_switched_field_leaks",
    "Jaxions.Lifetime.C16_axion_to_saxion_bad_free",
    "Jaxions.Lifetime.C16_paxion_leaks"
   ],
   "note": "The allocator accounting is proved for every sequence of calls. A field that keeps its type releases what it took; fields that were switched, and Paxion fields, do not (proved)."
  },
  {
   "property": "C17",
   "status": "partial",
   "theorems": [
    "Jaxions.Tunable.C17_blocks_divide",
    "Jaxions.Tunable.C17_never_repeats",
    "Jaxions.Tunable.C17_terminates",
    "Jaxions.Tunable.C17_nothing_skipped",
    "Jaxions.Tunable.C17_init",
    "Jaxions.Tunable.C17_small_grid_diverges"
   ],
   "note": "Holds when the grid has at least one full block of rows; for fewer rows the search does not stop (proved), and the first block divides only an even number of rows."
  },
  {
   "property": "C18",
   "status": "partial",
   "theorems": [
    "Jaxions.Tuner.C18_fastest",
    "Jaxions.Tuner.C18_slowest_rank",
    "Jaxions.Tuner.C18_cache_match",
    "Jaxions.Tuner.C18_cache_round_trip",
    "Jaxions.Tuner.C18_precision_ignored",
    "Jaxions.Tuner.C18_unnamed_type"
   ],
   "note": "Choice and cache proved; the cache ignores the precision and loses unnamed field types (proved)."
  },
  {
   "property": "C19",
   "status": "proved",
   "theorems": [
    "Jaxions.Cosmo.C19_total",
    "Jaxions.Cosmo.C19_is_law",
    "Jaxions.Cosmo.C19_nonneg",
    "Jaxions.Cosmo.C19_continuous",
    "Jaxions.Cosmo.C19_monotone",
    "Jaxions.Cosmo.C19_in_time",
    "Jaxions.Cosmo.C19_monotone_in_time"
   ],
   "note": "Over the real numbers."
  },
  {
   "property": "C20",
   "status": "proved",
   "theorems": [
    "Jaxions.Binner.C20_bin",
    "Jaxions.Binner.C20_inside",
    "Jaxions.Binner.C20_counts",
    "Jaxions.Binner.C20_limits",
    "Jaxions.Binner.C20_normalised",
    "Jaxions.Binner.C20_second_run"
   ],
   "note": "Exact arithmetic, finite data, equal data sizes on the ranks. A second run() on the same object is not normalised (proved)."
  },
  {
   "property": "C21",
   "status": "partial",
   "theorems": [
    "Jaxions.Peaks.C21_top",
    "Jaxions.Peaks.C21_scan",
    "Jaxions.Peaks.C21_maximum_rejected"
   ],
   "note": "The list holds the largest candidates in order, for every scan. The candidate test itself rejects true maxima because two comparisons are inverted (proved)."
  },
  {
   "property": "C22",
   "status": "partial",
   "theorems": [
    "Jaxions.Winding.C22_even",
    "Jaxions.Winding.C22_cyclic",
    "Jaxions.Winding.C22_reverse",
    "Jaxions.Winding.C22_values",
    "Jaxions.Winding.C22_values_clear",
    "Jaxions.Winding.C22_builds_agree",
    "Jaxions.Winding.C22_vector",
    "Jaxions.Winding.C22_wall",
    "Jaxions.Winding.C22_vector_misses",
    "Jaxions.Winding.C22_winding",
    "Jaxions.Winding.C22_winding_vector",
    "Jaxions.Winding.C22_rotation"
   ],
   "note": "Count equals the winding of the phase for every plaquette without zeros on its links. The vector kernels also need nonzero imaginary parts: with a corner exactly on the real axis they miss the string (proved)."
  },
  {
   "property": "C23",
   "status": "proved",
   "theorems": [
    "Jaxions.Winding.C23_cube",
    "Jaxions.Winding.C23_no_end",
    "Jaxions.Winding.C23_box",
    "Jaxions.Winding.C23_plane",
    "Jaxions.Winding.C23_vector",
    "Jaxions.Winding.C23_no_end_vector"
   ],
   "note": "Exact arithmetic, no zeros on the links."
  },
  {
   "property": "C24",
   "status": "partial",
   "theorems": [
    "Jaxions.StringMap.C24_kernel",
    "Jaxions.StringMap.C24_rank",
    "Jaxions.StringMap.C24_map",
    "Jaxions.StringMap.C24_totals",
    "Jaxions.StringMap.C24_charge_zero",
    "Jaxions.StringMap.C24_positions",
    "Jaxions.StringMap.C24_rotation",
    "Jaxions.StringMap.C24_rotation_avx512",
    "Jaxions.StringMap.C24_displaced",
    "Jaxions.StringMap.C24_overflow"
   ],
   "note": "Map, counters and position list proved for one ghost slice, any order of the threads. Proved to fail: other ghost widths (map displaced), double precision AVX-512 shuffle, coordinates above 65535."
  },
  {
   "property": "C25",
   "status": "partial",
   "theorems": [
    "Jaxions.Mend.C25_turns",
    "Jaxions.Mend.C25_mends",
    "Jaxions.Mend.C25_smooth_unchanged",
    "Jaxions.Mend.C25_idempotent",
    "Jaxions.Mend.C25_line",
    "Jaxions.Mend.C25_avx512_hangs",
    "Jaxions.Mend.C25_velocity",
    "Jaxions.Mend.C25_slope_radiation"
   ],
   "note": "Any ranks, threads and schedules, exact arithmetic: the loops end, each site gets whole turns and its velocity the matching amount, a mendable angle becomes smooth. The AVX-512 double build needs at most one turn per site, and is proved not to end otherwise. The velocity change keeps the derivative of the angle only if frw R / z is 1."
  },
  {
   "property": "C26",
   "status": "partial",
   "theorems": [
    "Jaxions.Spectrum.bin_floor",
    "Jaxions.Spectrum.C26_bin",
    "Jaxions.Spectrum.C26_fill",
    "Jaxions.Spectrum.C26_gradient",
    "Jaxions.Spectrum.C26_count",
    "Jaxions.Spectrum.C26_total",
    "Jaxions.Spectrum.C26_twice",
    "Jaxions.Spectrum.C26_potential_gradient",
    "Jaxions.Spectrum.C26_no_bins",
    "Jaxions.Spectrum.C26_odd",
    "Jaxions.Spectrum.C26_even"
   ],
   "note": "All bin options but zero, even grid length, ranks dividing both axes, any threads and schedule. Proved to fail: zero bins (exception), odd length (last plane counted once). Second runs into the same vector multiply the first result by the number of ranks."
  },
  {
   "property": "C27",
   "status": "partial",
   "theorems": [
    "Jaxions.Pad.C27_pad",
    "Jaxions.Pad.C27_pad_apart",
    "Jaxions.Pad.C27_unpad",
    "Jaxions.Pad.C27_unpad_forward",
    "Jaxions.Pad.C27_unpad_apart",
    "Jaxions.Pad.C27_round_trip",
    "Jaxions.Pad.C27_half",
    "Jaxions.Pad.C27_prun",
    "Jaxions.Pad.C27_start",
    "Jaxions.Pad.C27_start_loses",
    "Jaxions.Pad.C27_room_m2",
    "Jaxions.Pad.C27_room_m"
   ],
   "note": "Padding and unpadding in place, forward, and between separate areas are right for every size and thread order. Padding from the physical part to the beginning loses data in the code (C27_start, C27_start_loses), and padding m2half into m2 is right exactly if Lz <= Ng*Ly (C27_half, C27_prun)."
  },
  {
   "property": "C28",
   "status": "partial",
   "theorems": [
    "Jaxions.Reduce.C28_in_place",
    "Jaxions.Reduce.C28_ranks",
    "Jaxions.Reduce.C28_constant",
    "Jaxions.Reduce.C28_subset",
    "Jaxions.Reduce.C28_bounds",
    "Jaxions.Reduce.C28_cherry",
    "Jaxions.Reduce.C28_field",
    "Jaxions.Reduce.C28_new_saxion",
    "Jaxions.Reduce.C28_new_axion_lost",
    "Jaxions.Reduce.C28_dims"
   ],
   "note": "In place reduction is the interpolation of the original data for every size, rank count and content (exact arithmetic). The transforms before it are not modelled. In the code an angle reduced into a new field never reaches that field (C28_new_axion_lost) and a reduction along one direction leaves the old dimensions (C28_dims)."
  },
  {
   "property": "C29",
   "status": "partial",
   "theorems": [
    "Jaxions.MaskBall.C29_safe",
    "Jaxions.MaskBall.C29_safe_receive",
    "Jaxions.MaskBall.C29_sound",
    "Jaxions.MaskBall.C29_own",
    "Jaxions.MaskBall.C29_exact",
    "Jaxions.MaskBall.C29_runs",
    "Jaxions.MaskBall.C29_race",
    "Jaxions.MaskBall.C29_thin",
    "Jaxions.MaskBall.C29_one_slice"
   ],
   "note": "Exact mask for every configuration and rank count with one thread per rank, if the radius is not larger than the slab and there are two slices. Any schedule: in bounds, only sites in balls marked, balls complete inside the own slab. Proved to fail: several threads may lose a mark in the next rank (C29_race), radius larger than the slab (C29_thin), one slice per rank (C29_one_slice)."
  },
  {
   "property": "C30",
   "status": "partial",
   "theorems": [
    "Jaxions.Smooth.C30_smooth",
    "Jaxions.Smooth.C30_ranks",
    "Jaxions.Smooth.C30_total",
    "Jaxions.Smooth.C30_bounds",
    "Jaxions.Smooth.C30_constant",
    "Jaxions.Smooth.C30_run",
    "Jaxions.Smooth.C30_lowmem"
   ],
   "note": "All claims proved in exact arithmetic for every grid of length at least two, at least one and at most Lz ghost slices, any constant, number of iterations, ranks and order. With the low memory option the code writes through a null pointer (C30_lowmem)."
  },
  {
   "property": "C31",
   "status": "partial",
   "theorems": [
    "Jaxions.Plans.C31_once",
    "Jaxions.Plans.C31_defined",
    "Jaxions.Plans.C31_meaning",
    "Jaxions.Plans.C31_meaning_unique",
    "Jaxions.Plans.C31_run",
    "Jaxions.Plans.C31_run_unknown",
    "Jaxions.Plans.C31_keep",
    "Jaxions.Plans.C31_create",
    "Jaxions.Plans.C31_remove",
    "Jaxions.Plans.C31_shutdown",
    "Jaxions.Plans.C31_shutdown_flag",
    "Jaxions.Plans.C31_shutdown_off",
    "Jaxions.Plans.C31_lookup_blocks",
    "Jaxions.Plans.C31_second_field",
    "Jaxions.Plans.C31_other_field_closed",
    "Jaxions.Plans.C31_close_empty",
    "Jaxions.Plans.C31_close_twice",
    "Jaxions.Plans.C31_unknown_kind",
    "Jaxions.Plans.C31_assign_double"
   ],
   "note": "For every history of supported calls no handle is destroyed twice and shutdown of a non-empty registry destroys each exactly once. Proved false in the code: a lookup of an unknown name is not reported and blocks its later creation (C31_lookup_blocks), closing an empty registry or one whose last name is a placeholder (C31_close_empty, C31_close_twice), plan types without a case (C31_unknown_kind), plans of a second field (C31_second_field, C31_other_field_closed), assignment over a plan as in test/gravi2.cpp (C31_assign_double). FFTW is modelled by its contract."
  },
  {
   "property": "C32",
   "status": "partial",
   "theorems": [
    "Jaxions.Log.C32_text",
    "Jaxions.Log.C32_text_long",
    "Jaxions.Log.C32_pack",
    "Jaxions.Log.C32_pack_long",
    "Jaxions.Log.C32_label",
    "Jaxions.Log.C32_sound",
    "Jaxions.Log.C32_error_sent",
    "Jaxions.Log.C32_errors_once",
    "Jaxions.Log.C32_zero",
    "Jaxions.Log.C32_errors_delivered",
    "Jaxions.Log.C32_duplicate",
    "Jaxions.Log.C32_lost",
    "Jaxions.Log.C32_prompt",
    "Jaxions.Log.C32_flush_lost"
   ],
   "note": "Rank zero writes what it logged and received exactly once; errors of other ranks are sent at least once in every history and exactly once when only errors are logged; nothing is sent that was not logged. The full claim is false for normal messages of other ranks: the MPI request stays with the slot of the vector, so messages are sent again (C32_duplicate) or never (C32_lost, C32_prompt), and a flush there drops unsent messages (C32_flush_lost). Texts over 2006 characters are not preserved (C32_text, C32_text_long). Threads of one rank are not modelled."
  },
  {
   "property": "C33",
   "status": "partial",
   "theorems": [
    "Jaxions.PropChoice.C33_refused",
    "Jaxions.PropChoice.C33_asked_unique",
    "Jaxions.PropChoice.C33_resolve",
    "Jaxions.PropChoice.C33_made_or_exit",
    "Jaxions.PropChoice.C33_default",
    "Jaxions.PropChoice.C33_two_integrators",
    "Jaxions.PropChoice.C33_fold",
    "Jaxions.PropChoice.C33_neighbours",
    "Jaxions.PropChoice.C33_order",
    "Jaxions.PropChoice.C33_both_spectral",
    "Jaxions.PropChoice.C33_lap0_spec",
    "Jaxions.PropChoice.C33_om4",
    "Jaxions.PropChoice.C33_potential",
    "Jaxions.PropChoice.C33_potential_table",
    "Jaxions.PropChoice.C33_kernel_unset"
   ],
   "note": "For every sequence of options the exact refusal rule, the integrator and laplacian mode made, and the folding. The claim fails in the code for both spectral modes together, --lap 0 with a spectral mode, the build switch of the fourth order Omelyan integrator, potentials without a propagator (null pointer or the old propagator), and spectral or low memory modes of the Naxion and Paxion fields."
  },
  {
   "property": "C34",
   "status": "partial",
   "theorems": [
    "Jaxions.Derived.C34_options",
    "Jaxions.Derived.C34_msa",
    "Jaxions.Derived.C34_msa_max",
    "Jaxions.Derived.C34_logi",
    "Jaxions.Derived.C34_llcf_exact",
    "Jaxions.Derived.C34_llcf_msa",
    "Jaxions.Derived.C34_logi_missed",
    "Jaxions.Derived.C34_order",
    "Jaxions.Derived.C34_mink_then_frw",
    "Jaxions.Derived.C34_saxion_mass"
   ],
   "note": "Over the real numbers, runs that do not read a configuration, no tabulated cosmology. Proved with --msa for every list of options whose expansion law is the one of the run (no --frw after --mink, no modified gravity). False as stated: --lz2e without --msa enters the initial time but not the run (exact error in C34_llcf_exact, condition in C34_logi_missed), the order of --lz2e and --msa matters, --frw after --mink enters the derivation only, and with V_PQ2 the radial mass is twice the stored resolution."
  },
  {
   "property": "C35",
   "status": "proved",
   "theorems": [
    "Jaxions.Projector.C35_map",
    "Jaxions.Projector.C35_ranks",
    "Jaxions.Projector.C35_file"
   ],
   "note": "For every number of ranks, any order of the loops, exact arithmetic; MPI_Reduce by its contract. The field in m2 is taken to be in plain order. C35_file also shows that asking for both projected maps ends the program, because both use the name /map/P."
  },
  {
   "property": "C36",
   "status": "partial",
   "theorems": [
    "Jaxions.Header.C36_fresh",
    "Jaxions.Header.C36_exact",
    "Jaxions.Header.C36_qcd_damping",
    "Jaxions.Header.C36_pq_lost",
    "Jaxions.Header.C36_theta_lost",
    "Jaxions.Header.C36_restart",
    "Jaxions.Header.C36_restart_damping",
    "Jaxions.Header.C36_damping_changes_potential"
   ],
   "note": "Exact condition of the round trip for every option sequence: first PQ potential, not angle only evolution, vanishing coupling only with the vanishing potential. The other cases are lost (C36_pq_lost, C36_theta_lost), and any damping or evolution option on a restart replaces the QCD and PQ potentials by the defaults (C36_restart, C36_damping_changes_potential)."
  },
  {
   "property": "C37",
   "status": "partial",
   "theorems": [
    "Jaxions.ConfIO.C37_once",
    "Jaxions.ConfIO.C37_write",
    "Jaxions.ConfIO.C37_read_refused",
    "Jaxions.ConfIO.C37_read",
    "Jaxions.ConfIO.C37_round_trip",
    "Jaxions.ConfIO.C37_naxion"
   ],
   "note": "Proved for every field type but the Naxion, every pair of rank counts, grid, ghost width, content and order of transfers. HDF5 is modelled by its contract; precision conversion is not modelled. A saved Naxion can never be read (C37_naxion)."
  },
  {
   "property": "C38",
   "status": "partial",
   "theorems": [
    "Jaxions.Save.C38_values",
    "Jaxions.Save.C38_layout_iff",
    "Jaxions.Save.C38_next_step",
    "Jaxions.Save.C38_flags",
    "Jaxions.Save.C38_momentum_lost",
    "Jaxions.Save.C38_written",
    "Jaxions.Save.C38_others",
    "Jaxions.Save.C38_window",
    "Jaxions.Save.C38_history",
    "Jaxions.Save.C38_restart_lost",
    "Jaxions.Save.C38_create_failed"
   ],
   "note": "Values at every site are kept and the next step is the same; the layout is kept exactly if the field was not folded (C38_layout_iff), a field in momentum space is lost (C38_momentum_lost). The restart file is unusable exactly in the stated windows of a save (C38_window, C38_history, C38_restart_lost), and a failed creation of the file is not reported (C38_create_failed). HDF5 is modelled by its contract."
  },
  {
   "property": "C39",
   "status": "proved",
   "theorems": [
    "Jaxions.CheckTime.C39_agree",
    "Jaxions.CheckTime.C39_end",
    "Jaxions.CheckTime.C39_matched",
    "Jaxions.CheckTime.C39_together",
    "Jaxions.CheckTime.C39_progress",
    "Jaxions.CheckTime.C39_cause",
    "Jaxions.CheckTime.C39_effect",
    "Jaxions.CheckTime.C39_save_honoured",
    "Jaxions.CheckTime.C39_save_once",
    "Jaxions.CheckTime.C39_settled"
   ],
   "note": "Proved for every number of ranks, every interleaving of the ranks and every history of clocks and files. The collective call is modelled by its contract (every rank enters, every rank gets the list of all flags)."
  },
  {
   "property": "C40",
   "status": "partial",
   "theorems": [
    "Jaxions.TimeLoop.C40_running",
    "Jaxions.TimeLoop.C40_run",
    "Jaxions.TimeLoop.C40_last",
    "Jaxions.TimeLoop.C40_first",
    "Jaxions.TimeLoop.C40_near_start_skipped",
    "Jaxions.TimeLoop.C40_restart_jumps",
    "Jaxions.TimeLoop.C40_single_outside",
    "Jaxions.TimeLoop.C40_fixed_step_short",
    "Jaxions.TimeLoop.C40_last_not_loaded",
    "Jaxions.TimeLoop.C40_theta_maps"
   ],
   "note": "Proved that the loop measures exactly at the listed times it loads, in order, over exact arithmetic. The unrestricted claim fails; each failure has a theorem with a concrete case."
  },
  {
   "property": "C41",
   "status": "partial",
   "theorems": [
    "Jaxions.Header.C41_text",
    "Jaxions.Header.C41_attribute",
    "Jaxions.Header.C41_transfer",
    "Jaxions.Header.C41_read_overrun",
    "Jaxions.Header.C41_path",
    "Jaxions.Header.C41_path_iff",
    "Jaxions.Header.C41_duplicate_attribute"
   ],
   "note": "Every text printed fits except one (exact). The claim fails for the transfers: text attributes have 32 bytes and most buffers 16, so each read overruns four buffers (C41_transfer, C41_read_overrun); file names fit up to 248 characters while directories of 1021 are accepted; an attribute is created twice in each save."
  },
  {
   "property": "C42",
   "status": "partial",
   "theorems": [
    "Jaxions.SaxKernel.C42_parts",
    "Jaxions.SaxKernel.C42_rho",
    "Jaxions.SaxKernel.C42_exact"
   ],
   "note": "The radial and angular part of the new velocity for every damping and projection, at exactly the sites where the lane exchanges are right. False as stated: with doubles and AVX or AVX-512 radial damping is wrong at all sites but the first of each vector, and with AVX-512 the projection on the radius is wrong at sites 2 and 3 (C42_exact gives the witness)."
  },
  {
   "property": "C43",
   "status": "partial",
   "theorems": [
    "Jaxions.Tracker.C43_lists",
    "Jaxions.Tracker.C43_found",
    "Jaxions.Tracker.C43_complete",
    "Jaxions.Tracker.C43_series_partial",
    "Jaxions.Tracker.C43_unfolded_misread",
    "Jaxions.Tracker.C43_convert",
    "Jaxions.Tracker.C43_print"
   ],
   "note": "Distinct sites, limit, lengths and the conversion of numbers hold for every history. The recorded values are those of the site exactly when the field is folded at the readings; otherwise another site is read (C43_unfolded_misread). The printing loop is undefined exactly if an empty rank lies between ranks with axitons (C43_print)."
  },
  {
   "property": "C44",
   "status": "partial",
   "theorems": [
    "Jaxions.MeasList.C44_columns",
    "Jaxions.MeasList.C44_old",
    "Jaxions.MeasList.C44_merge",
    "Jaxions.MeasList.C44_increasing",
    "Jaxions.MeasList.C44_nothing_lost_partial",
    "Jaxions.MeasList.C44_file",
    "Jaxions.MeasList.C44_maps_lost",
    "Jaxions.MeasList.C44_unknown_name",
    "Jaxions.MeasList.C44_first_time_unset"
   ],
   "note": "The merge is characterised exactly. The claim fails for the map, mask and kernel columns of a later line with an equal time (C44_maps_lost), for unknown column names (C44_unknown_name) and the first time is compared while unset (C44_first_time_unset). Reading a number from text is a parameter."
  },
  {
   "property": "C45",
   "status": "partial",
   "theorems": [
    "Jaxions.Integrator.C45_saxion_on_time",
    "Jaxions.Integrator.C45_axion_late"
   ],
   "note": "Holds for the Saxion propagator with any coefficient table; false for the Axion propagator on the CPU with every integrator (proved)."
  },
  {
   "property": "C46",
   "status": "partial",
   "theorems": [
    "Jaxions.Spectral.C46_saxion_stage",
    "Jaxions.Spectral.C46_saxion_partial",
    "Jaxions.Spectral.C46_saxion_frozen",
    "Jaxions.Spectral.C46_saxion_mispaired",
    "Jaxions.Spectral.C46_axion_partial",
    "Jaxions.Spectral.C46_axion_frozen",
    "Jaxions.Spectral.C46_axion_reads_padding"
   ],
   "note": "Holds with one ghost slice for any number of stages. With more ghost slices part of the physical slices is frozen and the others are paired with the Laplacian of another site (proved). The transforms are parameters."
  },
  {
   "property": "C47",
   "status": "partial",
   "theorems": [
    "Jaxions.Header.C47_exact",
    "Jaxions.Header.C47_others",
    "Jaxions.Header.C47_frw_lost"
   ],
   "note": "Exact condition; the expansion exponent and the decay time are not restored (C47_frw_lost), all other parameters are (C47_others)."
  },
  {
   "property": "C48",
   "status": "partial",
   "theorems": [
    "Jaxions.Fourier.C48_round_trip_partial",
    "Jaxions.Fourier.C48_ghosts_out_of_bounds",
    "Jaxions.Fourier.C48_axion_out_of_bounds",
    "Jaxions.Fourier.C48_axion_velocity_scaled",
    "Jaxions.Fourier.C48_velocity_skipped"
   ],
   "note": "Holds for Saxion fields and Axion fields converted from them with at most one ghost slice, on any number of ranks. With more ghost slices, or for an Axion created as such, the scaling leaves the velocity array (proved), and moving only the field of such an Axion rescales its velocities (proved). The transforms are modelled by their contract."
  },
  {
   "property": "C49",
   "status": "partial",
   "theorems": [
    "Jaxions.SaxKernel.C49_force",
    "Jaxions.SaxKernel.C49_variant",
    "Jaxions.SaxKernel.C49_two",
    "Jaxions.SaxKernel.C49_cosine_double",
    "Jaxions.SaxKernel.C49_double_wrong",
    "Jaxions.SaxKernel.C49_precisions"
   ],
   "note": "True for the three PQ potentials with no or the linear QCD potential, and in single precision with the cosine and the two-minima potential. False in double precision for the cosine (not even zero in the vacuum) and for two minima (opposite sign), and in both for the variant potential (factor R). V_QCDL is the cosine in single and absent in double precision."
  },
  {
   "property": "C50",
   "status": "partial",
   "theorems": [
    "Jaxions.SaxKernel.C50_mass",
    "Jaxions.SaxKernel.C50_variant"
   ],
   "note": "Holds for the options whose force is right; the variant potential has an extra factor R. Exact arithmetic."
  },
  {
   "property": "C51",
   "status": "partial",
   "theorems": [
    "Jaxions.Energy.C51_wrap",
    "Jaxions.Energy.C51_wrap_half",
    "Jaxions.Energy.C51_wrap_far",
    "Jaxions.Energy.C51_axion",
    "Jaxions.Energy.C51_axion_mean",
    "Jaxions.Energy.C51_axion_avx512",
    "Jaxions.Energy.C51_axion_avx512_wrong"
   ],
   "note": "Proved over exact arithmetic for every build except double precision on AVX-512, where the neighbour across a block boundary is added to the opposite one and a constant angle is reported with gradient energy (proved). The wrap returns zero for a difference of exactly half a turn and is not the nearest representative beyond three half turns."
  },
  {
   "property": "C52",
   "status": "partial",
   "theorems": [
    "Jaxions.Energy.C52_potential",
    "Jaxions.Energy.C52_single",
    "Jaxions.Energy.C52_double",
    "Jaxions.Energy.C52_double_no_kinetic",
    "Jaxions.Energy.C52_double_masked_undefined",
    "Jaxions.Energy.C52_parts",
    "Jaxions.Energy.C52_two_minima_constant"
   ],
   "note": "Proved over exact arithmetic: all entries, masks and maps in single precision, for the cosine and variant potential. False as stated: with doubles the kinetic entries vanish once R > 1 (an integer holds 1/R^2), the mean radius is never written, the masked count is not reduced over threads, and with AVX or AVX2 a masked site makes the kernel read beyond an array; V_QCD2 reports a constant; plain ENE requests also write the map. The number of ranks enters only through the sum over ranks, not modelled here."
  },
  {
   "property": "C53",
   "status": "partial",
   "theorems": [
    "Jaxions.Energy.C53_mean",
    "Jaxions.Energy.C53_double",
    "Jaxions.Energy.C53_file",
    "Jaxions.Energy.C53_lowmem_zero",
    "Jaxions.Energy.C53_no_mask",
    "Jaxions.Energy.C53_axion"
   ],
   "note": "Averages over the whole lattice and independence of the number of ranks proved for the complex field in single precision and for the angle (not double AVX-512), exact arithmetic, MPI_Allreduce by contract. False as stated: EN_MAP = 3 overlaps EN_ENE = 1, so in low memory mode the request for totals is refused and the file stores zeros (C53_lowmem_zero), and otherwise a request for totals fills the map (last part of C53_mean). In double precision the mean radius is undefined, the kinetic parts are scaled by floor(1/R^2) R^2 and masked averages are undefined with several threads (C53_double). An empty mask gives no numbers."
  },
  {
   "property": "C54",
   "status": "partial",
   "theorems": [
    "Jaxions.ToTheta.C54_convert",
    "Jaxions.ToTheta.C54_velocity",
    "Jaxions.ToTheta.C54_derivative",
    "Jaxions.ToTheta.C54_gravity",
    "Jaxions.ToTheta.C54_back",
    "Jaxions.ToTheta.C54_back_velocity",
    "Jaxions.ToTheta.C54_round_trip",
    "Jaxions.ToTheta.C54_initial",
    "Jaxions.ToTheta.C54_low_memory"
   ],
   "note": "Conversions in place for every geometry with a ghost slice and any order of the threads, exact arithmetic. The velocity is the derivative exactly up to two terms given in C54_velocity: the code takes R' = frw R/t, which is wrong with the gravity option (C54_gravity) and with a tabulated background, and it takes the vacuum as being at rest. Initial conditions are right exactly if R' = 1 (C54_initial). A field kept in low memory loses the flag but has no second array (C54_low_memory). Folding and mending are C01 and C25; the GPU is not modelled."
  },
  {
   "property": "C55",
   "status": "partial",
   "theorems": [
    "Jaxions.Shift.C55_cubic",
    "Jaxions.Shift.C55_vacuum",
    "Jaxions.Shift.C55_minimum",
    "Jaxions.Shift.C55_third",
    "Jaxions.Shift.C55_second",
    "Jaxions.Shift.C55_second_heavy",
    "Jaxions.Shift.C55_two",
    "Jaxions.Shift.C55_time"
   ],
   "note": "Exact for the first symmetry breaking potential (unique positive root, no force in the kernel, global minimum) and wherever the vacuum is not moved. Within mA2 R^3/50000 for the second one while mA2 is at most the coupling. False as stated: the third potential uses the cubic of the first (C55_third), the second is off for a heavy axion (C55_second_heavy), two minima take no shift (C55_two), and Saskia(ct) ignores ct (C55_time)."
  },
  {
   "property": "C56",
   "status": "partial",
   "theorems": [
    "Jaxions.Norm.C56_normalise",
    "Jaxions.Norm.C56_m2",
    "Jaxions.Norm.C56_wrong_index",
    "Jaxions.Norm.C56_core",
    "Jaxions.Norm.C56_turn"
   ],
   "note": "Both routines for every geometry and order of the threads, exact arithmetic. False as stated: with low memory the velocity is overwritten (in C56_core), for m2 the loop starts in the ghosts (C56_m2), and a wrong index in single precision uses an uninitialised pointer (C56_wrong_index)."
  },
  {
   "property": "C57",
   "status": "partial",
   "theorems": [
    "Jaxions.Expand.C57_expand",
    "Jaxions.Expand.C57_points",
    "Jaxions.Expand.C57_ranks",
    "Jaxions.Expand.C57_range",
    "Jaxions.Expand.C57_two_factors",
    "Jaxions.Expand.C57_overshoot",
    "Jaxions.Expand.C57_race",
    "Jaxions.Expand.C57_lowmem"
   ],
   "note": "Full statement for every whole factor k of at least two common to the three directions, any number of ranks, any interleaving; exact arithmetic, ghost exchange as in C09. False as stated otherwise: with different factors the weight along z uses the factor of x (C57_two_factors, C57_overshoot); with a side that is no multiple two threads write different values to one point (C57_race); without m2 the call is undefined (C57_lowmem)."
  },
  {
   "property": "C58",
   "status": "partial",
   "theorems": [
    "Jaxions.ThetaKernel.C58_cosine",
    "Jaxions.ThetaKernel.C58_free",
    "Jaxions.ThetaKernel.C58_linear_double",
    "Jaxions.ThetaKernel.C58_linear_single",
    "Jaxions.ThetaKernel.C58_linear_precisions",
    "Jaxions.ThetaKernel.C58_not_evolved",
    "Jaxions.ThetaKernel.C58_motion",
    "Jaxions.ThetaKernel.C58_wrapped_laplacian",
    "Jaxions.ThetaKernel.C58_wrapped_rate",
    "Jaxions.ThetaKernel.C58_wrap_velocity",
    "Jaxions.ThetaKernel.C58_half_turn",
    "Jaxions.ThetaKernel.C58_drift",
    "Jaxions.ThetaKernel.C58_drift_builds",
    "Jaxions.ThetaKernel.C58_drift_avx512",
    "Jaxions.ThetaKernel.C58_drift_eight"
   ],
   "note": "Increments and equation proved for the cosine, zero and (double precision) linear potential. False as stated: V_QCDL in single precision has another force (C58_linear_single, C58_linear_precisions), V_QCD2 is not evolved (C58_not_evolved), the wrap alters the physical velocity when R is not constant (C58_wrap_velocity) and stores half a turn as zero (C58_half_turn), the drift of the double precision AVX-512 build needs a multiple of sixteen (C58_drift_avx512, C58_drift_eight). Exact arithmetic."
  },
  {
   "property": "C59",
   "status": "proved",
   "theorems": [
    "Jaxions.Run.C59_substep",
    "Jaxions.Run.C59_run",
    "Jaxions.Run.C59_axion",
    "Jaxions.Run.C59_saxion",
    "Jaxions.Run.C59_same",
    "Jaxions.Run.C59_holding"
   ],
   "note": "Combines the byte-level exchange of C09, the passes of C06 and the folded stencil of C04/C58. Exact arithmetic; the law of a saxion site is a parameter. Messages below the size at which the program stops (hypothesis Fits.message)."
  },
  {
   "property": "C60",
   "status": "partial",
   "theorems": [
    "Jaxions.Gravity.C60_poisson",
    "Jaxions.Gravity.C60_layers",
    "Jaxions.Gravity.C60_stretched",
    "Jaxions.Gravity.C60_unique",
    "Jaxions.Gravity.C60_mean",
    "Jaxions.Gravity.C60_contrast",
    "Jaxions.Gravity.C60_mean_ranks",
    "Jaxions.Gravity.C60_normalise",
    "Jaxions.Gravity.C60_reduced_first",
    "Jaxions.Gravity.C60_reduced_wrong",
    "Jaxions.Gravity.C60_reduced_nan",
    "Jaxions.Gravity.Red.C60_reduce",
    "Jaxions.Gravity.Red.C60_expand",
    "Jaxions.Gravity.Red.C60_blocks",
    "Jaxions.Gravity.C60_relax",
    "Jaxions.Gravity.C60_double"
   ],
   "note": "The direct solver is right on cubic lattices (C60_poisson with C60_unique); on a longer box it counts kz in units of the transverse side and is wrong by the square of the aspect ratio (C60_layers, C60_stretched). The hybrid solver is right on one rank only: mean drops the global sum (C60_mean_ranks), the coarse wave numbers use the offset of the fine grid (C60_reduced_wrong, C60_reduced_nan). The relaxation is right in single precision (C60_relax) and reads an uninitialised register in double precision (C60_double). The transform is a parameter assumed exact (Plan.Exact, met by formulaPlan). tunehybrid is not modelled."
  },
  {
   "property": "C61",
   "status": "partial",
   "theorems": [
    "Jaxions.WKB.C61_phase_iff",
    "Jaxions.WKB.C61_phase_wrong",
    "Jaxions.WKB.C61_massphase",
    "Jaxions.WKB.C61_wronskian",
    "Jaxions.WKB.C61_real",
    "Jaxions.WKB.C61_start",
    "Jaxions.WKB.C61_table_add",
    "Jaxions.WKB.C61_compose",
    "Jaxions.WKB.C61_motion",
    "Jaxions.WKB.C61_table_range",
    "Jaxions.WKB.C61_number_iff",
    "Jaxions.WKB.C61_number_wrong",
    "Jaxions.WKB.C61_field",
    "Jaxions.WKB.C61_field_start"
   ],
   "note": "The phase in the table is right exactly while the mass grows, or for momentum one (C61_phase_iff): for a constant mass the formula has 0.5*k where 0.5*k*k is due. Until the threshold the result solves the equation of the mode up to the usual adiabatic defect (C61_motion). On cubes the whole program does to every mode what modeStep says, on any number of ranks (C61_field); on other lattices the offset along y is wrong on every rank but the first (C61_number_iff). Between the entries of the table the phase is that of a spline, here any function. The transform is a parameter assumed exact (Plan.Exact). The version with two fields (doWKB) and the lookup text file are not modelled."
  },
  {
   "property": "C62",
   "status": "partial",
   "theorems": [
    "Jaxions.Cosmo.C62_scale",
    "Jaxions.Cosmo.C62_scale_grav",
    "Jaxions.Cosmo.C62_mass_rate",
    "Jaxions.Cosmo.C62_mass_rate_grav",
    "Jaxions.Cosmo.C62_log_rate",
    "Jaxions.Cosmo.C62_log_rate_table",
    "Jaxions.Cosmo.C62_integral_growing",
    "Jaxions.Cosmo.C62_integral_iff",
    "Jaxions.Cosmo.C62_second_growing",
    "Jaxions.Cosmo.C62_second_saturated",
    "Jaxions.Cosmo.C62_second_no_value",
    "Jaxions.Cosmo.C62_second_crossing"
   ],
   "note": "True for a pure power law of the expansion and, for the integrals, while the mass grows. False elsewhere, with the exact error: with the matter term (C62_scale_grav, C62_mass_rate_grav), with tabulated functions (C62_log_rate_table), after saturation (C62_integral_iff, C62_second_saturated, C62_second_crossing, C62_second_no_value). The integrals past saturation are treated for frw = 1 and before the mass starts again. For the tabulated cosmology Rp and DAxionMass2Dct are central differences of a spline, which is an arbitrary function here."
  },
  {
   "property": "C63",
   "status": "partial",
   "theorems": [
    "Jaxions.Paxion.C63_run",
    "Jaxions.Paxion.C63_turn_number",
    "Jaxions.Paxion.C63_reverse",
    "Jaxions.Paxion.C63_kkt",
    "Jaxions.Paxion.C63_kkt_half",
    "Jaxions.Paxion.C63_turn_exact",
    "Jaxions.Paxion.C63_halves",
    "Jaxions.Paxion.C63_ood2_iff",
    "Jaxions.Paxion.C63_kick_area",
    "Jaxions.Paxion.C63_turn_area",
    "Jaxions.Paxion.C63_step",
    "Jaxions.Paxion.C63_rkn4",
    "Jaxions.Paxion.C63_out_of_bounds",
    "Jaxions.Paxion.C63_gravity_exact",
    "Jaxions.Paxion.C63_stages"
   ],
   "note": "The run on ranks, the number density, reversal, areas and the factor of the potential for frw != 1/2 hold in full. Not true of the code: the factor of the potential is 0/0 for frw = 1/2 (C63_kkt_half); the second half step of the potential takes the factor of the time after the step (C63_halves gives the exact condition); the kick factor is a logarithm for mass exponents within 0.01 of one (C63_ood2_iff); only RKN4 is defined (C63_out_of_bounds). At least two ghost depths of slices per rank are assumed, because the kernel lacks the test for an empty range. The gravitational potential is any array; its calculation is C60."
  },
  {
   "property": "C64",
   "status": "partial",
   "theorems": [
    "Jaxions.Nonrel.C64_paxion_sites",
    "Jaxions.Nonrel.C64_paxion_bounds",
    "Jaxions.Nonrel.C64_paxion_created_axion",
    "Jaxions.Nonrel.C64_naxion_sites",
    "Jaxions.Nonrel.C64_number",
    "Jaxions.Nonrel.C64_adiabatic",
    "Jaxions.Nonrel.C64_adiab_iff",
    "Jaxions.Nonrel.C64_site",
    "Jaxions.Nonrel.C64_grows",
    "Jaxions.Nonrel.C64_kept_iff",
    "Jaxions.Nonrel.C64_never_falls",
    "Jaxions.Nonrel.C64_wave",
    "Jaxions.Nonrel.C64_nax_run",
    "Jaxions.Nonrel.C64_kkt",
    "Jaxions.Nonrel.C64_slow_pax",
    "Jaxions.Nonrel.C64_slow_nax",
    "Jaxions.Nonrel.C64_average_pax",
    "Jaxions.Nonrel.C64_average_nax",
    "Jaxions.Nonrel.C64_rate",
    "Jaxions.Nonrel.C64_wrong_sign"
   ],
   "note": "The contents after conversion, the meaning of the amplitude, the averaged equations, the site law and the run on ranks hold in full. Not true of the code: the Paxion conversion of a field created as axion writes past the velocities from three ghost slices on (C64_paxion_bounds gives the exact condition); the adiabatic coefficient is right only for R = 1 (C64_adiab_iff); the Naxion kernel is an explicit step, so the number grows in every stage unless the Laplacian vanishes (C64_grows, C64_kept_iff, C64_wave), it integrates the conjugate of the field the conversion makes, with a coupling four times too large (C64_wrong_sign), and its coupling factor is 0/0 for frw = 1/2 (C64_kkt). Arithmetic is exact."
  },
  {
   "property": "C65",
   "status": "partial",
   "theorems": [
    "Jaxions.Energy.C65_energy",
    "Jaxions.Energy.C65_gradient",
    "Jaxions.Energy.C65_map_fits",
    "Jaxions.Energy.C65_avx512_single",
    "Jaxions.Energy.C65_avx512_double",
    "Jaxions.Energy.C65_avx512_double_wrong",
    "Jaxions.Energy.C65_avx_single",
    "Jaxions.Energy.C65_average_gradient",
    "Jaxions.Energy.C65_average_quartic",
    "Jaxions.Energy.C65_average_mass"
   ],
   "note": "For the builds without AVX-512 (single precision AVX only with AVX2) the totals and both maps are characterised exactly, and the documented densities are proved to be the averages. Not true of the code: the kernel divides the gradients by R^2 a second time (C65_gradient: right exactly at R = 1); the maps in double precision are written Ng-1 slices late and overrun the array from Ng = 3 on, in single precision from Ng = 4 on (C65_map_fits); the single precision AVX-512 build reads a variable that was never set (C65_avx512_single), the double precision one gives a constant field a gradient (C65_avx512_double_wrong), the single precision AVX build mixes the lanes (C65_avx_single). Arithmetic is exact."
  },
  {
   "property": "C66",
   "status": "partial",
   "theorems": [
    "Jaxions.MomConf.C66_modes",
    "Jaxions.MomConf.C66_modes_iff",
    "Jaxions.MomConf.C66_loop",
    "Jaxions.MomConf.C66_spectrum",
    "Jaxions.MomConf.C66_cut_box",
    "Jaxions.MomConf.C66_cut_beyond",
    "Jaxions.MomConf.C66_kcole",
    "Jaxions.MomConf.C66_table",
    "Jaxions.MomConf.C66_table_value",
    "Jaxions.MomConf.C66_zero_mode",
    "Jaxions.MomConf.C66_zero_mode_velocity",
    "Jaxions.MomConf.C66_zero_mode_random",
    "Jaxions.MomConf.C66_velocity",
    "Jaxions.MomConf.C66_velocity_stale",
    "Jaxions.MomConf.C66_string_reads",
    "Jaxions.MomConf.C66_string_mode",
    "Jaxions.MomConf.C66_string_factor",
    "Jaxions.MomConf.C66_string_wrap",
    "Jaxions.MomConf.C66_independent",
    "Jaxions.MomConf.C66_phase",
    "Jaxions.MomConf.C66_string_terms",
    "Jaxions.MomConf.C66_string_along"
   ],
   "note": "Proved in full: the loop, the spectrum, the zero mode of the saxion types, the bounds of the table (exact condition), the velocity of the axion waves. Not true of the code: modes are drawn up to sqrt(3) kmax, not kmax (C66_cut_beyond); modes are lost when the ranks do not divide the side (C66_modes_iff); MOM_KCOLE is never instantiated (C66_kcole); the zero mode of the Tkachev and thermal types goes to the velocity (C66_zero_mode_velocity); velocities beyond the ball are old memory (C66_velocity_stale); a string from points reads behind the list for all modes with px = 0 (C66_string_reads), drops orthogonal segments (C66_string_factor) and divides by an unsigned product (C66_string_wrap). The circular loop is not modelled. Arithmetic is exact."
  },
  {
   "property": "C67",
   "status": "partial",
   "theorems": [
    "Jaxions.RandConf.C67_points",
    "Jaxions.RandConf.C67_fixed",
    "Jaxions.RandConf.C67_heights",
    "Jaxions.RandConf.C67_ranks",
    "Jaxions.RandConf.C67_deep_grid",
    "Jaxions.RandConf.C67_mode0_sign",
    "Jaxions.RandConf.C67_noise_iff",
    "Jaxions.RandConf.C67_noise_angles",
    "Jaxions.RandConf.C67_saxion_noise_iff",
    "Jaxions.RandConf.C67_wave_iff",
    "Jaxions.RandConf.C67_minicluster",
    "Jaxions.RandConf.C67_minicluster0",
    "Jaxions.RandConf.C67_axiton",
    "Jaxions.RandConf.C67_axiton_double",
    "Jaxions.RandConf.C67_axiton_differs",
    "Jaxions.RandConf.C67_loop_share",
    "Jaxions.RandConf.C67_loop_continuous",
    "Jaxions.RandConf.C67_loop_height",
    "Jaxions.RandConf.C67_loop_xy",
    "Jaxions.RandConf.C67_loop_yz",
    "Jaxions.RandConf.C67_loop_quarter",
    "Jaxions.RandConf.C67_loop_default",
    "Jaxions.RandConf.C67_strwave",
    "Jaxions.RandConf.C67_strwave_zero",
    "Jaxions.RandConf.C67_strwave_depth",
    "Jaxions.RandConf.C67_vortices"
   ],
   "note": "Proved in full: the loop for every interleaving, independence of ranks on cubic grids, the profiles of the bumps, the loops (phase, continuity, sampling, exact condition for a division by zero). Not true of the code: only the sign of mode0 is used outside the loops (C67_mode0_sign; the help text holds exactly for mode0 = 0 and 1 below a full turn, C67_noise_iff, C67_noise_angles, C67_wave_iff); heights are wrong on several ranks unless depth equals width (C67_heights, C67_deep_grid); the axiton in double precision is a plane wave (C67_axiton_double, C67_axiton_differs); a loop of the documented radius N/4 divides by zero on the lattice (C67_loop_quarter); straight strings multiply old memory (C67_strwave_zero) and assume a cubic grid (C67_strwave_depth). The winding number of the loop is not stated as a number; the straight strings are a checkerboard of vortices and antivortices away from the strings (C67_vortices). Arithmetic is exact."
  },
  {
   "property": "C68",
   "status": "partial",
   "theorems": [
    "Jaxions.AnyString.C68_link_defined",
    "Jaxions.AnyString.C68_link",
    "Jaxions.AnyString.C68_far",
    "Jaxions.AnyString.C68_far_defined",
    "Jaxions.AnyString.C68_near",
    "Jaxions.AnyString.C68_far_reversed",
    "Jaxions.AnyString.C68_near_reversed",
    "Jaxions.AnyString.C68_near_asymmetric",
    "Jaxions.AnyString.C68_copy_above",
    "Jaxions.AnyString.C68_copy_below",
    "Jaxions.AnyString.C68_reads_beyond",
    "Jaxions.AnyString.C68_segments",
    "Jaxions.AnyString.C68_gradients",
    "Jaxions.AnyString.C68_deep_slab",
    "Jaxions.AnyString.C68_heights",
    "Jaxions.AnyString.C68_volume",
    "Jaxions.AnyString.C68_along_x",
    "Jaxions.AnyString.C68_along_y",
    "Jaxions.AnyString.C68_edge_one",
    "Jaxions.AnyString.C68_edge_many",
    "Jaxions.AnyString.C68_edge_phase",
    "Jaxions.AnyString.C68_edge_jump",
    "Jaxions.AnyString.C68_field",
    "Jaxions.AnyString.C68_one_rank"
   ],
   "note": "Proved in full: the closed formula is the integral along the link, with the exact condition for a division by zero (C68_link, C68_link_defined); the sum over the file and its copies (C68_segments); the gradients in memory and the sums along z, y and x for every order (C68_gradients, C68_volume); the whole program on one rank in a cleared array (C68_one_rank). Not true of the code: the lower copy wraps modulo 2^64 (C68_copy_below); the loop reads past the points if the last one is not marked (C68_reads_beyond); ranks do not add the phase of the ranks below (C68_edge_phase, C68_edge_jump); gradients share memory in slabs deeper than twice their width (C68_deep_slab); heights assume a cube (C68_heights); close to a segment the reversed string does not have the opposite field (C68_near_asymmetric). Distance between the sum of elements and the field of a straight segment is not bounded. Arithmetic is exact; reading of the text file is not modelled."
  },
  {
   "property": "C69",
   "status": "partial",
   "theorems": [
    "Jaxions.StartField.C69_pair_ops",
    "Jaxions.StartField.C69_smooth_start",
    "Jaxions.StartField.C69_smooth_mink",
    "Jaxions.StartField.C69_scale_velocity",
    "Jaxions.StartField.C69_copy_start",
    "Jaxions.StartField.C69_copy_power",
    "Jaxions.StartField.C69_copy_grav",
    "Jaxions.StartField.C69_prep_time",
    "Jaxions.StartField.C69_prep_round",
    "Jaxions.StartField.C69_prep_late",
    "Jaxions.StartField.C69_prep_gamma",
    "Jaxions.StartField.C69_prep_coupling",
    "Jaxions.StartField.C69_lola",
    "Jaxions.StartField.C69_jump",
    "Jaxions.StartField.C69_tkachev",
    "Jaxions.StartField.C69_anymean",
    "Jaxions.StartField.C69_merge",
    "Jaxions.StartField.C69_merge_serial",
    "Jaxions.StartField.C69_merge_race",
    "Jaxions.StartField.C69_density_positive",
    "Jaxions.StartField.C69_critical_inverse",
    "Jaxions.StartField.C69_critical_range",
    "Jaxions.StartField.C69_findct2",
    "Jaxions.StartField.C69_goal_positive"
   ],
   "note": "Proved in full: whole array operations in any order (C69_pair_ops); CONF_SMOOTH starts from the rate of the conformal field (C69_smooth_start, C69_smooth_mink); prepropagation ends exactly at the start time and puts back the coupling, which is continuous there (C69_prep_time, C69_prep_round, C69_prep_coupling); the estimate of LOLA is for the time of the jump (C69_lola); the mean of CONF_TKACHEV (C69_tkachev); CONF_SPAX on one thread (C69_merge, C69_merge_serial); the fits and the search (C69_critical_inverse, C69_findct2). Not true of the code, with the exact condition: a copied velocity is the rate only if the scale factor grows at rate one plus kick (C69_copy_start, C69_copy_power, C69_copy_grav); scaling the velocity leaves the memory with two or more ghost slices (C69_scale_velocity); the damping stays on (C69_prep_gamma); the jump back of VILGORK needs a relation between the rates (C69_jump); anymean is not the mean (C69_anymean); the parallel loop of CONF_SPAX is a race (C69_merge_race); no critical mode number at high density (C69_critical_range). Random numbers, transforms and the evolution itself are other properties or arbitrary here. Arithmetic is exact."
  },
  {
   "property": "C70",
   "status": "partial",
   "theorems": [
    "Jaxions.Gadget.C70_gradient",
    "Jaxions.Gadget.C70_gradient_smooth",
    "Jaxions.Gadget.C70_velocity",
    "Jaxions.Gadget.C70_density",
    "Jaxions.Gadget.C70_filter_number",
    "Jaxions.Gadget.C70_velocity_spacing",
    "Jaxions.Gadget.C70_gradient_outside",
    "Jaxions.Gadget.C70_corners_iff",
    "Jaxions.Gadget.C70_cic_linear",
    "Jaxions.Gadget.C70_cic_between",
    "Jaxions.Gadget.C70_mean",
    "Jaxions.Gadget.C70_mean_odd",
    "Jaxions.Gadget.C70_one_each_iff",
    "Jaxions.Gadget.C70_wide_grids",
    "Jaxions.Gadget.C70_total_mass",
    "Jaxions.Gadget.C70_total_mass_iff",
    "Jaxions.Gadget.C70_particles",
    "Jaxions.Gadget.C70_particles_lost",
    "Jaxions.Gadget.C70_no_particles",
    "Jaxions.Gadget.C70_places_iff",
    "Jaxions.Gadget.C70_place_inside",
    "Jaxions.Gadget.C70_place_iff",
    "Jaxions.Gadget.C70_buffers",
    "Jaxions.Gadget.C70_velocity_outside",
    "Jaxions.Gadget.C70_smoothed_lost",
    "Jaxions.Gadget.C70_filter_mode",
    "Jaxions.Gadget.C70_filter_half",
    "Jaxions.Gadget.C70_filter_wrong",
    "Jaxions.Gadget.C70_moved",
    "Jaxions.Gadget.C70_options"
   ],
   "note": "Proved in full: the gradient of the phase with periodic neighbours and ghosts (C70_gradient, C70_gradient_smooth); exactness and bounds of the interpolation (C70_cic_linear, C70_cic_between); the mean over all ranks (C70_mean); the masses add up to the mass of the box with one particle per point (C70_total_mass); particle k is point k on any number of ranks (C70_particles); unique places and numbers (C70_places_iff); coordinates in the box (C70_place_inside, C70_place_iff); buffers of positions and masses (C70_buffers). Not true of the code, with the exact condition: lattice spacing missing in the velocities (C70_velocity_spacing); wrong corner in the last column (C70_corners_iff); number of points taken in 32 bits (C70_one_each_iff, C70_wide_grids); several particles per point multiply the mass and may lose particles (C70_total_mass_iff, C70_particles_lost, C70_no_particles); velocities written outside v (C70_velocity_outside); smoothed velocity along x overwritten (C70_smoothed_lost); the filter runs over half of the numbers with the factors of other modes and part of the points (C70_filter_half, C70_filter_wrong, C70_moved); the option for displacements smooths instead (C70_options). HDF5, MPI and transforms are not modelled; cubic boxes in single precision; arithmetic is exact but for the 32 bit product."
  },
  {
   "property": "C71",
   "status": "partial",
   "theorems": [
    "Jaxions.Halo.C71_file_partial",
    "Jaxions.Halo.C71_exchanges_end",
    "Jaxions.Halo.C71_one_each",
    "Jaxions.Halo.C71_waits_iff",
    "Jaxions.Halo.C71_waits",
    "Jaxions.Halo.C71_one_rank",
    "Jaxions.Halo.C71_site_lost",
    "Jaxions.Halo.C71_message",
    "Jaxions.Halo.C71_buffers",
    "Jaxions.Halo.C71_buffer_overrun",
    "Jaxions.Halo.C71_beyond",
    "Jaxions.Halo.C71_first_count",
    "Jaxions.Halo.C71_balance_partial",
    "Jaxions.Halo.C71_balance_ends_iff",
    "Jaxions.Halo.C71_share_in_reach",
    "Jaxions.Halo.C71_surplus",
    "Jaxions.Halo.C71_targets",
    "Jaxions.Halo.C71_rank0_never_ends",
    "Jaxions.Halo.C71_cell_behind"
   ],
   "note": "Proved in full: first numbers are densities rounded down or up with the density as mean (C71_first_count); for draws among the points, the balancing loop keeps every number at the density rounded down or up, keeps the sum right, never moves away from the target and uses probabilities between 0 and 1 (C71_balance_partial), and can end exactly if the target is between the rounded sums (C71_balance_ends_iff), as the share of a rank always is (C71_share_in_reach); the shares are off by at most half the number of ranks (C71_surplus) and sum up after the readjustment exactly if rank 0 has enough (C71_targets); on any number of ranks a run that ends has every particle in the file once (C71_file_partial); the exchange stops after finitely many turns (C71_exchanges_end); messages and buffers (C71_message, C71_buffers); one rank writes the particles in order (C71_one_rank). Missing for the full statement, with witnesses: the ranks wait for ever exactly when the sender has enough particles left of its last point (C71_waits_iff, C71_waits); a point with more than two slices of particles loses some and overruns the buffer (C71_site_lost, C71_buffer_overrun); the balancing loop of rank 0 may have no end (C71_rank0_never_ends); the cell behind the last point is drawn (C71_cell_behind, C71_beyond). Random generators are any value of the support; HDF5 and the transport of messages are not modelled."
  },
  {
   "property": "C72",
   "status": "partial",
   "theorems": [
    "Jaxions.AxSpec.C72_velocity",
    "Jaxions.AxSpec.C72_gradient_x",
    "Jaxions.AxSpec.C72_gradient_yz",
    "Jaxions.AxSpec.C72_phase",
    "Jaxions.AxSpec.C72_central",
    "Jaxions.AxSpec.C72_forward",
    "Jaxions.AxSpec.C72_potential",
    "Jaxions.AxSpec.C72_potential_cosine",
    "Jaxions.AxSpec.C72_potential_linear",
    "Jaxions.AxSpec.C72_potential_vacuum",
    "Jaxions.AxSpec.C72_potential_mask",
    "Jaxions.AxSpec.C72_third",
    "Jaxions.AxSpec.C72_third_moved",
    "Jaxions.AxSpec.C72_mask_lost",
    "Jaxions.AxSpec.C72_old_gradient_x",
    "Jaxions.AxSpec.C72_old_gradient_yz",
    "Jaxions.AxSpec.C72_old_nothing",
    "Jaxions.AxSpec.C72_old_potential",
    "Jaxions.AxSpec.C72_old_saxion",
    "Jaxions.AxSpec.C72_stored",
    "Jaxions.AxSpec.C72_table_inside",
    "Jaxions.AxSpec.C72_table_outside",
    "Jaxions.AxSpec.C72_table_neighbours",
    "Jaxions.AxSpec.C72_table_nodes",
    "Jaxions.AxSpec.C72_table_jumps",
    "Jaxions.AxSpec.C72_table_odd",
    "Jaxions.AxSpec.C72_table_unit",
    "Jaxions.AxSpec.C72_table_mirror",
    "Jaxions.AxSpec.C72_table_conj",
    "Jaxions.AxSpec.C72_gradient",
    "Jaxions.AxSpec.C72_table_zero",
    "Jaxions.AxSpec.C72_forward_wave",
    "Jaxions.AxSpec.C72_central_wave",
    "Jaxions.AxSpec.C72_central_shortest",
    "Jaxions.AxSpec.C72_central_small",
    "Jaxions.AxSpec.C72_forward_small"
   ],
   "note": "Proved for any order of the sites: the arrays of the velocity and of the three gradients are rates of the phase times the mask wherever the tables are not used (C72_velocity, C72_gradient_x, C72_gradient_yz, C72_phase), the first array of the potential is twice the sine of half the phase (C72_potential, C72_potential_cosine), the older gradients (C72_old_gradient_x, C72_old_gradient_yz); the third gradient reaches the transform in place without a stored mask (C72_third); the tables are read inside their bounds because of the comparisons before the call (C72_table_inside), and with them the result is odd, free of units and mirror symmetric (C72_table_odd, C72_table_unit, C72_table_mirror); the lattice table makes the older gradient spectrum exact (C72_forward_wave); which data sets are filled (C72_stored). False in the code, with witnesses: linear potential with exchanged arguments (C72_potential_linear, C72_potential_vacuum), linear potential replaced by the mask (C72_potential_mask), third gradient out of place with a stored mask (C72_third_moved), mask lost after the gradients (C72_mask_lost), older arrays empty or one slice off (C72_old_nothing, C72_old_potential, C72_old_saxion), wrong neighbours in the tables (C72_table_neighbours, C72_table_jumps), lattice factors of the wrong difference (C72_central_wave, C72_central_shortest) and of the wrong side (C72_table_zero), data sets of zeros (C72_stored). Not modelled: the values in the tables, the masks themselves; abs is taken as the absolute value of a real number. The branch of the real axion field is C84."
  },
  {
   "property": "C73",
   "status": "partial",
   "theorems": [
    "Jaxions.Spectrum.C73_power_total",
    "Jaxions.Spectrum.C73_gradient_total",
    "Jaxions.Spectrum.C73_energy",
    "Jaxions.Spectrum.C73_no_empty",
    "Jaxions.Spectrum.C73_empty",
    "Jaxions.AxSpec.C73_saxion",
    "Jaxions.AxSpec.C73_saxion_second",
    "Jaxions.AxSpec.C73_size_rate",
    "Jaxions.AxSpec.C73_size_rate_moving",
    "Jaxions.AxSpec.C73_phase_rate_moving",
    "Jaxions.AxSpec.C73_saxion_stored",
    "Jaxions.AxSpec.C73_saxion_stored_axion",
    "Jaxions.AxSpec.C73_saxion_stored_second",
    "Jaxions.AxSpec.C73_saxion_never",
    "Jaxions.AxSpec.C73_energy_spread",
    "Jaxions.AxSpec.C73_energy_status",
    "Jaxions.AxSpec.C73_coupling_symm",
    "Jaxions.AxSpec.C73_matrix",
    "Jaxions.AxSpec.C73_gathered"
   ],
   "note": "Proved: Parseval's sum for every kind of spectrum, plain and with the gradient's factor (C73_power_total, C73_gradient_total, C73_energy); no empty bin with the default number of bins or fewer (C73_no_empty); the saxion's arrays for the five masks the run knows, for any order of the sites (C73_saxion, C73_saxion_second, C73_size_rate); data sets with those masks (C73_saxion_stored); the spreading of the energy in place and its status (C73_energy_spread, C73_energy_status); the matrix (C73_coupling_symm, C73_matrix, C73_gathered). False in the code, with witnesses or exact conditions: empty bins from twice the default on (C73_empty); about the moving centre of the shifted potential the rates leave out the motion of the centre (C73_size_rate_moving, C73_phase_rate_moving); with the other masks axion spectra are stored under saxion names (C73_saxion_stored_axion, C73_saxion_stored_second, C73_saxion_never). The totals take the transform as the exact discrete Fourier transform and are about the amplitudes it leaves; bins without correction by the lattice table."
  },
  {
   "property": "C74",
   "status": "partial",
   "theorems": [
    "Jaxions.Masker.C74_corner",
    "Jaxions.Masker.C74_premask",
    "Jaxions.Masker.C74_ball",
    "Jaxions.Masker.C74_ball_corners",
    "Jaxions.Masker.C74_ball_grows",
    "Jaxions.Masker.C74_begin",
    "Jaxions.Masker.C74_diffuse",
    "Jaxions.Masker.C74_diffuse_all",
    "Jaxions.Masker.C74_diffuse_overlap",
    "Jaxions.Masker.C74_diffuse_lost",
    "Jaxions.Masker.C74_finish",
    "Jaxions.Masker.C74_diff_shape",
    "Jaxions.Masker.C74_diff",
    "Jaxions.Masker.C74_final_range",
    "Jaxions.Masker.C74_final_mask",
    "Jaxions.Masker.C74_cut_pos",
    "Jaxions.Masker.C74_cut_zero",
    "Jaxions.Masker.C74_cut_anti",
    "Jaxions.Masker.C74_cut_fit",
    "Jaxions.Masker.C74_cut_step",
    "Jaxions.Masker.C74_axiton",
    "Jaxions.Masker.C74_axiton_kept",
    "Jaxions.Masker.C74_axiton_fresh",
    "Jaxions.Masker.C74_axiton_string"
   ],
   "note": "Proved: the marks on any number of ranks (C74_premask); the map balls are drawn around (C74_ball, C74_ball_corners); the diffused mask from the map to the stored array, on any number of ranks, with its exact reach (C74_diff, from C74_begin, C74_diffuse, C74_diffuse_all, C74_diff_shape, C74_finish); range and marks of the stored masks (C74_final_range, C74_final_mask); the cut (C74_cut_pos, C74_cut_anti, C74_cut_fit); axitons (C74_axiton, C74_axiton_kept, C74_axiton_fresh). False in the code: each mask of balls adds its corners to the string map, so that the next one is larger (C74_ball_grows); with fewer slices than two ghost regions the diffusion overwrites itself (C74_diffuse_overlap, C74_diffuse_lost); a calibration of zero gives no mask (C74_cut_zero); without calibration the cut steps up at radius 8 (C74_cut_step); without cumulative masks the first axiton mask takes sites of strings (C74_axiton_string). Not covered: the convolution of REDO and GAUS between the marks and the cut, the masks VIL, AXITV, the rounding of the numbers. Balls: C29."
  },
  {
   "property": "C75",
   "status": "partial",
   "theorems": [
    "Jaxions.StrLen.C75_inside",
    "Jaxions.StrLen.C75_linear",
    "Jaxions.StrLen.C75_zero_corner",
    "Jaxions.StrLen.C75_mean",
    "Jaxions.StrLen.C75_six",
    "Jaxions.StrLen.C75_cell_short",
    "Jaxions.StrLen.C75_six_case",
    "Jaxions.StrLen.C75_cell",
    "Jaxions.StrLen.C75_total",
    "Jaxions.StrLen.C75_at_most",
    "Jaxions.StrLen.C75_straight",
    "Jaxions.StrLen.C75_ranks",
    "Jaxions.StrLen.C75_map",
    "Jaxions.StrLen.C75_bound",
    "Jaxions.StrLen.C75_addresses",
    "Jaxions.StrLen.C75_plaquette",
    "Jaxions.StrLen.C75_speed",
    "Jaxions.StrLen.C75_speed_range",
    "Jaxions.StrLen.C75_speed_code",
    "Jaxions.StrLen.C75_speed_none",
    "Jaxions.StrLen.C75_rest",
    "Jaxions.StrLen.C75_plaqs",
    "Jaxions.StrLen.C75_physical",
    "Jaxions.StrLen.C75_moving",
    "Jaxions.StrLen.C75_hubble",
    "Jaxions.StrLen.C75_radiation",
    "Jaxions.StrLen.C75_speed_own",
    "Jaxions.StrLen.C75_speed_ghost"
   ],
   "note": "Proved: position on the plaquette and exactness for linear fields (C75_inside, C75_linear); mean over the ways to join for up to two strings in a cell (C75_mean); the length stored, exactly, on any number of ranks (C75_cell, C75_total), never above the length of the strings and equal to it if no string crosses from rank to rank and no cell has six pierced faces (C75_at_most), bound per cell (C75_bound), the map from C24 (C75_map), addresses (C75_addresses); averages of the speed and their range (C75_plaquette, C75_speed, C75_speed_range, C75_speed_code, C75_plaqs, C75_physical, C75_rest); near the middle of a moving string what is taken for the square of \u03b3 v is that but for fourth order (C75_moving). False in the code: cells on the last slice of a rank with a string through the upper face are left out, so that the length depends on the number of ranks (C75_straight, C75_ranks); with six points a third of each sum is left out (C75_six, C75_cell_short, C75_six_case); a component exactly zero at a corner moves the point (C75_zero_corner); without strings the averages are 0/0 (C75_speed_none); the velocities of the slice above are not fetched (C75_speed_ghost, C75_speed_own); HubbleConformal is zero for frw below 2 (C75_hubble, C75_radiation). Not covered: rounding, stringlength2 (stringenergy is in C76)."
  },
  {
   "property": "C76",
   "status": "partial",
   "theorems": [
    "Jaxions.StrEn.C76_parts",
    "Jaxions.StrEn.C76_stored",
    "Jaxions.StrEn.C76_any",
    "Jaxions.StrEn.C76_ranks",
    "Jaxions.StrEn.C76_cube",
    "Jaxions.StrEn.C76_unmasked",
    "Jaxions.StrEn.C76_negative",
    "Jaxions.StrEn.C76_number",
    "Jaxions.StrEn.C76_radiation"
   ],
   "note": "Proved: all seven numbers stored, exactly, for every field that is nowhere at the shifted origin, on any number of ranks (C76_stored, C76_any, C76_ranks); splitting of the kinetic energy and bounds of the parts (C76_parts); exactly when the axion energies are numbers (C76_number). False in the code: sums over all sites are divided by Lx\u00b3, right only for cubes (C76_cube); without strings the energy of strings is gradient less kinetic energy of the axion, and may be negative (C76_unmasked, C76_negative); a single site at the shifted origin, or a mask that covers all, leaves no number (C76_number); the rate HubbleConformal is zero in radiation (C76_radiation). Not covered: rounding, potentials other than PQ1, for which the code says it must be changed."
  },
  {
   "property": "C77",
   "status": "partial",
   "theorems": [
    "Jaxions.Spline.C77_called",
    "Jaxions.Spline.C77_through",
    "Jaxions.Spline.C77_lines",
    "Jaxions.Spline.C77_ends",
    "Jaxions.Spline.C77_unique",
    "Jaxions.Spline.C77_cubic",
    "Jaxions.Spline.C77_straight",
    "Jaxions.Spline.C77_overshoot",
    "Jaxions.Spline.C77_sum",
    "Jaxions.Spline.C77_slope",
    "Jaxions.Spline.C77_smooth",
    "Jaxions.Spline.C77_curvature",
    "Jaxions.Spline.C77_curvature_fails",
    "Jaxions.Spline.C77_default"
   ],
   "note": "Proved in exact arithmetic, over every ordered field where no derivative is involved and over the reals otherwise. False in the code: deriv(2,x) left of the first point returns 2*b0*h, right only if the second derivative at the first point is zero (C77_curvature, C77_curvature_fails; with the default ends it is, C77_default; the call is not used in the program). A positive table may give negative values in between (C77_overshoot). Not covered: rounding, deriv of order three."
  },
  {
   "property": "C78",
   "status": "partial",
   "theorems": [
    "Jaxions.CosTable.C78_rows",
    "Jaxions.CosTable.C78_last_row_lost",
    "Jaxions.CosTable.C78_junk",
    "Jaxions.CosTable.C78_numbers",
    "Jaxions.CosTable.C78_found",
    "Jaxions.CosTable.C78_never",
    "Jaxions.CosTable.C78_power_law",
    "Jaxions.CosTable.C78_turn",
    "Jaxions.CosTable.C78_acceleration",
    "Jaxions.CosTable.C78_start",
    "Jaxions.CosTable.C78_units",
    "Jaxions.CosTable.C78_units_lost",
    "Jaxions.CosTable.C78_succeeds",
    "Jaxions.CosTable.C78_time_one",
    "Jaxions.CosTable.C78_units_differ",
    "Jaxions.CosTable.C78_rate"
   ],
   "note": "Proved: rows read (C78_rows, C78_numbers), accuracy of the search when it ends (C78_found, C78_time_one), what every turn does (C78_turn), one turn on power laws (C78_power_law), the acceleration (C78_acceleration), exactly when the setup succeeds (C78_succeeds), the units and all four functions at every time, outside the table too, if both loop counters start at zero (C78_units). False in the code: the counters have no initial value; the first must be zero or an assertion stops the program (C78_start), the second leaves the table in its own units unless zero (C78_units_lost, C78_units_differ); the last row is lost without a final new line (C78_last_row_lost); a word that is no number makes the reading endless (C78_junk); the search need not end (C78_never); the rate of expansion is a difference, off by the cubic term (C78_rate). Not covered: rounding, text of numbers, the header lines, the name of the file."
  },
  {
   "property": "C79",
   "status": "partial",
   "theorems": [
    "Jaxions.StrFile.C79_kept",
    "Jaxions.StrFile.C79_cut",
    "Jaxions.StrFile.C79_file",
    "Jaxions.StrFile.C79_length",
    "Jaxions.StrFile.C79_overrun",
    "Jaxions.StrFile.C79_not_ready",
    "Jaxions.StrFile.C79_strings",
    "Jaxions.StrFile.C79_map_file",
    "Jaxions.StrFile.C79_map",
    "Jaxions.StrFile.C79_low_memory"
   ],
   "note": "Proved from the field to the file with one ghost slice (C79_strings, C79_map; the parts are C79_kept, C79_file, C79_length, C79_map_file, C79_not_ready and C24). False in the code: with more positions than fit the copy is cut without notice (C79_cut) and the writer reads behind the buffer, and from 2 GiB on the length of the message overflows (C79_overrun); with little memory the positions replace the map, from which length and map are taken afterwards (C79_low_memory); with more than one ghost slice the map is displaced (C24_displaced). Not covered: attributes, errors of the library, reduced maps of other sizes than the lattice, concurrency inside the library."
  },
  {
   "property": "C80",
   "status": "partial",
   "theorems": [
    "Jaxions.MeasRun.C80_names",
    "Jaxions.MeasRun.C80_once",
    "Jaxions.MeasRun.C80_ends",
    "Jaxions.MeasRun.C80_plain",
    "Jaxions.MeasRun.C80_saxion_W",
    "Jaxions.MeasRun.C80_saxion_map",
    "Jaxions.MeasRun.C80_saxion_numbers",
    "Jaxions.MeasRun.C80_saxion_energies",
    "Jaxions.MeasRun.C80_axion_W",
    "Jaxions.MeasRun.C80_axion_map",
    "Jaxions.MeasRun.C80_axion_numbers_partial",
    "Jaxions.MeasRun.C80_other_zero",
    "Jaxions.MeasRun.C80_not_every_radius",
    "Jaxions.MeasRun.C80_not_whole",
    "Jaxions.MeasRun.C80_not_string_energy",
    "Jaxions.MeasRun.C80_not_both",
    "Jaxions.MeasRun.C80_not_axitons",
    "Jaxions.MeasRun.C80_not_axit2",
    "Jaxions.MeasRun.C80_not_saxion"
   ],
   "note": "Names: exactly those of the table Asked (C80_names), each once (C80_once), and the exact condition under which the call comes to its end (C80_ends). Contents: C80_plain, C80_saxion_*, C80_axion_*, C80_other_zero. False in the code, with witnesses: radii that print alike lose the second (C80_not_every_radius); the map of strings, and masks made from it, have the resolution of the last reduced energy (C80_not_whole); energies of strings are lost if masks are asked without a map (C80_not_string_energy); two projections have one name and end the program (C80_not_both); after smoothed maps masks of axitons are not made (C80_not_axitons); spectra with the second mask of axitons use the last radius (C80_not_axit2); saxion spectra under the Gaussian and diffusion masks are axion spectra (C80_not_saxion). Arrays are followed by what they hold, not by numbers. Missing in C80_axion_numbers_partial: spectra when the energy is not at hand, and under the second mask of axitons. Not modelled: low memory, GPU, cumulative masks, header attributes, Nyx output."
  },
  {
   "property": "C81",
   "status": "partial",
   "theorems": [
    "Jaxions.Groups.C81_groups",
    "Jaxions.Groups.C81_reach",
    "Jaxions.Groups.C81_numbers",
    "Jaxions.Groups.C81_alone",
    "Jaxions.Groups.C81_labels",
    "Jaxions.Groups.C81_not_threads",
    "Jaxions.Groups.C81_not_labels",
    "Jaxions.Groups.C81_not_around",
    "Jaxions.Groups.C81_not_folded",
    "Jaxions.Groups.C81_not_again"
   ],
   "note": "True with one thread, an unfolded field and a new tracker (C81_groups), and in general each group is the set reached from its first point through points of positive label outside earlier groups, the loop ends and no access leaves the slab (C81_reach). False in the code, with witnesses: the private copies of a reduction variable begin at 0, so the first point found by each thread has label 0 (C81_numbers), is never joined to a neighbour (C81_alone) and can cut a group (C81_not_threads); the first point of a group keeps its search label, so labels do not tell groups apart (C81_labels, C81_not_labels); groups stop at the z faces of the slab (C81_not_around); folded fields are listed twice because the tag is read at the wrong index (C81_not_folded); lists are not emptied between searches (C81_not_again). The loop over candidates is taken in list order; its data races with several threads are not modelled. Not modelled: exchange of the last slices and the file written at the end."
  },
  {
   "property": "C82",
   "status": "partial",
   "theorems": [
    "Jaxions.SpecLap.C82_axion",
    "Jaxions.SpecLap.C82_saxion",
    "Jaxions.SpecLap.C82_force",
    "Jaxions.SpecLap.C82_laplacian",
    "Jaxions.SpecLap.C82_laplacian_real",
    "Jaxions.SpecLap.C82_box",
    "Jaxions.SpecLap.C82_interpolates",
    "Jaxions.SpecLap.C82_cube",
    "Jaxions.SpecLap.C82_not_box",
    "Jaxions.SpecLap.C82_two",
    "Jaxions.SpecLap.C82_variant",
    "Jaxions.SpecLap.C82_not_force",
    "Jaxions.SpecLap.C82_unset",
    "Jaxions.SpecLap.C82_still"
   ],
   "note": "Any number of stages is the corresponding product of kicks and drifts of the lattice fields (C82_axion, C82_saxion), the Laplacian is exact in a cube (C82_laplacian, C82_laplacian_real, C82_cube) and every lattice field is a sample of a resolved one (C82_interpolates), the force is right for V_PQ1 and V_PQ2 without QCD potential or with V_QCD1 (C82_force). False in the code: with another depth than width the derivative along z is off by the square of their ratio (C82_box, C82_not_box); V_QCD2 has the wrong sign (C82_two), V_QCDV a factor R too much (C82_variant, C82_not_force); V_PQ3 uses an unset variable (C82_unset); the axion kernel has no expansion term (C82_still) and ignores the choice of potential. Assumed: the FFT library computes its transforms. Not modelled: V_QCDC, damping, V_EVOL_RHO, GPU, more than one ghost slice (C46 shows that the kernels then read shifted data)."
  },
  {
   "property": "C83",
   "status": "partial",
   "theorems": [
    "Jaxions.FullSpec.C83_axion",
    "Jaxions.FullSpec.C83_unique",
    "Jaxions.FullSpec.C83_free",
    "Jaxions.FullSpec.C83_ripple",
    "Jaxions.FullSpec.C83_double",
    "Jaxions.FullSpec.C83_not_kept",
    "Jaxions.FullSpec.C83_saxion",
    "Jaxions.FullSpec.C83_unique_saxion",
    "Jaxions.FullSpec.C83_force",
    "Jaxions.FullSpec.C83_not_pq2",
    "Jaxions.FullSpec.C83_unset",
    "Jaxions.FullSpec.C83_not_narrow",
    "Jaxions.FullSpec.C83_mass",
    "Jaxions.FullSpec.C83_saxion_mass",
    "Jaxions.FullSpec.C83_not_mass"
   ],
   "note": "Any number of stages is the product of kicks and exact waves (C83_axion, C83_saxion with the uniform force of the axion potential from the integrals of the mass), which determine the result (C83_unique, C83_unique_saxion); free fields are exact for any division of the time (C83_free) and plane waves have the right frequency (C83_ripple). While the axion mass grows the integrals that the code computes are those of the force of the axion potential at each time (C83_mass, C83_saxion_mass); over the saturation of the mass they are not (C83_not_mass, from C62). The kick of V_PQ1 is the force of its potential (C83_force). False in the code: in double precision the axion kernel is empty and nothing happens (C83_double); the plans from modes to rows do not ask the library to keep the modes and if it does not the field is lost (C83_not_kept); V_QCD1_PQ2 lacks a factor of the squared modulus (C83_not_pq2); V_QCDV_PQ1 uses an unset variable (C83_unset); with half a line not a multiple of the vector some wave numbers are wrong (C83_not_narrow). Assumed: the FFT library computes its transforms; the saxion has one ghost slice. Not modelled: floating point, the double precision saxion (its force uses an unset variable)."
  },
  {
   "property": "C84",
   "status": "partial",
   "theorems": [
    "Jaxions.FieldSpec.C84_bins",
    "Jaxions.FieldSpec.C84_totals",
    "Jaxions.FieldSpec.C84_cosine_le",
    "Jaxions.FieldSpec.C84_not_same_sites",
    "Jaxions.FieldSpec.C84_missing_mask",
    "Jaxions.FieldSpec.C84_axit_velocity",
    "Jaxions.FieldSpec.C84_axit_overwritten",
    "Jaxions.FieldSpec.C84_axit_not_weight"
   ],
   "note": "C84_bins gives every bin and C84_totals the sums, for all masks but SPMASK_AXIT; C84_cosine_le orders the two potentials. False in the code: masks other than flat and SPMASK_AXIT2 cut the marked sites out of K, G and V but not out of the whole potential (C84_not_same_sites); without the mask of axitons SPMASK_AXIT2 leaves the spectra of the run before (C84_missing_mask); with SPMASK_AXIT the kinetic spectrum is made of the field instead of the velocity (C84_axit_velocity) and the weights are overwritten while they are read (C84_axit_overwritten, C84_axit_not_weight). The transform library is taken to be exact. The masks themselves are C29 and C74. The saxion branch of nRun is C72; nRun has no branch for a Paxion field."
  },
  {
   "property": "C85",
   "status": "partial",
   "theorems": [
    "Jaxions.SmoothF.C85_smooth",
    "Jaxions.SmoothF.C85_calls",
    "Jaxions.SmoothF.C85_unpad",
    "Jaxions.SmoothF.C85_nothing",
    "Jaxions.SmoothF.C85_deep",
    "Jaxions.SmoothF.C85_transform",
    "Jaxions.SmoothF.C85_mean",
    "Jaxions.SmoothF.C85_zero",
    "Jaxions.SmoothF.C85_uniform",
    "Jaxions.SmoothF.C85_squares",
    "Jaxions.SmoothF.C85_variance",
    "Jaxions.SmoothF.C85_commute",
    "Jaxions.SmoothF.C85_gauss",
    "Jaxions.SmoothF.C85_sharp",
    "Jaxions.SmoothF.C85_average",
    "Jaxions.SmoothF.C85_weights",
    "Jaxions.SmoothF.C85_not_positive"
   ],
   "note": "C85_smooth and C85_calls are the call and any sequence of calls; C85_unpad is what the measurement does in between. C85_gauss and C85_sharp give the result of two filters in a row. Limits of the code: when Lz > Ng*Ly the copy to m2half overwrites modes that are still needed (C85_deep); the top hat and the sharp cut can make a positive map negative, and the measurement takes the logarithm of the result (C85_not_positive, for a wall and a length of one lattice spacing). The transform library is taken to be exact; single precision is not modelled."
  },
  {
   "property": "C86",
   "status": "partial",
   "theorems": [
    "Jaxions.MeasLog.C86_list",
    "Jaxions.MeasLog.C86_increasing",
    "Jaxions.MeasLog.C86_steps",
    "Jaxions.MeasLog.C86_headless",
    "Jaxions.MeasLog.C86_read",
    "Jaxions.MeasLog.C86_undefined",
    "Jaxions.MeasLog.C86_no_dump",
    "Jaxions.MeasLog.C86_per_decade",
    "Jaxions.MeasLog.C86_kept"
   ],
   "note": "C86_list and C86_steps give the number of lines and each time; C86_read is the round trip through the reader of C44. Limits of the code: when the start is not before the end, a variable that was never set is compared and maybe an entry is written (C86_undefined, an exact condition); the program announces dump measurements per interval of the decimal logarithm, the steps are in the natural one, so that there are more than twice as many (C86_per_decade). The arithmetic is exact; printing with %f and reading are a parameter that keeps the order, so that times closer than the digits are merged. That all ranks of a parallel run write the same file is not modelled."
  },
  {
   "property": "C87",
   "status": "partial",
   "theorems": [
    "Jaxions.SaxRun.C87_run",
    "Jaxions.SaxRun.C87_same",
    "Jaxions.SaxRun.C87_phase",
    "Jaxions.SaxRun.C87_conjugate",
    "Jaxions.SaxRun.C87_charge",
    "Jaxions.SaxRun.C87_conserved"
   ],
   "note": "C87_run composes the arithmetic on registers (C42, C49), the addressing (C04), the exchange of ghosts (C09) and the run on ranks (C59). Arithmetic is exact. Covered are V_PQ1, V_PQ2, V_PQ3, no QCD potential, V_QCD1, V_QCD2 in single precision, no damping and damping of the whole field. Left out: V_QCD2 in double precision and V_QCDV, whose forces are wrong by C49, V_QCDC, which is singular at a zero of the field, damping of the radial part and the two projections, which are wrong in some lanes by C42."
  },
  {
   "property": "C88",
   "status": "proved",
   "theorems": [
    "Jaxions.AxionRun.C88_minus",
    "Jaxions.AxionRun.C88_momentum",
    "Jaxions.AxionRun.C88_superpose",
    "Jaxions.AxionRun.C88_wave",
    "Jaxions.AxionRun.C88_mean"
   ],
   "note": "Runs as in C59, kernel as in C58. Arithmetic is exact; the sine is any odd function. mod_pd adds the candidates of least square, so that it is an odd function also at half a turn, where it gives 0; this is why the sum is kept with wrapping."
  },
  {
   "property": "C89",
   "status": "partial",
   "theorems": [
    "Jaxions.RunSym.C89_run",
    "Jaxions.RunSym.C89_axion",
    "Jaxions.RunSym.C89_saxion"
   ],
   "note": "C89_run holds for kernels whose neighbour sum has the symmetries of the cube; C89_axion covers every option of the axion kernel of C58 and C89_saxion the options of the saxion kernel covered by C87, and this is why the status is partial. Arithmetic is exact: in floating point the order of the sum over neighbours differs between axes."
  },
  {
   "property": "C90",
   "status": "partial",
   "theorems": [
    "Jaxions.Relax.C90_relax",
    "Jaxions.Relax.C90_never",
    "Jaxions.Relax.C90_clock",
    "Jaxions.Relax.C90_study",
    "Jaxions.Relax.C90_prep",
    "Jaxions.Relax.C90_prep_ends",
    "Jaxions.Relax.C90_prep_study"
   ],
   "note": "C90_relax and C90_prep are exact conditions for the number of steps, under Counts. Not true of the code: with --icstudy and a measurement type of nothing, or of whole configurations only, Measureme returns zero plaquettes and both loops stop after one step (C90_study, C90_prep_study, with an example). The number that is tested belongs to the field before the last step. The evolution, the step and the count are arbitrary functions (C11, C14, C22, C87). Read in the source and not modelled: relaxrho logs pregammo but the damping used is Gamma(), so that --pregam only chooses the loop. Arithmetic is exact."
  },
  {
   "property": "C91",
   "status": "partial",
   "theorems": [
    "Jaxions.Reach.C91_run",
    "Jaxions.Reach.C91_axion",
    "Jaxions.Reach.C91_saxion",
    "Jaxions.Reach.C91_sharp"
   ],
   "note": "C91_axion covers every option of the axion kernel of C58, C91_saxion the options of the saxion kernel covered by C87, and this is why the status is partial. C91_sharp is for the axion kernel without potential. The damping modes of the saxion kernel are local as well. Kernels in Fourier space are excluded; there everything depends on everything."
  },
  {
   "property": "C92",
   "status": "partial",
   "theorems": [
    "Jaxions.Stable.C92_energy",
    "Jaxions.Stable.C92_bounded",
    "Jaxions.Stable.C92_too_long",
    "Jaxions.Stable.C92_kernel"
   ],
   "note": "Exact arithmetic. Proved for the axion propagator tRunCpu with the tables leap and mleap. Missing: the Omelyan and RKN4 tables, the nonlinear potentials, expansion and a mass that changes (steps of different sizes), factors between 3 and 4 (6 and 8), where stability depends on the stencil."
  },
  {
   "property": "C93",
   "status": "partial",
   "theorems": [
    "Jaxions.DensMap.C93_skip",
    "Jaxions.DensMap.C93_again",
    "Jaxions.DensMap.C93_file",
    "Jaxions.DensMap.C93_beyond",
    "Jaxions.DensMap.C93_axion",
    "Jaxions.DensMap.C93_saxion",
    "Jaxions.DensMap.C93_reduced",
    "Jaxions.DensMap.C93_reduced_radial_wrong"
   ],
   "note": "Exact arithmetic; HDF5 modelled by its effect on the selected elements. Violated for the radial map of a reduced lattice: the reduction leaves that part of the array as it is and the file gets the first sites of the full map (C93_reduced_radial_wrong). Missing: double precision complex field (its energy kernel is in C52), attributes, failures of the HDF5 library."
  },
  {
   "property": "C94",
   "status": "partial",
   "theorems": [
    "Jaxions.Contrast.C94_max",
    "Jaxions.Contrast.C94_min",
    "Jaxions.Contrast.C94_map",
    "Jaxions.Contrast.C94_flat",
    "Jaxions.Contrast.C94_radial",
    "Jaxions.Contrast.C94_write",
    "Jaxions.Contrast.C94_file"
   ],
   "note": "Exact arithmetic. Violated by a map without contrast: if all numbers are equal and above 1/1000 the conversion to int is undefined (C94_flat). Violated by the radial map with more than one ghost slice: it is looked for at the wrong place (C94_radial). Missing: numbers that are not finite, ranks without cells (they would not take part in the MPI call)."
  },
  {
   "property": "C95",
   "status": "partial",
   "theorems": [
    "Jaxions.RunSym.C95_axion",
    "Jaxions.RunSym.C95_saxion",
    "Jaxions.RunSym.C95_axion_uniform",
    "Jaxions.RunSym.C95_saxion_uniform"
   ],
   "note": "Exact arithmetic. The saxion theorems are for the options of C87. Missing: Paxion, Naxion, spectral propagators; rounding breaks symmetries other than shifts, as the order of the sum differs."
  },
  {
   "property": "C96",
   "status": "partial",
   "theorems": [
    "Jaxions.StringLut.C96_site",
    "Jaxions.StringLut.C96_corner",
    "Jaxions.StringLut.C96_corner_outside",
    "Jaxions.StringLut.C96_grid",
    "Jaxions.StringLut.C96_stairs",
    "Jaxions.StringLut.C96_stairs_wrong",
    "Jaxions.StringLut.C96_symmetric"
   ],
   "note": "Exact arithmetic; abs is the absolute value. Violated by the interpolation along the first two variables: entries 26 and 6 behind the first are used as neighbours, those at 3276 and 126 would be right (C96_stairs, C96_stairs_wrong); right where the first two variables are on the grid (C96_grid). The symmetries are for fields with both parts different from zero. Missing: the contents of the tables, rounding (cb slightly above 1)."
  },
  {
   "property": "C97",
   "status": "partial",
   "theorems": [
    "Jaxions.TuneHybrid.C97_sound",
    "Jaxions.TuneHybrid.C97_fastest",
    "Jaxions.TuneHybrid.C97_ranks",
    "Jaxions.TuneHybrid.C97_ranks_wrong",
    "Jaxions.TuneHybrid.C97_again_wrong"
   ],
   "note": "Violated on several ranks: every rank decides by its own clock, and clocks that differ by arbitrarily little lead to different lattices (C97_ranks_wrong); right if the clocks show the same (C97_ranks). Violated by a second tuning: the full calculation is not measured again and may be chosen although it is the slowest (C97_again_wrong). Missing: failing plans, the calculation itself (C60)."
  },
  {
   "property": "C98",
   "status": "partial",
   "theorems": [
    "Jaxions.SpecFilter.C98_pick",
    "Jaxions.SpecFilter.C98_ranks",
    "Jaxions.SpecFilter.C98_mode",
    "Jaxions.SpecFilter.C98_gauss"
   ],
   "note": "Exact arithmetic. Violated on lattices that are not cubic: the wave numbers along z are those of a cubic one, so C98_gauss holds for Tz = N (or modes constant along z) only. Violated over ranks if the reduction does not divide the slices of a rank (C98_ranks is an equivalence). The width is half the number of spacings given; the comment in the code says the whole. A reduction of zero divides by zero. Missing: the transforms (C31, C82)."
  },
  {
   "property": "C99",
   "status": "partial",
   "theorems": [
    "Jaxions.MaskMatrix.C99_gather",
    "Jaxions.MaskMatrix.C99_rows",
    "Jaxions.MaskMatrix.C99_symmetric",
    "Jaxions.MaskMatrix.C99_unmasked",
    "Jaxions.MaskMatrix.C99_positive"
   ],
   "note": "Exact arithmetic. Missing: the size of the buffer m2 on rank 0 and of the byte count (an int in the MPI call) are not checked by the code; derivation of the coupling from the convolution; wRun."
  },
  {
   "property": "C100",
   "status": "partial",
   "theorems": [
    "Jaxions.Moore.C100_convert",
    "Jaxions.Moore.C100_phase",
    "Jaxions.Moore.C100_turns",
    "Jaxions.Moore.C100_velocity"
   ],
   "note": "Exact arithmetic. Which velocity is in files of this format is not said in the code; C100_velocity says what follows if it is the derivative of the angle. Missing: rounding at the ends of the range, mendTheta behind it (C25)."
  }
 ]
}