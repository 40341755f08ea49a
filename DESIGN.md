# Formal model of jaxions: design

Source under study: `/repo` (veintemillas/jaxions, C++), read as text only; it is neither built nor run.
Proof assistant: Lean 4.33.0 with single Mathlib modules.  Project: `/verif/lean`.

## Layout

* `Verif/Basic/*`  checked memory (`Heap`), loops, list and arithmetic lemmas.
* `Verif/Model/*`  definitions that follow the C++ text; every definition cites file and lines.
* `Verif/Spec/*`   small, model independent specifications (what a user would write down).
* `Verif/Lemmas/*` helper lemmas.
* `Verif/Props/*`  the property theorems, each with a concrete example next to it.
* `AXIOMS.txt`     the axioms of each theorem of the manifest, as printed by `#print axioms`.
* `seeded/LOG.jsonl` wrong programs the theorems were tried against.

## Trusted base

1. Lean's kernel, and at most the three standard axioms `propext`, `Classical.choice`, `Quot.sound`
   (per theorem in `AXIOMS.txt`).  No axiom is added, no `sorry`, `native_decide`, `bv_decide`.
2. The reading of the C++ text. Nothing is extracted; citations allow re-reading.
3. Modelling conventions, applied everywhere unless a definition says otherwise:
   * `size_t`/`int` are unbounded `Nat`/`Int`, except where the property is about a width
     (message chunks, `unsigned short` positions, string buffers, truncation to `size_t`).
   * Memory is `Heap A α := A → Option α`; `none` is an address outside every allocation. A read or
     write there makes the whole run `none`: undefined behaviour is a distinct outcome, never a
     default value.  Uninitialised variables are `none` too.
   * Floating point numbers are exact: elements of a field, `ℚ` or `ℝ`. Rounding, NaN and
     infinities are not modelled; theorems about reals say nothing about rounding errors.
   * An OpenMP `parallel for` runs its iterations in an arbitrary order (a permutation the theorem
     quantifies over); where iterations touch the same cell and races matter (C29, C24) the order is
     that of the single accesses.
   * MPI is modelled at message level (matching by source, destination, tag, FIFO) for the ghost
     exchange, the logger and the stop decision; the collective calls are their contract.
   * HDF5, FFTW, the file system, the clock are parameters with the stated contract.
   * GPU code paths are not modelled.
   * Vector instructions are modelled lane by lane after the Intel intrinsics guide
     (`Model/Simd`, `Model/SaxKernel`, `Model/EnergySax`).

## What is modelled, and how the property is proved

The column "modelled" names the Lean module under `Verif/Model`; its head comment and each
definition cite files and lines.

| id | modelled | code | how proved |
|----|----------|------|-----------|
| C01 | Folder, Field | lib/scalar/folder.cpp `foldField`, `unfoldField` on the real buffer with ghost scratch | loop = scatter along an injective map; round trip by inverse maps; history by induction |
| C02 | Folder | `unfoldField2D`, `unfoldField2DYZ` with guards | content of the ghost area equals the slice of the abstract lattice; guard defects as witnesses |
| C03 | Index | include/utils/index.h | division arithmetic |
| C04 | Simd, Stencil | propXeon.h, propThetaXeon.h neighbour addresses, rotations, Laplacian | refinement to the periodic neighbour sum on the abstract lattice |
| C05 | Tiles | tile loops with both guards | list of visited sites is a permutation of the range |
| C06 | Passes | kernel calls of one substep | multiset of updated slices; exact condition on depth and ghost width |
| C07, C08, C09 | Comms | `sendGeneral`, `sendGhosts`, `exchangeGhosts` | arithmetic of pieces; matching is a bijection; ghosts equal the neighbours' slices |
| C10 | Cluster | `sRunCpu`, `tRunCpu` on all ranks with asynchronous messages | refinement to the global periodic lattice, invariant over all interleavings |
| C11, C12, C45 | Integrator, Step | coefficient tables of propagator.cpp, stage loops of propClass.h | sums over stages; algebra of kicks and drifts over an arbitrary force law |
| C13 | Weights | `setCO`, option `--lap` | polynomial identity by monomials |
| C14, C19 | Cosmos | cosmos.cpp, `dzSize` | inequalities over the reals; piecewise law, continuity, monotonicity |
| C15 | FieldType | `setField` | state machine, exact condition of each conversion, induction over sequences |
| C16 | MemAlloc, Lifetime | memAlloc.cpp, constructor and destructor of `Scalar` | invariant by induction over calls |
| C17, C18 | Tunable, Tuner | tunable.h, `tunePropagator` | lexicographic measure, divisibility invariant, minimum over the visited list |
| C20 | Binner | binner.h | exact arithmetic, exchange of sums over threads and ranks |
| C21 | Peaks | `axitonfinder` | refinement to sort-and-take |
| C22, C23 | Winding | stringCpu.cpp, stringXeon.cpp tests of one plaquette | sign algebra; antisymmetry of the edges; sum over cubes and boxes |
| C24 | StringMap | `stringKernelXeon`, `stringCpu`, `strings2` | bijection between flags and positions, any order |
| C25 | Mend | mendTheta.cpp, mendThetaXeon.cpp | invariant over lines, ranks and schedules |
| C26 | Spectrum | `fillBins` | bounds by the integer square root; counting; sum exchange |
| C27 | Pad | `pad`, `unpad`, `pRun` | aliasing order invariant; defect witness |
| C28 | Reduce | `transformField` interpolation, `runCpu`, `filter` cherrypicking | in place = out of place by index monotonicity; convex weights |
| C29 | MaskBall | `maskball` | set equality; race witness |
| C30 | Smooth | smoothXeon.cpp | sums over the torus, convexity |
| C31 | Plans | fftCode.cpp | invariant over histories of calls |
| C32 | Log | logger.h | state machine of slots; duplicate and loss witnesses |
| C33 | PropChoice | options, `initPropagator`, `propagate`, prop-def-mac.h | decision logic over all option lists |
| C34 | Derived | parse.cpp parameters, `createCosmos`, `Msa` | invariant of the option loop; real powers and logarithms |
| C35 | Projector | projector.cpp, `writePMapHdf5` | sum over ranks, content of the file |
| C36, C41, C47 | Header | header texts and attributes of `writeConf`/`readConf` | option sequences by invariant; finite tables lifted by a lemma |
| C37 | ConfIO | slab loops of `writeConf`/`readConf` | index arithmetic for two rank counts |
| C38 | Save | `writeConf` as a list of effects | crash prefix semantics, history by induction |
| C39 | CheckTime | `checkTime` of vaxions.cpp | invariant over all interleavings of ranks and outside events |
| C40 | TimeLoop | time loop of vaxions.cpp with a list of times | induction over steps |
| C42, C49, C50 | SaxKernel | arithmetic of `propagateKernelXeon` lane by lane | algebraic identities; derivatives of the potentials |
| C43 | Tracker | trackerClass.h | invariant over histories |
| C44 | MeasList | `readmeasfile` | list induction, exact characterisation of the merge |
| C46 | Spectral | `sSpecCpu`, `tSpecCpu` and kernels | content of the arrays after any number of stages |
| C48 | Fourier | fourier.cpp, scaleXeon.cpp | round trip through memory on all ranks |
| C51 | EnergyTheta, EnergyLoop | energyThetaXeon.cpp | refinement to the sum of densities |
| C52 | EnergySax, EnergyLoop | energyXeon.cpp, `energyCpu` | refinement lane by lane, any order of sites |
| C53 | EnergyCall | energy.cpp, `writeEnergy` | sum over ranks = sum over the lattice; names of the file |
| C54 | ToTheta | thetaXeon.cpp, `cmplxToTheta`, `ctheta2csaxion`, theta2CmplxXeon.cpp | memory invariant slice by slice, any order; derivatives of polar paths |
| C55 | Shift | `SaxionShift`, `Saskia`, `rsvPQ2` | triple angle formulas; polynomial bounds by partial sums of coefficients |
| C56 | Norm | normXeon.cpp, normCoreXeon.cpp | loop invariant, any order |
| C57 | Expand | `expandField` | memory invariant over all ranks; any permutation of the writes |
| C58 | ThetaKernel | propThetaXeon.h | refinement of the substep to the lattice (`substep_rule` of C04), derivatives over the reals |
| C59 | Run | propClass.h, scalarField.cpp | induction on the substeps; refinement of ranks, ghosts and vectors to one lattice |
| C60 | Gravity, GravityHybrid | potentialClass.h, gravityPaxionXeon.h | discrete Fourier inversion over ZMod; in-place sweeps; fixed points of the relaxation |
| C61 | WKB, WKBField | lib/WKB/WKB.cpp | hypergeometric series solved by its differential equation; integrals of the frequency; real matrix of a step; loop invariants over the arrays of all ranks |
| C62 | MassRate | lib/cosmos/cosmos.cpp, scalarField.cpp | derivatives of powers through eventual equality near a time; integrals split at the threshold; exact error terms |
| C63 | Paxion, PaxionLaw, PaxionStages | include/propagator/propPaxXeon.h, propClass.h | simulation of the in-place calls by the sweeps of C59; uniqueness of the solution at a site through constant quantities; closed integrals of powers; summation by parts on the periodic lattice |
| C64 | Nonrel, NonrelLaw | lib/scalar/theta2PaxionXeon.cpp, theta2NaxionXeon.cpp, include/propagator/propNaxXeon.h | loop invariants over any thread order; averages over the phase by Fourier modes; summation by parts; induction over stages; C59 for the ranks |
| C65 | EnergyPax | lib/energy/energyPaxionXeon.cpp | permutation of sites and lanes as in C51; disjoint writes of two maps; averages over the phase by Fourier modes |
| C66 | MomConf, MomString | lib/gen/momConf.cpp | bijection of cells and modes; invariant over any interleaving of threads with a count of the numbers drawn; derivative of sin(kz)/(kz) |
| C67 | RandConf, RandWave | lib/gen/randXeon.cpp | invariant over any interleaving of threads with a count of the numbers drawn; Gram determinant for the angle under which a diameter is seen; continuity across the disc by squeezing |
| C68 | AnyString | lib/gen/anystringXeon.cpp; lib/gen/genConf.cpp:1466-1560 | antiderivative of the kernel and the fundamental theorem; prefix sums by induction; invariants over any order of cells and slices; induction over the turns of the ranks |
| C69 | StartField | lib/gen/genConf.cpp; lib/gen/prepropa.cpp; lib/scalar/scaleXeon.cpp | invariants over any order of sites; derivative of a product; induction over the steps; comparison of logarithm and power |
| C70 | GadgetVoid | lib/gadget/gadget_output.cpp; test/gadgetme.cpp | argument of a product of complex numbers; induction over the points taken by a slab and over the slabs; sums over ranks |
| C71 | GadgetHalo, GadgetBalance | lib/gadget/gadget_output.cpp: createGadget_Halo | particles still to be placed as a list from which slabs and messages take the head; invariant of the exchange relating excess, missing and that list; decreasing measure; rounding of sums |
| C72 | AxionTable, AxionSpectrum, AxionPotential, AxionStored, AxionSymbols | lib/utils/kgvops.cpp, lib/spectrum/spectrum.cpp: nRun, lib/meas/measa.cpp: 645-729 | one lemma for a sweep over the sites in any order, writing to one or two cells each; memory of two halves; discrete Fourier transform of differences |
| C73 | SpectrumTotal, SaxionSpectrum | lib/spectrum/spectrum.cpp: fillBins, pRun, nSRun, matrixbuilder, lib/meas/measa.cpp: 735-762 | Parseval over the torus, one shell per mode; a walk through the shells in steps shorter than a bin; sweeps and memory moves of C72; derivative of the modulus |
| C74 | Masker, MaskerDiffuse, MaskerDiff, MaskerShape, MaskerFinal | lib/spectrum/spectrum.cpp: masker, include/utils/index.h | sweeps over sites in any order; slices of numbers inside complex slices by division with remainder; taxicab distance on the torus and induction over the iterations; maximum principle |
| C75 | StringCross, StringLength, StringLengthMore, StringSpeed | lib/strings/length.cpp: setCross, stringlength; lib/scalar/scalarField.cpp: HubbleConformal | signs at the corners and convexity; even number of pierced faces (C23); sums over cells and ranks; weighted averages |
| C76 | StringEnergy, StringEnergyMore | lib/strings/length.cpp: stringenergy | polar form of field and rate at each site; fold over cells and ranks as sums over the box; reverse triangle inequality |
| C77 | Spline | include/WKB/spline.h | banded elimination of a diagonally dominant tridiagonal system by induction; maximum argument for uniqueness; left and right derivatives glued at the points |
| C78 | CosTable | lib/cosmos/cosmos.cpp: Setup | induction over the words of the file and over the turns of the search; scaling of splines from their uniqueness |
| C79 | StringFile | lib/io/readWrite.pHdf5.cpp: writeStringCo, writeString | invariants of the byte copies; composed with C24 |
| C80 | MeasRun | lib/meas/measa.cpp: Measureme | the calls as a list that depends on the request; invariants of what the arrays hold; exact set of names |
| C81 | Groups | include/axiton/trackerClass.h: SearchAxitons (Paxion), GroupTags | invariants of the growth loop, termination by the number of sites, induction over the groups |
| C82 | SpecLap | laplacian.cpp, propClass.h: tSpecCpu, sSpecCpu, sPropThetaXeon.h, sPropXeon.h | mode loop in any order, transforms as plans, orthogonality of waves, derivatives of plane waves, induction over the stages |
| C83 | FullSpec | propClass.h: tFpecCpu, sFpecCpu, fsPropThetaXeon.h, fsPropXeon.h, fourier.cpp | solution of the wave equation by modes with its derivatives, uniqueness by conserved energy of each mode, mode loops in any order, induction over the stages |
| C84 | FieldSpectrum, FieldSpectrumAxit | spectrum.cpp: nRun for an axion field | refinement of the three blocks (array, transform, bins) by the padded field and the modes of all ranks, then Parseval and the half-angle formula |
| C85 | SmoothFourier, SmoothFourierWindow | spectrum.cpp: smoothFourier | invariant over the sequence of calls (m2half keeps the transform), refinement of the loop over the modes by the windows, Parseval, derivative of x^3/3 - sin x + x cos x |
| C86 | MeasLog | parse.cpp: createMeasLogList | closed form of the loop by induction, order by the monotone logarithm, composition with the theorems of C44 |
| C87 | SaxSweep, Run | propXeon.h: loop over vectors | loads of a vector before its stores equal one lane after the other by induction, sitewise form of the kernel, C59, adjointness of the periodic Laplacian for the charge |
| C88 | Run, ThetaKernel | propThetaXeon.h, propClass.h | equivariance of the rule of a substep and induction over the substeps; sums over a periodic lattice moved by a shift; cosine addition |
| C89 | Run, SaxSweep, ThetaKernel | propThetaXeon.h, propXeon.h, propClass.h | the rule of a substep commutes with the symmetry, induction over symmetries and substeps; C59 and C87 carry it to the ranks |
| C90 | Relax | prepropa.cpp, measa.cpp | exact condition for the result of the loop by induction over the turns, along any sequence of states that is an evolution |
| C91 | Run, SaxSweep, ThetaKernel | propThetaXeon.h, propXeon.h, propClass.h | locality of the neighbour sum, induction over the substeps; for the exact number the support of the response and its value at the edge |
| C92 | Spec/Stable, Props/Stable | tRunCpu with the leapfrog tables, dzSize, setCO | A step is two or four drift-kick-drifts; each keeps a quadratic form because the acceleration is symmetric on periodic fields (shifts of sums); the form is positive because the springs of the stencil are bounded (differences at double distance are at most twice as large). The alternating field is an eigenvector whose amplitude grows geometrically when the step is too long. |
| C93 | Model/DensMap, Spec/DensMap, Props/DensMap | writeEDens | Slabs of different ranks and slices are disjoint and cover the dataset (mixed radix); any order of the copies gives the same file. Composed with C51, C52 (maps of the energy kernels, shifted to the global lattice) and C28 (reduction). |
| C94 | Model/Contrast, Model/DensByte, Spec/Contrast, Props/Contrast, Props/DensByte | find, dContrast, writeDensity | Induction over the iterations of a thread, the threads and the ranks; the position on the scale is monotone and between 0 and 255, rounding moves it by at most one half. |
| C95 | Spec/KeepsSymmetry, Props/KeepsSymmetry | run of C59 and C87 | The evolution commutes with the symmetries (C89), so the image of a field with the symmetry is itself; the neighbour sum of a uniform field vanishes with and without wrapping, then induction over the substeps. |
| C96 | Model/StringLut, Spec/StringLut, Props/StringLut | stringcorre and its callers | Cauchy-Schwarz for the cosine, three conditions on the components keep the position below 5/sqrt 3, bounds of the indices by linear arithmetic, interpolation is a convex combination. |
| C97 | Model/TuneHybrid, Spec/TuneHybrid, Props/TuneHybrid | tunehybrid | Invariant of the loop: what was measured, the least time and the way it belongs to. |
| C98 | Model/SpecFilter, Spec/SpecFilter, Props/SpecFilter | filterFFT, filter | Invariant of three nested loops: the part written is the reduced map, the part behind is unchanged, and every element is read at or behind the place it is written. |
| C99 | Model/MaskMatrix, Spec/MaskMatrix, Props/MaskMatrix | matrixbuilder | Cases of the three indices, induction over the sum, position in concatenated blocks of equal length. |
| C100 | Model/Moore, Spec/Moore, Props/Moore | unMoor, axby, conversion in readConf | Loop in which every element is changed by itself, in any order; bounds of floor. |

Not modelled: GPU kernels (lib/gpu, *Gpu.h); of the initial conditions, what the rows C30, C56 and
C66 to C69 do not name; the random numbers themselves; the energy of the Naxion; `stringlength2`; the
nyx output (lib/io/output_nyx.cpp); parsing of option text into numbers; timing; the Python tools.

## Findings (places where the code does not satisfy the property as stated)

Each line is proved by the named theorem (namespace `Jaxions` omitted) unless it says "read only".

| id | theorems | remark |
|----|----------|--------|
| C01 | `C01_accepts_nondividing` | a grid length that is not a multiple of the lane count is accepted |
| C02 | `C02_depth_index_not_refused`, `C02_length_index_not_refused`, `C02_x_slice_deep_overflow` | guards off by one; the x slice overruns the ghost area of deep local grids |
| C05 | `C05_idx_guard_double_visit` | propNaxXeon and propPaxXeon visit sites twice when the block height does not divide the plane |
| C06 | `C06_exactly_once_iff` | local depth between Ng+1 and 2Ng-1 is not refused and updates slices twice |
| C09 | `C09_velocity_overwritten` | exchanging ghosts of `v` overwrites physical data |
| C11 | `Integrator.C11_spectral_out_of_bounds`, `C11_full_spectral_falls_short`, `C11_lowmem_never_drifts` | coefficient tables read out of bounds or time not advanced by dz |
| C12 | `Integrator.C12_axion_time_dependent`, `C12_rkn4_not_reversible` |  |
| C13 | `Weights.C13_radius_six_undefined` | `--lap 6` is accepted, the tables end at five |
| C14 | `Cosmo.C14_wide_stencil`, `C14_threshold_grav`, `C14_unknown_types` | step too large for wide stencils, zero for four field types |
| C15 | `SetField.C15_naxion_not_refused`, `C15_paxion_to_axion`, `C15_axion_created_overlap` |  |
| C16 | `Lifetime.C16_switched_field_leaks`, `C16_axion_to_saxion_bad_free`, `C16_paxion_leaks` |  |
| C17 | `Tunable.C17_small_grid_diverges` | the block search does not stop when there are fewer rows than one block |
| C18 | `Tuner.C18_precision_ignored`, `C18_unnamed_type` | the cache ignores the precision |
| C20 | `Binner.C20_second_run` |  |
| C21 | `Peaks.C21_maximum_rejected` | two comparisons of the candidate test are inverted |
| C22 | `Winding.C22_vector_misses` | the vector kernels miss strings with a corner exactly on the real axis |
| C24 | `StringMap.C24_displaced`, `C24_rotation_avx512`, `C24_overflow` |  |
| C25 | `Mend.C25_avx512_hangs`, `C25_velocity` |  |
| C26 | `Spectrum.C26_no_bins`, `C26_odd`, `C26_twice` |  |
| C27 | `Pad.C27_start_loses`, `C27_half` |  |
| C28 | `Reduce.C28_new_axion_lost`, `C28_dims` |  |
| C29 | `MaskBall.C29_race`, `C29_thin`, `C29_one_slice` |  |
| C30 | `Smooth.C30_lowmem` | null pointer with the low memory option |
| C31 | `Plans.C31_lookup_blocks`, `C31_close_empty`, `C31_close_twice`, `C31_unknown_kind`, `C31_second_field`, `C31_assign_double` |  |
| C32 | `Log.C32_duplicate`, `C32_lost`, `C32_flush_lost`, `C32_text_long` |  |
| C33 | `PropChoice.C33_both_spectral`, `C33_lap0_spec`, `C33_potential`, `C33_kernel_unset` |  |
| C34 | `Derived.C34_logi_missed`, `C34_order`, `C34_mink_then_frw`, `C34_saxion_mass` | `--lz2e` without `--msa` enters the derived parameters but not the run; order of options matters; `uFR` is never set, so `--frw` is ignored when a configuration is read (read only) |
| C35 | `Projector.C35_file` | both projected maps use the name /map/P: asking for both ends the program. `projectField` returns silently in low memory mode or with a wrong status of m2, and the map then stores old ghosts (read only) |
| C36 | `Header.C36_pq_lost`, `C36_theta_lost`, `C36_damping_changes_potential` |  |
| C37 | `ConfIO.C37_naxion` |  |
| C38 | `Save.C38_momentum_lost`, `C38_restart_lost`, `C38_create_failed`, `C38_layout_iff` |  |
| C40 | `TimeLoop.C40_near_start_skipped`, `C40_restart_jumps`, `C40_single_outside`, `C40_fixed_step_short`, `C40_last_not_loaded`, `C40_theta_maps` |  |
| C41 | `Header.C41_read_overrun`, `C41_duplicate_attribute`, `C41_path_iff` | 32 byte attributes are read into 16 byte buffers |
| C42 | `SaxKernel.C42_exact` | double precision with AVX or AVX-512: lane exchange uses a wrong immediate |
| C43 | `Tracker.C43_unfolded_misread`, `C43_print` | `ReadAxitons` has no return statement (read only) |
| C44 | `MeasList.C44_maps_lost`, `C44_unknown_name`, `C44_first_time_unset` |  |
| C45 | `Integrator.C45_axion_late` |  |
| C46 | `Spectral.C46_saxion_frozen`, `C46_saxion_mispaired`, `C46_axion_frozen`, `C46_axion_reads_padding` |  |
| C47 | `Header.C47_frw_lost` |  |
| C48 | `Fourier.C48_ghosts_out_of_bounds`, `C48_axion_out_of_bounds`, `C48_axion_velocity_scaled` |  |
| C49 | `SaxKernel.C49_double_wrong`, `C49_variant`, `C49_precisions` |  |
| C51 | `Energy.C51_axion_avx512_wrong`, `C51_wrap_half`, `C51_wrap_far` | energyThetaXeon.cpp:131,152 |
| C52 | `Energy.C52_double_no_kinetic`, `C52_double_masked_undefined`, `C52_two_minima_constant` | energyXeon.cpp:50 keeps 1/R^2 in a `size_t`; 607 reads beyond `tmpS`; 137 lacks two reduction variables |
| C53 | `Energy.C53_lowmem_zero` | `EN_MAP` = 3 overlaps `EN_ENE` = 1 (energy.cpp:139): low memory totals are refused and zeros stored |
| C54 | `ToTheta.C54_gravity`, `C54_initial`, `C54_low_memory` | thetaXeon.cpp:33 takes R' = frw R/t although R(t) differs with gravity or a table; theta2CmplxXeon.cpp:37 is right for R' = 1 only; thetaScalar.cpp:93 clears the low memory flag without allocating `m2` |
| C55 | `Shift.C55_third`, `C55_second_heavy`, `C55_two`, `C55_time` | scalarField.cpp: V_PQ3 uses the cubic of V_PQ1; `rsvPQ2` stays below 0.6; V_QCD2 has no shift; `Saskia(ct)` ignores `ct` |
| C56 | `Norm.C56_m2`, `C56_wrong_index`, `C56_core` | normXeon.cpp:32,72 start at the ghosts of `m2`; 75-77 lacks a return; normCoreXeon.cpp:33 overwrites the velocity in low memory |
| C57 | `Expand.C57_overshoot`, `C57_race`, `C57_lowmem` | simpleops.h:192,256 use nx/Nx along z as well; 210-212 give overlapping blocks if the sides are no multiples; `m2` needed |
| C58 | `ThetaKernel.C58_linear_precisions`, `C58_not_evolved`, `C58_wrap_velocity`, `C58_half_turn`, `C58_drift_avx512`, `C58_drift_eight` | propThetaXeon.h:557-560 truncated sine in single only; 811-813 V_QCD2 only logged; 313-314 the velocity is not adjusted; 617-618 shift of 16 for vectors of 8 |
| C60 | `C60_stretched`, `C60_mean_ranks`, `C60_reduced_wrong`, `C60_reduced_nan`, `C60_double` | the potential is scaled wrongly on non-cubic lattices; `mean` ignores the sum over the ranks; the coarse grid takes the y offset of the fine grid, so every rank but the first divides by the wrong wave number and one divides by zero when the reduction divides the number of ranks; the double precision relaxation uses a vector never set |
| C61 | `C61_phase_iff`, `C61_phase_wrong`, `C61_number_iff`, `C61_number_wrong` | after the mass saturates the phase of every mode is too small by a factor of its momentum (`0.5*k*(…)` instead of `0.5*k*k*(…)`); on lattices that are not cubes `zBase = Lz*commRank()` gives the wrong wave number along y on more than one rank |
| C62 | `C62_scale_grav`, `C62_mass_rate_grav`, `C62_log_rate_table`, `C62_integral_iff`, `C62_second_crossing`, `C62_second_no_value` | `Rp`, `Rpp`, `DAxionMass2Dct` ignore the matter term of `R`; with a tabulated cosmology `DlogMARDlogct` multiplies only the first term of the difference by `ct`; both integrals of the mass lack the factor `zThRes^nQcd` after saturation, the second one also what the first has gathered, and it ends without `return` for `z = zThRes < z0` |
| C63 | `C63_kkt_half`, `C63_halves`, `C63_ood2_iff`, `C63_out_of_bounds` | `KKt` is 0/0 for `frw = 1/2`; the two half steps of the potential cover `[t, t+dz/2]` and `[t+dz, t+3dz/2]`; within 0.01 of exponent one the kick uses the logarithm; `c[nStages]` does not exist for the leapfrogs and Omelyan integrators |
| C64 | `C64_paxion_created_axion`, `C64_adiab_iff`, `C64_grows`, `C64_wrong_sign` | velocities of a field created as axion have `Lz+2` slices, the conversion needs `Lz+Ng` and later kernels `Lz+2Ng`; `adiab` has `R^2` on the wrong term; the Naxion kernel does not conserve the number, has the sign of the Laplacian opposite to the conversion and four times the coupling |
| C65 | `C65_gradient`, `C65_map_fits`, `C65_avx512_single`, `C65_avx512_double_wrong`, `C65_avx_single` | gradient energy of the Paxion divided by `R^2` twice; maps shifted by `Ng-1` slices in double precision and past the end of `m2` from `Ng = 3` (double) or `4` (single); AVX-512 and single precision AVX builds read wrong y neighbours of the imaginary part |
| C66 | `C66_cut_beyond`, `C66_modes_iff`, `C66_kcole`, `C66_zero_mode_velocity`, `C66_velocity_stale`, `C66_table`, `C66_string_reads`, `C66_string_factor`, `C66_string_wrap` | initial modes reach `sqrt(3) kmax`; rows of modes lost if the ranks do not divide the side; `MOM_KCOLE` gives `MOM_MEXP`; `mode0` set in the velocity for Tkachev and thermal; velocity modes beyond the ball keep old memory; spectrum file with fewer than `floor(sqrt(3)(N/2-1))+2` lines read out of bounds; string points read out of bounds for `px = 0`, orthogonal segments dropped by `(1.0,0.)`, unsigned denominators |
| C67 | `C67_mode0_sign`, `C67_noise_angles`, `C67_wave_iff`, `C67_heights`, `C67_deep_grid`, `C67_axiton_differs`, `C67_loop_quarter`, `C67_strwave_zero`, `C67_strwave_depth` | `double mod0 = ic.mode0 > 0.0` replaces the zero mode by 0 or 1; slab heights from `Lx/ranks`; `CONF_AXITON` in double precision instantiates `CONF_PARRES`; 0/0 on the lattice for the documented loop radius; `CONF_STRWAVE` multiplies a field nobody set |
| C68 | `C68_copy_below`, `C68_reads_beyond`, `C68_edge_phase`, `C68_edge_jump`, `C68_deep_slab`, `C68_heights`, `C68_near_asymmetric` | `i * TotalDepth()` with i = -1 is a product of int and size_t; `xs[il+1]` for the last point; each rank sums its edge before it receives, from its own old memory; `Bz = m2half() + 2*Sf` overlaps `By`; slab heights from `Lx/commSize()`; samples at -0.5 ... 0.4; `th[0] == 0.;` compares |
| C69 | `C69_copy_start`, `C69_copy_grav`, `C69_scale_velocity`, `C69_prep_gamma`, `C69_anymean`, `C69_merge_race`, `C69_critical_range` | velocity copied from the field whatever the expansion; `scaleXeon` runs over `eSize()` elements of `v`, which has `n2*(Lz+2)`; `SetGamma(Gamma())` instead of the saved value; `mean` uninitialised and divided by the `eSize()` of one rank; `f_v` and `co_v` are the same memory in a parallel loop; `pow(0,-1/1.5)` after `min(nN3,1.0)` |
| C70 | `C70_velocity_outside`, `C70_smoothed_lost`, `C70_one_each_iff`, `C70_total_mass_iff`, `C70_velocity_spacing`, `C70_corners_iff`, `C70_filter_half`, `C70_options` | `vOut` starts `slab*(2Lz+1)` behind `vBackGhost()`, outside `v`; `axArray2` is `m2half()`, where `vx` was kept; `totlX*totlX*totlZ` in `uint`; the mass of a point given to each of its particles; no division by the lattice spacing; `XyZ = xyZ + totlX` in the last column; `float` index for complex modes; `part_disp` sets `sm_vel` |
| C71 | `C71_waits`, `C71_waits_iff`, `C71_rank0_never_ends`, `C71_site_lost`, `C71_cell_behind` | `if (pSent == toSend) break;` (line 1564) leaves the loop before the message is sent; rank 0 takes up the difference without regard to its densities; the loop over `remain` does not check the size of the slab; `uniform_int_distribution(0, slab*Lz)` includes its upper end |
| C72 | `C72_potential_linear`, `C72_potential_mask`, `C72_third_moved`, `C72_mask_lost`, `C72_old_nothing`, `C72_old_potential`, `C72_table_neighbours`, `C72_central_wave`, `C72_table_zero`, `C72_stored` | buildc_v calls `atan2(re, im)` for the linear potential; for the masks GAUS and DIFF it leaves the second half alone and the mask is transformed; the z gradient of those masks is unpadded twice and overwrites the mask; NRUN_CV reads one slice too low; the interpolation steps by 26 and 6 entries in the first two coordinates instead of 3276 and 126; `cosTable2` is for forward differences and for `Lx`; NRUN_S alone stores zeros, NRUN_CS always does |
| C73 | `C73_empty`, `C73_size_rate_moving`, `C73_phase_rate_moving`, `C73_saxion_stored_axion` | with `nbinsspec` at least twice the default the second bin has no mode; `nSRun` and `buildc_k` use the velocity of the field although their centre `Saskia*R` moves; for GAUS, DIFF, SAXI and the axiton masks `nSRun` only reports an error and measa.cpp:741-761 then writes the bins of the last axion run as sKS, sGS, sVS |
| C74 | `C74_ball_grows`, `C74_diffuse_lost`, `C74_diffuse_overlap`, `C74_cut_zero`, `C74_axiton_string` | SPMASK_BALL stores the corners in the string map (spectrum.cpp:3081-3083), so with several radii, or after another measurement mask, each call masks one layer more; SPMASK_DIFF stages the last slice at `m2Start + Surf*(Lz-Ng)` complex numbers, inside the mask if `Lz < 2 Ng`; `ng0calib = 0` makes the cut 0 times infinity; `ST_CS` is `STRING_XY_POSITIVE` when masks are not cumulative (spectrum.cpp:3488) |
| C75 | `C75_ranks`, `C75_straight`, `C75_six`, `C75_zero_corner`, `C75_speed_none`, `C75_speed_ghost`, `C75_hubble`, `C75_radiation` | `if (iz < Lz - 1)` (length.cpp:209) drops the upper face of the cells on the last slice, which leaves an odd number of points and nothing is added: straight strings lose one cell on every rank; the second line of `dl1` … `dl15` ends in `;` (length.cpp:232-278); only FIELD_M ghosts are sent (length.cpp:137) but `va[izM]` is read on the last slice; `HubbleConformal` returns 0 for `(int) frw` 0 or 1, so in radiation a field at rest has a speed |
| C76 | `C76_cube`, `C76_negative`, `C76_number`, `C76_radiation` | `rhotot_sum/(Lx*Lx*Lx)` (length.cpp:945-948) although the box has `Lx*Lx*Lz*ranks` sites, and depth and ranks are free options; quotients by `ma - zaskaF` at every site also inside the mask (length.cpp:909-916); `rhoa_sum/nout_sum` with nothing left by the mask; twice the kinetic energy is taken for the axions, so a field that only turns gives a negative energy of strings |
| C77 | `C77_curvature`, `C77_curvature_fails`, `C77_overshoot` | `interpol=2.0*m_b0*h` (spline.h:419) should be `2.0*m_b0`; natural cubic splines are not positive or monotone, so the topological susceptibility of a table read by `cosmos.cpp` can become negative between rows and its square root no number |
| C78 | `C78_start`, `C78_units_lost`, `C78_units_differ`, `C78_last_row_lost`, `C78_junk`, `C78_never`, `C78_rate` | `for (int i; i < etav.size();i++)` (cosmos.cpp:93, 135) reads an uninitialised counter; `while(!feof)` drops the last row of a file without final new line and spins on anything that is no number; the secant search has no limit; `Rp` is a difference over 2e-3; `sprintf(cosName, "%s%s", cosName, ...)` (cosmos.cpp:35) has source and target overlap and prints an uninitialised array without JAXIONS_DIR (noted, not modelled) |
| C79 | `C79_cut`, `C79_overrun`, `C79_low_memory` | `strings2` cuts the list of positions to the size of its buffer and `writeStringCo` then sends behind the buffer (strings.cpp:361, readWrite.pHdf5.cpp:2587); the length of a message is an `int`; with `lowmem` the positions overwrite the string map before `stringlength` and `writeString` use it (measa.cpp:452-458) |
| C81 | `C81_numbers`, `C81_alone`, `C81_not_threads`, `C81_not_labels`, `C81_not_around`, `C81_not_folded`, `C81_not_again` | `accepted` is a reduction variable used as a label: the first point of each thread gets label 0 and is never joined (trackerClass.h:440-453); the seed of a group is not labelled with it (624); `tag[idx]` should be `tag[midx]` (547); `idx2 > S` leaves out site 0 below site S (606); `cidxlist` and `Halolist` are never emptied; the loop over candidates is parallel but changes shared lists (533); groups of different ranks, or through the z face, are never merged (`PatchGroups` is empty) |
| C82 | `C82_not_box`, `C82_two`, `C82_variant`, `C82_not_force`, `C82_still` | `p2 = pz*pz + py*py + px*px` counts periods, not wave numbers, so a box with Tz other than Lx has a wrong z derivative (laplacian.cpp:98); `V_QCD2` subtracts its force (sPropXeon.h:182, 403; the stencil kernel adds it in single precision); `V_QCDV` uses mA2 R^3 where mA2 R^2 is meant (179, 400); the switch over V_PQ has no case V_PQ3, the acceleration is then not set (154-172); sPropThetaXeon.h has no term R''/R and always the cosine potential |
| C83 | `C83_double`, `C83_not_kept`, `C83_not_pq2`, `C83_unset`, `C83_not_narrow` | fsPropThetaXeon.h:285-307 does nothing in double precision; the c2r plans of fftCode.cpp:295-309 lack FFTW_PRESERVE_INPUT although `m` is used again after the transform; fsPropXeon.h:266-273 lacks a factor, 275-284 and 102-158 use variables that are not set; all other potentials take the kick of V_PQ1 and the axion mass in the zero mode, also without QCD potential; kx is wrapped per vector (fsPropXeon.h:404-411); the saxion has no term R''/R; `float pn[2*step]` is loaded as if aligned (fsPropThetaXeon.h:215, 238); odd propagators do nothing in the last stage |
| C82 | `C82_not_box`, `C82_two`, `C82_variant`, `C82_not_force`, `C82_unset`, `C82_still` | `p2 = pz*pz + py*py + px*px` counts periods, not wave numbers, so a box with Tz other than Lx has a wrong z derivative (laplacian.cpp:98); `V_QCD2` subtracts its force (sPropXeon.h:182, 403; the stencil kernel adds it in single precision); `V_QCDV` uses mA2 R^3 where mA2 R^2 is meant (179, 400); the switch over V_PQ has no case V_PQ3, the acceleration is then not set (154-172); sPropThetaXeon.h has no term R''/R and always the cosine potential |
| C83 | `C83_double`, `C83_not_kept`, `C83_not_pq2`, `C83_unset`, `C83_not_narrow`, `C83_not_mass` | fsPropThetaXeon.h:285-307 does nothing in double precision; the c2r plans of fftCode.cpp:295-309 lack FFTW_PRESERVE_INPUT although `m` is used again after the transform; fsPropXeon.h:266-273 lacks a factor, 275-284 and 102-158 use variables that are not set; all other potentials take the kick of V_PQ1 and the axion mass in the zero mode, also without QCD potential; kx is wrapped per vector (fsPropXeon.h:404-411); the saxion has no term R''/R; `float pn[2*step]` is loaded as if aligned (fsPropThetaXeon.h:215, 238); odd propagators do nothing in the last stage |
| C84 | `C84_not_same_sites`, `C84_missing_mask`, `C84_axit_velocity`, `C84_axit_overwritten`, `C84_axit_not_weight` | spectrum.cpp:1705-1720 has the flat case as default where 1607-1619 and 1656-1668 have the masked one; 1009-1048 returns before the bins are cleared and measa.cpp:574 gives only eight of nine values of `prntmsk`, so the spectra loop never makes the mask of Axit2; 1658 reads `m` for `v`; 1609 reads the bare place of `m2` while it stores in padded places, and has `tanh(5*x-1)` where the mask is centred at 1 |
| C85 | `C85_deep`, `C85_not_positive` | spectrum.cpp:2087-2117 copies dataTotalSize bytes from m2 to m2half, which overlap when Lz > Ng*Ly; measa.cpp:352-353 takes log10 of the smoothed map, which can be negative |
| C86 | `C86_undefined`, `C86_per_decade` | parse.cpp:232-242 compares zas although the loop may not have set it; parse.cpp:222 announces measurements per log10 interval, the loop steps by 1/dump in the natural logarithm |
| C90 | `C90_study`, `C90_prep_study` | prepropa.cpp:82-85, 288-291 take the number of plaquettes from Measureme, which is zero if there is nothing to measure (measa.cpp:56, 163): with --icstudy and the default measurement type the relaxation stops after one step |
| C93 | `C93_reduced`, `C93_reduced_radial_wrong`, `C93_again`, `C93_beyond` | With a reduced lattice a requested radial map is written from the unreduced array: its numbers are the first sites of the full map. A second map in the same group ends the program with status 0. A radial map of a Paxion is written from memory that holds none (beyond the array with lowmemGPU). |
| C94 | `C94_flat`, `C94_radial` | cDensityMap of a constant density above 1/1000 converts an undefined number to int. The radial map is read at Size + 2 Surf, the energy writes it at Size + 2 Ng Surf: right only with one ghost slice. |
| C96 | `C96_stairs`, `C96_stairs_wrong`, `C96_corner_outside` | stringcorre interpolates along A and B with the entries i0 + N_B and i0 + N_E; the neighbours are at i0 + N_CEB and i0 + N_CE. A table of A itself gives a staircase. Called on its own it reads behind the tables at A = B = 5, which its callers exclude. |
| C97 | `C97_ranks_wrong`, `C97_again_wrong` | tunehybrid compares the times of the own rank only; ranks can end with different redfft and then call transforms of different sizes together. Called when the reduced mode is on it never measures the full calculation. |
| C98 | `C98_gauss`, `C98_ranks` | filterFFT uses Surf() for all three directions: wrong width along z unless the lattice is cubic. filter keeps slices at unequal distances if the reduction does not divide the slices of a rank. |
| C100 | `C100_velocity` | If the velocity in a file of Moore's format is the derivative of the angle, the conformal velocity is R' θ + R v; the code stores R v - R θ (its comment says R v - θ). Right only where the angle is zero. |
| C80 | `C80_ends`, `C80_not_both`, `C80_not_every_radius`, `C80_not_whole`, `C80_not_string_energy`, `C80_not_axitons`, `C80_not_axit2`, `C80_not_saxion`, `C80_saxion_numbers` | `MAPT_XYPE` with `MAPT_XYPE2` ends the program; a mask with a radius and an empty `--rmask` reads outside `rmasklabel`; radii equal to two decimals lose data or, with maps, end the program; `mask & SPMASK_REDO \ | SPMASK_GAUS \ | SPMASK_DIFF` is always true, so strings are always searched (measa.cpp:428); `Reduced()` stays set after a reduced map, and the next call writes its string map at that resolution; `sKS`, `sGS` under `Gau`, `Dif` hold axion spectra; the second axion run under an array mask reads an array the first has overwritten; `W_Axit` holds the spectrum of the masked energy, not of the mask; `SPMASK_SAXI` can not be reached |

Further observations, read only: the SSE versions of the `kkk` helpers in triSimd.h have an extra
parenthesis, so a build without AVX does not compile; genConf.cpp:115,139 fetches the plan "Init" that
is never created; momConf.cpp reads `xx[il+1]` beyond the list; `--axitontracker` resets its
thresholds; a Naxion `Scalar` cannot be constructed.
