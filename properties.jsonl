{"id": "C01", "title": "Folding and unfolding a field loses nothing", "statement": "Asking the folder to fold a field and later to unfold it gives back exactly the field values and velocities that were there before, site by site, and each fold only permutes sites inside a z slice: no site is lost, duplicated or moved to another slice. Folding a folded field and unfolding an unfolded one change nothing. All memory touched stays inside the allocated buffers.", "quantifier": "every grid length, every local depth, every number of SIMD lanes dividing the length, every number of ghost slices, every field content, every sequence of fold and unfold requests", "why_tests_cant": "The permutation depends on three sizes that only meet in a few combinations on one machine; a wrong stride can be invisible for the one vector width the test host has, and the fold uses the ghost slices as scratch in the same allocation.", "anchors": ["lib/scalar/folder.cpp: Folder::foldField", "lib/scalar/folder.cpp: Folder::unfoldField", "include/scalar/scalarField.h: mFrontGhost, mBackGhost, mStart, vStart"]}
{"id": "C02", "title": "A 2D slice of a folded field is the slice of the real field", "statement": "Extracting one z slice (or one x slice) from a field, folded or not, places in the output area exactly the values the unfolded field has on that slice, and leaves every physical site unchanged; an index that is not a slice of the local grid is refused.", "quantifier": "every grid size, lane count, slice index, folded state and content", "why_tests_cant": "Slice extraction is only used for plots, errors look like slightly shifted pictures; the index that equals the depth and grids deeper than they are wide are never tried.", "anchors": ["lib/scalar/folder.cpp: Folder::unfoldField2D", "lib/scalar/folder.cpp: Folder::unfoldField2DYZ", "lib/scalar/folder.cpp: Folder::unfoldM22D"]}
{"id": "C03", "title": "Site numbers and coordinates are inverse to each other", "statement": "Converting a site number to coordinates and back is the identity, coordinates come out in range for sites of the grid, and the padded variant is the inverse of the padded numbering; the four in-plane neighbours returned for a site are the sites one step away in x and y with periodic wrap.", "quantifier": "every grid length and every site number", "why_tests_cant": "A finite set of sizes cannot exclude an overflow or wrap error at the edges of some other size.", "anchors": ["include/utils/index.h: indexXeon::idx2Vec", "include/utils/index.h: indexXeon::idx2VecPad", "include/utils/index.h: indexXeon::vec2Idx", "include/utils/index.h: indexXeon::idx2VecNeigh"]}
{"id": "C04", "title": "The folded SIMD stencil is the periodic stencil", "statement": "The neighbour loads of the vector kernels (with the lane rotations at the y edges) combined over all stencil distances give, at every lane of every vector site, exactly the sum over the six periodic neighbours of the corresponding site of the unfolded lattice.", "quantifier": "every grid length, lane count, stencil radius that fits, site, lane and field content", "why_tests_cant": "The rotations only matter on the edge rows of each lane block; a wrong rotation changes a vanishing fraction of the sites.", "anchors": ["include/propagator/propXeon.h: propagateKernelXeon neighbour loop", "include/propagator/propThetaXeon.h: propThetaKernelXeon neighbour loop"]}
{"id": "C05", "title": "Kernel tiling updates every site exactly once", "statement": "Whatever block sizes the tuner has chosen, the tiled loops of the kernels visit every vector site of the requested z range exactly once and no other site.", "quantifier": "every grid, every z range, every block size choice including ones that do not divide the grid", "why_tests_cant": "Block sizes are chosen at run time by timing, so the tested tile shape is an accident of the machine.", "anchors": ["include/propagator/propXeon.h: tile loops (NT, zT, yT, xC)", "include/propagator/propThetaXeon.h", "include/utils/tunable.h"]}
{"id": "C06", "title": "Bulk and boundary passes update every slice exactly once", "statement": "One substep of the propagator, which updates the bulk while messages are in flight and the two boundary strips afterwards, updates every physical slice exactly once, never a ghost slice, and the bulk pass reads no ghost slice.", "quantifier": "every local depth and every number of ghost slices the program accepts", "why_tests_cant": "Needs every combination of local depth and ghost width; small depths per rank are only reached at large rank counts.", "anchors": ["include/propagator/propClass.h: PropClass::sRunCpu, tRunCpu, nRunCpu, pRunCpu, lowCpu"]}
{"id": "C07", "title": "Large ghost messages are split without gaps or overlaps", "statement": "A ghost transfer of any byte count is cut into pieces that are each small enough for an MPI call, that are contiguous and disjoint, and whose union is the whole buffer; a transfer that would need more than the supported number of pieces is refused before anything is sent.", "quantifier": "every byte count", "why_tests_cant": "The interesting sizes are beyond 2 GB per slice; exact multiples of the chunk size are never hit in tests.", "anchors": ["lib/scalar/scalarField.cpp: Scalar::sendGeneral, Scalar::sendGhosts"]}
{"id": "C08", "title": "Every ghost send meets exactly one receive of the same size", "statement": "In a ghost exchange each message posted by a rank has exactly one matching receive (peer and tag and size) posted by its destination and vice versa, so nothing is left over or mixed up between the two directions, also when both neighbours are the same rank or the rank itself.", "quantifier": "every number of ranks, every rank, every ghost byte count, every order in which ranks post their operations", "why_tests_cant": "Mismatched tags only show up for particular rank counts (one and two ranks are degenerate) and schedules.", "anchors": ["lib/scalar/scalarField.cpp: Scalar::sendGeneral, Scalar::sendGhosts", "lib/comms/comms.cpp"]}
{"id": "C09", "title": "After an exchange the ghosts equal the neighbours' data", "statement": "After a completed ghost exchange each rank's ghost slices hold the neighbour's current boundary slices in the right order, all physical slices are unchanged, and with periodic closure; a partial exchange refreshes precisely the requested innermost ghost slices.", "quantifier": "every number of ranks, local depth, ghost width, partial width and content", "why_tests_cant": "Requires many ranks and content that distinguishes every slice; for depth smaller than the ghost width the neighbour's data is not enough.", "anchors": ["lib/scalar/scalarField.cpp: Scalar::exchangeGhosts, Scalar::sendGhosts, Scalar::sendGhosts2, Scalar::sendGeneral"]}
{"id": "C10", "title": "The result does not depend on the number of ranks", "statement": "Running any number of propagation steps with the grid split over n ranks produces, after gathering, exactly the field that one rank holding the whole periodic grid would produce with the same steps.", "quantifier": "every number of ranks, local depth and ghost width that the program accepts, every initial field, every site-local force law, every number of steps, every order of bulk work and message completion", "why_tests_cant": "Needs all rank counts and all message schedules; reruns on one machine sample a handful.", "anchors": ["include/propagator/propClass.h: PropClass::sRunCpu, tRunCpu", "lib/scalar/scalarField.cpp: sendGhosts", "include/propagator/propXeon.h"]}
{"id": "C11", "title": "One propagation step advances time by exactly the requested step", "statement": "A call to propagate with step dz advances the field time by dz, and the kicks add up to dz as well, for every integrator offered.", "quantifier": "every integrator on offer, every step size, every starting time", "why_tests_cant": "The stage loops differ between the code paths (ghost-cell, spectral, non-relativistic), and a lost half stage is invisible in a smoke test.", "anchors": ["lib/propagator/propagator.cpp: coefficient tables", "include/propagator/propClass.h: tRunCpu, sRunCpu, sSpecCpu, tSpecCpu, sFpecCpu, tFpecCpu, nRunCpu, pRunCpu, lowCpu"]}
{"id": "C12", "title": "Symmetric integrators are time reversible and a zero step is a no-op", "statement": "For the symmetric integrators a step forward followed by a step with opposite sign returns exactly the initial field and velocity when the force does not depend on time, and a step of size zero changes nothing for every integrator.", "quantifier": "every force law, every field, every step size, every lattice size", "why_tests_cant": "A reversal test in floating point only shows small residuals for sampled data; the tuner relies on zero steps leaving the field untouched.", "anchors": ["lib/propagator/propagator.cpp: PropLeap, PropMLeap, PropOmelyan2, PropOmelyan4, PropRKN4 tables", "include/propagator/propClass.h: sRunCpu, tRunCpu", "lib/propagator/propagator.cpp: tunePropagator"]}
{"id": "C13", "title": "Laplacian weights are exact on polynomials", "statement": "With stencil radius N the discrete second derivative is exact on every polynomial of degree up to 2N+1, vanishes on constants, and annihilates odd parts, for every radius a user can select.", "quantifier": "every selectable stencil radius, every polynomial of the stated degree, every lattice spacing", "why_tests_cant": "A wrong digit in one weight changes convergence order but no smoke test.", "anchors": ["lib/scalar/scalarField.cpp: Scalar::setCO", "lib/utils/parse.cpp: --lap option"]}
{"id": "C14", "title": "The automatic time step is positive and within the stability bound", "statement": "The automatically chosen time step is positive and never exceeds the user's safety factor divided by the largest lattice frequency of the active field type.", "quantifier": "every lattice spacing, mass, scale factor, safety factor and field type", "why_tests_cant": "The bound must hold over all cosmological times and parameter values.", "anchors": ["lib/scalar/scalarField.cpp: Scalar::dzSize"]}
{"id": "C15", "title": "Field type switches keep the memory layout consistent", "statement": "After any sequence of field type changes the element size, the SIMD lane count and the field type agree with each other, lanes times element size stays the alignment, refused changes leave the field as it was, and the element count always fits the allocation.", "quantifier": "every sequence of setField calls from every initial field type and precision", "why_tests_cant": "Only a few switch sequences are exercised by the program, and a stale lane count corrupts later folding silently.", "anchors": ["lib/scalar/scalarField.cpp: Scalar::setField", "include/scalar/scalarField.h: DataSize, DataAlign, Field"]}
{"id": "C16", "title": "Allocation accounting is exact over any history", "statement": "At any time the reported current memory equals the sum of the sizes of live tracked blocks, every tracked block is released at most once, and freeing in any order returns the count to zero.", "quantifier": "every sequence of allocations and frees, every interleaving of aligned and plain requests", "why_tests_cant": "Histories are unbounded; leaks only show up in long runs.", "anchors": ["lib/utils/memAlloc.cpp: trackAlloc, alignAlloc, trackFree, printMemStats"]}
{"id": "C17", "title": "Block size search visits valid tiles only and terminates", "statement": "Starting from any initial block, repeatedly advancing the block size only ever yields blocks that divide the grid, never repeats one, and reports completion after finitely many steps.", "quantifier": "every grid size and lane count with enough rows, every number of advance calls", "why_tests_cant": "Termination and divisibility over all sizes cannot be sampled; small sizes loop forever.", "anchors": ["include/utils/tunable.h: Tunable::InitBlockSize, AdvanceBlockSize, SetBestBlock"]}
{"id": "C18", "title": "The tuner ends with the fastest block it measured", "statement": "When tuning stops, the block sizes in force are ones that were measured and no measured block was faster; a cached result is used only when it belongs to the same grid, precision, ranks, threads and propagator.", "quantifier": "every sequence of measured times, every cache content", "why_tests_cant": "Timing sequences are nondeterministic.", "anchors": ["lib/propagator/propagator.cpp: tunePropagator"]}
{"id": "C19", "title": "The axion mass law is total, nonnegative and continuous", "statement": "For every time the axion mass squared is a single well defined nonnegative value, is continuous across the threshold and restoration points, and never decreases with the scale factor when the exponents are nonnegative.", "quantifier": "every time, every exponent, threshold and restoration value, both orderings of the latter two", "why_tests_cant": "A jump at a threshold time injects energy; a test samples few parameter sets and never the exact threshold.", "anchors": ["include/cosmos/cosmos.h: Cosmos::AxionMass2, R", "lib/cosmos/cosmos.cpp", "lib/scalar/scalarField.cpp: Scalar::IAxionMassSqn, IIAxionMassSqn"]}
{"id": "C20", "title": "Histograms count every value once and are normalised", "statement": "Each value between the histogram limits is counted in exactly one bin, the bin whose interval contains it, values outside are dropped, no bin outside the array is touched, and the total weight times the bin width equals the fraction of values inside, independently of how values are shared among threads and ranks.", "quantifier": "every data set, every limits with min below max, every number of bins, every thread and rank partition", "why_tests_cant": "Edge values and partitions are unbounded.", "anchors": ["include/utils/binner.h: Binner::find, Binner::run, operator()"]}
{"id": "C21", "title": "The peak list holds the largest candidates in order", "statement": "The bounded list of field peaks always holds, in decreasing order, the largest candidates seen so far up to its capacity, whatever the order of arrival.", "quantifier": "every list capacity and every sequence of candidates", "why_tests_cant": "Insertion boundary errors show only for particular orders and a full list.", "anchors": ["lib/scalar/scalarField.cpp: axitonfinder"]}
{"id": "C22", "title": "Plaquette winding is well defined", "statement": "The winding assigned to a plaquette is always even; it is 0 or plus or minus 2 for non degenerate corners; it does not depend on the starting corner, changes sign when the plaquette is walked backwards, and is unchanged by rotating the field phase by half a turn.", "quantifier": "every four complex corner values", "why_tests_cant": "The space of corner values is continuous and the degenerate cases have measure zero.", "anchors": ["lib/strings/stringCpu.cpp: stringHand", "lib/strings/stringXeon.cpp: stringHandD, stringHandS"]}
{"id": "C23", "title": "Strings have no endpoints", "statement": "The signed number of strings leaving any elementary cube is zero, hence over any closed surface of cubes, so the detected strings form closed loops on the periodic lattice.", "quantifier": "every field configuration without exact zeros on edges, every cube, every box of cubes", "why_tests_cant": "Requires all field values.", "anchors": ["lib/strings/stringCpu.cpp: stringHand", "lib/strings/stringXeon.cpp: stringKernelXeon"]}
{"id": "C24", "title": "Every pierced plaquette is reported once at its own place", "statement": "The string map flags exactly the plaquettes with nonzero winding, with the right sign; totals equal the number of flagged plaquettes; the position list has one entry per flagged plaquette with that plaquette's centre, and summed over ranks nothing is missed or doubled.", "quantifier": "every field, grid size, lane count and rank count", "why_tests_cant": "Large position lists, edges of lane blocks and many ranks.", "anchors": ["lib/strings/strings.cpp: strings, strings2", "lib/strings/stringXeon.cpp: stringKernelXeon, stringCpu"]}
{"id": "C25", "title": "Mending the angle keeps the physics and removes jumps", "statement": "Mending changes each angle only by whole turns and each velocity by the matching amount; after the forward pass neighbouring angles on a line differ by at most half a turn; a line that is already smooth is left as it is; the procedure ends.", "quantifier": "every line length, every real angle field, every scale factor", "why_tests_cant": "Unbounded numbers of turns and line lengths; the vector loop ends only for some lane combinations.", "anchors": ["lib/scalar/mendThetaXeon.cpp: mendThetaKernelXeon", "lib/scalar/mendTheta.cpp"]}
{"id": "C26", "title": "Spectrum binning puts every mode in one valid bin", "statement": "Every Fourier mode held by a rank is put in exactly one bin inside the array, the bin of the integer part of its momentum; mode counts over all ranks add up to the number of lattice sites, with the half-plane modes counted twice.", "quantifier": "every grid length, total depth, rank count, every bin count option", "why_tests_cant": "Off by one in the last bin and odd sizes, and rank distributions.", "anchors": ["lib/spectrum/spectrum.cpp: SpecBin::fillBins", "include/spectrum/spectrum.h: SpecBin"]}
{"id": "C27", "title": "Padding and unpadding in place preserve the data", "statement": "Padding lines for an in place transform and removing the padding again returns the original data, moving lines in an order that never reads a line already overwritten, inside the allocation.", "quantifier": "every line length, number of lines, ghost width, origin and destination area on offer", "why_tests_cant": "Aliasing depends on relative offset and sizes.", "anchors": ["lib/spectrum/spectrum.cpp: SpecBin::pad, SpecBin::unpad", "lib/reducer/reducer.cpp: transformField"]}
{"id": "C28", "title": "In place reduction reads only original data", "statement": "Reducing the grid in place gives the same result as reducing into a separate buffer: no site is read after it was overwritten; weights are nonnegative and add up to one, so constants are preserved and the result stays between the minimum and maximum of the input.", "quantifier": "every old and new grid size with new not larger than old, every content", "why_tests_cant": "In place aliasing depends on size ratios.", "anchors": ["lib/reducer/reducer.cpp: transformField", "lib/spectrum/spectrum.cpp: SpecBin::filter"]}
{"id": "C29", "title": "String masking balls are exact and independent of ranks", "statement": "After masking, a site is masked if and only if it lies within the ball radius of a string site on the periodic lattice, independently of how the lattice is split in ranks and how threads are scheduled.", "quantifier": "every string configuration, radius, grid size, rank count, thread schedule", "why_tests_cant": "The distributed part has races and special cases for radius larger than the local depth.", "anchors": ["lib/spectrum/spectrum.cpp: SpecBin::maskball"]}
{"id": "C30", "title": "Smoothing is an average", "statement": "Each smoothing iteration replaces a site by a convex combination of itself and its six periodic neighbours: the lattice total is conserved, extreme values never grow, constants are unchanged, and the result is the same for every number of ranks.", "quantifier": "every grid, content, smoothing constant between zero and one, number of iterations, number of ranks", "why_tests_cant": "All fields and all iteration counts.", "anchors": ["lib/gen/smoothXeon.cpp: iteraXeon", "lib/gen/smoothXeon.cpp: smoothXeon"]}
{"id": "C31", "title": "Transform plans are created once and destroyed once", "statement": "Through any history of plan creation, lookup, removal and shutdown each plan created is destroyed exactly once, creating an existing name keeps the old plan, and looking up a name never created is reported.", "quantifier": "every sequence of plan operations", "why_tests_cant": "Unbounded histories.", "anchors": ["lib/fft/fftCode.cpp: initPlan, fetchPlan, removePlan, closeFFT"]}
{"id": "C32", "title": "Log messages from every rank are delivered exactly once", "statement": "Every message logged by a rank at an accepted level reaches the log exactly once, with its own text and level, whatever the order in which transfers complete.", "quantifier": "every sequence of log calls and every order of transfer completion", "why_tests_cant": "Depends on asynchronous completion order.", "anchors": ["include/utils/logger.h: Msg, Log::operator(), flushStack, flushMsg"]}
{"id": "C33", "title": "Command line propagator choice resolves to one valid propagator", "statement": "Any combination of propagator options that is accepted leads to exactly one integrator and one laplacian mode; if none is given the default is chosen; incompatible combinations are refused.", "quantifier": "every sequence of propagator options", "why_tests_cant": "Combinations of repeated flags are unbounded.", "anchors": ["lib/utils/parse.cpp: parseArgs --prop, --spec, --fspec, --lap", "lib/propagator/propagator.cpp: initPropagator"]}
{"id": "C34", "title": "Derived physical parameters are mutually consistent", "statement": "The self coupling, string core resolution and initial time derived from the command line satisfy the defining relations exactly, for every way of specifying them.", "quantifier": "every positive value of the options, all option subsets", "why_tests_cant": "Continuous parameters.", "anchors": ["lib/utils/parse.cpp: parseArgs tail (msa, LL, zInit, logi)"]}
{"id": "C35", "title": "The projection is the mean along z", "statement": "The projected map at each (x, y) equals the average over all z of the global field, for every number of ranks, and is complete on the root rank.", "quantifier": "every grid, rank count, content", "why_tests_cant": "Every partition.", "anchors": ["lib/projector/projector.cpp"]}
{"id": "C36", "title": "The potential saved in a configuration is the one read back", "statement": "Writing a configuration and reading it back with no overriding option gives the same QCD potential, PQ potential, damping and evolution type.", "quantifier": "every combination of potential flags the program can run", "why_tests_cant": "Sixty or more combinations and the header strings are compared in different functions.", "anchors": ["lib/io/readWrite.pHdf5.cpp: writeConf, readConf", "include/enum-field.h: VqcdType"]}
{"id": "C37", "title": "Stored field data do not depend on the number of ranks", "statement": "The data written by all ranks fill the file exactly once, in global lattice order, and reading the file with another number of ranks that divides the depth gives each rank exactly its part of the same global field.", "quantifier": "every writing and reading rank count, grid size, content, both real and complex fields", "why_tests_cant": "Needs all pairs of rank counts.", "anchors": ["lib/io/readWrite.pHdf5.cpp: writeConf, readConf"]}
{"id": "C38", "title": "Saving leaves the running simulation usable and a crash does not lose the last restart", "statement": "After a save the in memory field is what it was before (same values, same layout flag), and at every crash point during a save there is a complete restart file on disk once one has been written.", "quantifier": "every field state, every crash point during a save", "why_tests_cant": "Crash points cannot be enumerated by tests; the fold state is only inspected by later kernels.", "anchors": ["lib/io/readWrite.pHdf5.cpp: writeConf", "test/vaxions.cpp: checkTime"]}
{"id": "C39", "title": "All ranks take the same stop decision", "statement": "After every step all ranks agree whether to continue, save, stop or abort, whatever each of them saw in the file system or on its clock, so no rank waits for another forever.", "quantifier": "every number of ranks and every combination of local observations", "why_tests_cant": "Races between ranks looking at files and clocks.", "anchors": ["test/vaxions.cpp: checkTime"]}
{"id": "C40", "title": "Listed measurement times are hit exactly once and in order", "statement": "When measurement times come from a list in increasing order, each listed time after the start is reached exactly by a step and measured exactly once, in order, the last one at the end of the run; no step is longer than the automatic step and time always increases.", "quantifier": "every increasing list, every sequence of positive automatic steps", "why_tests_cant": "All schedules of steps and lists.", "anchors": ["test/vaxions.cpp: main time loop, readmeasfile, loadmeasfromlist"]}
{"id": "C41", "title": "Header text fits its buffers", "statement": "Every text written to or read from a configuration header fits in the buffer declared for it.", "quantifier": "every field type, potential and initial condition type", "why_tests_cant": "An overflow of a few bytes on the stack is usually silent.", "anchors": ["lib/io/readWrite.pHdf5.cpp: writeConf, readConf, writeAttribute, readAttribute"]}
{"id": "C42", "title": "Damping and projection act only on the intended part", "statement": "Radial damping leaves the angular velocity untouched and shrinks the radial part, full damping shrinks the velocity by the stated factor, and radius only evolution yields a velocity with no angular part; the scalar and every vector version agree.", "quantifier": "every field value, velocity, acceleration, damping value and vector width", "why_tests_cant": "A wrong lane permutation changes part of the sites only for one instruction set.", "anchors": ["include/propagator/propXeon.h: V_DAMP_RHO, V_DAMP_ALL, V_EVOL_RHO, V_EVOL_THETA branches"]}
{"id": "C43", "title": "Tracked sites are distinct and within the limit", "statement": "The tracker never follows the same site twice, never follows more than its limit, every recorded series has one entry per update since its start, and site numbers convert between folded and unfolded order without loss.", "quantifier": "every sequence of searches and updates, every field content", "why_tests_cant": "Unbounded histories.", "anchors": ["include/axiton/trackerClass.h: Tracker::AddAxiton, SearchAxitons, ReadAxitons, foldidx, unfoldidx, Group::AddPoint"]}
{"id": "C44", "title": "The measurement list file is read as written", "statement": "Each line of a measurement list file is stored under the columns named in its header in any column order, lines in the past are dropped, equal times are merged so that nothing requested is lost.", "quantifier": "every header order and every list of lines", "why_tests_cant": "All permutations and repetitions.", "anchors": ["test/vaxions.cpp: readheader, readmeasline2, readmeasfile"]}
{"id": "C45", "title": "Each kick uses the parameters of its own time", "statement": "Whenever a propagator kicks the velocities, the axion mass and the scale factor handed to the kernel are the ones at the time the fields have reached at that moment.", "quantifier": "every coefficient table, every step size and start time, every field type", "why_tests_cant": "A parameter that is late by part of a step changes results only at first order in the step.", "anchors": ["include/propagator/propClass.h: sRunCpu, tRunCpu, tRunGpu, sRunGpu"]}
{"id": "C46", "title": "Spectral propagators work on the physical slices for every ghost width", "statement": "The spectral propagators update exactly the physical slices of the field, whatever the number of ghost slices selected with the Laplacian order.", "quantifier": "every ghost width, slice size and volume", "why_tests_cant": "Only wide stencils combined with a spectral propagator expose the shift.", "anchors": ["include/propagator/propClass.h: sSpecCpu, tSpecCpu", "include/propagator/sPropXeon.h", "include/propagator/sPropThetaXeon.h"]}
{"id": "C47", "title": "The cosmology saved in a configuration is the one read back", "statement": "Writing a configuration and reading it back with no overriding option gives the same box size, self coupling and its exponent, axion mass law, thresholds, damping, decay time and expansion law.", "quantifier": "every value of the parameters, both types of self coupling", "why_tests_cant": "Continuous parameters; a run started with defaults hides what is not restored.", "anchors": ["lib/io/readWrite.pHdf5.cpp: writeConf, readConf", "include/cosmos/cosmos.h: Cosmos", "lib/utils/parse.cpp: createCosmos"]}
{"id": "C48", "title": "A field taken to momentum space and back is the field it was", "statement": "Taking field and velocity to momentum space and back gives the original numbers on every rank, changes nothing that was not requested, stays inside the arrays, and the flags say where each part is.", "quantifier": "every content, grid, number of ranks, ghost width and field type", "why_tests_cant": "Memory errors depend on ghost width and on how the field was allocated; content is continuous.", "anchors": ["lib/scalar/fourier.cpp: FTfield::ftField, iftField, padtom2, unpadfromm2", "lib/scalar/scaleXeon.cpp: scaleXeon"]}
{"id": "C49", "title": "The force is the gradient of the potential that was asked for", "statement": "In every kick of the complex field the acceleration without Laplacian and expansion term is minus the gradient of the rescaled potential R^4 V(phi/R) named by the options (symmetry breaking part unless only the angle evolves, QCD part unless only the radius evolves), identically in both precisions and on every vector width.", "quantifier": "every nonzero field value, every scale factor, every combination of PQ and QCD potential, both precisions, all vector widths and sites of a vector", "why_tests_cant": "A test compares one precision and one instruction set on a few field values with a tolerance; whether a lane permutation or a sign is right for all values and all builds is a statement about all of them.", "anchors": ["include/propagator/propXeon.h: propagateKernelXeon PQ and QCD switches", "include/utils/triSimd.h: vqcd0_pd, vqcd0_ps, kkk_pd, kkk_ps", "include/enum-field.h: VqcdType"]}
{"id": "C50", "title": "Every QCD potential gives the axion the same mass", "statement": "Whatever QCD potential is chosen, at vacuum radius the angle is accelerated by -mA2 R^2 times a function of the angle with slope one at zero, so the mass entering the evolution is the configured axion mass.", "quantifier": "every angle, every scale factor, every mass, each QCD potential, both precisions", "why_tests_cant": "The factor is only visible by comparing different potentials at different scale factors; a test at R = 1 does not see a wrong power of R.", "anchors": ["include/propagator/propXeon.h: zQ, zN, QCD switch", "lib/energy/energyXeon.cpp: zQ"]}
{"id": "C51", "title": "The reported axion energy is the energy of the field", "statement": "The five energies reported for the axion angle are the averages over the whole lattice of the physical gradient, kinetic and potential densities, the map requested with them holds their sum at every site in plain order, so the totals add up to the mean of the map; angle differences are taken as the representative nearest to zero. The answer does not depend on the instruction set, the precision, the number of ranks or the schedule.", "quantifier": "every field, velocity, lattice side, depth, ghost width, number of ranks, vector width, precision, order of the iterations", "why_tests_cant": "A test compares one build on one field with a tolerance; a wrong lane operation in one branch for one instruction set only shows on the first and last row of every vector block.", "anchors": ["lib/energy/energyThetaXeon.cpp: energyThetaKernelXeon", "include/utils/triSimd.h: mod_pd, mod_ps", "lib/energy/energy.cpp: energy"]}
{"id": "C52", "title": "The reported energy of the complex field is the energy of the field", "statement": "The energies reported for the complex field are the sums over all sites, and over the masked sites, of the physical gradient, kinetic and potential densities split into angular and radial part; the split adds up to the full gradient and kinetic energy; a map request stores the angular and the radial density at every site, and only a map request changes the map array. The answer does not depend on the instruction set, the precision, the number of threads or the schedule.", "quantifier": "every field and velocity without zeros, shift, lattice side, depth, ghost width, mask, vector width, precision, potential, request, order of the iterations", "why_tests_cant": "A test compares one build with one request on one field; a reduction clause that misses a variable shows only with several threads, a truncated factor only at some times, a read beyond an array not at all.", "anchors": ["lib/energy/energyXeon.cpp: energyKernelXeon, energyXeon", "include/enum-field.h: EnType"]}
{"id": "C53", "title": "The energies in the measurement file are averages over the whole lattice", "statement": "A call for the energy returns, and the measurement file stores under the name of each quantity, the average of that energy density over all sites of the whole lattice, or over all masked sites; the answer is the same for every number of ranks. A request that cannot be served is not answered with numbers, and a request without map leaves the map array alone.", "quantifier": "every field, lattice, number of ranks, mask, request, field type, precision, low memory or not", "why_tests_cant": "A test runs one rank and one request; a flag that overlaps with another, or an array that keeps zeros because the call returned early, gives plausible numbers.", "anchors": ["lib/energy/energy.cpp: energy", "lib/io/readWrite.pHdf5.cpp: writeEnergy", "lib/meas/measa.cpp: ENERGY BLOCK", "include/enum-field.h: EnType, EnergyIdx"]}
{"id": "C54", "title": "Changing between the complex field and the angle keeps field and velocity", "statement": "Converting the complex field in place gives at every site R times the argument of the field relative to the vacuum and the time derivative of that product; converting back gives R e^(i theta) and its time derivative; going to the complex field and back returns field and velocity up to whole turns; initial conditions given as an angle become the complex field with its derivative. The memory layout changes in place without any site being read after it was overwritten.", "quantifier": "every field without zeros, every lattice side, depth and ghost width, every order of the threads, every background R(t)", "why_tests_cant": "A test on one lattice with one thread count cannot show that no schedule lets the two arrays overlap, and a wrong term in the velocity is invisible at R' = 1 or theta = 0.", "anchors": ["lib/scalar/thetaXeon.cpp: toThetaKernelXeon", "lib/scalar/thetaScalar.cpp: cmplxToTheta", "include/utils/simpleops.h: ctheta2csaxion", "lib/scalar/theta2CmplxXeon.cpp: th2cxXeon"]}
{"id": "C55", "title": "The shift names the vacuum of the potential in use", "statement": "A uniform field at R (1 + Saskia()) feels no force from the symmetry breaking and QCD potential of the run and is the minimum of their sum; asked for another time, the shift of that time is returned.", "quantifier": "every axion mass and coupling, every scale factor, every pair of potentials, both precisions, all vector widths", "why_tests_cant": "The closed formula has two branches and the minimum property is over the whole plane; a test sees sample values only.", "anchors": ["lib/scalar/scalarField.cpp: SaxionShift, Saskia", "include/scalar/scalarField.h: rsvPQ2", "include/propagator/propXeon.h: propagateKernelXeon"]}
{"id": "C56", "title": "Normalising the field keeps every phase", "statement": "Normalisation sets the modulus of every site of the rank to one and keeps its phase. The profile of string cores keeps every phase and sets a modulus between zero and one that depends only on the gradient of the phase over the six periodic neighbours. Neither depends on the order of the threads, and neither changes the velocity.", "quantifier": "every field without zeros, every lattice side, depth and ghost width, every order of the threads, low memory or not", "why_tests_cant": "Bounds over all gradients and independence of the schedule cannot be sampled.", "anchors": ["lib/scalar/normXeon.cpp: normXeon", "lib/scalar/normCoreXeon.cpp: normCoreKernelXeon"]}
{"id": "C57", "title": "A smaller configuration is expanded by interpolation", "statement": "A configuration read into a larger lattice is replaced by its linear interpolation in the three directions on the whole periodic lattice: points common to both lattices keep their values, no value leaves the range of the file, and the result depends neither on the number of ranks nor on the threads.", "quantifier": "every configuration, every lattice side, depth and ghost width larger than those of the file, every number of ranks and interleaving of the threads", "why_tests_cant": "Which thread writes a point last, and the seam between ranks, depend on sizes and schedule; a test fixes both.", "anchors": ["include/utils/simpleops.h: expandField", "lib/io/readWrite.pHdf5.cpp: readConf"]}
{"id": "C58", "title": "A kick of the axion angle solves its field equation", "statement": "Every substep of the axion propagator adds to the stored field and velocity the increments of the field equation of the angle in the expanding universe, with the periodic Laplacian of the lattice and the chosen potential, for both precisions and every instruction set; storing the angle modulo a turn changes nothing but the representative.", "quantifier": "every lattice, stencil radius, block size, order of the threads, build, potential, state and time", "why_tests_cant": "The vector code has a branch for every precision, instruction set, potential and wrap mode; tests run one of them on one grid length.", "anchors": ["include/propagator/propThetaXeon.h: propThetaKernelXeon, updateMThetaXeon", "include/propagator/propClass.h: tRunCpu"]}
{"id": "C59", "title": "A run on any number of ranks is the evolution of one lattice", "statement": "Any number of substeps of the axion or saxion propagator on any number of ranks, with messages received while the inner slices are being updated, never reads or writes outside the arrays and leaves on the ranks exactly the field and velocity obtained by applying the same substeps to one periodic lattice; so two runs with different numbers of ranks, vector widths, tile sizes and thread orders end with the same values at every site.", "quantifier": "every number of ranks, slab depth, vector width, stencil radius up to five, tile size, order of threads and message bytes, contents of the ghost slices during the exchange, sequence of substeps and initial state", "why_tests_cant": "Needs every decomposition and interleaving; a test compares two of them on one machine.", "anchors": ["include/propagator/propClass.h: tRunCpu, sRunCpu", "src/scalar/scalarField.cpp: sendGhosts, exchangeGhosts", "include/propagator/propThetaXeon.h", "include/propagator/propXeon.h"]}
{"id": "C60", "title": "The gravitational potential solves the Poisson equation of the density contrast", "statement": "Given a density on the lattice, calculateGraviPotential leaves in the second array the unique potential with zero mean whose Laplacian is the density minus its mean, on every rank, for every number of ranks and order of the threads. The hybrid method subtracts the mean over all ranks, sets up its coarse grid by sampling one site per block and refilling the blocks, divides every mode by its own wave number, and relaxes with a sweep that leaves exactly the solutions of the discrete Poisson equation unchanged.", "quantifier": "every number of ranks dividing the sides, side, depth, density, spacing, thread order, vector width, reduction factor and stencil radius up to five", "why_tests_cant": "Needs every density and decomposition at once, and the exact transform; a test sees rounded values of one density.", "anchors": ["include/gravity/potentialClass.h: GraCpu, GraHybridCpu, mean, ilap, rfuap, eguf, normaliseField", "include/gravity/gravityPaxionXeon.h: KIDI_SOR"]}
{"id": "C61", "title": "The last stage of a run evolves every mode of the field with the phase of its own frequency", "statement": "WKB(field, field)(zEnd) takes the field and its derivative from their present time to zEnd: the Fourier amplitude of every mode at zEnd is the one the adiabatic solution of its own equation of motion gives, the phase being the integral of the frequency. The result is real, the Wronskian of any two solutions is kept, going to the present time changes nothing, two stages do the same as one, and the table of phases covers every mode. The result does not depend on the number of ranks or the order of the threads.", "quantifier": "every number of ranks, side, ghost depth, field, derivative, initial and final time, exponent of the mass above -2, thread order", "why_tests_cant": "Needs every mode, time and decomposition at once, and the exact integral of the frequency; a test compares rounded numbers for one field.", "anchors": ["lib/WKB/WKB.cpp: con2F1, calculatePhiexact, buildlookuptable, WKB constructor (one field), doWKBinplace"]}
{"id": "C62", "title": "Rates of change and time integrals of the background agree with the background", "statement": "Rp(ct) and Rpp(ct) are the first and second derivative of R(ct) over R(ct); DAxionMass2Dct(ct) is the derivative of AxionMass2(ct); DlogMARDlogct(ct) is the logarithmic derivative of the axion mass times R; IAxionMassSqn(z0,z,n) is the integral of AxionMass2 R^n from z0 to z and IIAxionMassSqn(z0,z,n) the integral of that. Each holds for every cosmology the command line allows, with the mass law as AxionMass2 itself reports it.", "quantifier": "every expansion exponent, mass exponent, threshold, restore time, matter term, tabulated functions, pair of times in either order, power n", "why_tests_cant": "The derivative and the integral of a function are statements about all real times; a test evaluates both sides at a few times and cannot tell a missing factor of order one from an error of the quadrature.", "anchors": ["lib/cosmos/cosmos.cpp: Rp, Rpp, R, AxionMass2, DAxionMass2Dct, DlogMARDlogct", "lib/scalar/scalarField.cpp: IAxionMassSqn, IIAxionMassSqn"]}
{"id": "C63", "title": "The nonrelativistic propagator evolves one complex field by exact, reversible pieces", "statement": "A step of the Paxion propagator leaves on the ranks the complex field of one periodic lattice after a half step of the potential, the kicks and drifts of the stages and another half step of the potential, for every number of ranks, every order of messages and vectors, and any gravitational potential. A potential operation is the exact evolution of every site under i beta |psi|^2 psi / (8 R^2) over its time and keeps the number density; a kick uses the exact integral of 1/(m_A R); every operation is undone by the opposite one and keeps areas. The potential acts over the whole step and time advances by dz.", "quantifier": "every number of ranks, lattice size, vector width, ghost depth up to 5, list of operations, order of messages and vectors, contents of the ghost slices in flight, coupling, expansion exponent, mass exponent, time step and integrator", "why_tests_cant": "The evolution of a site is the solution of a differential equation for all initial values and time spans, and the independence of rank count ranges over all message and thread orders; a test compares a few sites after a few steps within a tolerance larger than the error of a misplaced half step.", "anchors": ["include/propagator/propPaxXeon.h: propagatePaxKernelXeon", "include/propagator/propClass.h:1079-1169: pRunCpu", "lib/propagator/propagator.cpp: coefficient tables"]}
{"id": "C64", "title": "The nonrelativistic fields hold the slow part of the axion, and their kernels evolve it", "statement": "Converting the axion to the Paxion or the Naxion stays inside the arrays and leaves at every site the complex amplitude whose squared modulus is the energy of the site over the mass; the adiabatic term makes the real part change at the rate m_A R times the imaginary part. The kernels integrate the equation that this amplitude obeys on average over an oscillation, and conserve the number of particles. A run of the Naxion kernel does not depend on the number of ranks.", "quantifier": "every number of sites, ghost slices and allocated cells, order of the threads, field, velocity, mass, scale factor, coupling, expansion exponent, list of stages, number of ranks, message order", "why_tests_cant": "The averaged equation is an integral over the phase for all amplitudes, the growth of the number holds for all fields and any number of stages, and the array overrun depends on a ghost depth that default runs do not use; a short run on a smooth field shows none of them.", "anchors": ["lib/scalar/theta2PaxionXeon.cpp: th2PaxionXeon", "lib/scalar/theta2NaxionXeon.cpp: th2NaxionXeon", "include/propagator/propNaxXeon.h: propagateNaxKernelXeon", "include/propagator/propClass.h:1028-1053: nRunCpu", "lib/scalar/scalarField.cpp:208-236: allocation of an axion"]}
{"id": "C65", "title": "The energy reported for the Paxion is the average energy of the axion it stands for", "statement": "The totals reported for the nonrelativistic field are the sums over the sites of its gradient energy |grad psi|^2/(2 m R^5), its comoving number density |psi|^2 and its self interaction -|psi|^4/(16 R^6), which are the energies of the axion averaged over an oscillation. The maps hold the number density and the energy density of each site and stay inside the array allocated for them. The result does not depend on the instruction set.", "quantifier": "every field, lattice side that is a multiple of the vector length with two rows per block, depth, ghost width, time, mass, lattice spacing, order of the iterations, instruction set and precision", "why_tests_cant": "Vectors at the edge of a block are a small fraction of a large lattice, the extra factor is one at R = 1, and the overrun of the map depends on a ghost width; the average over the phase is an integral for all amplitudes.", "anchors": ["lib/energy/energyPaxionXeon.cpp: energyPaxionKernelXeon, energyPaxionCpu", "lib/scalar/scalarField.cpp:294-310: allocation of m2"]}
{"id": "C66", "title": "Initial conditions in momentum space have the documented spectrum on any number of ranks and threads", "statement": "Every mode of the box is set by exactly one cell of one rank, with random numbers that no other mode uses. Without random moduli its amplitude is the documented function of its length, for every number of ranks and threads, and modes beyond kmax are zero. The zero mode is exp(i mode0) if mode0 is given. A table of amplitudes is read inside its bounds and interpolated. The velocity stored with a field of axion waves is its time derivative. The modes of a string given by points are computed from all its segments.", "quantifier": "every lattice, number of ranks, order of the iterations and assignment to threads, sequence of random numbers, spectrum type, table, initial memory and list of points", "why_tests_cant": "The fields are random, so tests only see histograms; modes lost on a rank, numbers used twice, or modes left over from earlier memory are invisible in them.", "anchors": ["lib/gen/momConf.cpp: momXeon, momConf", "include/enum-field.h:878-895: MomParms", "lib/utils/parse.cpp:380-385: help text of kmax"]}
{"id": "C67", "title": "Initial conditions set point by point are the documented functions of position on any number of ranks and threads", "statement": "Every cell of every rank gets the value of the chosen type at its own position in the whole box, with random numbers no other cell uses, whatever the threads do. Types without random numbers give the same field for every number of threads and ranks. Noise, waves and bumps have the documented height mode0, in both precisions. The field of a string loop is smooth away from its circle and winds once around it.", "quantifier": "every lattice, number of ranks, order of the iterations and assignment to threads, sequence of random numbers, type, parameters and initial memory", "why_tests_cant": "Tests look at small cubic grids, one rank, one precision and single parameter values; a constant replaced by its truth value or a slab offset by the wrong amount still gives a plausible field.", "anchors": ["lib/gen/randXeon.cpp: randXeon, randConf", "include/enum-field.h:314-330: ConfsubType", "lib/utils/parse.cpp:368-378: help text of smvar"]}
{"id": "C68", "title": "A string given by a file of points gets the phase of the field of Biot and Savart", "statement": "For a string given by points, the phase of the field changes along every lattice link by half the integral of the law of Biot and Savart over the segments of the file and of its periodic copies one box above and below. The result does not depend on threads or ranks, and running the string backwards gives the opposite phase.", "quantifier": "every list of points and marks, lattice, number of ranks, order of the parallel iterations and initial memory", "why_tests_cant": "The phase of one string on one rank looks right although the lower copy is 2^64 away, although ranks above the first start from a wrong phase, and although the ten samples near a segment are not symmetric.", "anchors": ["lib/gen/anystringXeon.cpp: int0, mora, anystringXeon", "lib/gen/genConf.cpp:1466-1560: confstring2"]}
{"id": "C69", "title": "The evolution starts from the conformal field and its rate, at the time asked for", "statement": "Whatever configuration is generated, the evolution starts with the scale factor times the field, and with the rate of that product in conformal time. Evolution before the start (prepropagation) ends exactly at the start time and leaves coupling, exponent and damping as they were. Averages used to normalise are those of the whole lattice, for any number of ranks.", "quantifier": "every lattice, field, expansion, kick, number of ranks, sequence of proposed steps and order of the parallel iterations", "why_tests_cant": "The copied velocity is right in radiation, which tests use; one ghost slice hides the writes past the velocity; one thread hides the race; the damping left on changes the later evolution only gradually.", "anchors": ["lib/gen/genConf.cpp: runCpu, confsmooth, conflola, confcole, confspax, conftkac, putxi, anymean, susum, mulmul, axby", "lib/gen/prepropa.cpp: prepropa2, findct2", "lib/scalar/scaleXeon.cpp: scaleXeon", "lib/scalar/scalarField.cpp:206-222"]}
{"id": "C70", "title": "The N-body snapshot (void kind) holds the particles of the field", "statement": "The snapshot written for an N-body code has one particle for each point of the grid, at the place of the point, with a mass in proportion to the density there and a velocity from the gradient of the phase. The masses add up to the mass of the box. Identity numbers are unique, every announced place of the file is filled, and the result does not depend on the number of ranks.", "quantifier": "every grid, field, number of ranks, number of particles, displacement and order of the parallel iterations", "why_tests_cant": "A test looks at one small grid: the product in 32 bits is right below 1626 points per side, writes far outside an allocation may hit memory nobody uses, a factor of the lattice spacing in the velocities looks like a choice of units, and the lost smoothed component is still a plausible number.", "anchors": ["lib/gadget/gadget_output.cpp: grad_idx, set_velo_fields, gaussSmooth, CIC_interp, createGadget_Void", "test/gadgetme.cpp:48-86", "lib/scalar/scalarField.cpp:237-301", "include/utils/index.h: idx2VecNeigh"]}
{"id": "C71", "title": "The N-body snapshot (halo kind) has the particles that the densities call for", "statement": "In the snapshot of the halo kind every point of the grid gets a whole number of particles, its density rounded down or up, so that the particles of all ranks add up to the number asked for. The file holds, for every point, exactly the particles decided for it, whatever ranks have too many or too few; particles are handed from rank to rank without loss, and the run ends.", "quantifier": "every grid, density, number of ranks and particles, every sequence of random draws and every distribution of the particles over points and ranks", "why_tests_cant": "The draws are seeded from the random device, so no test sees the same run twice. Waiting for ever needs a rank whose last point has more particles left than it is asked for; the cell behind the last point is drawn once in as many turns as there are points.", "anchors": ["lib/gadget/gadget_output.cpp: createGadget_Halo (801-1710)"]}
{"id": "C72", "title": "The axion spectra are spectra of the derivatives of the phase", "statement": "The arrays that are transformed for the kinetic, gradient and potential spectra of a complex field hold, at every site, the rate of change of the phase, its difference along x, y and z and the potential of the phase, times the factor of the chosen mask; the correction near strings stays inside its tables and does not depend on units; the division by the table of lattice factors makes the gradient spectrum that of the derivative; every data set written holds the spectrum of its name.", "quantifier": "every grid, rank, order of the sites over the threads, mask, field, string map and run type", "why_tests_cant": "The numbers are transformed, squared and summed over shells, so a site with a wrong value changes no bin visibly; strings, masks and long boxes are rare in tests, and the two halves of the work array are shared.", "anchors": ["lib/utils/kgvops.cpp: stringcorre (24-148), buildc_k (181-301), buildc_gx (422-525), buildc_gyz (635-744), buildc_v (849-945)", "lib/spectrum/spectrum.cpp: SpecBin::SpecBin tables (22-38), nRun (1002-1560)", "include/spectrum/LLUTs.h: 6-12", "lib/meas/measa.cpp: 645-729"]}
{"id": "C73", "title": "Spectra add up to the energy; saxion spectra are spectra of the modulus", "statement": "The bins of a stored spectrum add up to the energy of the array it was taken of, on any number of ranks and threads; no bin a user divides by is empty; the saxion spectra are taken of the rate of change and of the displacement of the modulus; the spectrum of the energy is taken of the energy; every data set with a saxion name holds a saxion spectrum; the matrix of a mask is symmetric and does not depend on the ranks.", "quantifier": "every grid, number of ranks, threads and bins, mask, field and run type", "why_tests_cant": "The sum over the bins is never formed by the code, so a lost or doubled shell shows nowhere; spectra under the wrong name look like spectra; the matrix is spread over the ranks.", "anchors": ["lib/spectrum/spectrum.cpp: fillBins (41-502), pRun (746-818), nSRun (1749-2037), matrixbuilder (3799-3883)", "include/spectrum/spectrum.h: 60-175", "lib/meas/measa.cpp: 560-790"]}
{"id": "C74", "title": "Masks cover the strings of the whole lattice and nothing far from them", "statement": "A mask of strings starts from the corners of the pierced plaquettes of the whole periodic lattice, however it is split into ranks and whatever the threads do; the diffused mask is complete within its radius of a string, fades, and ends at a known distance; every stored mask is between zero and one; making a mask does not change what the next one is made of; a mark of an axiton that is kept is never lost.", "quantifier": "every lattice, number of ranks, number of ghost slices, string map, radius and order of the threads", "why_tests_cant": "The marks above the last slice travel to the next rank in a slice of bytes, and the diffusion uses an exchange made for complex slices on slices half as long: a fault shows only at the borders of ranks. Masks made one after another are not compared.", "anchors": ["lib/spectrum/spectrum.cpp: masker (2738-3772)", "include/utils/index.h: 14-64", "include/enum-field.h: 71-86", "lib/meas/measa.cpp: 500-516, 592-603"]}
{"id": "C75", "title": "The measured string length and speed are those of the strings of the lattice", "statement": "The point given to a pierced plaquette lies on it, and is the zero of a field linear across it. The length is the sum over the cells of the lattice of the lengths in the cells, the mean over the ways to join the points of their faces, whatever the number of ranks. The speeds stored are averages of speeds below that of light, and a field at rest has speed zero.", "quantifier": "every field without a zero on a link, every lattice, number of ranks and string map", "why_tests_cant": "There is no reference value for a random field, and the results are plausible numbers even when cells at the borders of ranks are left out, a term of a sum is lost or a slice of velocities is stale.", "anchors": ["lib/strings/length.cpp: setCross, stringlength (15-441)", "lib/scalar/scalarField.cpp: HubbleConformal (1200-1209), 205-212"]}
{"id": "C76", "title": "The stored energies of strings, axions and saxions are averages over the field of the box", "statement": "With a mask of string cores, the axion energy stored is twice the mean kinetic energy of the angle and the saxion energy the mean energy of the modulus, over the sites left by the mask; the energy of strings is the mean total less these two. The numbers do not depend on the number of ranks, and the parts of a site never exceed its total.", "quantifier": "every field, rate, mask, box and number of ranks", "why_tests_cant": "The result is a difference of averages of random fields without a reference value; a wrong normalisation, a missing neighbour at the border of a slab or an undefined quotient at a single site show up as plausible numbers or rarely.", "anchors": ["lib/strings/length.cpp: stringenergy (849-965)", "include/enum-field.h: 85, 480-490", "lib/meas/measa.cpp: 617-622"]}
{"id": "C77", "title": "Tabulated functions are interpolated by the cubic spline through the table", "statement": "For any table of three or more rows with increasing abscissae the interpolation succeeds, gives back the tabulated values, is twice continuously differentiable on the whole line, meets the end conditions, is the only piecewise cubic that does so, and reproduces polynomials of degree three. The derivatives it reports are its derivatives.", "quantifier": "every table, end condition, flag and point of evaluation", "why_tests_cant": "Tests evaluate a few tables at a few points; that the elimination never meets a zero pivot, that the pieces join at every point of every table, and what happens at and beyond the ends are statements about all tables and all real numbers.", "anchors": ["include/WKB/spline.h: band_matrix (45-265), set_boundary, set_points (272-374), operator() (376-397), deriv (399-456)", "lib/cosmos/cosmos.cpp: 97, 121-124, 139-142", "lib/WKB/WKB.cpp: 416-417"]}
{"id": "C78", "title": "A cosmology from a file is the table of the file, in units where everything is one at conformal time one", "statement": "With the option for the QCD cosmology all rows of the file are read, the time eta1 found belongs to the scale asked for, scale factor and susceptibility are one at conformal time one, and at every time the functions are the interpolations of the table in the units of the file.", "quantifier": "every file, every scale, every number of turns of the search, every time", "why_tests_cant": "The file shipped and the compiler at hand make one case; what happens with another file, another end of line, a scale outside the table or another value in an uninitialised counter does not show in a test.", "anchors": ["lib/cosmos/cosmos.cpp: Setup (12-165), Rpp, Rp, T (176-227)", "include/cosmos/jaxi-cosmo.txt", "lib/scalar/scalarField.cpp: 96-98"]}
{"id": "C79", "title": "The strings in the measurement file are those of the field", "statement": "The list of positions in the file has one entry for each plaquette of the whole lattice that a string goes through, with its centre in half lattice units; the map in the file has at each site the strings and walls of that site; whatever the number of ranks.", "quantifier": "every field, grid size, lane count, number of ranks, order of threads and of writes", "why_tests_cant": "Messages between ranks, buffers that are just large enough and the order of slabs show their faults only with particular sizes and numbers of ranks.", "anchors": ["lib/strings/strings.cpp: strings2 (336-376)", "lib/io/readWrite.pHdf5.cpp: writeStringCo (2474-2647), writeString (2133-2290)", "lib/meas/measa.cpp: 452-461"]}
{"id": "C80", "title": "A measurement file has what was asked for, under the right names", "statement": "For every combination of measurement options, masks, radii and maps, one measurement leaves in the file exactly the data sets that were asked for, and each holds the quantity and the mask its name tells.", "quantifier": "every combination of option bits, every kind of field, every list of radii and labels, every state left by the previous call", "why_tests_cant": "There are more than 2^40 combinations of options; the contents of shared work arrays depend on the order of the calls before.", "anchors": ["lib/meas/measa.cpp: Measureme (28-1023)", "lib/spectrum/spectrum.cpp: masker, pRun, nRun, nSRun, smoothFourier (states of the arrays)", "lib/io/readWrite.pHdf5.cpp: writeArray, writeMapHdf5s2, writeEDens, writeString, writeEnergy"]}
{"id": "C81", "title": "Groups of dense points are the connected sets", "statement": "After a search in Paxion mode the groups listed by grouptags are exactly the connected sets of points denser than the threshold: every dense point is in one group and only one, no other point is in a group, two dense points are in the same group exactly if a chain of dense neighbours joins them, and the map of labels tells the groups apart.", "quantifier": "every size of the slab, every set of dense points, every assignment of sites to threads and every order, every earlier use of the tracker", "why_tests_cant": "The shape of a group is arbitrary and the number of turns of the growth loop has no bound; tests with round halos on one thread miss the splits.", "anchors": ["include/axiton/trackerClass.h: Group::AddPoint, Tracker::SearchAxitons (Paxion case), Tracker::GroupTags, AddGroup", "include/utils/index.h: idx2VecNeigh", "lib/axiton/tracker.cpp: searchAxitons, grouptags"]}
{"id": "C82", "title": "The spectral propagators integrate the field equation", "statement": "A stage of the spectral propagators, on all ranks together, kicks the velocity of every site with the acceleration of the field equation and drifts the field with the new velocity. The Laplacian in the acceleration is the sum of the second derivatives of the field that the lattice samples, without error for every field with at least two sites in each wavelength, and the force is minus the gradient of the potential of the comoving field.", "quantifier": "every number of ranks, lattice size, field and velocity, vector length that divides a line (axion) or the slab (saxion), list of stages with any parameters, order in which the threads work", "why_tests_cant": "The mode loop, the layout of the transformed data on each rank and the normalisation only show up together, on data that depends on all sites of all ranks; a test compares few fields on few rank counts.", "anchors": ["lib/propagator/laplacian.cpp: Laplacian::lapCpu", "include/propagator/propClass.h: tSpecCpu, sSpecCpu", "include/propagator/sPropThetaXeon.h: sPropThetaKernelXeon", "include/propagator/sPropXeon.h: sPropKernelXeon"]}
{"id": "C83", "title": "The full spectral propagators solve the wave part exactly", "statement": "A run of the full spectral propagators, from a field in configuration space through any number of stages in momentum space and back, gives on all ranks together the field that alternating kicks with the force of the potential and exact solutions of the wave equation give. Without force the result is the free field at the end of the run, however the time was divided into steps.", "quantifier": "every number of ranks, lattice size, field and velocity, number of stages and parameters of each, vector length that divides half a line (saxion) or any (axion), order in which the threads work", "why_tests_cant": "The field is never in configuration space between the stages and the zero mode, the conjugate half of the spectrum and the wrapped wave numbers are treated separately on each rank; that the outcome is the exact flow of a differential equation for all fields is beyond comparison of examples.", "anchors": ["include/propagator/propClass.h: tFpecCpu, sFpecCpu", "include/propagator/fsPropThetaXeon.h: fsAccKernelThetaXeon, fsPropKernelThetaXeon", "include/propagator/fsPropXeon.h: fsAccKernelXeon, fsPropKernelXeon", "lib/scalar/fourier.cpp: ftField, iftField", "lib/fft/fftCode.cpp: FFTplan"]}
{"id": "C84", "title": "The spectra of the axion field add up to its energies", "statement": "Taking the spectra of an axion field gives, on every rank, the power of the velocity, of the gradient, of the field and of 2R sin(psi/2R) in shells of momenta. The bins add up to the kinetic energy, the gradient energy, m^2 R^2 psi^2/2 and m^2 R^4 (1 - cos(psi/R)) in the box. With a mask the sums are those of the field without the marked sites. Spectra that were not asked for are zero, and the field is not changed.", "quantifier": "every number of ranks and threads, lattice size, number of bins, field, velocity and set of marked sites, combination of spectra asked for, order in which the threads work, content of the bins before", "why_tests_cant": "The field is padded, transformed in place over all ranks, weighed by half of the modes and reduced; that the sum of bins is the energy for all fields is an identity (Parseval, and the half-angle formula) and not a number to compare.", "anchors": ["lib/spectrum/spectrum.cpp: SpecBin::nRun (FIELD_AXION), fillBins", "include/spectrum/spectrum.h: SpecBin", "lib/meas/measa.cpp: spectra"]}
{"id": "C85", "title": "Smoothing in Fourier space", "statement": "smoothFourier(R, filter) leaves in m2 the energy map smoothed over the length R, whether the map was in m2 or in m2half, bare or transformed. Calling it again, with other lengths and filters, smooths the original map and not the result of the call before. The mean is kept, the variance is never raised, R = 0 changes nothing, and the result at a site is an average over the map with weights that depend on the distance only and add up to one.", "quantifier": "every number of ranks, lattice size with Lz <= Ng*Ly, map, filter, length, sequence of calls with any other use of m2 in between, order in which the threads work", "why_tests_cant": "The function is a small state machine over two arrays that share an allocation, followed by a filter on half-complex modes divided over the ranks; that the hundredth call still smooths the original, for every map, needs an invariant.", "anchors": ["lib/spectrum/spectrum.cpp: SpecBin::smoothFourier, pad, unpad", "include/spectrum/spectrum.h: SpecBin", "lib/meas/measa.cpp: MEAS_MULTICON"]}
{"id": "C86", "title": "The generated list of measurements is spaced in the logarithm", "statement": "The list that --measlistlog writes starts at the logarithm given by --zi, goes on in steps of 1/dump in log(m_s/H), is strictly increasing, and ends at zFinl. A run that reads it back measures at exactly these times from its own time on, always the kind asked for, and ends at zFinl.", "quantifier": "every box, lattice, msa, final time, start, dump, kind of lambda, time of the run that reads the file, way to print numbers that keeps their order", "why_tests_cant": "The number of lines and every time on them depend on real parameters, and the file goes through a second program; tests would compare a few lists by eye.", "anchors": ["lib/utils/parse.cpp: createMeasLogList", "test/vaxions.cpp: readheader, readmeasline2, readmeasfile"]}
{"id": "C87", "title": "A saxion run integrates the field equation and keeps its symmetries", "statement": "A run of the saxion propagator, on any number of ranks, in either precision and with any instruction set, has no undefined access and leaves in the arrays the lattice evolved by kick and drift of the equation of motion: Laplacian plus expansion minus the gradient of the potentials, with friction. Without a QCD potential a constant phase of the field stays a constant phase and the Peccei-Quinn charge is kept exactly, or lowered by the factor of the friction in each substep; the conjugate field evolves into the conjugate.", "quantifier": "every lattice, field, velocity, list of substeps with their parameters, potential and damping in the stated set, number of ranks, precision, instruction set, order of vectors and of messages, contents of ghosts in flight", "why_tests_cant": "The statement is about whole runs of any length on any division of any lattice; a conserved quantity can only be tested on samples, up to rounding and up to a tolerance that hides errors of the kernel.", "anchors": ["include/propagator/propXeon.h: propagateKernelXeon", "include/propagator/propClass.h: propLoop, sRunCpu", "include/propagator/propBase.h"]}
{"id": "C88", "title": "Symmetries and conserved sums of axion runs", "statement": "A run of the axion propagator on any number of ranks takes the negative of a field to the negative of the result, for every potential and with or without wrapping around the circle. Without potential and without second derivative of the scale factor the sum of all velocities is the same after the run, also with wrapping. With plain differences and no potential or the quadratic one in double precision runs can be superposed, a plane wave stays this wave with the amplitude of an oscillator whose frequency is that of the difference operator, and the mean of the field moves like a homogeneous field.", "quantifier": "every lattice, field, velocity, list of substeps with their parameters, number of ranks, vector width, order of vectors and of messages, contents of ghosts in flight", "why_tests_cant": "Conserved sums and superposition are statements about all runs of any length; a test sees samples up to rounding.", "anchors": ["include/propagator/propThetaXeon.h: propThetaKernelXeon", "include/utils/triSimd.h: mod_pd, mod_ps", "include/propagator/propClass.h: tRunCpu"]}
{"id": "C89", "title": "Runs have no preferred origin, direction or axis", "statement": "A run of the axion or of the saxion propagator that starts from a field moved to another origin, reflected, or with axes exchanged ends with the result moved, reflected or exchanged in the same way. This holds for any sequence of such symmetries; the z axis, which is divided among the ranks, can be exchanged with another when the box is a cube. So neither the borders between ranks, nor the folding of the slices, nor the order of the passes can be seen in the result.", "quantifier": "every lattice, field, velocity, sequence of symmetries, list of substeps with their options, number of ranks, vector width, order of vectors and of messages, contents of ghosts in flight", "why_tests_cant": "The symmetry holds for all fields and runs of any length; z is treated by other code than x and y (ghosts, folding), and a test compares one pair of runs up to rounding.", "anchors": ["include/propagator/propThetaXeon.h: propThetaKernelXeon", "include/propagator/propXeon.h: propagateKernelXeon", "include/propagator/propClass.h: tRunCpu, sRunCpu", "lib/scalar/scalarField.cpp: sendGhosts, exchangeGhosts"]}
{"id": "C90", "title": "Strings thin out before the start until the number asked for", "statement": "With VILGORK initial conditions and prepropagation, the field that the relaxation with damping hands over is one step after the first field of the evolution with no more pierced plaquettes than the fit to the logarithm asked for gives, times kCrit if --sIter is positive. No step is taken if the share asked for is one or more, and the loop goes on for ever exactly if the number never gets so low. The clock never passes the time whose logarithm was asked for and stays there. Without damping the evolution ends at the first field after fewer plaquettes than asked for, or at 1.2 times the estimated time. Printing files on the way (--icstudy) should not change any of this.", "quantifier": "every evolution of the field, rule for the step, expansion, number of sites, logarithm asked for, msa, spacing, iter, kCrit, measurement type", "why_tests_cant": "The loop depends on counts along an evolution of unknown length and may not end; a test shows that one run ended.", "anchors": ["lib/gen/prepropa.cpp: prepropa, relaxrho", "lib/meas/measa.cpp: Measureme", "lib/gen/genConf.cpp: CONF_VILGORK"]}
{"id": "C91", "title": "A change travels at most as many links per substep as the stencil is wide", "statement": "If two runs of the axion or of the saxion propagator start from fields that agree at all sites up to d + k*NN links from a site, they agree after k substeps with the same parameters at all sites up to d links from it, where NN is the number of neighbours of the stencil and links are counted through periodic borders and through those of the ranks. So nothing in the exchange of ghosts, in the folding or in the order of the passes carries anything further. The number is exact: after k substeps a displaced site is felt at distance k*NN.", "quantifier": "every pair of fields, lattice, list of substeps with their options, number of ranks, vector width, order of vectors and of messages, contents of ghosts in flight, site, distance", "why_tests_cant": "Causality is a statement about all pairs of fields and all distances; a stray read shows only if the values there differ.", "anchors": ["include/propagator/propThetaXeon.h: propThetaKernelXeon", "include/propagator/propXeon.h: propagateKernelXeon", "include/propagator/propClass.h: tRunCpu, sRunCpu", "lib/scalar/scalarField.cpp: sendGhosts, exchangeGhosts"]}
{"id": "C92", "title": "Leapfrog steps of the computed size are stable", "statement": "In a universe that does not expand (--frw 0), for the free axion field (no potential or the quadratic one, plain differences), steps of one size with the leapfrog or the multiple leapfrog keep exactly a quantity that is the energy plus a correction of second order in the step, for every periodic field, stencil and mass. With the step size of dzSize and a safety factor --wDz up to 3 (leapfrog) or 6 (multiple leapfrog) the field therefore never blows up: after any number of steps the sums of squared velocities and, with a mass, of squared field values are bounded by the energy at the start, for all five stencils although dzSize only knows the narrowest. With a factor above 4 (or 8) the field that alternates from site to site grows without bound.", "quantifier": "For all box sizes, periodic fields and velocities, spacings, masses, numbers of steps, stencil radii 1 to 5 with the weights of the code, safety factors in the stated ranges.", "why_tests_cant": "A run that blows up does so after a number of steps that depends on the initial data and the step; a test takes finitely many steps from one field. Boundedness for ever follows from a conserved quantity.", "anchors": ["lib/scalar/scalarField.cpp:1342-1406", "lib/scalar/scalarField.cpp:1515-1541", "lib/propagator/propagator.cpp:20-100", "include/propagator/propClass.h:496-578", "include/propagator/propThetaXeon.h:115-318"]}
{"id": "C93", "title": "Density maps in a measurement file", "statement": "A call of writeEDens writes exactly the maps that were asked for and that the field has (no radial map for an angle). Whatever the number of ranks and the order in which they write, each map has one number for each site of the lattice (or of the reduced lattice), no number is left unwritten, and the number of a site is the one its rank had in memory, in global order with x fastest. So after the energy has been computed with a map request, the file holds at every site of the whole lattice the axion energy density (angular and radial density for the complex field), and after a reduction the interpolation of the angular map at the reduced sites. A call that asks for nothing writes nothing. A map that is already in the group ends the program.", "quantifier": "For all lattice sizes, ghost widths, numbers of ranks, orders of writing, field types, request bits, fields and previous contents of the file.", "why_tests_cant": "An interleaving of the ranks cannot be fixed in a test, and elements that are never written keep what the file system had, which is often zero or the right value of an earlier run.", "anchors": ["lib/io/readWrite.pHdf5.cpp:3019-3343", "include/enum-field.h", "lib/meas/measa.cpp:225-240", "lib/meas/measa.cpp:380-392", "lib/energy/energyXeon.cpp:473-1357", "include/scalar/scalarField.h"]}
{"id": "C94", "title": "Extremes over all ranks and the density map in bytes", "statement": "find gives the maximum (minimum) over all numbers of all ranks, whatever the number of ranks and threads and the split of the work. The map of cDensityMap gives every cell a level from 0 to 255 on one logarithmic scale for all ranks: of two cells anywhere on the lattice the larger has the higher or the same level, cells up to 1/1000 have level 0, the maximum has 255, and from the level and the stored extremes the number can be recovered up to a factor (max / max(min, 1/1000))^(1/510).", "quantifier": "For all numbers of ranks, cells and threads, all splits and orders of the iterations, all real data that are not all equal.", "why_tests_cant": "The split over threads and ranks is not under the control of a test; the error bound is a statement about all real numbers.", "anchors": ["include/utils/binner.h:325-365", "lib/energy/dContrast.cpp:12-88"]}
{"id": "C95", "title": "Symmetric fields stay symmetric, uniform fields stay uniform", "statement": "Whatever symmetries the field has at the beginning of a run (shifts, reflections, exchanges of axes and what is made of them), it has at the end: a wall that depends on z only stays one, a field with a centre keeps it. A uniform field stays uniform, and its value and velocity after the run are the same on every lattice: they depend on the steps only, not on the number of sites, the stencil, the vectors, the ranks or the threads. For the complex field they follow the equation of a single point.", "quantifier": "For all lattices that fit, all numbers of ranks, ghost slices, vectors, tilings and orders of the sweeps, all lists of substeps, all fields with the symmetry.", "why_tests_cant": "A test runs one field with one layout; rank boundaries, folded rows and ghost slices could break a symmetry on layouts not tried.", "anchors": ["include/propagator/propThetaXeon.h: propThetaKernelXeon", "include/propagator/propXeon.h: propagateKernelXeon", "include/propagator/propClass.h: tRunCpu, sRunCpu", "lib/scalar/scalarField.cpp: sendGhosts, exchangeGhosts"]}
{"id": "C96", "title": "The correction of velocities and gradients next to strings", "statement": "At sites near a string the velocity and gradients of the axion are taken from two tables instead of the formula for the phase. No entry behind the end of the tables is read, the result is a number unless the field is exactly zero, it is bounded by the largest entry times the velocity over the larger gradient, and away from strings it is the velocity of the phase. The result is the interpolation of the tabulated function in all four variables. It respects the symmetries of the field: half a turn changes nothing, complex conjugation and exchange of real and imaginary part change the sign.", "quantifier": "For all fields, velocities and gradients (real numbers), all contents of the tables.", "why_tests_cant": "The tables have 85176 entries in four variables; a test of some sites cannot show that no combination reads behind the end or that the entries taken are neighbours.", "anchors": ["lib/utils/kgvops.cpp:23-154 stringcorre", "lib/utils/kgvops.cpp:215-262, 440-488, 655-705", "include/spectrum/LLUTs.h:6-12"]}
{"id": "C97", "title": "The choice of the calculation of the gravitational potential", "statement": "Tuning compares the full calculation with the reductions by 2, 4, 8 and 16, each once, and afterwards the potential is calculated in a way that none of the others was faster than. The plan of the transform and the smoothing always fit the reduction in use. All ranks use the same calculation.", "quantifier": "For all clocks (the time may depend on the number of the call and on what is run), all states before, all numbers of ranks.", "why_tests_cant": "Times are not under the control of a test; whether ranks decide alike depends on differences of clocks that a test run does not show.", "anchors": ["include/gravity/potentialClass.h:196-247 tunehybrid", "include/gravity/potentialClass.h:128-143", "lib/gravity/potential.cpp:56-99", "test/Paxions.cpp:171"]}
{"id": "C98", "title": "Smoothing and reduction of density maps", "statement": "filter multiplies every Fourier mode by the transform of a Gaussian and keeps the mean, then keeps every s-th site of every s-th row of every s-th slice, in place, no number being overwritten before it is used. Over the ranks the slices kept are equidistant.", "quantifier": "For all lattice sizes, reductions, ranks, maps and modes.", "why_tests_cant": "In-place moves depend on the order for every combination of sizes; the smoothing on lattices that are not cubic and reductions that do not divide the slices of a rank are not among the cases tried.", "anchors": ["lib/spectrum/spectrum.cpp:2414-2452 filterFFT", "lib/spectrum/spectrum.cpp:2458-2552 filter", "test/contrastmap.cpp:145"]}
{"id": "C99", "title": "The matrix that corrects spectra of masked fields", "statement": "On rank 0 the matrix stands complete, element (i, j) at i nbins + j, whatever the number of ranks, also if it does not divide the bins. An element is the sum over the spectrum of the mask times the coupling of the three shells: zero unless they form triangles, the volume over the number of modes if one is the mode zero, else vol/(8 pi i j k). The matrix is symmetric, without a mask it is diagonal, and no bin behind the last is used.", "quantifier": "For all numbers of bins and ranks, all spectra of the mask and numbers of modes.", "why_tests_cant": "Numbers of ranks that do not divide the bins and all triples of shells are too many to try; the sum is over real numbers.", "anchors": ["lib/spectrum/spectrum.cpp:3779-3883 matrixbuilder"]}
{"id": "C100", "title": "Configurations in Moore's format", "statement": "After a configuration in Moore's format is read, the field at every site is the scale factor times the angle of the file brought into [-pi, pi), so that the phase is unchanged and whole turns in the file do not matter. The velocity is the scale factor times that of the file minus the converted field. Ghosts and everything else in the buffers stay, for every number of threads.", "quantifier": "For all fields and velocities, scale factors, sizes and orders of the threads.", "why_tests_cant": "Angles are real numbers with any number of turns, the orders of the threads are not under the control of a test.", "anchors": ["include/utils/simpleops.h:77-145 axby, unMoor", "lib/io/readWrite.pHdf5.cpp:1470-1480 readConf"]}
