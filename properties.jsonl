{"id": "C01", "title": "convolve returns every row in place", "statement": "When convolver::convolve finishes without error on every rank, each rank's pointing buffer has the same number of rows as before, row i still carries the phi, theta and psi it had on input, and only the signal and time columns have changed.", "quantifier": "all numbers of ranks, all distributions of rows over ranks (including empty ranks), all in-range pointings, all outcomes of the unstable sort, all colatitude boundaries, any number format with exact small integers", "why_tests_cant": "rows travel through three permutations and two all-to-all exchanges; a test sees one decomposition at a time", "anchors": ["src/conviqt_math.cpp:convolver::convolve", "src/conviqt_math.cpp:convolver::todRedistribution5cm", "src/conviqt_math.cpp:convolver::todgen", "src/conviqt_util.cpp:hpsort_arrTheta"]}
{"id": "C02", "title": "the signal does not depend on the MPI decomposition", "statement": "The signal written for a sample is a function of the sample's (phi, theta, psi) and the convolver only: splitting the same list of samples differently over a different number of ranks gives the same concatenated output, operation for operation (no floating-point reassociation).", "quantifier": "all numbers of ranks and all splittings of the same sample list, arbitrary arithmetic (no algebraic laws assumed on +,*)", "why_tests_cant": "needs all pairs of decompositions and bit-level equality for arbitrary arithmetic", "anchors": ["src/conviqt_math.cpp:convolver::convolve", "src/conviqt_math.cpp:convolver::interpolTOD", "src/conviqt_math.cpp:convolver::conviqt_tod_loop"]}
{"id": "C03", "title": "samples are independent and convolve is permutation-equivariant", "statement": "Adding, removing or permuting other samples does not change the signal of a sample; permuting input rows permutes the output rows in the same way.", "quantifier": "all sample lists, all permutations, all sublists", "why_tests_cant": "quantifies over all permutations and all other samples", "anchors": ["src/conviqt_math.cpp:convolver::convolve", "src/conviqt_math.cpp:convolver::conviqt_tod_loop", "src/conviqt_math.cpp:convolver::itheta0SetUp"]}
{"id": "C04", "title": "the time column is the global sample index", "statement": "After a successful convolve, the fifth column of the row i on rank r is (number of rows on ranks < r) + i, so over the communicator it enumerates 0..N-1 without repetition.", "quantifier": "all numbers of ranks and row counts", "why_tests_cant": "all decompositions", "anchors": ["src/conviqt_math.cpp:convolver::convolve (MPI_Scan)"]}
{"id": "C05", "title": "illegal colatitudes are rejected", "statement": "convolve throws iff some local row has theta < 0 or theta > pi; when it throws the pointing rows are otherwise intact (only the time column was written). NaN colatitudes are expected to be rejected too.", "quantifier": "all pointing buffers, NaN included", "why_tests_cant": "all inputs; the NaN path is undefined behaviour that a test may not exhibit", "anchors": ["src/conviqt_math.cpp:convolver::convolve", "src/conviqt_math.cpp:convolver::distribute_colatitudes", "src/conviqt_math.cpp:convolver::todRedistribution5cm"]}
{"id": "C06", "title": "all ranks take part in the same sequence of collectives", "statement": "For valid input on all ranks, every rank issues the same sequence of MPI collectives with consistent counts, so convolve terminates on every rank for every distribution of samples (including ranks without samples).", "quantifier": "all numbers of ranks, all distributions of rows, all colatitude boundaries", "why_tests_cant": "depends on every combination of empty/non-empty ranks; a hang is not observable by an assertion", "anchors": ["src/conviqt_math.cpp:convolver::convolve", "levels/cxxsupport/ls_mpi_support.h:MPI_Manager"]}
{"id": "C07", "title": "an error on one rank is reported on all ranks", "statement": "If one rank's pointing is illegal, convolve ends on all ranks (with an error), instead of leaving the other ranks blocked in a collective.", "quantifier": "all assignments of legal and illegal rows to ranks", "why_tests_cant": "a hang of another process is not an assertion failure", "anchors": ["src/conviqt_math.cpp:convolver::convolve", "src/conviqt_math.cpp:convolver::distribute_colatitudes"]}
{"id": "C08", "title": "announced send counts are the packed rows", "statement": "The counts exchanged before the redistribution equal exactly the rows later packed for each destination; counts and offsets describe consecutive, non-overlapping segments that cover the send buffer; all accesses of the packing loop are in bounds.", "quantifier": "all pointing lists, all boundary tables (even non-monotone), all rank counts", "why_tests_cant": "two separate passes with a history-dependent owner search must agree for every input", "anchors": ["src/conviqt_math.cpp:convolver::fillingBetaSeg", "src/conviqt_math.cpp:convolver::todRedistribution5cm", "src/conviqt_math.cpp:convolver::ratiobetacalcgreatercm", "src/conviqt_math.cpp:convolver::ratiobetacalcsmallercm"]}
{"id": "C09", "title": "each needed latitude is computed by exactly one rank, evenly", "statement": "Every latitude ring needed by any rank is assigned to exactly one existing rank, unneeded rings to none, all ranks compute the same table, the local lists are the rings of the table in ascending order, and ring counts of two ranks differ by at most one, whatever value the platform's conversion of NaN to an integer yields (C60).", "quantifier": "all ring-need tables, all rank counts", "why_tests_cant": "all subsets of rings times all rank counts", "anchors": ["src/conviqt_math.cpp:convolver::get_latitude_tables"]}
{"id": "C10", "title": "the data-cube exchange delivers the right rings", "statement": "After the exchange, every rank holds, at local position pos, exactly the ring (pos + its offset) computed by the ring's owner, for all phi and psi, and every requested ring has been received.", "quantifier": "all ring windows per rank, all rank counts, all cube contents", "why_tests_cant": "all combinations of windows and owners", "anchors": ["src/conviqt_math.cpp:convolver::alltoall_datacube", "src/conviqt_math.cpp:convolver::get_latitude_tables"]}
{"id": "C11", "title": "each sample receives exactly its order+1 rings, once each", "statement": "In the interpolation of a sample exactly the order+1 rings starting at the sample's first ring contribute, each exactly once, in ascending ring order; all ring, weight and sample indices used are in bounds.", "quantifier": "all theta-sorted sample lists", "why_tests_cant": "range computation by first/last scan over arbitrary lists", "anchors": ["src/conviqt_math.cpp:convolver::itheta0SetUp", "src/conviqt_math.cpp:convolver::conviqt_tod_loop", "src/conviqt_math.cpp:convolver::interpolTOD"]}
{"id": "C12", "title": "interpolation weights reproduce polynomials", "statement": "The order+1 interpolation weights computed for an offset x are the Lagrange weights for nodes 0..order: they reproduce every polynomial of degree <= order exactly, sum to one and are the unit vector at a node.", "quantifier": "all orders, all x, all polynomials of degree <= order", "why_tests_cant": "all real x and polynomials", "anchors": ["src/conviqt_math.cpp:convolver::weight_ncm_initialize", "src/conviqt_math.cpp:convolver::weight_ncm"]}
{"id": "C13", "title": "the ring window of a colatitude is in the grid and centred", "statement": "For each theta in [0,pi] the first ring index is in [0, ntheta-npoints], the clamps never act, theta (or pi-theta) lies between rings first+order/2 and first+order/2+1, and the index is antitone in the folded colatitude.", "quantifier": "all lmax >= 0, order >= 0 and theta in [0,pi]", "why_tests_cant": "all real theta, all lmax and order", "anchors": ["src/conviqt_math.cpp:convolver::beta_to_itheta", "src/conviqt_math.cpp:convolver::convolver"]}
{"id": "C14", "title": "phi indices stay inside the ring", "statement": "For every phi, the phi indices touched are in [0,nphi), distinct and consecutive modulo nphi, so that phi and phi+2*pi give the same signal.", "quantifier": "all real phi, all lmax and order", "why_tests_cant": "all real phi; failure only for order > 2*lmax", "anchors": ["src/conviqt_math.cpp:convolver::conviqt_tod_loop", "levels/cxxsupport/ls_math_utils.h:fmodulo"]}
{"id": "C15", "title": "OpenMP scheduling does not influence results", "statement": "For each parallel loop the result is the same for every assignment of iterations to threads and every interleaving of iterations: different iterations write disjoint locations and read none written by others.", "quantifier": "all numbers of threads, all schedules", "why_tests_cant": "all interleavings", "anchors": ["src/conviqt_math.cpp:convolver::conviqt_tod_loop", "src/conviqt_math.cpp:convolver::conviqt_hemiscm", "src/conviqt_math.cpp:convolver::todAnnulus"]}
{"id": "C16", "title": "the harmonic kernel is the beam-sky product", "statement": "For the northern rings the accumulated coefficient for (msky, mbeam) is sum_l (-1)^(msky+mbeam) d^l s_lm conj(b_lm'), for positive and negative msky, where negative-m sky coefficients follow from the reality condition.", "quantifier": "all sky and beam expansions, all lmax, beammmax, all Wigner tables", "why_tests_cant": "all coefficient tables", "anchors": ["src/conviqt_math.cpp:convolver::conviqt_hemiscm", "src/conviqt_math.cpp:convolver::conviqt_hemiscm_pol"]}
{"id": "C17", "title": "southern rings come from the reflection symmetry", "statement": "The coefficients accumulated for the southern ring equal the northern formula evaluated at colatitude pi - theta.", "quantifier": "all sky and beam expansions, all Wigner tables with the reflection symmetry; the symmetry itself for all l, m, m', theta", "why_tests_cant": "identity for all degrees", "anchors": ["src/conviqt_math.cpp:convolver::conviqt_hemiscm"]}
{"id": "C18", "title": "the ring synthesis is the Fourier sum at the grid longitudes", "statement": "For every ring and mbeam, the synthesised ring value at index k is exp(i*pi/2*mbeam) * sum_{msky=-lmax..lmax} C(msky) exp(i*msky*phi_k) with phi_k = pi/2 + 2*pi*k/nphi.", "quantifier": "all coefficient tables, all lmax, all k", "why_tests_cant": "identity for all lmax and coefficients", "anchors": ["src/conviqt_math.cpp:convolver::todAnnulus"]}
{"id": "C19", "title": "at grid points the output is the total-convolution integral in harmonic space", "statement": "For a pointing on a grid node, the returned signal equals sum_l sum_m sum_m' (-1)^m d^l_{m'm}(theta) s_lm conj(b_lm') e^{i m phi} e^{i m' psi}, a real number, with negative orders given by the reality condition.", "quantifier": "all sky/beam expansions, lmax, beammmax, order, grid nodes, all psi", "why_tests_cant": "identity over all coefficient tables and psi", "anchors": ["src/conviqt_math.cpp:convolver::conviqt_hemiscm", "src/conviqt_math.cpp:convolver::todAnnulus", "src/conviqt_math.cpp:convolver::conviqt_tod_loop"]}
{"id": "C20", "title": "the convolution is bilinear; polarised = intensity when E,B vanish", "statement": "In exact arithmetic the signal is linear in the sky and in the beam expansion; with vanishing G and C components the polarised kernel gives the intensity-only result.", "quantifier": "all expansions, all scalars", "why_tests_cant": "all coefficient tables", "anchors": ["src/conviqt_math.cpp:convolver::conviqt_hemiscm_pol", "src/conviqt_math.cpp:convolver::conviqt_hemiscm"]}
{"id": "C21", "title": "calibration factor", "statement": "With calibrate set and an un-normalised beam, the returned signals are exactly the uncalibrated signals times 2/(1+epsilon); otherwise unchanged. Nothing else changes.", "quantifier": "all inputs, all epsilon", "why_tests_cant": "all inputs", "anchors": ["src/conviqt_math.cpp:convolver::convolve", "src/conviqt_util.cpp:detector"]}
{"id": "C22", "title": "beam normalisation is idempotent and yields unit integral", "statement": "After normalize(), 2*sqrt(pi)*b_00 = 1 (if b_00 was nonzero), all components are scaled by the same factor, and a further normalize() returns 1 and changes nothing, whatever operations happen in between except read.", "quantifier": "all beams, all operation histories", "why_tests_cant": "all histories", "anchors": ["src/conviqt_math.cpp:beam::normalize", "src/conviqt_io.cpp:beam::read"]}
{"id": "C23", "title": "a newly read beam is not considered normalised", "statement": "After reading a new expansion, normalized() is false, so normalisation and calibration refer to the new expansion.", "quantifier": "all histories of read and normalize", "why_tests_cant": "needs a history read-normalize-read", "anchors": ["src/conviqt_io.cpp:beam::read", "src/conviqt_math.cpp:beam::normalize"]}
{"id": "C24", "title": "a_lm storage is a bijection", "statement": "For 0 <= m <= mmax, m <= l <= lmax, (l,m) -> storage index is injective with image exactly [0, Num_Alms), so every coefficient is stored once, and broadcasting 2*Num_Alms floats covers the whole expansion.", "quantifier": "all lmax >= mmax >= 0", "why_tests_cant": "all sizes", "anchors": ["levels/Healpix_cxx/ls_alm.h:Alm_Base", "src/conviqt_io.cpp:beam::read", "src/conviqt_io.cpp:sky::read"]}
{"id": "C25", "title": "index arithmetic does not overflow for supported lmax", "statement": "For every lmax accepted by the C API (up to LMAXMAX = 100000) the int/long index computations of the a_lm storage and broadcast do not overflow.", "quantifier": "all lmax <= LMAXMAX", "why_tests_cant": "only huge inputs overflow; memory prevents testing", "anchors": ["levels/Healpix_cxx/ls_alm.h:Num_Alms", "levels/Healpix_cxx/ls_alm.h:index", "src/cconviqt.cpp:LMAXMAX"]}
{"id": "C26", "title": "the FITS (l,m) index code is invertible", "statement": "The explicit index l*l+l+m+1 written for (l,m), |m| <= l, decodes to the same (l,m) and different (l,m) have different indices; index order is row order (l, then m).", "quantifier": "all l and |m| <= l", "why_tests_cant": "all integers", "anchors": ["levels/Healpix_cxx/alm_fitsio.cc:read_Alm_from_fits", "levels/Healpix_cxx/alm_fitsio.cc:write_Alm_to_fits"]}
{"id": "C27", "title": "reading an a_lm table returns exactly the requested sub-table", "statement": "Reading rows with requested (lmax, mmax) yields, for every (l,m) in range, the last value stored in the file for (l,m), and 0 if absent; rows out of range are ignored, malformed indices raise an error.", "quantifier": "all tables (any order, duplicates, holes), all requested lmax, mmax", "why_tests_cant": "all files", "anchors": ["levels/Healpix_cxx/alm_fitsio.cc:read_Alm_from_fits"]}
{"id": "C28", "title": "write followed by read is the identity", "statement": "Writing an expansion (plain or compressed) and reading it with the same limits returns the expansion; reading with smaller limits returns the truncation; with larger limits the zero-padded expansion.", "quantifier": "all expansions, all limits", "why_tests_cant": "all expansions", "anchors": ["levels/Healpix_cxx/alm_fitsio.cc:write_Alm_to_fits", "levels/Healpix_cxx/alm_fitsio.cc:write_compressed_Alm_to_fits"]}
{"id": "C29", "title": "chunked I/O and work sharing partition the range", "statement": "chunkMaker yields consecutive non-empty chunks that cover [0,size) exactly once; calcShareGeneral gives consecutive shares covering [glo,ghi) exactly once with sizes differing by at most one.", "quantifier": "all sizes, chunk sizes, shares", "why_tests_cant": "all sizes", "anchors": ["levels/cxxsupport/ls_share_utils.h:chunkMaker", "levels/cxxsupport/ls_share_utils.h:calcShareGeneral"]}
{"id": "C30", "title": "reading a beam/sky gives the requested limits", "statement": "After a successful beam::read(lmax, mmax) with positive arguments, get_lmax() = lmax and get_mmax() = mmax; non-positive arguments select the limits of the file; a request above the file limits raises an error.", "quantifier": "all requests and file limits", "why_tests_cant": "all combinations", "anchors": ["src/conviqt_io.cpp:beam::read", "src/conviqt_io.cpp:sky::read"]}
{"id": "C31", "title": "reading fails or succeeds on all ranks together", "statement": "A request exceeding the file limits (or a missing file) makes read throw on all ranks, never leaving a rank blocked, and after success all ranks hold the same expansion.", "quantifier": "all rank counts, all file contents and requests", "why_tests_cant": "a hang is not an assertion failure", "anchors": ["src/conviqt_io.cpp:beam::read", "src/conviqt_io.cpp:sky::read"]}
{"id": "C32", "title": "Gaussian deconvolution is the inverse of Gaussian smoothing", "statement": "smoothWithGauss(-fwhm) after smoothWithGauss(fwhm) restores every coefficient in exact arithmetic for T, G and C; fwhm 0 is the identity; smoothing multiplies each a_lm by a factor depending on l only, in (0,1] for T and decreasing in l.", "quantifier": "all expansions, all fwhm", "why_tests_cant": "all reals", "anchors": ["levels/Healpix_cxx/alm_powspec_tools.cc:smoothWithGauss", "src/conviqt_io.cpp:sky::read"]}
{"id": "C33", "title": "monopole/dipole removal touches only those coefficients", "statement": "remove_monopole zeroes exactly (0,0) and remove_dipole exactly (1,0) and (1,1); all other coefficients are unchanged; the calls are idempotent, commute and never access out of bounds.", "quantifier": "all expansions and limits, all call sequences", "why_tests_cant": "all sequences and sizes", "anchors": ["src/conviqt_math.cpp:sky::remove_monopole", "src/conviqt_math.cpp:sky::remove_dipole"]}
{"id": "C34", "title": "a constructed convolver has consistent limits", "statement": "If the constructor succeeds, lmax <= min(lmax_sky, lmax_beam), 0 <= beammmax <= mmax_beam, so that all coefficient accesses of convolve are in bounds; negative arguments select the largest consistent limits.", "quantifier": "all sky/beam limits and all constructor arguments", "why_tests_cant": "all combinations", "anchors": ["src/conviqt_math.cpp:convolver::convolver", "src/conviqt_math.cpp:convolver::conviqt_hemiscm"]}
{"id": "C35", "title": "the C API reports errors by status code", "statement": "No C API function lets a C++ exception escape; constructors return a null pointer and other functions a non-zero status on failure and 0 on success, and objects are unchanged by rejected calls.", "quantifier": "all C API functions and arguments", "why_tests_cant": "all error paths", "anchors": ["src/cconviqt.cpp"]}
{"id": "C36", "title": "the array container owns its memory exactly once", "statement": "For every sequence of alloc/resize/transfer/swap/dealloc/assignment/failed-allocation, each buffer is freed exactly once, never used after free, and contents follow value semantics.", "quantifier": "all operation histories including allocation failures at any point", "why_tests_cant": "all histories and crash points", "anchors": ["levels/cxxsupport/ls_arr.h", "levels/cxxsupport/ls_alloc_utils.h"]}
{"id": "C37", "title": "the TOD sort permutes whole rows", "statement": "hpsort_arr and its wrappers (by colatitude, signal, time) reorder the buffer by whole 5-column rows into non-decreasing key order, preserving the multiset of rows and any incomplete row at the end; a column outside 0..4 is rejected. hpsort_DL and hpsort_DDcm reorder two arrays together so that the first is non-decreasing, and reject arrays of different lengths. No access is out of bounds.", "quantifier": "all buffers, all outcomes of the unstable sort", "why_tests_cant": "all buffers", "anchors": ["src/conviqt_util.cpp:hpsort_arr", "src/conviqt_util.cpp:hpsort_arrTheta", "src/conviqt_util.cpp:hpsort_arrTOD", "src/conviqt_util.cpp:hpsort_arrTime", "src/conviqt_util.cpp:hpsort_DL", "src/conviqt_util.cpp:hpsort_DDcm"]}
{"id": "C38", "title": "Wigner generator is history independent", "statement": "prepare(m1,m2) followed by calc gives the same result as on a freshly constructed generator regardless of previous prepare/calc calls.", "quantifier": "all sequences of prepare calls", "why_tests_cant": "all histories", "anchors": ["levels/cxxsupport/wigner.cc:wignergen_scalar::prepare"]}
{"id": "C39", "title": "the Wigner recurrence satisfies the three-term recursion; elements before the threshold are negligible", "statement": "The values returned by calc from firstl on satisfy the three-term recurrence of d^l_{m1 m2}(theta) with the right starting value, scaling steps do not change represented values, and elements below firstl are below the threshold (for thresholds below 2(lmax+1)^2*2^-360: below that number).", "quantifier": "all 0 < lmax < 46341, l, m1, m2, theta, thresholds, histories of the generator", "why_tests_cant": "all degrees and angles", "anchors": ["levels/cxxsupport/wigner.cc:wignergen_scalar::calc"]}
{"id": "C40", "title": "only negligible Wigner elements are dropped from the convolution", "statement": "In the kernel every term whose Wigner element is at least the accuracy threshold in magnitude is included.", "quantifier": "all rings, l, m, m'", "why_tests_cant": "only special rings/orders expose it", "anchors": ["src/conviqt_math.cpp:convolver::conviqt_hemiscm"]}
{"id": "C41", "title": "the FFT computes the DFT for every length", "statement": "For every length n >= 1 the library can use (all n with 4n <= 3^14, in particular every 2*lmax+1 with lmax <= LMAXMAX), creating a complex transform plan succeeds, and every forward/backward call on it, after any history of calls and whichever algorithm (mixed radix or Bluestein) was selected, stays inside its buffers and returns the discrete Fourier transform of its argument; backward after forward multiplies by n; prime_factor_sum and good_size return what their comments say. From n = 3^14 on the table of factors can overflow, and length 0 never returns.", "quantifier": "all lengths in range, all inputs, all histories of calls on a plan, all contents of uninitialised memory", "why_tests_cant": "The number of lengths and inputs is unbounded; tests cover a few lengths, and the overflow needs a length of 4.7 million.", "anchors": ["levels/libfftpack/bluestein.c", "levels/libfftpack/fftpack.c", "levels/libfftpack/ls_fft.c"]}
{"id": "C42", "title": "integer and modular helpers", "statement": "fmodulo(v1,v2) is in [0,v2) and congruent to v1; imodulo likewise for integers; isqrt is the integer square root; ilog2 the floor of log2; xpow(m,v) = (-1)^m v.", "quantifier": "all arguments in the documented domain", "why_tests_cant": "all integers/reals", "anchors": ["levels/cxxsupport/ls_math_utils.h"]}
{"id": "C43", "title": "the colatitude distribution is a monotone table and memory-safe", "statement": "For all valid pointings, distribute_colatitudes gives the same table on all ranks, starting at 0, non-decreasing, with values in [0, pi/2], and touches only memory inside its histograms.", "quantifier": "all sample distributions and rank counts", "why_tests_cant": "needs equator samples or few distinct colatitudes with many ranks; out-of-bounds reads are usually silent", "anchors": ["src/conviqt_math.cpp:convolver::distribute_colatitudes"]}
{"id": "C44", "title": "repeated use: results depend only on current sky, beam, detector", "statement": "For any history of convolve and set_sky/set_beam/set_detector calls on one convolver, the result of a convolve is that of a fresh convolver with the current objects.", "quantifier": "all histories", "why_tests_cant": "all histories", "anchors": ["src/conviqt_math.cpp:convolver::set_sky", "src/conviqt_math.cpp:convolver::weight_ncm_initialize", "src/conviqt_math.cpp:convolver::convolve"]}
{"id": "C45", "title": "message counts fit in int", "statement": "All per-destination counts and offsets passed to MPI fit in a 32-bit int for every input that fits in memory.", "quantifier": "all sizes", "why_tests_cant": "needs > 2^31 doubles", "anchors": ["src/conviqt_math.cpp:convolver::fillingBetaSeg", "src/conviqt_math.cpp:convolver::todRedistribution5cm", "src/conviqt_math.cpp:convolver::alltoall_datacube"]}
{"id": "C46", "title": "multi-dimensional arrays are laid out without overlap", "statement": "arr2/arr3 element addresses are a bijection from the index box to [0,size); writes to one element never affect another.", "quantifier": "all shapes and indices", "why_tests_cant": "all shapes", "anchors": ["levels/cxxsupport/ls_arr.h:arr2", "levels/cxxsupport/ls_arr.h:arr3"]}
{"id": "C47", "title": "a_lm rotation: the Wigner tables and the rotated coefficients are right for every thread schedule", "statement": "The n-th table of the serial and of the OpenMP Wigner generator holds the Wigner matrix d^n at the angle given to the constructor, without out-of-bounds access, for every order in which the threads fill it; rotate_alm returns e^{-im phi} sum_m' d^l_mm'(theta) e^{-im' psi} a_lm' for every number of threads and every interleaving (throws if lmax differs from mmax), keeps real fields real, and rotating by (-phi,-theta,-psi) undoes it.", "quantifier": "all lmax, degrees, angles, expansions, initial table contents, thread counts, interleavings", "why_tests_cant": "all thread schedules, all degrees and angles", "anchors": ["levels/cxxsupport/wigner.cc:wigner_d_risbo_scalar", "levels/cxxsupport/wigner.cc:wigner_d_risbo_openmp", "levels/Healpix_cxx/alm_powspec_tools.cc:rotate_alm"]}
{"id": "C48", "title": "the random generator has the full period 2^128-1 and never gets stuck", "statement": "From every seeding (zero seeds included) the state is never all-zero, the update is a bijection, states and outputs repeat after exactly 2^128-1 calls and not earlier, every non-zero state occurs; uniform numbers lie in [0,1); rand_gauss always returns, its numbers come in pairs and its logarithm and square root are defined; re-seeding forgets the past.", "quantifier": "all seeds and numbers of draws", "why_tests_cant": "2^128 states", "anchors": ["levels/cxxsupport/ls_rng.h"]}
{"id": "C49", "title": "string/number helpers", "statement": "trim removes exactly the leading and trailing blanks and tabs; for every integer but INT64_MIN, intToString pads to the requested width and is inverted by the integer parser, which accepts exactly the numerals in the range of the type; tokenize splits exactly at separators (an empty last field is dropped) and split at white space; equal_nocase ignores exactly the case of letters; a parameter file or command line gives every key the value of its last definition, and command lines are read back as written.", "quantifier": "all strings and integers", "why_tests_cant": "all strings", "anchors": ["levels/cxxsupport/string_utils.cc"]}
{"id": "C50", "title": "power spectra", "statement": "The extracted auto power spectrum is non-negative, satisfies Cauchy-Schwarz against cross spectra, is invariant under every rotation of the field, and scales quadratically.", "quantifier": "all expansions", "why_tests_cant": "all coefficient tables", "anchors": ["levels/Healpix_cxx/alm_powspec_tools.cc:extract_powspec"]}
{"id": "C51", "title": "rotation matrices from Euler angles are proper rotations", "statement": "Make_CPAC_Euler_Matrix gives an orthogonal matrix with determinant 1; its transpose is its inverse; Euler extraction recovers the matrix.", "quantifier": "all angles", "why_tests_cant": "all reals", "anchors": ["levels/cxxsupport/rotmatrix.cc"]}
{"id": "C52", "title": "samples go to the rank whose colatitude range contains them", "statement": "The rank a sample is sent to is the one whose interval of the colatitude table contains the colatitude folded into the northern hemisphere; so a sample and its mirror image go to the same rank, and the choice does not depend on the order of the samples (except for colatitudes exactly on a boundary).", "quantifier": "all tables, all colatitudes in [0,pi], all starting points of the search", "why_tests_cant": "all orders of samples and all tables", "anchors": ["src/conviqt_math.cpp:fillingBetaSeg,ratiobetacalcgreatercm,ratiobetacalcsmallercm"]}
{"id": "C53", "title": "load balance of the sample redistribution", "statement": "If no bin of the colatitude histogram holds more than M of the N samples of a job on n ranks, every rank is sent at most N/n + 2M samples (colatitudes in [0, pi], none exactly pi/2).", "quantifier": "all jobs and numbers of ranks", "why_tests_cant": "all distributions of samples over ranks and colatitudes", "anchors": ["src/conviqt_math.cpp:distribute_colatitudes,fillingBetaSeg"]}
{"id": "C54", "title": "Python get_data/set_data see the coefficients of the object", "statement": "After Beam(...) or Sky(...) returns, get_data() gives one complex array (three with polarisation) that lists exactly the coefficients of the file (deconvolved for a sky) in HEALPix order on every rank; set_data(x) followed by get_data() returns x rounded to single precision, with limits and the other components unchanged; no access leaves the storage of the object.", "quantifier": "all files, limits, ranks, polarisation flags and arrays of the right size", "why_tests_cant": "all index sets and all ctypes buffers; a test sees a few sizes", "anchors": ["python/libconviqt_wrapper/__init__.py:Beam.get_data", "python/libconviqt_wrapper/__init__.py:Beam.set_data", "python/libconviqt_wrapper/__init__.py:Sky.get_data", "python/libconviqt_wrapper/__init__.py:Sky.set_data", "python/libconviqt_wrapper/__init__.py:Beam.__init__", "src/cconviqt.cpp:conviqt_beam_Tdata"]}
{"id": "C55", "title": "a failing Python call raises and changes nothing", "statement": "Every call of the Python classes that cannot do what was asked raises a Python exception on every rank of the communicator and leaves the objects as they were; a call that returns has done what was asked.", "quantifier": "all calls, all arguments, all histories, all ranks, all failures of allocation and of files", "why_tests_cant": "all failure points", "anchors": ["python/libconviqt_wrapper/__init__.py:Beam.__init__", "python/libconviqt_wrapper/__init__.py:Beam.set_data", "python/libconviqt_wrapper/__init__.py:Beam.normalize", "python/libconviqt_wrapper/__init__.py:Convolver.__init__", "python/libconviqt_wrapper/__init__.py:Convolver.convolve", "python/libconviqt_wrapper/__init__.py:Pointing.alloc"]}
{"id": "C56", "title": "Python object lifetimes", "statement": "A Python program that only uses objects it has names for never touches freed memory: a convolver can be used as long as a variable refers to it, and an array obtained from Pointing.data() as long as a variable refers to the array; every C++ object is destroyed exactly once, when no variable refers to its owner any more.", "quantifier": "all programs (sequences of constructions, assignments, deletions, allocations, convolutions and array accesses)", "why_tests_cant": "all histories", "anchors": ["python/libconviqt_wrapper/__init__.py:Convolver.__init__", "python/libconviqt_wrapper/__init__.py:Pointing.data", "python/libconviqt_wrapper/__init__.py:Pointing.alloc", "python/libconviqt_wrapper/__init__.py:Sky.__del__", "src/conviqt_math.cpp:convolver::convolver"]}
{"id": "C57", "title": "Beam.normalized() tells whether the coefficients are normalised", "statement": "Whenever normalized() returns True, the monopole coefficient of the beam has the value normalize() gives it; normalize() makes the beam normalised.", "quantifier": "all histories of normalize, set_data, get_data and normalized on a loaded beam", "why_tests_cant": "all histories", "anchors": ["python/libconviqt_wrapper/__init__.py:Beam.normalize", "python/libconviqt_wrapper/__init__.py:Beam.normalized", "python/libconviqt_wrapper/__init__.py:Beam.set_data"]}
{"id": "C58", "title": "rounding error of the interpolated signal", "statement": "In floating-point arithmetic with relative error at most u per operation, the signal convolve writes for a sample with 0 <= theta <= pi differs from the exact Lagrange interpolation of the ring values at the exact position of the sample by at most 8 f L^2 S u K: f is the calibration factor, L the Lebesgue-type constant of the interpolation order, S the largest sum of magnitudes of the numbers of a ring at one longitude, and K an explicit constant (2.3e6 at lmax = 4000). In binary64 with the default order and lmax <= 4000, beammmax <= 20 the error is below 2e-7 f S.", "quantifier": "all rounding functions, all samples on all ranks, all ring values, all jobs that return", "why_tests_cant": "all inputs and all rounding patterns; a test sees single errors on single inputs", "anchors": ["src/conviqt_math.cpp:interpolTOD", "src/conviqt_math.cpp:weight_ncm_initialize", "src/conviqt_math.cpp:weight_ncm", "src/conviqt_math.cpp:conviqt_tod_loop"]}
{"id": "C59", "title": "the outcome of every call of convolve", "statement": "In exact arithmetic, on a platform where the conversion of NaN to an integer yields some value (C60), a call of convolve ends in exactly one of four ways. (1) Every rank throws 'Illegal theta': exactly if every rank has a colatitude outside [0, pi]. (2) Undefined behaviour: exactly if all colatitudes are legal and one of them is pi/2 or the cuts of the load balancing do not exist (cut k+1 is the first bin edge at which the samples since cut k are at least 1/(n-k) of the samples beyond cut k, which must be there). (3) The job hangs: exactly if some ranks but not all have an illegal colatitude, or if the pointing is in order but some rank has samples and another one neither has nor is sent any. (4) All ranks return.", "quantifier": "all numbers of ranks, all pointings on all ranks, all beams and skies, all interpolation orders up to the 2 lmax + 1 longitudes of a ring", "why_tests_cant": "all distributions of samples over ranks and latitudes", "anchors": ["src/conviqt_math.cpp:convolve", "src/conviqt_math.cpp:distribute_colatitudes", "src/conviqt_math.cpp:fillingBetaSeg", "src/conviqt_math.cpp:ratiobetacalcgreatercm", "src/conviqt_math.cpp:ratiobetacalcsmallercm", "src/conviqt_math.cpp:todRedistribution5cm"]}
{"id": "C60", "title": "the distribution of latitudes over ranks performs no undefined conversion", "statement": "During convolve, the assignment of the needed latitude rings to ranks converts only representable values to integers: a job whose pointings are legal does not depend on how the platform converts NaN to an integer.", "quantifier": "all sets of needed rings, all rank counts, all jobs", "why_tests_cant": "a test sees the value one compiler and one processor happen to produce; the undefined conversion is invisible in the output", "anchors": ["src/conviqt_math.cpp:convolver::get_latitude_tables"]}
{"id": "C61", "title": "accuracy of the signal at arbitrary pointings", "statement": "For every pointing with 0 <= theta <= pi (any phi, psi), not only on the interpolation grid, the value convolve writes is the total convolution of the expansions at that pointing (times the calibration factor) up to an explicit error: with N = order+1, a term of degree l and sky order m contributes at most its magnitude times (pi(l+1/2)/(lmax+1))^N/C + L((2pi|m|/(2lmax+1))^N/C + (l+1/2)e-15), where C is the binomial coefficient (N over order/2+1) and L = N 2^(N-1)/C bounds the weights; terms of a degree for which a Wigner element d^l_{m',+-m} falls below the library's threshold on a ring of the stencil contribute at most L times their magnitude more (for axisymmetric beams L times the threshold). For fixed expansions without degrees above Lmax the error of an axisymmetric beam therefore falls with the power order+1 of the oversampling Lmax/lmax, down to L(1e-15 Lmax + 1e-30).", "quantifier": "all expansions of real fields, all pointings, all interpolation orders up to the number of longitudes, all rank counts and schedules, all jobs that return", "why_tests_cant": "a test compares single pointings with a reference; the bound holds for every pointing and expansion", "anchors": ["src/conviqt_math.cpp:convolver::interpolTOD", "src/conviqt_math.cpp:convolver::conviqt_tod_loop", "src/conviqt_math.cpp:convolver::conviqt_hemiscm_pol", "src/conviqt_math.cpp:convolver::weight_ncm", "src/conviqt_math.cpp:convolver::todAnnulus"]}
{"id": "C62", "title": "accuracy of the signal in double precision", "statement": "In IEEE binary64 arithmetic (without overflow or underflow), with the default interpolation order 5, lmax from 2 to 4000, beammmax up to 20, 0 <= theta <= pi and phi, psi within a full turn: whatever the job, if the ring values the library computed are within rho of the exact ones (summed over the orders of the beam), every value convolve writes differs from the calibration factor times the total convolution at the pointing by at most the factor times: 4e-7 of the sum of the magnitudes of all terms (rounding), 328 rho, and for a term of degree l and sky order m its magnitude times (pi(l+1/2)/(lmax+1))^6/15 + 64/5((2pi|m|/(2lmax+1))^6/15 + 2e-15(l+1/2)), plus 64/5 of its magnitude if it belongs to a degree the library leaves out as negligible. For an axisymmetric beam and fixed expansions of degree at most Lmax the error falls with the sixth power of Lmax/lmax down to the rounding level.", "quantifier": "all expansions of real fields, all pointings, all rank counts and schedules, all jobs that return, every rounding to nearest binary64", "why_tests_cant": "rounding errors depend on the data; a test sees single pointings", "anchors": ["src/conviqt_math.cpp:convolver::interpolTOD", "src/conviqt_math.cpp:convolver::conviqt_tod_loop", "src/conviqt_math.cpp:convolver::weight_ncm", "src/conviqt_math.cpp:convolver::conviqt_hemiscm_pol"]}
{"id": "C63", "title": "from files to time-ordered data", "statement": "On any number of ranks of which only the first needs to see the files, whatever the objects held before: reading sky and beam, optionally normalising the beam, constructing a convolver with explicit limits 0 < lmax < 46341, beammmax <= lmax within those of the files and calling convolve makes every call before convolve succeed on every rank, and convolve ends in one of the four ways of C59; whenever it returns, every sample keeps its pointing and its signal is the total convolution of the coefficients in the files - the sky deconvolved by the given Gaussian, the beam divided by 2 sqrt(pi) b00 if normalised, times 2/(1+epsilon) if calibrated and not normalised - at the sample's pointing within the error bound of C61.", "quantifier": "all files with legal indices and real order-zero coefficients, all widths, all object histories, all pointings, all rank counts, all schedules, every history of the transform plan", "why_tests_cant": "all inputs, schedules and histories of the whole pipeline", "anchors": ["src/conviqt_io.cpp:sky::read", "src/conviqt_io.cpp:beam::read", "src/conviqt_math.cpp:beam::normalize", "src/conviqt_math.cpp:convolver::convolver", "src/conviqt_math.cpp:convolver::convolve"]}
{"id": "C64", "title": "accuracy of the rings and the signal with all of the computation in floating point", "statement": "The sums over degrees, the phase rotations and the synthesis of a ring in floating point (products of coefficients in single precision, everything else in double, no overflow or underflow) give, whichever rings a rank owns and in whatever order the parallel iterations run, ring values within 2(g-1) times the sum of the magnitudes of the products of coefficients of the exact ones, g being the product of (1+error) over all operations on a term: rounding of the products, accuracy delta of the Wigner elements, lmax+1 additions, three rotations with tables accurate to kappa, a transform accurate to phi. With binary32/binary64, default order, lmax from 2 to 4000, beammmax up to 20: every value convolve writes is within 4e-7 of the sum of the magnitudes of the terms, plus (2.63e-4 + 1312(delta+6kappa+phi)) of the sum of the magnitudes of the products, plus the truncation terms of C62, of the calibration factor times the total convolution at the pointing.", "quantifier": "all expansions, all sets of rings, all orders of the parallel iterations, all pointings, all rank counts and schedules, all jobs that return, all roundings and all values of the Wigner elements, tables and transforms within the accuracies", "why_tests_cant": "rounding errors depend on the data; a test sees single expansions and pointings", "anchors": ["src/conviqt_math.cpp:convolver::conviqt_hemiscm", "src/conviqt_math.cpp:convolver::conviqt_hemiscm_pol", "src/conviqt_math.cpp:convolver::todAnnulus", "src/conviqt_math.cpp:convolver::conviqt_tod_loop"]}
{"id": "C65", "title": "accuracy of the Fourier transforms in floating point", "statement": "With floating-point operations of relative accuracy u and sines, cosines and stored constants accurate to kappa, a complex transform of any length n up to 3^14/4, by either algorithm, returns a result that depends on its argument alone - not on earlier calls, on which plan of that length is used or on what the allocated memory held - and whose elements are within fftErr(u,kappa,n) times the sum of the magnitudes of the input of the discrete Fourier transform. In double precision (kappa = 2^-52) fftErr is at most 2.1e-11 n. Consequently, with the library's own transform and tables, every value convolve writes obeys the bound of C64 with (4.9e-4 + 1312 delta) in place of (2.63e-4 + 1312(delta+6kappa+phi)): the accuracy delta of the Wigner elements is the only remaining parameter.", "quantifier": "all lengths, all inputs, both algorithms, all histories of calls, all contents of allocated memory, all roundings and libm results within the accuracies", "why_tests_cant": "rounding errors depend on the data; a test sees single inputs and lengths", "anchors": ["levels/libfftpack/fftpack.c:cfft1, cffti1", "levels/libfftpack/fftpack_inc.c", "levels/libfftpack/bluestein.c", "levels/libfftpack/ls_fft.c", "src/conviqt_math.cpp:convolver::todAnnulus"]}
{"id": "C66", "title": "the verbosity has no effect beyond the log", "statement": "The verbosity given to the convolver influences only what is printed: whether convolve returns, and what it returns, does not depend on the verbosities of the ranks. (True as long as all ranks agree on whether it is above 0 and whether it is above 5; if a job's ranks disagree on either, some wait in the collectives of the log for the others and the job never returns.)", "quantifier": "all inputs, rank counts and schedules, all assignments of a verbosity to each rank", "why_tests_cant": "a test runs with one verbosity; the collectives of the log couple the ranks", "anchors": ["src/conviqt_math.cpp:convolver::report_timing", "src/conviqt_math.cpp:convolver::timing_line", "src/conviqt_math.cpp:convolver::convolve", "src/conviqt_math.cpp:convolver::interpolTOD"]}
{"id": "C67", "title": "Python arguments reach the library unchanged", "statement": "Every call the Python classes make passes the C function exactly the parameters of its prototype, never a missing one or one with undefined bits, and their values are those of the Python arguments; the value the C function returns is the one Python gets. (True of the types for all calls; the values of integers outside the range of the C parameter and of file names with a zero byte are changed silently: lmax = 2**64+2 asks for 2 and passes the limit on lmax, pol = 256 means unpolarised.)", "quantifier": "all functions of the C interface, all Python argument values, both representations of communicators", "why_tests_cant": "a test passes a few ordinary numbers; the claim is about all integers, texts and object addresses", "anchors": ["python/libconviqt_wrapper/__init__.py", "src/cconviqt.h", "src/cconviqt.cpp"]}
{"id": "C68", "title": "the communication helpers move the data they are given", "statement": "MPI_Manager: gatherv gives the first rank the concatenation of the arrays of all ranks in rank order and leaves the others' output alone; gatherv of tables gives the first rank the table of all rows; reduce gives the root the combination; all2all and all2allv_easy give rank r the blocks addressed to it, ordered by sender, with their sizes; allgather, allreduce and bcast give every rank the concatenation, combination and the root's array; sendrecv gives every rank what its source sent. (False of sendrecv, which communicates nothing unless a rank sends to itself, and of sendrecv_replace, which never does; gatherv and all2allv_easy never return if a rank contributes an empty array resp. neither sends nor receives anything, because its null pointers are taken for one buffer; 2^31 elements overflow; gathering tables divides by zero or writes behind the result if the first rank has no columns or a different number of them.)", "quantifier": "all rank counts, all arrays and sizes", "why_tests_cant": "a test runs a few ranks with a few sizes", "anchors": ["levels/cxxsupport/mpi_support.cc", "levels/cxxsupport/ls_mpi_support.h:MPI_Manager"]}
{"id": "C69", "title": "random skies have the requested spectrum", "statement": "create_alm fills every stored coefficient of degree l with sqrt(C_l) times fresh numbers of the generator, in a fixed documented order (one real number for order 0, two for each higher order), independent of what was stored before, so that the same seed gives the same sky; averaged over an ideal generator the extracted spectrum is the requested one. create_alm_pol does this for three fields with the requested TT, GG, CC and TG, and throws if they are inconsistent. (False of create_alm_pol at degrees with TT = 0, where GG and CC are ignored; a spectrum shorter than the coefficients is read behind its end; with mmax < l the spectrum is low by the missing orders.)", "quantifier": "all spectra, all lmax and mmax, all generators and seeds, all prior contents", "why_tests_cant": "a test draws one sky from one spectrum; the claim is about the mean and about every spectrum", "anchors": ["levels/Healpix_cxx/alm_powspec_tools.cc:create_alm", "levels/Healpix_cxx/alm_powspec_tools.cc:create_alm_pol"]}
{"id": "C70", "title": "safe_cast preserves the value or throws", "statement": "safe_cast between any two integer types returns the very value it was given if the target type can represent it and throws otherwise; so the number of rows of a coefficient table is exact or rejected from 2^31 on, and negative array dimensions in a file are rejected.", "quantifier": "all pairs of integer types (any width, signed or not), all values", "why_tests_cant": "a test tries a few pairs of types", "anchors": ["levels/cxxsupport/ls_safe_cast.h:safe_cast", "levels/Healpix_cxx/alm_fitsio.cc:read_Alm_from_fits"]}
{"id": "C71", "title": "rotating an expansion rotates the function on the sphere", "statement": "rotate_alm(alm,psi,theta,phi) turns the expansion of a real function f on the sphere into the expansion of the rotated function: the value of the new function at the point Rz(phi)Ry(theta)Rz(psi)n is f(n), for every point n. Angles that describe the same rotation give the same coefficients, and rotating by R' and then by R is rotating by RR'. With a rotation matrix the function is rotated by that matrix, exactly if it moves the pole not at all or by more than 1e-6 from the axis and within 2e-6 otherwise. The overload for temperature and polarisation does to each component what the scalar one does - so that the Stokes parameters Q and U measured in any frame g before are those measured in the frame Rg after -, and throws unless lmax = mmax and the expansions have the same limits.", "quantifier": "all real expansions, all angles and rotation matrices, all points of the sphere, all orders of the parallel iterations", "why_tests_cant": "a test compares single coefficients with a reference for single angles", "anchors": ["levels/Healpix_cxx/alm_powspec_tools.cc:rotate_alm", "levels/cxxsupport/wigner.cc:wigner_d_risbo_openmp"]}
{"id": "C72", "title": "the signal is the sky seen through the beam", "statement": "Every value convolve writes is, within the error bound of C61 and times the calibration factor, the integral over the sphere of the sky times the beam turned to the sample's pointing, Rz(phi)Ry(theta)Rz(psi+pi); for polarised convolutions of the products of the Stokes parameters I, Q and U of sky and turned beam; sky and beam are the real functions whose expansions are in the files (orders of the beam up to beammmax). Hence a pencil beam gives the value of the sky at colatitude theta and longitude phi; a normalised beam of any shape sees a uniform sky as it is; and turning the sky with rotate_alm and the pointings by the same rotation changes no value.", "quantifier": "all expansions of real fields, all pointings, all rotations, all rank counts and schedules, all jobs that return", "why_tests_cant": "a test compares single skies, beams and pointings with a reference; the claim quantifies over functions on the sphere", "anchors": ["src/conviqt_math.cpp:convolver::convolve", "src/conviqt_math.cpp:convolver::conviqt_hemiscm_pol", "src/conviqt_math.cpp:convolver::conviqt_tod_loop", "levels/Healpix_cxx/alm_powspec_tools.cc:rotate_alm"]}
{"id": "C73", "title": "the FITS handle describes and moves the data of the file", "statement": "A fitshandle answers questions about columns, rows, elements, axes and keys as the current HDU of the file is, after any sequence of calls including ones that threw; reading n elements of a column from an offset delivers exactly those elements of the file, for every number of elements per row and every division into chunks, or throws if they are not all there; a write that returns puts the values into the file from the given element on and changes nothing else; images are read pixel by pixel; column numbers the table does not have are rejected. Hence reading a table of coefficients by file name delivers the rows of that HDU, and coefficients written to a new file and closed are read back. (False of the number of rows after writing a column of several elements per row, of the description after a failed move to an HDU, of efficientChunkSize for columns that do not exist and of parts of images that stick out.)", "quantifier": "all files, all sequences of calls with exceptions caught, all columns, offsets, lengths and chunk sizes, all answers of cfitsio about its buffers", "why_tests_cant": "the state of the handle is a function of the history of calls; a test tries a few histories on a few files", "anchors": ["levels/cxxsupport/fitshandle.cc", "levels/cxxsupport/ls_fitshandle.h", "levels/Healpix_cxx/alm_fitsio.cc"]}
{"id": "C74", "title": "threads never race and any number of them computes the same", "statement": "In the parallel regions of a convolution (accumulation of the ring coefficients, filling of the trigonometric tables, synthesis of the rings, the sample loops) no two threads ever access the same double at the same time with one of them writing, no thread runs into undefined behaviour or lets an exception escape, no schedule of the threads runs forever, and the data cubes and sample values at the end are those of the sequential program; the profiling counters are touched by thread 0 only.", "quantifier": "all numbers of threads (also changing from region to region), all ways of dealing the iterations to threads (in particular schedule(static, c) as written), all interleavings of the single loads and stores, all inputs for which the sequential program is defined; sample loops in any arithmetic, kernel regions in exact arithmetic", "why_tests_cant": "a race shows in few of astronomically many interleavings, and usually not on the machine of the test", "anchors": ["src/conviqt_math.cpp:convolver::conviqt_hemiscm", "src/conviqt_math.cpp:convolver::conviqt_hemiscm_pol", "src/conviqt_math.cpp:convolver::todAnnulus", "src/conviqt_math.cpp:convolver::conviqt_tod_loop"]}
{"id": "C75", "title": "two angles in one call", "statement": "The vectorised Wigner generator call for two angles reports a first degree and, from it on, delivers for each of the two angles the Wigner d-function of the prepared orders (components below 1e-90 may be delivered as zero), whatever was computed with the generator before; below the first degree both functions are at most the threshold, at it one of them is above; all table and result accesses are in bounds. Hence the call agrees with two single-angle calls up to the threshold. (For a threshold of zero this fails: a function that starts below 2^-450 is delivered as zero at all degrees.)", "quantifier": "all maximum degrees below 46341, all lists of angles, all positive thresholds, all histories of prepare and calc calls, all orders, all pairs of angles", "why_tests_cant": "the rescaling of the two components runs through three loops that depend on both angles; a test sees some of the combinations", "anchors": ["levels/cxxsupport/wigner.cc:wignergen::calc", "levels/cxxsupport/ls_wigner.h:wignergen", "levels/cxxsupport/ls_sse_utils_cxx.h:svec<double,2>"]}
{"id": "C76", "title": "Wigner matrices at 90 degrees: table and threads", "statement": "The two generators of Wigner matrices at pi/2 (serial and OpenMP) deliver at the call number l+1, for l up to lmax, the quarter with non-negative indices of the matrix of degree l, whatever the initial contents of their tables; this quarter determines the matrix by sign changes and agrees with the generators for arbitrary angles. In the OpenMP generator, for any number of threads, any distribution of the rows and any interleaving of single memory accesses, there is no data race, no access outside a table, every execution ends, and all give the same table.", "quantifier": "all lmax, all degrees, all initial and reallocated memory contents, all thread counts, all distributions of the rows to threads, all interleavings of single loads and stores", "why_tests_cant": "the tables are padded by a symmetry that holds only at this angle and updated in place; schedules cannot be enumerated", "anchors": ["levels/cxxsupport/wigner.cc:wigner_d_halfpi_risbo_scalar::recurse", "levels/cxxsupport/wigner.cc:wigner_d_halfpi_risbo_openmp::recurse", "levels/cxxsupport/ls_wigner.h"]}
{"id": "C77", "title": "handles of the C interface", "statement": "In every program that passes to the C functions only handles that the matching constructor returned and that were not deleted since (and runs a convolver only while the sky, beam and detector it refers to exist), no call is undefined, getters return what was last stored through the same handle, a call changes only the objects it is given, live objects can be deleted in any order, and after deleting all of them nothing remains allocated; conversely a null, stale or foreign handle is undefined behaviour, never a failure status.", "quantifier": "all sequences of C calls, all allocator answers including the reuse of freed addresses, all outcomes of reads and convolutions", "why_tests_cant": "all histories and all addresses the allocator may hand out", "anchors": ["src/cconviqt.cpp", "src/conviqt.hpp:pointing", "levels/cxxsupport/ls_arr.h:arrT::alloc", "src/conviqt_math.cpp:convolver::convolve"]}
{"id": "C78", "title": "rotation by several threads", "statement": "rotate_alm for one and for three components, and the parallel class of the Risbo recursion it uses, have no data race and no access out of bounds, always end, and give for any number of threads, any assignment of rows to threads and any interleaving of their loads and stores one and the same result: each region leaves, digit for digit, the numbers of one fixed order of additions, whatever the rounding; and in exact arithmetic a whole call gives the coefficients of the rotated field.", "quantifier": "all sets of coefficients, all degrees, all angles, all numbers of threads, all interleavings of single loads and stores, all initial contents of the tables", "why_tests_cant": "all interleavings of the threads", "anchors": ["levels/Healpix_cxx/alm_powspec_tools.cc:rotate_alm", "levels/cxxsupport/wigner.cc:wigner_d_risbo_openmp::recurse", "levels/cxxsupport/ls_openmp_support.h:openmp_calc_share"]}
{"id": "C79", "title": "histories on sets of coefficients", "statement": "However a client creates, resizes, fills, scales (by a number, by degree, by order), adds, assigns, exchanges, copies and destroys sets of harmonic coefficients, catching the exceptions of refused calls and going on, nothing undefined happens as long as limits are not negative, coefficients are accessed within the limits and an object whose resizing threw is resized again before its coefficients are used; every call returns or throws as documented, a refused call other than resizing changes nothing, and every coefficient determined by the calls is read back with exactly the value the calls give it. Outside of these rules: a resizing that throws leaves limits that do not fit the storage, and negative limits leave storage that is released twice.", "quantifier": "all finite histories of calls on any number of objects, all limits, all arrays and factors, arbitrary (also rounded) arithmetic of the elements", "why_tests_cant": "the state of an object is a function of the history of calls, including the exceptions caught in between", "anchors": ["levels/Healpix_cxx/ls_alm.h:Alm", "levels/Healpix_cxx/alm.cc:Alm_Base::Num_Alms", "levels/cxxsupport/ls_arr.h:arrT::alloc"]}
{"id": "C80", "title": "searching and interpolating in arrays", "statement": "For every strictly sorted array of at least two numbers, ascending or descending, and every value, the interpolation helper returns neighbouring positions inside the array and a fraction such that the value is the linear combination of the two elements; the fraction is negative exactly before the first element, above one exactly after the last, and with rounded arithmetic it still lies in [0,1] for every value in between; shorter arrays are refused. minmax returns the smallest and largest element (throwing for an empty array; if the first element is not a number it returns not a number), contains, find and contentsEqual decide membership, the first position and equality.", "quantifier": "all sorted arrays and values, both directions, any monotone rounding; all arrays of any type with decidable equality or a linear order", "why_tests_cant": "all arrays and values, and rounding at the ends of the intervals", "anchors": ["levels/cxxsupport/ls_math_utils.h:interpol_helper", "levels/cxxsupport/ls_arr.h:arr_ref"]}
{"id": "C81", "title": "parameter files are read as they are written", "statement": "The C parameter file reader gives, for every file, the definitions of its lines in their order up to the first line that is neither blank, nor a comment (first character other than blanks and tabs is #), nor a definition (key = value, trimmed, key not empty); looking up a key gives its first definition: the text, or the value of a numeral with nothing behind it, or the report that the key is undefined or the text is not a numeral; a text is never stored behind the end of a buffer of the capacity given. (False of lines of 1999 characters or more, whose rest is taken for a line of its own, so that the end of a comment can define a key; of numerals beyond 32 resp. 64 bits, which are accepted with another value; and of a buffer of capacity 0.)", "quantifier": "all files, keys, values, buffers", "why_tests_cant": "a test reads a few files; the interplay of long lines, blanks and number ranges has no bound", "anchors": ["levels/c_utils/parser.c:openParams", "levels/c_utils/parser.c:getVarInt", "levels/c_utils/parser.c:getVarStringProt"]}
{"id": "C82", "title": "complex numbers and vectors", "statement": "The operators of the class of complex numbers are those of the complex numbers, and the functions that change a number (assignment, +=, -=, *=, /=, Negate, Conjugate, Rotate, Set) leave the documented result and nothing else changed, whichever of the operands are the number itself or a part of it; the vector class has a bilinear, antisymmetric, right-handed cross product orthogonal to its factors, and Normalize and set_z_phi give unit vectors.", "quantifier": "all numbers, vectors and angles (exact arithmetic), all ways in which the operands of a call can share storage", "why_tests_cant": "operands are passed by reference, so every way of sharing storage is a case of its own; the algebra is for all numbers", "anchors": ["levels/cxxsupport/ls_xcomplex.h:xcomplex", "levels/cxxsupport/ls_vec3.h:vec3_t"]}
{"id": "C83", "title": "real transforms", "statement": "A plan for real data of length n leaves in the buffer, for each of its storage schemes (fftpack r0 r1 i1 r2 i2 ..., FFTW half complex r0 r1 ... i2 i1, full complex with the data at the even positions), exactly the discrete Fourier transform of the data; its backward functions, given the transform of real data in that scheme, give the inverse transform times n, so that forward then backward multiplies by n; the two compact schemes are converted into each other without loss; positions documented as ignored are ignored, uninitialised scratch memory never matters, no access leaves the buffer, and the result does not depend on the algorithm the plan selected or on earlier calls.", "quantifier": "all lengths n >= 1 (n <= 3^14/4 with Bluestein's algorithm), odd and even, all real data, all contents of ignored positions and of scratch memory, both algorithms, all histories of calls of a plan", "why_tests_cant": "in-place shuffles overlap source and destination in ways that depend on the length and its parity; a test fixes lengths, data and algorithm", "anchors": ["levels/libfftpack/ls_fft.c:real_plan_forward_fftpack", "levels/libfftpack/ls_fft.c:real_plan_forward_c", "levels/libfftpack/ls_fft.c:real_plan_backward_c", "levels/libfftpack/ls_fft.c:fftpack2halfcomplex", "levels/libfftpack/ls_fft.c:halfcomplex2fftpack"]}
{"id": "C84", "title": "FFT objects", "statement": "Objects of class cfft can be constructed, copied, assigned (also to themselves), resized, used and destroyed in every order: each owns its own plan, no plan is freed twice or used after it was freed, every transform is that of its data whatever happened before to this object, to the one it was copied from or to its copies, the plans in use are exactly those of the live objects with a length, and after the last object is destroyed none is left. An object without a length must not be used for a transform.", "quantifier": "all finite histories of all numbers of objects, lengths 1 <= n <= 3^14/4, all data, both algorithms", "why_tests_cant": "the number of orders of construction, copy, assignment, resizing and destruction is unbounded, and a freed plan that is used again usually still gives the right result", "anchors": ["levels/cxxsupport/ls_fftpack_support.h:cfft", "levels/libfftpack/ls_fft.c:copy_complex_plan", "levels/libfftpack/ls_fft.c:kill_complex_plan"]}
{"id": "C85", "title": "matrix products into given storage", "statement": "For every memory and every placing of the operands, the functions that multiply two rotation matrices, the transpose of one with another, or a matrix with a vector, into an object of the caller leave the documented product there and change nothing else; transposition in place gives the transpose and changes nothing else.", "quantifier": "all matrices and vectors (exact arithmetic), all ways in which operands and result can share storage", "why_tests_cant": "operands are passed by reference, so every way of sharing storage is a case of its own; the algebra is for all numbers", "anchors": ["levels/cxxsupport/rotmatrix.cc:matmult", "levels/cxxsupport/rotmatrix.cc:TransposeTimes", "levels/cxxsupport/rotmatrix.cc:Transpose", "levels/cxxsupport/ls_rotmatrix.h:Transform"]}
