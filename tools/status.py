STATUS = {
 'C01': ('proved', 'C01_rows_in_place for abstract arithmetic (any type with the laws Valid needs), C01_convolve_real discharges the laws for exact reals.'),
 'C02': ('proved', 'Exactly equal outputs, operation for operation, for any two decompositions.'),
 'C03': ('proved', ''),
 'C04': ('proved', 'The column holds ofInt(index); injectivity of the conversion is that of the number type (exact up to 2^53 in doubles).'),
 'C05': ('partial', 'C05_check_iff_partial/C05_check_iff_real_partial: in every execution without NaN the call throws iff a colatitude is out of range, and then only the time column has changed (C05_rows_intact_partial). The full statement is false (C05_full_refuted): NaN is not rejected (C05_nan_not_rejected), and angles that are accepted but cannot be binned are undefined behaviour (C05_unbinned_undefined).'),
 'C06': ('partial', 'Full statement is false (C06_full_refuted): C06_deadlock_iff characterises the deadlocks (a rank without samples and segments), C06_lonely_stuck is a concrete one; termination is proved when all ranks are active or hold samples.'),
 'C07': ('partial', 'Full statement is false (C07_full_refuted): C07_error_on_one_rank_deadlocks proves that an illegal colatitude on one rank leaves the others blocked; C07_ends_iff is the exact condition, C07_error_on_all_ranks_partial the case in which the error reaches every caller.'),
 'C08': ('proved', ''),
 'C09': ('proved', 'For every value the conversion of NaN may yield; that the conversion takes place is C60.'),
 'C10': ('proved', ''),
 'C11': ('proved', ''),
 'C12': ('proved', 'Exact arithmetic.'),
 'C13': ('proved', 'Exact arithmetic.'),
 'C14': ('proved', 'Exact arithmetic; C42_fmodulo_rounded covers rounding in the reduction of phi.'),
 'C15': ('proved', 'Model: iterations of every parallel loop in any order (Env.sched); data races inside one iteration are excluded by the disjointness of the written rows in the model, the C++ memory model itself is not modelled.'),
 'C21': ('proved', ''),
 'C24': ('proved', ''),
 'C26': ('proved', ''),
 'C27': ('proved', 'C27_nonpositive_index_ub records the one malformed index class that is undefined instead of an error.'),
 'C28': ('partial', 'Proved for all finite values; C28_compressed_nan_drops_coefficient shows that the compressed writer drops NaN coefficients, so the statement is false for NaN. The full statement and its refutation: C28_Full, C28_full_refuted.'),
 'C29': ('proved', ''),
 'C37': ('proved', 'All functions of conviqt_util.cpp on the flat buffers, for every sorting function; C37_rowwise links them to the row-wise sort of the model of convolve. Keys are assumed not NaN (std::sort would be undefined).'),
 'C38': ('proved', 'Exact arithmetic and int overflow of the sentinel product assumed to give some value; C38_first_prepare_overflows is the finding that it is undefined in C++, C38_every_convolution_overflows its consequence for whole jobs. In floating point the statement is not bit-exact (the order of the factors in the table depends on history).'),
 'C39': ('proved', 'Exact arithmetic: the scaling and recurrence return the textbook d-function of the pole-adjusted angle; C39_negligible bounds the skipped elements.'),
 'C42': ('partial', 'fmodulo, imodulo, xpow, ilog2 and the 32 bit isqrt are proved for all arguments (isqrt under the rounding properties of binary64, which are proved for round-to-nearest-even in Util/Double). The 64 bit isqrt is right below the square of the largest root only: C42_isqrt64_overflow and C42_isqrtU64_wrong are proved defects above it. The full statement and its refutation: C42_Full, C42_full_refuted.'),
 'C43': ('partial', 'Full statement is false (C43_full_refuted): undefined at the equator and with too few bins (C43_equator_undefined, C43_few_bins_undefined, C43_table_undefined, C43_job_undefined); C43_table_ok_partial, C43_table_sorted_partial, C43_histogram_partial prove it otherwise.'),
 'C16': ('proved', 'Exact arithmetic; the sum starts at the first degree the generator reports (C16_complete gives the full sum when no degree is dropped).'),
 'C17': ('proved', 'Exact arithmetic.'),
 'C18': ('proved', 'Exact arithmetic, for any fft satisfying the definition of the backward DFT (hypothesis IsBackward).'),
 'C19': ('proved', 'Exact arithmetic, for expansions of real fields and any fft meeting the definition of the backward DFT. C19_node: every node, with the degrees the generator drops described by FirstDegOK; C19_complete: complete sum when the threshold is small enough; C19_convolve: for every sample of every job that returns.'),
 'C20': ('proved', 'Exact arithmetic. For the rings (C20_linear_*) and for the signals of the samples of jobs that return (C20_signal_*).'),
 'C40': ('partial', 'The full statement is false: C40_large_element_dropped shows an element of magnitude close to 1 that the kernel drops (first degree on the pole ring), C40_dropped_on_rings and C40_dropped_19_degrees that this happens far from the poles for larger orders. C40_included_partial proves inclusion of all elements from the first degree on. The full statement and its refutation: C40_Full, C40_full_refuted.'),
 'C36': ('partial', 'Value semantics and memory safety are proved for every history in which no allocation inside alloc() fails, and for views; the statement is false when it fails: C36_alloc_failure_double_free proves the double free / use after free. The full statement and its refutation: C36_Full, C36_full_refuted.'),
 'C46': ('proved', 'arr2 and arr3; memory exhaustion and arr2b (unused) are not modelled.'),
 'C22': ('proved', 'Exact complex arithmetic; histories of operations other than read.'),
 'C23': ('partial', 'True for a freshly constructed beam (C23_fresh_partial); false for an object that was normalised before: C23_read_keeps_flag and C23_read_after_normalize prove that read leaves the flag set (defect). The full statement and its refutation: C23_Full, C23_full_refuted.'),
 'C30': ('partial', 'Proved for the sky and for the lmax/m limits that the reader honours; false in general: C30_beam_mmax_wrong (get_mmax reports the wrong limit) and C30_beam_default_lmax_undefined (reads an indeterminate member) are proved defects. The full statement and its refutation: C30_Full, C30_full_refuted.'),
 'C31': ('partial', 'Same expansion on all ranks and a joint error for too large requests are proved; the statement is false for a missing or malformed file: C31_beam_missing_file_deadlock, C31_beam_bad_row_deadlock, C31_sky_missing_file_deadlock prove that the other ranks stay blocked. The full statement and its refutation: C31_Full, C31_full_refuted.'),
 'C32': ('proved', 'Exact arithmetic.'),
 'C33': ('proved', ''),
 'C34': ('partial', 'Proved for explicit limits. False in general: a negative lmax selects the larger limit (C34_default_lmax, C34_default_out_of_bounds), beammmax <= lmax is not checked (C34_mmax_above_lmax_undefined), nor is polarisation (C34_pol_unchecked). These are shown at the level of the whole job: every accepted bad limit makes each convolution that reaches the kernel undefined (C34_mmax_above_lmax_job_undefined, C34_default_lmax_job_undefined, C34_default_lmax_beam_undefined, C34_pol_job_undefined), and lmax = 0 is accepted by the constructor but each convolution throws inside the omp region (C34_lmax_zero_throws). The full statement and its refutation: C34_Full, C34_full_refuted.'),
 'C35': ('partial', 'The statement is false: C35_escape_list (functions that let exceptions escape), C35_convolver_new, C35_convolve_never_reports, C35_rejected_read_modifies, C35_normalize_ambiguous; proved for the remaining functions (C35_guarded_partial, C35_remove_status_partial, C35_beam_read_partial). The full statement and its refutation: C35_Full, C35_full_refuted.'),
 'C44': ('partial', 'Proved for explicit limits whenever a fresh construction would succeed (C44_history_partial, C44_collective_partial, C44_convolve_partial). False otherwise: C44_set_sky_unchecked, C44_set_sky_job_undefined (a whole job), C44_stale_default_limits, C44_unset_epsilon_undefined. The full statement and its refutation: C44_Full, C44_full_refuted.'),
 'C48': ('proved', 'All seeds, any number of draws. C48_period, C48_output_period, C48_all_states: full period (characteristic polynomial, inverses and primality certificate are checked by evaluation in the kernel). C48_gauss_terminates: the rejection loop ends.'),
 'C49': ('proved', 'All strings and 64-bit integers; decimal output of operator<< and input of operator>> are modelled for the C locale; conversions of floating point numbers are not modelled. C49_int_min_ub: formatting INT64_MIN is undefined; C49_tokenize_trailing: an empty last field is lost.'),
 'C50': ('proved', 'Exact arithmetic. C50_rotation: every rotate_alm call, every thread schedule. C50_smooth_negative: PowSpec::smoothWithGauss ignores the sign of the width although the a_lm version deconvolves.'),
 'C51': ('partial', 'Exact arithmetic. Orthogonality and the round trips are proved; the extraction is exact unless 0 < sin(beta) <= 1e-6, where C51_extract_inexact shows that it is not (error at most 2e-6). C51_axis_division_by_zero: toAxisAngle divides by zero exactly for half turns about (0,1,1)/sqrt2 and (0,1,-1)/sqrt2. The full statement and its refutation: C51_Full, C51_full_refuted.'),
 'C25': ('partial', 'The full statement is false: C25_sky_limit and C25_LMAXMAX_overflow prove that 46339 is the largest sky lmax for which the int arithmetic of the reader is defined, although LMAXMAX is 100000. Below the exact limit C25_read_refines_partial proves that the int program equals the unbounded model for every table. The full statement and its refutation: C25_Full, C25_full_refuted.'),
 'C45': ('partial', 'The full statement is false (C45_full_refuted): exact limits are proved instead (C45_send_iff: 429496729 samples per rank, C45_recv_iff: 2^31-1 doubles received, C45_cube_ok_partial/C45_cube_wrong for the rings); C45_cube_negative_count is a wrong count at lmax = 6000.'),
 'C52': ('proved', 'Exact arithmetic; C52_owner_unique gives independence of the history away from the boundaries, C52_owner_interval covers the boundary case.'),
 'C53': ('proved', 'Exact arithmetic, for all jobs in which the colatitude table is computed (Distributed).'),
 'C41': ('proved', 'C41_dft: both algorithms, every length with 4n <= 3^14, every history. Exact arithmetic; the decimal constants are replaced by the numbers they approximate. C41_library_transform discharges the hypothesis IsBackward of C18/C19/C34/C44 for the actual plans. C41_factor_overflow: at n = 3^k, k >= 14, mixed-radix plans write behind the work array (unreachable through the convolver, lmax <= 100000).'),
 'C47': ('proved', 'Exact arithmetic. The half-pi generators are C76; the three-component rotate_alm (three independent copies of the same sums) is not modelled. C47_one_call_too_many: recurse() number lmax+2 writes outside the table.'),
 'C54': ('proved', 'Coefficients are exact; the conversion of a Python float to c_float is an arbitrary function f32. pol must be 0 or not a multiple of 256 (C55_pol_byte: otherwise get_data raises and set_data writes through a null pointer).'),
 'C55': ('partial', 'False: C55_convolver_never_raises, C55_convolver_bad_limits, C55_convolver_no_memory (the constructor returns an object without a convolver), C55_convolve (exceptions end the process), C55_missing_file (deadlock), C55_set_data_not_atomic, C55_normalize_raises, C55_alloc_failure, C55_pol_byte. Proved: C55_init_too_large_partial, C55_set_data_partial, C55_normalize_partial, C55_convolver_partial, C55_alloc_partial. The full statement (for two of the calls) and its refutation: C55_Full, C55_full_refuted.'),
 'C56': ('partial', 'Ownership is exact for every program without allocation failure (C56_ownership); convolve and array access are safe exactly under the conditions of C56_convolve_iff and C56_view_iff; programs that keep every name are safe (C56_safe_partial). False in general: C56_dangling_sky, C56_stale_view, C56_orphan_view; C56_Full, C56_full_refuted. C56_alloc_failure: what an allocation failure leaves behind.'),
 'C57': ('partial', 'C57_flag gives the flag for every history; C57_true_partial proves the property when no set_data follows normalize; C57_set_data_after: after that the flag stays set whatever is stored. C57_Full, C57_full_refuted.'),
 'C58': ('proved', 'Standard model of rounding (relative error u per operation, no overflow or underflow; sin and cos within u of the true value); the values of the rings are given. C58_binary64: the constants for IEEE double, default order.'),
 'C59': ('proved', 'Exact arithmetic; sizes below 2^31 (C45). The code refutes the wish that every legal call returns; this property states what happens instead, for every input.'),
 'C61': ('proved', 'Exact arithmetic, rings as computed by the kernel and the synthesis. C61_accuracy is the bound with the flagged terms, C61_axisymmetric and C61_oversampling the case of beams without azimuthal structure, C61_convolve carries it to every sample of every job that returns. That flagged terms need not be small is C40 (finding 14).'),
 'C62': ('proved', 'Double rounding of the pointing, stencil, weights and interpolation is modelled; the accuracy rho of the rings is a parameter (ringClose_dbl: rho = 2^-53 of their size when exact rings are stored in double), rounding inside the kernel and the synthesis is in C64. No overflow or underflow.'),
 'C60': ('partial', 'The code refutes it: after the last rank has its share the code evaluates 0/0. and converts the NaN to long. C60_conversion_iff is the exact condition (at least as many needed rings as ranks), C60_job_undefined/C60_real_undefined/C60_single_rank carry it to whole jobs: every call on one rank with a legal sample off the equator performs the conversion. C60_few_defined_partial is the positive part; C09 and C59 hold for every value the conversion may yield.'),
 'C63': ('proved', 'Exact arithmetic; the transform is a plan of the library (C41). C63_files from the files on, C63_objects for objects with given contents. Requests with 0 < beammmax < beamlmax to beam::read are excluded (C30: the reader then uses the wrong limit); b00 must not be zero if the beam is normalised.'),
 'C64': ('proved', 'The accuracies delta of the Wigner elements, kappa of the tables of sines and cosines and phi of the transform are parameters (rounded_accurate: all are 2^-53 for correctly rounded libraries); the degrees kept by the generator are those kept in exact arithmetic. No overflow or underflow, no fused operations.'),
 'C65': ('proved', 'Every operation of the complex transforms rounds in the order of the code (Fft/RModel); negation and rounding commute with the sign; no fused operations, overflow or underflow; the choice of algorithm is arbitrary (cost). For C65_signal the accuracy delta of the Wigner generator remains a parameter.'),
 'C66': ('partial', 'False when the ranks disagree: C66_mixed_report_never_returns, C66_mixed_report_hangs, C66_mixed_debug_hangs (every job that would return hangs instead). Proved when all ranks agree on verbosity > 0 and verbosity > 5 (C66_same_result_partial, and C66_report_irrelevant_partial for any environment). The full statement and its refutation: C66_Full, C66_full_refuted.'),
 'C67': ('partial', 'False for integers outside the range of the parameter and texts with a zero byte, which are passed changed (C67_limit_passed). Proved: no call is undefined (C67_no_ub); the values are those of the arguments iff every integer is in range and no text has a zero byte (C67_args_partial); what the constructors receive in every case (C67_beam, C67_sky, C67_convolver); results (C67_result). The full statement and its refutation: C67_Full, C67_full_refuted.'),
 'C68': ('partial', 'False of sendrecv and sendrecv_replace (C68_sendrecv_noop, C68_sendrecv_replace_noop) and of gatherv / all2allv_easy with an empty rank (C68_gatherv_empty_never_returns, C68_all2allv_easy_idle_never_returns) or 2^31 elements (C68_gatherv_overflow). Proved otherwise, for any number of ranks and all sizes (C68_gatherv_partial, C68_all2allv_easy_partial, C68_all2all, C68_allgather, C68_allreduce, C68_bcast, C68_reduce, C68_allreduce_in_place, C68_numbers, C68_gatherv_table_partial for tables with one number of columns; C68_gatherv_table_no_columns, C68_gatherv_table_columns_differ otherwise). The full statement and its refutation: C68_Full, C68_full_refuted.'),
 'C69': ('partial', 'False of create_alm_pol where TT = 0 (C69_pol_expected_partial, second part). Proved: values and order of the numbers (C69_values, C69_pol_values with the exact condition for the exception), reproducibility (C69_reproducible), mean spectra (C69_expected, C69_pol_expected_partial); C69_short_spectrum: unchecked size. Exact arithmetic; the rejection loop of the generator is supposed to end; "ideal generator" = uncorrelated numbers of mean square one (independent normal numbers are such: white_gauss). The full statement and its refutation: C69_Full, C69_full_refuted.'),
 'C70': ('proved', 'Integer types of any width; conversion to a signed type is modulo 2^w (implementation-defined before C++20).'),
 'C71': ('proved', 'Exact arithmetic. The function is the sum of the coefficients times the spherical harmonics, whose orthonormality is proved (sphY_orthonormal). Matrix overload through Extract_CPAC_Euler_Angles as modelled in C51.'),
 'C72': ('proved', 'The integral is the iterated integral over colatitude and longitude with weight sin(theta); the convolution of C61/C63 equals it exactly, the error is that of C61 (C62, C64, C65 for rounding). C72_polarised, C72_files_polarised: Q + iU = -sum (G + iC) 2Y with respect to south and east, gradient and curl of the beam having no degrees below 2.'),
 'C73': ('partial', 'The code refutes it: after writing a column with several elements per row the handle counts elements as rows (C73_full_refuted), a failed move leaves a stale description (C73_stale_after_failed_move), efficientChunkSize tests column 1 (C73_chunk_size_unchecked), ASCII tables cannot have strings (C73_ascii_string_impossible), parts of images wrap (C73_subimage_wraps). Proved for all histories without these calls (Tame/Hist). cfitsio is a contract (cf*); closing succeeds; column search by name, checksums, comments and history cards are not modelled.'),
 'C74': ('proved', 'Machine: any interleaving of single loads and stores of shared doubles between barriers; freedom from races in it is what makes the C++ program equivalent to it (data-race-free programs are sequentially consistent). Locations no thread of a region stores to are constants of the programs. Kernel regions in exact arithmetic, sample loops in any arithmetic.'),
 'C75': ('proved', 'Exact arithmetic. Angles within 1e-15 of a pole are moved as in the code (C39_angle). libconviqt itself calls the single-angle calc.'),
 'C76': ('proved', 'Exact arithmetic. C76_one_call_too_many: call number max(lmax,1)+2 has undefined behaviour in both classes. Not used by libconviqt itself.'),
 'C77': ('proved', 'One rank, one thread. Outcomes of reads and convolutions are arbitrary (their values: C30-C35, C63); a successful read leaves known limits and complete coefficients: derived from the reading code on any number of ranks for all files and requested orders that are not negative (C77_reads_beam, C77_reads_sky); C77_reads_negative: a negative order can succeed on a damaged file and leave negative limits. C77_bad_handle, C77_dangling, C77_failed_alloc: what is undefined outside the rules of WellUsed. bad_alloc inside the setters of strings is not modelled.'),
 'C78': ('proved', 'Regions in arbitrary arithmetic (no laws assumed); whole calls (all degrees chained) in exact arithmetic, every outcome of the threaded program being one of the executions of C47 and C71. Same machine as C74. Not used by libconviqt itself.'),
 'C79': ('proved', 'Any arithmetic of the elements. The exceptions to the rules are findings: C79_failed_set, C79_negative_limits, C79_set_keeps (Set to the same size keeps the coefficients). 32-bit wrap of indices: C25; allocations of non-negative sizes succeed; arrays passed to Set are owned by themselves.'),
 'C80': ('proved', 'std::lower_bound as the C++ standard defines it. The members of arr_ref call ::interpol_helper although the function is in namespace levels; the model takes the function meant. Rounding: any monotone function that keeps 0 and 1, is odd and does not cancel distinct elements. Not used by libconviqt itself.'),
 'C81': ('partial', 'False of long lines and large numerals (C81_full_refuted, C81_long_line, C81_number_range) and of capacity 0 (C81_string_prot_zero). Proved otherwise for all files and lookups: C81_line, C81_file_partial, C81_string, C81_string_prot, C81_number_partial. getVarDouble, getVarStringUnProt and closeParams are not modelled.'),
 'C82': ('partial', 'False of a number scaled or divided by its own real part and of Set(im, re) on itself (C82_full_refuted, C82_own_factor, C82_own_divisor, C82_set_exchange; no caller in the repository does this). Proved for all other calls: C82_changes_partial; operators: C82_operators; vectors: C82_products, C82_lengths. Exact real arithmetic; the division of std::complex is taken as exact division.'),
 'C83': ('partial', 'Complete for plans with Bluestein\'s algorithm: C83_bluestein with C83_forward_partial, C83_backward_partial, C83_roundtrip_partial, from make plan on and after every history of calls. Missing: for plans with the mixed-radix algorithm those three theorems assume that rfftf and rfftb (levels/libfftpack/fftpack.c, radf*/radb*) compute the transform in fftpack format (RPlan.OK.rf, rb); their passes are not modelled. C83_formats assumes nothing. Exact arithmetic; the cost estimate of make_real_plan is not used (both algorithms are covered).'),
 'C84': ('proved', 'C84_histories (results, no undefined behaviour), C84_no_leak (plans in use), C84_no_length_undefined (what the caller must respect). A plan and its work array are one block. Exact arithmetic (C41). Failure of an allocation is not modelled. The class rfft has the same members; it is not modelled.'),
 'C85': ('partial', 'False when the result is stored in a factor (C85_full_refuted, C85_transform_in_place; no caller in the repository does so). Otherwise complete: C85_matmult_partial, C85_transpose_times_partial and C85_transform_partial for results that share no storage with the operands (the factors may be one object or overlap), C85_transpose without hypotheses. Exact arithmetic; operands that overlap the result only in part (impossible for C++ objects of these classes) are outside.'),
}
