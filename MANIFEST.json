{
 "claims": [
  {
   "property": "C01",
   "status": "proved",
   "theorems": [
    "Verif.Tod.C01_convolve_real",
    "Verif.Tod.C01_rows_in_place"
   ],
   "note": "C01_rows_in_place for abstract arithmetic (any type with the laws Valid needs), C01_convolve_real discharges the laws for exact reals."
  },
  {
   "property": "C02",
   "status": "proved",
   "theorems": [
    "Verif.Tod.C02_decomposition_independent"
   ],
   "note": "Exactly equal outputs, operation for operation, for any two decompositions."
  },
  {
   "property": "C03",
   "status": "proved",
   "theorems": [
    "Verif.Tod.C03_permutation",
    "Verif.Tod.C03_sample_independent"
   ],
   "note": ""
  },
  {
   "property": "C04",
   "status": "proved",
   "theorems": [
    "Verif.Tod.C04_enumerates",
    "Verif.Tod.C04_time_is_global_index"
   ],
   "note": "The column holds ofInt(index); injectivity of the conversion is that of the number type (exact up to 2^53 in doubles)."
  },
  {
   "property": "C05",
   "status": "partial",
   "theorems": [
    "Verif.Tod.C05_check_iff_partial",
    "Verif.Tod.C05_check_iff_real_partial",
    "Verif.Tod.C05_full_refuted",
    "Verif.Tod.C05_nan_not_rejected",
    "Verif.Tod.C05_return_legal_partial",
    "Verif.Tod.C05_rows_intact_partial",
    "Verif.Tod.C05_unbinned_undefined"
   ],
   "note": "C05_check_iff_partial/C05_check_iff_real_partial: in every execution without NaN the call throws iff a colatitude is out of range, and then only the time column has changed (C05_rows_intact_partial). The full statement is false (C05_full_refuted): NaN is not rejected (C05_nan_not_rejected), and angles that are accepted but cannot be binned are undefined behaviour (C05_unbinned_undefined)."
  },
  {
   "property": "C06",
   "status": "partial",
   "theorems": [
    "Verif.Tod.C06_deadlock_iff",
    "Verif.Tod.C06_full_refuted",
    "Verif.Tod.C06_lonely_stuck",
    "Verif.Tod.C06_terminates_if_all_active_partial",
    "Verif.Tod.C06_terminates_if_nonempty_partial"
   ],
   "note": "Full statement is false (C06_full_refuted): C06_deadlock_iff characterises the deadlocks (a rank without samples and segments), C06_lonely_stuck is a concrete one; termination is proved when all ranks are active or hold samples."
  },
  {
   "property": "C07",
   "status": "partial",
   "theorems": [
    "Verif.Tod.C07_ends_iff",
    "Verif.Tod.C07_error_on_all_ranks_partial",
    "Verif.Tod.C07_error_on_one_rank_deadlocks",
    "Verif.Tod.C07_full_refuted"
   ],
   "note": "Full statement is false (C07_full_refuted): C07_error_on_one_rank_deadlocks proves that an illegal colatitude on one rank leaves the others blocked; C07_ends_iff is the exact condition, C07_error_on_all_ranks_partial the case in which the error reaches every caller."
  },
  {
   "property": "C08",
   "status": "proved",
   "theorems": [
    "Verif.Tod.C08_counts_match_packing"
   ],
   "note": ""
  },
  {
   "property": "C09",
   "status": "proved",
   "theorems": [
    "Verif.Tod.C09_assignment"
   ],
   "note": "For every value the conversion of NaN may yield; that the conversion takes place is C60."
  },
  {
   "property": "C10",
   "status": "proved",
   "theorems": [
    "Verif.Num.C10_rings_local",
    "Verif.Tod.C10_cube_exchange"
   ],
   "note": ""
  },
  {
   "property": "C11",
   "status": "proved",
   "theorems": [
    "Verif.Tod.C11_interpolate",
    "Verif.Tod.C11_window"
   ],
   "note": ""
  },
  {
   "property": "C12",
   "status": "proved",
   "theorems": [
    "Verif.Tod.C12_reproduces_polynomials",
    "Verif.Tod.C12_sum_one",
    "Verif.Tod.C12_unit_at_node"
   ],
   "note": "Exact arithmetic."
  },
  {
   "property": "C13",
   "status": "proved",
   "theorems": [
    "Verif.Tod.C13_antitone",
    "Verif.Tod.C13_window"
   ],
   "note": "Exact arithmetic."
  },
  {
   "property": "C14",
   "status": "proved",
   "theorems": [
    "Verif.Tod.C14_cell",
    "Verif.Tod.C14_periodic",
    "Verif.Tod.C14_stencil",
    "Verif.Tod.C14_value_periodic"
   ],
   "note": "Exact arithmetic; C42_fmodulo_rounded covers rounding in the reduction of phi."
  },
  {
   "property": "C15",
   "status": "proved",
   "theorems": [
    "Verif.Tod.C15_schedule_independent"
   ],
   "note": "Model: iterations of every parallel loop in any order (Env.sched); data races inside one iteration are excluded by the disjointness of the written rows in the model, the C++ memory model itself is not modelled."
  },
  {
   "property": "C16",
   "status": "proved",
   "theorems": [
    "Verif.Num.C16_complete",
    "Verif.Num.C16_north"
   ],
   "note": "Exact arithmetic; the sum starts at the first degree the generator reports (C16_complete gives the full sum when no degree is dropped)."
  },
  {
   "property": "C17",
   "status": "proved",
   "theorems": [
    "Verif.Num.C17_south"
   ],
   "note": "Exact arithmetic."
  },
  {
   "property": "C18",
   "status": "proved",
   "theorems": [
    "Verif.Num.C18_synthesis"
   ],
   "note": "Exact arithmetic, for any fft satisfying the definition of the backward DFT (hypothesis IsBackward)."
  },
  {
   "property": "C19",
   "status": "proved",
   "theorems": [
    "Verif.Num.C19_complete",
    "Verif.Num.C19_convolve",
    "Verif.Num.C19_node"
   ],
   "note": "Exact arithmetic, for expansions of real fields and any fft meeting the definition of the backward DFT. C19_node: every node, with the degrees the generator drops described by FirstDegOK; C19_complete: complete sum when the threshold is small enough; C19_convolve: for every sample of every job that returns."
  },
  {
   "property": "C20",
   "status": "proved",
   "theorems": [
    "Verif.Num.C20_linear_beam",
    "Verif.Num.C20_linear_sky",
    "Verif.Num.C20_polarised_eq_intensity",
    "Verif.Num.C20_signal_linear_beam",
    "Verif.Num.C20_signal_linear_sky",
    "Verif.Num.C20_signal_polarised"
   ],
   "note": "Exact arithmetic. For the rings (C20_linear_*) and for the signals of the samples of jobs that return (C20_signal_*)."
  },
  {
   "property": "C21",
   "status": "proved",
   "theorems": [
    "Verif.Tod.C21_calibration"
   ],
   "note": ""
  },
  {
   "property": "C22",
   "status": "proved",
   "theorems": [
    "Verif.Obj.C22_idempotent",
    "Verif.Obj.C22_normalize"
   ],
   "note": "Exact complex arithmetic; histories of operations other than read."
  },
  {
   "property": "C23",
   "status": "partial",
   "theorems": [
    "Verif.Obj.C23_fresh_partial",
    "Verif.Obj.C23_full_refuted",
    "Verif.Obj.C23_read_after_normalize",
    "Verif.Obj.C23_read_keeps_flag"
   ],
   "note": "True for a freshly constructed beam (C23_fresh_partial); false for an object that was normalised before: C23_read_keeps_flag and C23_read_after_normalize prove that read leaves the flag set (defect). The full statement and its refutation: C23_Full, C23_full_refuted."
  },
  {
   "property": "C24",
   "status": "proved",
   "theorems": [
    "Verif.Harm.C24_index_bijection",
    "Verif.Harm.C24_mmax_gt_lmax_throws",
    "Verif.Harm.C24_put_get"
   ],
   "note": ""
  },
  {
   "property": "C25",
   "status": "partial",
   "theorems": [
    "Verif.Harm.C25_LMAXMAX_overflow",
    "Verif.Harm.C25_access_overflow",
    "Verif.Harm.C25_access_refines_partial",
    "Verif.Harm.C25_bcast_count_partial",
    "Verif.Harm.C25_full_refuted",
    "Verif.Harm.C25_index_refines_partial",
    "Verif.Harm.C25_read_overflow",
    "Verif.Harm.C25_read_refines_partial",
    "Verif.Harm.C25_sky_limit"
   ],
   "note": "The full statement is false: C25_sky_limit and C25_LMAXMAX_overflow prove that 46339 is the largest sky lmax for which the int arithmetic of the reader is defined, although LMAXMAX is 100000. Below the exact limit C25_read_refines_partial proves that the int program equals the unbounded model for every table. The full statement and its refutation: C25_Full, C25_full_refuted."
  },
  {
   "property": "C26",
   "status": "proved",
   "theorems": [
    "Verif.Fits.C26_code_lt_iff",
    "Verif.Fits.C26_code_onto",
    "Verif.Fits.C26_decode_code",
    "Verif.Fits.C26_decode_nonpos_ub"
   ],
   "note": ""
  },
  {
   "property": "C27",
   "status": "proved",
   "theorems": [
    "Verif.Fits.C27_nonpositive_index_ub",
    "Verif.Fits.C27_read",
    "Verif.Fits.C27_read_bad_limits_throws",
    "Verif.Fits.C27_read_malformed_throws"
   ],
   "note": "C27_nonpositive_index_ub records the one malformed index class that is undefined instead of an error."
  },
  {
   "property": "C28",
   "status": "partial",
   "theorems": [
    "Verif.Fits.C28_compressed_nan_drops_coefficient",
    "Verif.Fits.C28_compressed_write_read_partial",
    "Verif.Fits.C28_full_refuted",
    "Verif.Fits.C28_get_almsize_keys",
    "Verif.Fits.C28_get_almsize_scan",
    "Verif.Fits.C28_write_read",
    "Verif.Fits.C28_write_read_id"
   ],
   "note": "Proved for all finite values; C28_compressed_nan_drops_coefficient shows that the compressed writer drops NaN coefficients, so the statement is false for NaN. The full statement and its refutation: C28_Full, C28_full_refuted."
  },
  {
   "property": "C29",
   "status": "proved",
   "theorems": [
    "Verif.Share.C29_calcShareGeneral_partition",
    "Verif.Share.C29_chunkMaker_partition"
   ],
   "note": ""
  },
  {
   "property": "C30",
   "status": "partial",
   "theorems": [
    "Verif.Obj.C30_beam_default_lmax_undefined",
    "Verif.Obj.C30_beam_limits_partial",
    "Verif.Obj.C30_beam_mmax_wrong",
    "Verif.Obj.C30_file_limits",
    "Verif.Obj.C30_full_refuted",
    "Verif.Obj.C30_long_name",
    "Verif.Obj.C30_sky_read"
   ],
   "note": "Proved for the sky and for the lmax/m limits that the reader honours; false in general: C30_beam_mmax_wrong (get_mmax reports the wrong limit) and C30_beam_default_lmax_undefined (reads an indeterminate member) are proved defects. The full statement and its refutation: C30_Full, C30_full_refuted."
  },
  {
   "property": "C31",
   "status": "partial",
   "theorems": [
    "Verif.Obj.C31_beam_bad_row_deadlock",
    "Verif.Obj.C31_beam_missing_file_deadlock",
    "Verif.Obj.C31_beam_same_partial",
    "Verif.Obj.C31_beam_too_large_partial",
    "Verif.Obj.C31_full_refuted",
    "Verif.Obj.C31_sky_missing_file_deadlock",
    "Verif.Obj.C31_sky_too_large_partial"
   ],
   "note": "Same expansion on all ranks and a joint error for too large requests are proved; the statement is false for a missing or malformed file: C31_beam_missing_file_deadlock, C31_beam_bad_row_deadlock, C31_sky_missing_file_deadlock prove that the other ranks stay blocked. The full statement and its refutation: C31_Full, C31_full_refuted."
  },
  {
   "property": "C32",
   "status": "proved",
   "theorems": [
    "Verif.Obj.C32_constant",
    "Verif.Obj.C32_factor",
    "Verif.Obj.C32_inverse",
    "Verif.Obj.C32_smooth",
    "Verif.Obj.C32_width",
    "Verif.Obj.C32_zero"
   ],
   "note": "Exact arithmetic."
  },
  {
   "property": "C33",
   "status": "proved",
   "theorems": [
    "Verif.Obj.C33_commute",
    "Verif.Obj.C33_remove"
   ],
   "note": ""
  },
  {
   "property": "C34",
   "status": "partial",
   "theorems": [
    "Verif.Obj.C34_default_lmax",
    "Verif.Obj.C34_default_lmax_beam_undefined",
    "Verif.Obj.C34_default_lmax_job_undefined",
    "Verif.Obj.C34_default_out_of_bounds",
    "Verif.Obj.C34_explicit",
    "Verif.Obj.C34_full_refuted",
    "Verif.Obj.C34_in_bounds_partial",
    "Verif.Obj.C34_limits_partial",
    "Verif.Obj.C34_lmax_zero_throws",
    "Verif.Obj.C34_mmax_above_lmax_job_undefined",
    "Verif.Obj.C34_mmax_above_lmax_undefined",
    "Verif.Obj.C34_pol_job_undefined",
    "Verif.Obj.C34_pol_unchecked"
   ],
   "note": "Proved for explicit limits. False in general: a negative lmax selects the larger limit (C34_default_lmax, C34_default_out_of_bounds), beammmax <= lmax is not checked (C34_mmax_above_lmax_undefined), nor is polarisation (C34_pol_unchecked). These are shown at the level of the whole job: every accepted bad limit makes each convolution that reaches the kernel undefined (C34_mmax_above_lmax_job_undefined, C34_default_lmax_job_undefined, C34_default_lmax_beam_undefined, C34_pol_job_undefined), and lmax = 0 is accepted by the constructor but each convolution throws inside the omp region (C34_lmax_zero_throws). The full statement and its refutation: C34_Full, C34_full_refuted."
  },
  {
   "property": "C35",
   "status": "partial",
   "theorems": [
    "Verif.CApi.C35_beam_read_partial",
    "Verif.CApi.C35_convolve_never_reports",
    "Verif.CApi.C35_convolver_limit",
    "Verif.CApi.C35_convolver_new",
    "Verif.CApi.C35_escape_list",
    "Verif.CApi.C35_full_refuted",
    "Verif.CApi.C35_get_id",
    "Verif.CApi.C35_guarded_partial",
    "Verif.CApi.C35_normalize_ambiguous",
    "Verif.CApi.C35_rejected_read_modifies",
    "Verif.CApi.C35_remove_status_partial"
   ],
   "note": "The statement is false: C35_escape_list (functions that let exceptions escape), C35_convolver_new, C35_convolve_never_reports, C35_rejected_read_modifies, C35_normalize_ambiguous; proved for the remaining functions (C35_guarded_partial, C35_remove_status_partial, C35_beam_read_partial). The full statement and its refutation: C35_Full, C35_full_refuted."
  },
  {
   "property": "C36",
   "status": "partial",
   "theorems": [
    "Verif.Arr.C36_alloc_failure_double_free",
    "Verif.Arr.C36_full_refuted",
    "Verif.Arr.C36_memory_safe_partial",
    "Verif.Arr.C36_value_semantics_partial"
   ],
   "note": "Value semantics and memory safety are proved for every history in which no allocation inside alloc() fails, and for views; the statement is false when it fails: C36_alloc_failure_double_free proves the double free / use after free. The full statement and its refutation: C36_Full, C36_full_refuted."
  },
  {
   "property": "C37",
   "status": "proved",
   "theorems": [
    "Verif.Tod.C37_DDcm",
    "Verif.Tod.C37_DL",
    "Verif.Tod.C37_buffer_sorted",
    "Verif.Tod.C37_columns",
    "Verif.Tod.C37_rowwise",
    "Verif.Tod.C37_sort_permutes_rows"
   ],
   "note": "All functions of conviqt_util.cpp on the flat buffers, for every sorting function; C37_rowwise links them to the row-wise sort of the model of convolve. Keys are assumed not NaN (std::sort would be undefined)."
  },
  {
   "property": "C38",
   "status": "proved",
   "theorems": [
    "Verif.Num.C38_first_prepare_overflows",
    "Verif.Num.C38_history_independent",
    "Verif.Obj.C38_every_convolution_overflows"
   ],
   "note": "Exact arithmetic and int overflow of the sentinel product assumed to give some value; C38_first_prepare_overflows is the finding that it is undefined in C++, C38_every_convolution_overflows its consequence for whole jobs. In floating point the statement is not bit-exact (the order of the factors in the table depends on history)."
  },
  {
   "property": "C39",
   "status": "proved",
   "theorems": [
    "Verif.Num.C39_angle",
    "Verif.Num.C39_calc",
    "Verif.Num.C39_negligible",
    "Verif.Num.C39_three_term"
   ],
   "note": "Exact arithmetic: the scaling and recurrence return the textbook d-function of the pole-adjusted angle; C39_negligible bounds the skipped elements."
  },
  {
   "property": "C40",
   "status": "partial",
   "theorems": [
    "Verif.Num.C40_dropped_19_degrees",
    "Verif.Num.C40_dropped_on_rings",
    "Verif.Num.C40_full_refuted",
    "Verif.Num.C40_included_partial",
    "Verif.Num.C40_large_element_dropped"
   ],
   "note": "The full statement is false: C40_large_element_dropped shows an element of magnitude close to 1 that the kernel drops (first degree on the pole ring), C40_dropped_on_rings and C40_dropped_19_degrees that this happens far from the poles for larger orders. C40_included_partial proves inclusion of all elements from the first degree on. The full statement and its refutation: C40_Full, C40_full_refuted."
  },
  {
   "property": "C41",
   "status": "proved",
   "theorems": [
    "Verif.Fft.C41_dft",
    "Verif.Fft.C41_factor_overflow",
    "Verif.Fft.C41_good_size",
    "Verif.Fft.C41_library_transform",
    "Verif.Fft.C41_mixed_radix",
    "Verif.Fft.C41_prime_factor_sum",
    "Verif.Fft.C41_roundtrip",
    "Verif.Fft.C41_zero_length_hangs"
   ],
   "note": "C41_dft: both algorithms, every length with 4n <= 3^14, every history. Exact arithmetic; the decimal constants are replaced by the numbers they approximate. C41_library_transform discharges the hypothesis IsBackward of C18/C19/C34/C44 for the actual plans. C41_factor_overflow: at n = 3^k, k >= 14, mixed-radix plans write behind the work array (unreachable through the convolver, lmax <= 100000)."
  },
  {
   "property": "C42",
   "status": "partial",
   "theorems": [
    "Verif.Tod.C42_fmodulo",
    "Verif.Tod.C42_fmodulo_rounded",
    "Verif.Util.C42_full_refuted",
    "Verif.Util.C42_ilog2",
    "Verif.Util.C42_imodulo",
    "Verif.Util.C42_imodulo_no_overflow",
    "Verif.Util.C42_isqrt",
    "Verif.Util.C42_isqrt64_overflow",
    "Verif.Util.C42_isqrt64_partial",
    "Verif.Util.C42_isqrtU64_partial",
    "Verif.Util.C42_isqrtU64_wrong",
    "Verif.Util.C42_xpow"
   ],
   "note": "fmodulo, imodulo, xpow, ilog2 and the 32 bit isqrt are proved for all arguments (isqrt under the rounding properties of binary64, which are proved for round-to-nearest-even in Util/Double). The 64 bit isqrt is right below the square of the largest root only: C42_isqrt64_overflow and C42_isqrtU64_wrong are proved defects above it. The full statement and its refutation: C42_Full, C42_full_refuted."
  },
  {
   "property": "C43",
   "status": "partial",
   "theorems": [
    "Verif.Tod.C43_distributed_partial",
    "Verif.Tod.C43_equator_undefined",
    "Verif.Tod.C43_few_bins_undefined",
    "Verif.Tod.C43_full_refuted",
    "Verif.Tod.C43_histogram_partial",
    "Verif.Tod.C43_job_undefined",
    "Verif.Tod.C43_table_ok_partial",
    "Verif.Tod.C43_table_sorted_partial",
    "Verif.Tod.C43_table_undefined"
   ],
   "note": "Full statement is false (C43_full_refuted): undefined at the equator and with too few bins (C43_equator_undefined, C43_few_bins_undefined, C43_table_undefined, C43_job_undefined); C43_table_ok_partial, C43_table_sorted_partial, C43_histogram_partial prove it otherwise."
  },
  {
   "property": "C44",
   "status": "partial",
   "theorems": [
    "Verif.Obj.C44_collective_partial",
    "Verif.Obj.C44_convolve_partial",
    "Verif.Obj.C44_full_refuted",
    "Verif.Obj.C44_history_partial",
    "Verif.Obj.C44_set_sky_job_undefined",
    "Verif.Obj.C44_set_sky_unchecked",
    "Verif.Obj.C44_stale_default_limits",
    "Verif.Obj.C44_unset_epsilon_undefined",
    "Verif.Obj.C44_weights_never_change"
   ],
   "note": "Proved for explicit limits whenever a fresh construction would succeed (C44_history_partial, C44_collective_partial, C44_convolve_partial). False otherwise: C44_set_sky_unchecked, C44_set_sky_job_undefined (a whole job), C44_stale_default_limits, C44_unset_epsilon_undefined. The full statement and its refutation: C44_Full, C44_full_refuted."
  },
  {
   "property": "C45",
   "status": "partial",
   "theorems": [
    "Verif.Tod.C45_cube_negative_count",
    "Verif.Tod.C45_cube_ok_partial",
    "Verif.Tod.C45_cube_wrong",
    "Verif.Tod.C45_full_refuted",
    "Verif.Tod.C45_recv_iff",
    "Verif.Tod.C45_send_iff"
   ],
   "note": "The full statement is false (C45_full_refuted): exact limits are proved instead (C45_send_iff: 429496729 samples per rank, C45_recv_iff: 2^31-1 doubles received, C45_cube_ok_partial/C45_cube_wrong for the rings); C45_cube_negative_count is a wrong count at lmax = 6000."
  },
  {
   "property": "C46",
   "status": "proved",
   "theorems": [
    "Verif.Arr2.C46_arr2",
    "Verif.Arr2.C46_arr2_effect",
    "Verif.Arr2.C46_arr2_fill_scale",
    "Verif.Arr2.C46_arr3",
    "Verif.Arr2.C46_arr3_effect"
   ],
   "note": "arr2 and arr3; memory exhaustion and arr2b (unused) are not modelled."
  },
  {
   "property": "C47",
   "status": "proved",
   "theorems": [
    "Verif.Risbo.C47_omp_table",
    "Verif.Risbo.C47_one_call_too_many",
    "Verif.Risbo.C47_rotate",
    "Verif.Risbo.C47_rotate_inverse",
    "Verif.Risbo.C47_rotate_real",
    "Verif.Risbo.C47_rotate_schedule",
    "Verif.Risbo.C47_scalar_eq_omp",
    "Verif.Risbo.C47_scalar_table"
   ],
   "note": "Exact arithmetic. The half-pi generators are C76; the three-component rotate_alm (three independent copies of the same sums) is not modelled. C47_one_call_too_many: recurse() number lmax+2 writes outside the table."
  },
  {
   "property": "C48",
   "status": "proved",
   "theorems": [
    "Verif.Rng.C48_all_states",
    "Verif.Rng.C48_bijection",
    "Verif.Rng.C48_gauss_defined",
    "Verif.Rng.C48_gauss_pair",
    "Verif.Rng.C48_gauss_terminates",
    "Verif.Rng.C48_never_zero",
    "Verif.Rng.C48_output_period",
    "Verif.Rng.C48_outputs_alive",
    "Verif.Rng.C48_period",
    "Verif.Rng.C48_seed_fresh",
    "Verif.Rng.C48_uniform",
    "Verif.Rng.C48_zero_seeds"
   ],
   "note": "All seeds, any number of draws. C48_period, C48_output_period, C48_all_states: full period (characteristic polynomial, inverses and primality certificate are checked by evaluation in the kernel). C48_gauss_terminates: the rejection loop ends."
  },
  {
   "property": "C49",
   "status": "proved",
   "theorems": [
    "Verif.Str.C49_bool_roundtrip",
    "Verif.Str.C49_cmdline_classic",
    "Verif.Str.C49_cmdline_classic_only",
    "Verif.Str.C49_cmdline_equalsign",
    "Verif.Str.C49_cmdline_missing",
    "Verif.Str.C49_equal_nocase",
    "Verif.Str.C49_equal_nocase_letters",
    "Verif.Str.C49_int_min_ub",
    "Verif.Str.C49_int_roundtrip",
    "Verif.Str.C49_parse_file",
    "Verif.Str.C49_parse_last",
    "Verif.Str.C49_parse_line",
    "Verif.Str.C49_parse_line_iff",
    "Verif.Str.C49_split",
    "Verif.Str.C49_split_words",
    "Verif.Str.C49_string_to_bool",
    "Verif.Str.C49_string_to_int",
    "Verif.Str.C49_tokenize",
    "Verif.Str.C49_tokenize_join",
    "Verif.Str.C49_tokenize_trailing",
    "Verif.Str.C49_trim"
   ],
   "note": "All strings and 64-bit integers; decimal output of operator<< and input of operator>> are modelled for the C locale; conversions of floating point numbers are not modelled. C49_int_min_ub: formatting INT64_MIN is undefined; C49_tokenize_trailing: an empty last field is lost."
  },
  {
   "property": "C50",
   "status": "proved",
   "theorems": [
    "Verif.PowSpec.C50_cauchy_schwarz",
    "Verif.PowSpec.C50_nonneg",
    "Verif.PowSpec.C50_phase",
    "Verif.PowSpec.C50_pol_consistent",
    "Verif.PowSpec.C50_pol_value",
    "Verif.PowSpec.C50_quadratic",
    "Verif.PowSpec.C50_scaleL",
    "Verif.PowSpec.C50_smooth",
    "Verif.PowSpec.C50_smooth_negative",
    "Verif.PowSpec.C50_value",
    "Verif.Risbo.C50_rotation"
   ],
   "note": "Exact arithmetic. C50_rotation: every rotate_alm call, every thread schedule. C50_smooth_negative: PowSpec::smoothWithGauss ignores the sign of the width although the a_lm version deconvolves."
  },
  {
   "property": "C51",
   "status": "partial",
   "theorems": [
    "Verif.Rot.C51_axis_division_by_zero",
    "Verif.Rot.C51_axis_proper",
    "Verif.Rot.C51_axis_roundtrip",
    "Verif.Rot.C51_euler_composition",
    "Verif.Rot.C51_euler_proper",
    "Verif.Rot.C51_extract_inexact",
    "Verif.Rot.C51_extract_partial",
    "Verif.Rot.C51_extract_range",
    "Verif.Rot.C51_full_refuted"
   ],
   "note": "Exact arithmetic. Orthogonality and the round trips are proved; the extraction is exact unless 0 < sin(beta) <= 1e-6, where C51_extract_inexact shows that it is not (error at most 2e-6). C51_axis_division_by_zero: toAxisAngle divides by zero exactly for half turns about (0,1,1)/sqrt2 and (0,1,-1)/sqrt2. The full statement and its refutation: C51_Full, C51_full_refuted."
  },
  {
   "property": "C52",
   "status": "proved",
   "theorems": [
    "Verif.Tod.C52_owner_interval",
    "Verif.Tod.C52_owner_unique"
   ],
   "note": "Exact arithmetic; C52_owner_unique gives independence of the history away from the boundaries, C52_owner_interval covers the boundary case."
  },
  {
   "property": "C53",
   "status": "proved",
   "theorems": [
    "Verif.Tod.C53_load"
   ],
   "note": "Exact arithmetic, for all jobs in which the colatitude table is computed (Distributed)."
  },
  {
   "property": "C54",
   "status": "proved",
   "theorems": [
    "Verif.Py.C54_beam",
    "Verif.Py.C54_get_data",
    "Verif.Py.C54_set_data",
    "Verif.Py.C54_sky"
   ],
   "note": "Coefficients are exact; the conversion of a Python float to c_float is an arbitrary function f32. pol must be 0 or not a multiple of 256 (C55_pol_byte: otherwise get_data raises and set_data writes through a null pointer)."
  },
  {
   "property": "C55",
   "status": "partial",
   "theorems": [
    "Verif.Py.C55_alloc_failure",
    "Verif.Py.C55_alloc_partial",
    "Verif.Py.C55_convolve",
    "Verif.Py.C55_convolver_bad_limits",
    "Verif.Py.C55_convolver_never_raises",
    "Verif.Py.C55_convolver_no_memory",
    "Verif.Py.C55_convolver_partial",
    "Verif.Py.C55_detector",
    "Verif.Py.C55_full_refuted",
    "Verif.Py.C55_full_refuted_set_data",
    "Verif.Py.C55_init_too_large_partial",
    "Verif.Py.C55_missing_file",
    "Verif.Py.C55_normalize_partial",
    "Verif.Py.C55_normalize_raises",
    "Verif.Py.C55_pol_byte",
    "Verif.Py.C55_set_data_not_atomic",
    "Verif.Py.C55_set_data_partial"
   ],
   "note": "False: C55_convolver_never_raises, C55_convolver_bad_limits, C55_convolver_no_memory (the constructor returns an object without a convolver), C55_convolve (exceptions end the process), C55_missing_file (deadlock), C55_set_data_not_atomic, C55_normalize_raises, C55_alloc_failure, C55_pol_byte. Proved: C55_init_too_large_partial, C55_set_data_partial, C55_normalize_partial, C55_convolver_partial, C55_alloc_partial. The full statement (for two of the calls) and its refutation: C55_Full, C55_full_refuted."
  },
  {
   "property": "C56",
   "status": "partial",
   "theorems": [
    "Verif.Life.C56_alloc_failure",
    "Verif.Life.C56_convolve_iff",
    "Verif.Life.C56_dangling_sky",
    "Verif.Life.C56_full_refuted",
    "Verif.Life.C56_orphan_view",
    "Verif.Life.C56_ownership",
    "Verif.Life.C56_safe_partial",
    "Verif.Life.C56_stale_view",
    "Verif.Life.C56_view_iff"
   ],
   "note": "Ownership is exact for every program without allocation failure (C56_ownership); convolve and array access are safe exactly under the conditions of C56_convolve_iff and C56_view_iff; programs that keep every name are safe (C56_safe_partial). False in general: C56_dangling_sky, C56_stale_view, C56_orphan_view; C56_Full, C56_full_refuted. C56_alloc_failure: what an allocation failure leaves behind."
  },
  {
   "property": "C57",
   "status": "partial",
   "theorems": [
    "Verif.Py.C57_flag",
    "Verif.Py.C57_full_refuted",
    "Verif.Py.C57_set_data_after",
    "Verif.Py.C57_true_partial"
   ],
   "note": "C57_flag gives the flag for every history; C57_true_partial proves the property when no set_data follows normalize; C57_set_data_after: after that the flag stays set whatever is stored. C57_Full, C57_full_refuted."
  },
  {
   "property": "C58",
   "status": "proved",
   "theorems": [
    "Verif.Tod.C58_binary64",
    "Verif.Tod.C58_signal_error"
   ],
   "note": "Standard model of rounding (relative error u per operation, no overflow or underflow; sin and cos within u of the true value); the values of the rings are given. C58_binary64: the constants for IEEE double, default order."
  },
  {
   "property": "C59",
   "status": "proved",
   "theorems": [
    "Verif.Tod.C59_exactly_one",
    "Verif.Tod.C59_outcome",
    "Verif.Tod.C59_two_ranks"
   ],
   "note": "Exact arithmetic; sizes below 2^31 (C45). The code refutes the wish that every legal call returns; this property states what happens instead, for every input."
  },
  {
   "property": "C60",
   "status": "partial",
   "theorems": [
    "Verif.Tod.C60_conversion_iff",
    "Verif.Tod.C60_few_defined_partial",
    "Verif.Tod.C60_full_refuted",
    "Verif.Tod.C60_job_undefined",
    "Verif.Tod.C60_nan_undefined",
    "Verif.Tod.C60_real_undefined",
    "Verif.Tod.C60_single_rank"
   ],
   "note": "The code refutes it: after the last rank has its share the code evaluates 0/0. and converts the NaN to long. C60_conversion_iff is the exact condition (at least as many needed rings as ranks), C60_job_undefined/C60_real_undefined/C60_single_rank carry it to whole jobs: every call on one rank with a legal sample off the equator performs the conversion. C60_few_defined_partial is the positive part; C09 and C59 hold for every value the conversion may yield."
  },
  {
   "property": "C61",
   "status": "proved",
   "theorems": [
    "Verif.Num.C61_accuracy",
    "Verif.Num.C61_axisymmetric",
    "Verif.Num.C61_convolve",
    "Verif.Num.C61_oversampling"
   ],
   "note": "Exact arithmetic, rings as computed by the kernel and the synthesis. C61_accuracy is the bound with the flagged terms, C61_axisymmetric and C61_oversampling the case of beams without azimuthal structure, C61_convolve carries it to every sample of every job that returns. That flagged terms need not be small is C40 (finding 14)."
  },
  {
   "property": "C62",
   "status": "proved",
   "theorems": [
    "Verif.Num.C62_binary64",
    "Verif.Num.C62_oversampling"
   ],
   "note": "Double rounding of the pointing, stencil, weights and interpolation is modelled; the accuracy rho of the rings is a parameter (ringClose_dbl: rho = 2^-53 of their size when exact rings are stored in double), rounding inside the kernel and the synthesis is in C64. No overflow or underflow."
  },
  {
   "property": "C63",
   "status": "proved",
   "theorems": [
    "Verif.Obj.C63_files",
    "Verif.Obj.C63_objects"
   ],
   "note": "Exact arithmetic; the transform is a plan of the library (C41). C63_files from the files on, C63_objects for objects with given contents. Requests with 0 < beammmax < beamlmax to beam::read are excluded (C30: the reader then uses the wrong limit); b00 must not be zero if the beam is normalised."
  },
  {
   "property": "C64",
   "status": "proved",
   "theorems": [
    "Verif.Num.C64_rings",
    "Verif.Num.C64_signal"
   ],
   "note": "The accuracies delta of the Wigner elements, kappa of the tables of sines and cosines and phi of the transform are parameters (rounded_accurate: all are 2^-53 for correctly rounded libraries); the degrees kept by the generator are those kept in exact arithmetic. No overflow or underflow, no fused operations."
  },
  {
   "property": "C65",
   "status": "proved",
   "theorems": [
    "Verif.Fft.C65_binary64",
    "Verif.Fft.C65_fft",
    "Verif.Fft.C65_mixed_radix",
    "Verif.Num.C65_signal"
   ],
   "note": "Every operation of the complex transforms rounds in the order of the code (Fft/RModel); negation and rounding commute with the sign; no fused operations, overflow or underflow; the choice of algorithm is arbitrary (cost). For C65_signal the accuracy delta of the Wigner generator remains a parameter."
  },
  {
   "property": "C66",
   "status": "partial",
   "theorems": [
    "Verif.Tod.C66_full_refuted",
    "Verif.Tod.C66_mixed_debug_hangs",
    "Verif.Tod.C66_mixed_report_hangs",
    "Verif.Tod.C66_mixed_report_never_returns",
    "Verif.Tod.C66_report_irrelevant_partial",
    "Verif.Tod.C66_same_result_partial"
   ],
   "note": "False when the ranks disagree: C66_mixed_report_never_returns, C66_mixed_report_hangs, C66_mixed_debug_hangs (every job that would return hangs instead). Proved when all ranks agree on verbosity > 0 and verbosity > 5 (C66_same_result_partial, and C66_report_irrelevant_partial for any environment). The full statement and its refutation: C66_Full, C66_full_refuted."
  },
  {
   "property": "C67",
   "status": "partial",
   "theorems": [
    "Verif.Ctypes.C67_args_partial",
    "Verif.Ctypes.C67_beam",
    "Verif.Ctypes.C67_beam_exact",
    "Verif.Ctypes.C67_beam_float",
    "Verif.Ctypes.C67_convolver",
    "Verif.Ctypes.C67_full_refuted",
    "Verif.Ctypes.C67_limit_passed",
    "Verif.Ctypes.C67_no_ub",
    "Verif.Ctypes.C67_result",
    "Verif.Ctypes.C67_sky"
   ],
   "note": "False for integers outside the range of the parameter and texts with a zero byte, which are passed changed (C67_limit_passed). Proved: no call is undefined (C67_no_ub); the values are those of the arguments iff every integer is in range and no text has a zero byte (C67_args_partial); what the constructors receive in every case (C67_beam, C67_sky, C67_convolver); results (C67_result). The full statement and its refutation: C67_Full, C67_full_refuted."
  },
  {
   "property": "C68",
   "status": "partial",
   "theorems": [
    "Verif.Mgr.C68_all2all",
    "Verif.Mgr.C68_all2all_refused",
    "Verif.Mgr.C68_all2allv_easy_idle_never_returns",
    "Verif.Mgr.C68_all2allv_easy_partial",
    "Verif.Mgr.C68_all2allv_easy_sizes",
    "Verif.Mgr.C68_allgather",
    "Verif.Mgr.C68_allreduce",
    "Verif.Mgr.C68_allreduce_in_place",
    "Verif.Mgr.C68_bcast",
    "Verif.Mgr.C68_full_refuted",
    "Verif.Mgr.C68_gatherv_empty_never_returns",
    "Verif.Mgr.C68_gatherv_nothing_throws",
    "Verif.Mgr.C68_gatherv_overflow",
    "Verif.Mgr.C68_gatherv_partial",
    "Verif.Mgr.C68_gatherv_table_columns_differ",
    "Verif.Mgr.C68_gatherv_table_no_columns",
    "Verif.Mgr.C68_gatherv_table_partial",
    "Verif.Mgr.C68_numbers",
    "Verif.Mgr.C68_reduce",
    "Verif.Mgr.C68_reduce_empty_throws",
    "Verif.Mgr.C68_sendrecv_noop",
    "Verif.Mgr.C68_sendrecv_replace_noop"
   ],
   "note": "False of sendrecv and sendrecv_replace (C68_sendrecv_noop, C68_sendrecv_replace_noop) and of gatherv / all2allv_easy with an empty rank (C68_gatherv_empty_never_returns, C68_all2allv_easy_idle_never_returns) or 2^31 elements (C68_gatherv_overflow). Proved otherwise, for any number of ranks and all sizes (C68_gatherv_partial, C68_all2allv_easy_partial, C68_all2all, C68_allgather, C68_allreduce, C68_bcast, C68_reduce, C68_allreduce_in_place, C68_numbers, C68_gatherv_table_partial for tables with one number of columns; C68_gatherv_table_no_columns, C68_gatherv_table_columns_differ otherwise). The full statement and its refutation: C68_Full, C68_full_refuted."
  },
  {
   "property": "C69",
   "status": "partial",
   "theorems": [
    "Verif.SkyGen.C69_expected",
    "Verif.SkyGen.C69_full_refuted",
    "Verif.SkyGen.C69_pol_expected_partial",
    "Verif.SkyGen.C69_pol_values",
    "Verif.SkyGen.C69_reproducible",
    "Verif.SkyGen.C69_short_spectrum",
    "Verif.SkyGen.C69_values"
   ],
   "note": "False of create_alm_pol where TT = 0 (C69_pol_expected_partial, second part). Proved: values and order of the numbers (C69_values, C69_pol_values with the exact condition for the exception), reproducibility (C69_reproducible), mean spectra (C69_expected, C69_pol_expected_partial); C69_short_spectrum: unchecked size. Exact arithmetic; the rejection loop of the generator is supposed to end; \"ideal generator\" = uncorrelated numbers of mean square one (independent normal numbers are such: white_gauss). The full statement and its refutation: C69_Full, C69_full_refuted."
  },
  {
   "property": "C70",
   "status": "proved",
   "theorems": [
    "Verif.SafeCast.C70_dims",
    "Verif.SafeCast.C70_rows",
    "Verif.SafeCast.C70_safe_cast"
   ],
   "note": "Integer types of any width; conversion to a signed type is modulo 2^w (implementation-defined before C++20)."
  },
  {
   "property": "C71",
   "status": "proved",
   "theorems": [
    "Verif.Risbo.C71_composition",
    "Verif.Risbo.C71_field",
    "Verif.Risbo.C71_matrix",
    "Verif.Risbo.C71_polarised",
    "Verif.Risbo.C71_same_rotation",
    "Verif.Risbo.C71_three",
    "Verif.Risbo.C71_three_matrix"
   ],
   "note": "Exact arithmetic. The function is the sum of the coefficients times the spherical harmonics, whose orthonormality is proved (sphY_orthonormal). Matrix overload through Extract_CPAC_Euler_Angles as modelled in C51."
  },
  {
   "property": "C72",
   "status": "proved",
   "theorems": [
    "Verif.Num.C72_convolve",
    "Verif.Num.C72_frame",
    "Verif.Num.C72_pencil",
    "Verif.Num.C72_polarised",
    "Verif.Num.C72_total",
    "Verif.Num.C72_uniform",
    "Verif.Obj.C72_delivers",
    "Verif.Obj.C72_files_polarised"
   ],
   "note": "The integral is the iterated integral over colatitude and longitude with weight sin(theta); the convolution of C61/C63 equals it exactly, the error is that of C61 (C62, C64, C65 for rounding). C72_polarised, C72_files_polarised: Q + iU = -sum (G + iC) 2Y with respect to south and east, gradient and curl of the beam having no degrees below 2."
  },
  {
   "property": "C73",
   "status": "partial",
   "theorems": [
    "Verif.Fh.C73_ascii_string_impossible",
    "Verif.Fh.C73_chunk_size_unchecked",
    "Verif.Fh.C73_chunks_partial",
    "Verif.Fh.C73_columns_partial",
    "Verif.Fh.C73_delete_key",
    "Verif.Fh.C73_description_partial",
    "Verif.Fh.C73_full_refuted",
    "Verif.Fh.C73_image_partial",
    "Verif.Fh.C73_keys_partial",
    "Verif.Fh.C73_pixels_partial",
    "Verif.Fh.C73_read_alm_partial",
    "Verif.Fh.C73_read_entire_partial",
    "Verif.Fh.C73_read_named",
    "Verif.Fh.C73_read_partial",
    "Verif.Fh.C73_read_string_partial",
    "Verif.Fh.C73_reject",
    "Verif.Fh.C73_set_key",
    "Verif.Fh.C73_size_named",
    "Verif.Fh.C73_stale_after_failed_move",
    "Verif.Fh.C73_subimage_partial",
    "Verif.Fh.C73_subimage_wraps",
    "Verif.Fh.C73_types",
    "Verif.Fh.C73_write_alm",
    "Verif.Fh.C73_write_image_partial",
    "Verif.Fh.C73_write_partial",
    "Verif.Fh.C73_write_pixels",
    "Verif.Fh.C73_write_read"
   ],
   "note": "The code refutes it: after writing a column with several elements per row the handle counts elements as rows (C73_full_refuted), a failed move leaves a stale description (C73_stale_after_failed_move), efficientChunkSize tests column 1 (C73_chunk_size_unchecked), ASCII tables cannot have strings (C73_ascii_string_impossible), parts of images wrap (C73_subimage_wraps). Proved for all histories without these calls (Tame/Hist). cfitsio is a contract (cf*); closing succeeds; column search by name, checksums, comments and history cards are not modelled."
  },
  {
   "property": "C74",
   "status": "proved",
   "theorems": [
    "Verif.Par.C74_coefficients_safe",
    "Verif.Par.C74_result",
    "Verif.Par.C74_samples_of_job",
    "Verif.Par.C74_samples_result",
    "Verif.Par.C74_samples_safe",
    "Verif.Par.C74_samples_schedule",
    "Verif.Par.C74_static_schedule",
    "Verif.Par.C74_synthesis_safe",
    "Verif.Par.C74_terminates"
   ],
   "note": "Machine: any interleaving of single loads and stores of shared doubles between barriers; freedom from races in it is what makes the C++ program equivalent to it (data-race-free programs are sequentially consistent). Locations no thread of a region stores to are constants of the programs. Kernel regions in exact arithmetic, sample loops in any arithmetic."
  },
  {
   "property": "C75",
   "status": "proved",
   "theorems": [
    "Verif.Num.C75_agrees",
    "Verif.Num.C75_pair",
    "Verif.Num.C75_zero_threshold"
   ],
   "note": "Exact arithmetic. Angles within 1e-15 of a pole are moved as in the code (C39_angle). libconviqt itself calls the single-angle calc."
  },
  {
   "property": "C76",
   "status": "proved",
   "theorems": [
    "Verif.HalfPi.C76_agrees_general",
    "Verif.HalfPi.C76_omp_table",
    "Verif.HalfPi.C76_one_call_too_many",
    "Verif.HalfPi.C76_scalar_table",
    "Verif.HalfPi.C76_symmetry"
   ],
   "note": "Exact arithmetic. C76_one_call_too_many: call number max(lmax,1)+2 has undefined behaviour in both classes. Not used by libconviqt itself."
  },
  {
   "property": "C77",
   "status": "proved",
   "theorems": [
    "Verif.Handle.C77_bad_handle",
    "Verif.Handle.C77_dangling",
    "Verif.Handle.C77_delete_any_order",
    "Verif.Handle.C77_failed_alloc",
    "Verif.Handle.C77_frame",
    "Verif.Handle.C77_no_leak",
    "Verif.Handle.C77_reads_beam",
    "Verif.Handle.C77_reads_negative",
    "Verif.Handle.C77_reads_sky",
    "Verif.Handle.C77_safe",
    "Verif.Handle.C77_values"
   ],
   "note": "One rank, one thread. Outcomes of reads and convolutions are arbitrary (their values: C30-C35, C63); a successful read leaves known limits and complete coefficients: derived from the reading code on any number of ranks for all files and requested orders that are not negative (C77_reads_beam, C77_reads_sky); C77_reads_negative: a negative order can succeed on a damaged file and leave negative limits. C77_bad_handle, C77_dangling, C77_failed_alloc: what is undefined outside the rules of WellUsed. bad_alloc inside the setters of strings is not modelled."
  },
  {
   "property": "C78",
   "status": "proved",
   "theorems": [
    "Verif.RotPar.C78_field",
    "Verif.RotPar.C78_omp_table",
    "Verif.RotPar.C78_risbo_region",
    "Verif.RotPar.C78_rotate",
    "Verif.RotPar.C78_rotate3",
    "Verif.RotPar.C78_rotate_region",
    "Verif.RotPar.C78_rotate_threads"
   ],
   "note": "Regions in arbitrary arithmetic (no laws assumed); whole calls (all degrees chained) in exact arithmetic, every outcome of the threaded program being one of the executions of C47 and C71. Same machine as C74. Not used by libconviqt itself."
  },
  {
   "property": "C79",
   "status": "proved",
   "theorems": [
    "Verif.AlmHist.C79_failed_set",
    "Verif.AlmHist.C79_histories",
    "Verif.AlmHist.C79_negative_limits",
    "Verif.AlmHist.C79_positions",
    "Verif.AlmHist.C79_set_keeps"
   ],
   "note": "Any arithmetic of the elements. The exceptions to the rules are findings: C79_failed_set, C79_negative_limits, C79_set_keeps (Set to the same size keeps the coefficients). 32-bit wrap of indices: C25; allocations of non-negative sizes succeed; arrays passed to Set are owned by themselves."
  },
  {
   "property": "C80",
   "status": "proved",
   "theorems": [
    "Verif.Search.C80_contains",
    "Verif.Search.C80_contentsEqual",
    "Verif.Search.C80_find",
    "Verif.Search.C80_interpol",
    "Verif.Search.C80_interpol_rounded",
    "Verif.Search.C80_interpol_short",
    "Verif.Search.C80_minmax",
    "Verif.Search.C80_minmax_nan"
   ],
   "note": "std::lower_bound as the C++ standard defines it. The members of arr_ref call ::interpol_helper although the function is in namespace levels; the model takes the function meant. Rounding: any monotone function that keeps 0 and 1, is odd and does not cancel distinct elements. Not used by libconviqt itself."
  },
  {
   "property": "C81",
   "status": "partial",
   "theorems": [
    "Verif.Param.C81_file_partial",
    "Verif.Param.C81_full_refuted",
    "Verif.Param.C81_line",
    "Verif.Param.C81_long_line",
    "Verif.Param.C81_number_partial",
    "Verif.Param.C81_number_range",
    "Verif.Param.C81_string",
    "Verif.Param.C81_string_prot",
    "Verif.Param.C81_string_prot_zero",
    "Verif.Param.C81_string_unprot"
   ],
   "note": "False of long lines and large numerals (C81_full_refuted, C81_long_line, C81_number_range) and of capacity 0 (C81_string_prot_zero). Proved otherwise for all files and lookups: C81_line, C81_file_partial, C81_string, C81_string_prot, C81_number_partial. getVarDouble, getVarStringUnProt and closeParams are not modelled."
  },
  {
   "property": "C82",
   "status": "partial",
   "theorems": [
    "Verif.Cpx.C82_changes_partial",
    "Verif.Cpx.C82_full_refuted",
    "Verif.Cpx.C82_lengths",
    "Verif.Cpx.C82_normalize_zero",
    "Verif.Cpx.C82_operators",
    "Verif.Cpx.C82_own_divisor",
    "Verif.Cpx.C82_own_factor",
    "Verif.Cpx.C82_products",
    "Verif.Cpx.C82_scaling",
    "Verif.Cpx.C82_set_exchange"
   ],
   "note": "False of a number scaled or divided by its own real part and of Set(im, re) on itself (C82_full_refuted, C82_own_factor, C82_own_divisor, C82_set_exchange; no caller in the repository does this). Proved for all other calls: C82_changes_partial; operators: C82_operators; vectors: C82_products, C82_lengths. Exact real arithmetic; the division of std::complex is taken as exact division."
  },
  {
   "property": "C83",
   "status": "partial",
   "theorems": [
    "Verif.Fft.C83_backward_partial",
    "Verif.Fft.C83_bluestein",
    "Verif.Fft.C83_contract_partial",
    "Verif.Fft.C83_formats",
    "Verif.Fft.C83_forward_partial",
    "Verif.Fft.C83_roundtrip_partial"
   ],
   "note": "Complete for plans with Bluestein's algorithm: C83_bluestein with C83_forward_partial, C83_backward_partial, C83_roundtrip_partial, from make plan on and after every history of calls. Missing: for plans with the mixed-radix algorithm those three theorems assume that rfftf and rfftb (levels/libfftpack/fftpack.c, radf*/radb*) compute the transform in fftpack format (RPlan.OK.rf, rb); their passes are not modelled. C83_formats assumes nothing. Exact arithmetic; the cost estimate of make_real_plan is not used (both algorithms are covered)."
  },
  {
   "property": "C84",
   "status": "proved",
   "theorems": [
    "Verif.Fft.Obj.C84_histories",
    "Verif.Fft.Obj.C84_no_leak",
    "Verif.Fft.Obj.C84_no_length_undefined"
   ],
   "note": "C84_histories (results, no undefined behaviour), C84_no_leak (plans in use), C84_no_length_undefined (what the caller must respect). A plan and its work array are one block. Exact arithmetic (C41). Failure of an allocation is not modelled. The class rfft has the same members; it is not modelled."
  },
  {
   "property": "C85",
   "status": "partial",
   "theorems": [
    "Verif.Rot.InPlace.C85_full_refuted",
    "Verif.Rot.InPlace.C85_matmult_partial",
    "Verif.Rot.InPlace.C85_transform_in_place",
    "Verif.Rot.InPlace.C85_transform_partial",
    "Verif.Rot.InPlace.C85_transpose",
    "Verif.Rot.InPlace.C85_transpose_times_partial"
   ],
   "note": "False when the result is stored in a factor (C85_full_refuted, C85_transform_in_place; no caller in the repository does so). Otherwise complete: C85_matmult_partial, C85_transpose_times_partial and C85_transform_partial for results that share no storage with the operands (the factors may be one object or overlap), C85_transpose without hypotheses. Exact arithmetic; operands that overlap the result only in part (impossible for C++ objects of these classes) are outside."
  }
 ]
}