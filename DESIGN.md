# Formal model of libconviqt in Lean 4 — design

## 1. Approach

The code is read as text (nothing is executed). Every function of interest becomes a
small total Lean function whose doc comment cites the file and lines in /repo it models.
Layers:

| layer | code | Lean modules |
|---|---|---|
| outcome monad, bounds-checked buffers, loops | C++ semantics | `Verif/Base/*` |
| index arithmetic (a_lm storage, FITS codec, arr2/arr3, shares) | levels/* | `Verif/Index/*` |
| helper functions (fmodulo, isqrt, xpow, RNG, strings, rotmatrix, powspec) | levels/cxxsupport | `Verif/Util/*` |
| objects and API (beam, sky, detector, convolver ctor, C API, read) | src/*.cpp | `Verif/Api/*` |
| data redistribution, SPMD execution, convolve | src/conviqt_math.cpp | `Verif/Tod/*` |
| numerics (kernel, synthesis, Wigner generator) | src/conviqt_math.cpp, levels/cxxsupport/wigner.cc | `Verif/Num/*` |
| complex FFT | levels/libfftpack | `Verif/Fft/*` |

`X.lean` holds the model and helper lemmas, `XProps.lean`/`XMain.lean` the property theorems (with non-vacuity `example`s
beside them, mostly at the end of the file under "witnesses"), `Refuted.lean` the properties that are false of the code.

Reading order for a reviewer who knows the English properties: `Tod/Arith.lean` (rows), `Tod/Spmd.lean` (MPI),
`Tod/Convolve.lean` (program), `Tod/Props.lean` (C01–C11), `Tod/Refuted.lean`; `Num/WignerD.lean` and `Num/KernelSpec.lean`
(specification), `Num/KernelProps.lean`, `Num/GridPoint.lean` (C16–C20); `Api/ConvMain.lean` (objects to samples).

### Undefined behaviour and errors
`Res α = ok a | throw msg | ub why`. Buffer reads/writes out of bounds, conversion of an
out-of-range/NaN double to an integer, signed overflow (where the property is about it),
double free and use after free are `ub`. A theorem "the function returns `ok …`" therefore
includes memory safety.

### MPI
A rank is a resumption `Prog`: it either is finished with a `Res`, or waits in a
collective with a request (kind, counts, payload) and a continuation. The executor
advances all ranks by one collective when all of them wait in a matching one;
otherwise the outcome is `stuck` (mismatch, or some rank already finished while another one waits). MPI itself (that
collectives do what the standard says) is trusted.

### Numbers
* Data movement (convolve end to end) is generic over a number type `F` with *arbitrary*
  operations; only the order axioms for the colatitude comparisons, exactness of small
  integers (`long(double(i)+.5) == i`) and monotonicity of the ring index are assumed,
  as explicit hypotheses, satisfied by exact and by correctly rounded arithmetic.
  Hence statements about equality are bit-level statements.
* `Tod/Float.lean` discharges these hypotheses for every arithmetic in which each result is rounded by a monotone idempotent
  function exact on small half-integers, `Util/Double.lean` proves that binary64 round-to-nearest-even (unbounded exponent)
  is one (`Double.rounding_dbl`), `Tod/Real.lean` for exact reals.
* Numerical identities (weights, kernel, synthesis, Wigner symmetry, FFT) are over exact
  fields / ℝ / ℂ. Rounding error is not modelled there (in particular not the single precision of the stored
  coefficients and of their products).

### std::sort
modelled as: returns *some* permutation sorted with respect to the comparator (theorems
quantify over all of them).

### OpenMP
A worksharing loop is a list of per-iteration state updates executed in an arbitrary
interleaving order; independence is proved from disjoint footprints.

## 2. Properties → what is modelled, how it is proved

Status and exact theorem names are in MANIFEST.json; a property marked "false" is refuted by `Cnn_full_refuted`
(the statement is `Cnn_Full`), and the largest true part found is proved with the suffix `_partial`.

| id | model | proof |
|---|---|---|
| C01–C04 | `convolve` as SPMD program (`Tod/Convolve.lean`) | refinement to a row-wise specification: permutation lemmas for pack / alltoallv / sort / split / restore (`Redist`, `Middle`, `Main`) |
| C05 (false) | colatitude check and the exceptions of all ranks | exact condition (`Throws.lean`); NaN refutes the rest |
| C06 (false) | executor of collectives | termination when every rank takes part; `C06_deadlock_iff` |
| C07 (false) | the same | `C07_ends_iff`; error on a strict subset of ranks blocks the others |
| C08 | the two passes of the packing | both are the same fold; counts = packed rows |
| C09, C60 (C60 false) | ring tables; the conversion of `0/0.` yields an arbitrary integer (C09) or is undefined (C60) | loop invariant; C60: exact condition on the tables, carried to jobs by following the steps of a returning job |
| C10 | `get_latitude_tables`, `alltoall_datacube` | pack / exchange / unpack composed; equality of cubes |
| C11 | `conviqt_tod_loop` | window lemma for sorted lists; ring-major to sample-major exchange without algebra |
| C12 | `weight_ncm` | equality with the Lagrange basis (Mathlib `Lagrange`) |
| C13, C14 | grid indices | exact ordered-field arithmetic with floor |
| C15 | every worksharing loop | arbitrary permutations of the iterations; per-iteration footprints are disjoint |
| C16, C17, C20 | kernel loops over ℂ | loop invariants on three-dimensional accumulators; Wigner symmetry |
| C18, C19 | `todAnnulus`, data cube, interpolation on nodes | finite Fourier sums; composition of all layers down to the value of one sample |
| C21 | read-only use of the inputs | the model passes them by value; stated on the object layer |
| C22, C23 (false), C30 (false), C31 (false), C32, C33 | `beam`, `sky`, readers on many ranks | state machines + SPMD |
| C34 (false), C44 (false) | constructor, setters, histories | induction over histories; kernel accesses in bounds |
| C35 (false) | C interface | form of every function; outcome analysis |
| C36 (false), C46 | `arrT`, `arr2T`, `arr3` on a heap with ownership | invariant over programs; refinement to value semantics |
| C24–C29 | storage layout, FITS codec, chunking | bijections, fold semantics, round trips |
| C25 (false), C45 (false) | the same with 32 bit arithmetic | refinement below the exact limit, undefined above it |
| C37 | all functions of conviqt_util.cpp on flat buffers (`Tod/Sort`), `std::sort` a parameter | strided write loops; sorted permutation of rows, for any `std::sort` result |
| C38, C39 | `wignergen_scalar` | table invariant over histories; recurrence = textbook sum, scaling invariant |
| C40 (false) | first degree | inclusion from the common first degree on; pole ring refutes the rest |
| C41 | libfftpack: factorisation, twiddles, passes 2–5 and general, Bluestein, plans | induction over the factors; chirp identity |
| C42 (isqrt false) | ls_math_utils.h | direct; rounding properties of doubles |
| C43 (false) | histogram and boundary table | loop invariants; equator and few-bin counterexamples |
| C47 | Risbo recursion (serial and OpenMP), `rotate_alm` (scalar) | two-term identity of the d-functions; sums per `l` |
| C48 | xorshift generator | BitVec algebra; full period: characteristic polynomial over GF(2), order of x by a factorisation with primality certificates |
| C49 | string_utils, parsers, command lines (`Util/Str`, `StrMore`, `Cmdline`) | list induction |
| C50 | power spectra, smoothing | finite sums; rotation invariance from unitarity of `wignerD` |
| C51 (false) | rotation matrices | polynomial identities; extraction inexact below sin β = 1e-6 |
| C52, C53 | owner of a sample; load per rank | boundary table of `distribute_colatitudes` |
| C54, C57 (C57 false) | Python `Beam`, `Sky` on the C interface (`Py/Data`, `Py/Init`, `Py/Normal`) | memory images of lists of complex numbers; induction over histories |
| C55 (false) | Python error handling (`Py/Errors`) on the models of the C interface and of `arr` | case analysis; SPMD observation lemma |
| C56 (false) | variables, objects and storage of a Python program (`Py/Life`) | invariant of the state machine |
| C58 | rounding error of the signal (`Tod/Round*`): the model of C03 run with a rounding function of relative error u | forward error analysis with pairs (error bound, magnitude bound) closed under +, ·, /, sums |
| C59 | complete classification of the outcome of `convolve` (`Tod/Cuts`, `Tod/Outcome`); `Cuts`, `edge`, `dest`, `Idle` are a separate specification of the load balancing without the model's search loops | exact run of the search loops, determinism of the steps of a job, exclusion of the four outcomes |
| C61 | the signal of C03 with the rings of C16–C20 (`Num/Accuracy`); `fullConv`, `termErr`, `wLambda` are the separate specification | Lagrange error formula by repeated Rolle (`Num/LagrangeErr`), n-th derivatives of the d-functions bounded by (l+1/2)^n through the ladder relations (`Num/WignerDeriv`) |
| C62 | the job over binary64 (`Tod/Round*`, C58) with rings within ρ of those of C61 (`Num/Total`); `RingClose`, `magnitude`, `floatErr` are the separate specification | C58 (rounding of interpolation) + perturbation of the rings by the Lebesgue constant + `stencil_core` of C61 at the displaced angle |
| C63 | `skyRead`/`beamRead` (C30, C31), `normalize` (C22), `ctor` and `convolve` (C34, C44) with the plans of C41 (`Api/EndToEnd`); `convSpec`, `pairing`, `fileSky`, `fileBeam`, `Delivers` are the separate specification | composition: C30_sky_read, beam_read_ok → `Contents` on every rank → equal environments on all ranks (`env_eq`) → C59_outcome, C61_accuracy |
| C64 | the kernel and the synthesis operation by operation with a rounding after each (`Num/RKernel`); `Accurate` (accuracy of the operations, Wigner elements, tables, transform), `absMagnitude`, `growth` are the separate specification | error calculus `Near` (`Num/Near`): a computed value is within (κ−1)·Q of the exact one, Q the sum of magnitudes; composed along accumulation, rotations and transform (`RKernelErr`), then C62 with ρ := 2(growth−1)·absMagnitude (`RTotal`) |
| C65 | libfftpack's complex transforms operation by operation with a rounding after each (`Fft/RModel`), the tables of sines and cosines (`Num/RLib`); `FAcc` (accuracy of operations, libm, constants), `dftList`, `fftErr` are the separate specification | `Near` calculus along butterflies (`RBfly`, `RGeneral`), passes (`RStage`), factors and twiddles (`RFactor`), Bluestein (`RBlue`); tables independent of fresh memory by a relational argument (`RSame`); then C64 (`RLib`) |
| C66 (false) | the collectives issued for the log: barriers for verbosity > 5 in interpolTOD, reductions of `report_timing` for verbosity > 0 (`Convolve.chatter`, `reportTiming`; `Tod/Verb`) | programs without reductions; observation lemma for mismatched collectives; the exact run of C01 for every verbosity |
| C67 (false) | argument and result conversion of ctypes: declared types (`decl`) and prototypes (`proto`) of all C functions, Python values, register words, LP64 (`Py/Ctypes`) | agreement of the two tables by cases; two's complement arithmetic; equality with the models of the constructors |
| C68 (false) | `MPI_Manager` (MPI build): gatherv, all2all(v_easy), allgather, allreduce, bcast, sendrecv with counts, displacements, `int` sums and the buffer comparison (`Mgr/Model`), gatherv of tables, `reduce`, reduction in place, single numbers (`Mgr/More`); MPI operations as a relation between requests and answers of all ranks | execution of the two collectives for an arbitrary number of ranks; prefix sums; inversion of runs |
| C69 (false) | `create_alm`, `create_alm_pol` with `rand_gauss` as an arbitrary state machine (`Util/SkyGen`) | loop invariant "coefficients below (l,m) are new, the others old"; the extracted spectrum as a sum over real components; Bochner integral, infinite product of Gaussians for non-vacuity |
| C70 | the four helper specialisations for integer types of any width (`Util/SafeCast`) | two values of an interval of length 2^w congruent modulo 2^w are equal |
| C71 | the four overloads of `rotate_alm` (`Util/RotThree`), functions on the sphere (`Num/SphereField`) | the matrices D^l form a representation of the rotations (`Num/WignerGroup`); a point of the sphere is a rotation up to a rotation about the pole |
| C72 | the convolution of C61/C63, integrals over the sphere and spin-two fields (`Num/Integral`, `Num/SpinField`, `Api/Integral`) | orthogonality of the Wigner functions (`Num/WignerOrth`, by their ladder relations), the function of the rotated coefficients is the rotated function (C71) |
| C73 | `fitshandle` as a state machine over files and a contract of cfitsio (`Fits/Handle`), the coefficient readers and writer on top of it (`Fits/AlmFile`, `Fits/AlmOpen`, `Fits/AlmWrite`) | invariant over all histories of calls (`Fits/HandleHist`): what the handle says is true of the current HDU; agreement of the coefficient readers with the model of C27–C33 |
| C74 | the parallel regions of `conviqt_hemiscm(_pol)`, `todAnnulus`, `conviqt_tod_loop` as programs whose actions are single loads and stores (`Par/Code`, `Par/Samples`), on a machine that interleaves the actions of `n` threads arbitrarily between barriers (`Par/Model`) | footprints of the iterations are disjoint and their effects do not depend on private data (`Par/Loops`); invariant of the machine: every thread's future is the suffix of its run alone on its own footprint (`Par/Generic`); simulation of the sequential model of C15–C18 |
| C75 | `wignergen::calc` for two angles: vector registers as pairs, prefetched coefficients, `RENORMALIZE`, the four loops (`Num/WignerPair`) | invariant of each component (exact value times its scale; bound on the elements while the scale is negative) through the loops, on top of the recurrence of C39 |
| C76 | Risbo recursion at π/2: serial class in place, OpenMP class with two tables whose parallel loop runs on the machine of C74 (`Util/HalfPi*`) | two-term identity of C47 at equal sine and cosine; reflection symmetry for the padding; separate footprints of the rows |
| C77 | the functions of cconviqt.cpp as operations on a heap of objects with an adversarial allocator (`Api/Handles`); the client's view computed from the calls and answers alone (`Api/HandleSpec`) | invariant linking view and heap over all histories (`Api/HandleSafe`); safety, frame and value theorems from it; that the outcomes of reads assumed there are the only ones is derived from `Api/Read` through the collective semantics (`Api/ReadLeaf`) |
| C78 | the parallel regions of `rotate_alm` and of the Risbo recursion as programs of single loads and stores on the machine of C74, arbitrary arithmetic (`Par/RotRegion`, `Par/RisRegion`); the whole calls with these regions (`Util/RotTeam`) | ownership of the entries (calcShare partition, rows) gives separation, hence no race, termination and the sequential memory; every outcome of a threaded call is an execution in the sense of C47/C71 (`Util/RotTeamProof`) |
| C79 | objects of class `Alm` (limits, storage, released storage) under arbitrary sequences of calls with caught exceptions (`Api/AlmHist`), elements of any type with any arithmetic; a specification by tables of determined coefficients (`Api/AlmHistSpec`) | simulation: one call at a time keeps the relation between objects and tables; loops by invariants; positions by the sum of the column lengths (`Api/AlmHistProof`) |
| C80 | `interpol_helper` over `std::lower_bound` (contract) and the searching members of `arr_ref`, element by element (`Util/Search`) | case analysis at the clipped position; folds and recursions by induction; monotonicity of the rounding |
| C81 (false) | parser.c: `fgets` in pieces of 1999 characters, trimming, the line syntax, lookup, `strtol` with saturation and conversion to `int`, the copy to a buffer (`Util/Param`); strings as lists of characters | meaning of a line as an inductive relation, shown total and unique; induction over the lines; numerals as in C49 |
| C82 (false) | `xcomplex`: members as reads and writes of cells, operands by address (`Util/XComplex`); `vec3_t` | homomorphism to ℂ; case analysis over the operations and the ways of sharing; ring identities |
| C83 (partial) | the six functions of a real plan and the two conversions, buffer for buffer (`Fft/Real`); Bluestein from C41; `rfftf`/`rfftb` by contract | loop invariants that give every entry of the buffer as a function of its position; conjugate symmetry of spectra of real data; histories of a plan by induction |
| C84 | class `cfft` of ls_fftpack_support.h: objects by number, plans as blocks of a heap (`Fft/PlanObj`), plans from C41 | refinement of a machine that knows only lengths, with an ownership invariant, by induction on the history; bijection between blocks and live objects |
| C85 | `matmult`, `TransposeTimes`, `Transpose`, `Transform` of rotmatrix.cc and ls_rotmatrix.h on a memory of cells (`Util/RotMem`) | induction over the stores: as long as only the result was changed, every value computed is that of the original operands; refutations by a memory each |

## 3. Trusted base

* Lean 4.33.0 kernel (vcheck replays every module). Axioms of every theorem: at most `propext`, `Classical.choice`,
  `Quot.sound`; no own axioms, no `native_decide`/`bv_decide`. Mathlib is used as a library of proved theorems.
* The reading of the C++ text: each definition cites the lines it models.
* MPI collectives do what the standard says; a mismatched collective blocks (the code also uses `MPI_BOR` on `MPI_CHAR` in
  `get_latitude_tables`, which the standard does not define; the model gives it its obvious meaning).
* C74: the C++ memory model guarantees sequential consistency to programs without data races (DRF-SC); a race is looked for in the
  sequentially consistent interleavings of single accesses to doubles. Barriers at the end of every worksharing loop (no `nowait` in the source).
* OpenMP worksharing loops execute every iteration once, in some order, with sequentially consistent iterations; the C++ memory
  model is not modelled.
* The conversion of NaN to `long` in `get_latitude_tables` is taken to yield some (arbitrary) integer in all theorems about jobs except
  C60, where it is undefined behaviour: without this reading no property of a returning `convolve` would hold of any job on one rank.
* The product of the uninitialised sentinels in the first call of `wignergen::prepare` overflows `int`; the theorems about the generator, the
  kernel and the rings (C16–C20, C38–C40, C61, C62) take it to yield some value (`ovf = ok v`); `C38_first_prepare_overflows` shows that it happens.
* `std::sort` returns a sorted permutation, libm functions return the real function value (exact layer) or any value
  (layer generic in the arithmetic), cfitsio delivers the rows of the tables (C27–C33) resp. obeys the contracts `cf*` of `Fits/Handle` (C73: reading and
  writing consecutive elements, inserting HDUs, moving; a failed move may leave it anywhere; closing succeeds).

### Modelled

| file | functions |
|---|---|
| src/conviqt_math.cpp | everything except the text of the log (its collectives are modelled, C66): `beam::normalize`, `sky::remove_*`, convolver constructor, `set_*`, `weight_ncm*`, `distribute_colatitudes`, `fillingBetaSeg`, `ratiobetacalc*`, `todRedistribution5cm`, `todgen`, `itheta0SetUp`, `beta_to_itheta`, `ithetacalc`, `ratiobetacalc`, `conviqt_hemiscm(_pol)`, `get_latitude_tables`, `alltoall_datacube`, `todAnnulus`, `interpolTOD`, `conviqt_tod_loop`, `arrFillingcm`, `convolve` |
| src/conviqt_io.cpp | `beam::read`, `sky::read` |
| src/conviqt_util.cpp | everything |
| src/cconviqt.cpp, cconviqt.h | exception flow of all functions; `*_read`, `*_normalize`, `remove_*`, `convolver_new`, `convolve`, `get_id` in detail; all functions as operations on a heap of objects (C77) |
| levels/Healpix_cxx | `Alm`, `Alm_Base`, alm_fitsio.cc, `extract_powspec*`, `smoothWithGauss`, `rotate_alm` (all overloads), `create_alm`, `create_alm_pol`, `PowSpec` |
| levels/cxxsupport | ls_arr.h (`arr`, `arr2`, `arr3`), ls_alloc_utils.h, ls_math_utils.h, ls_rng.h, rotmatrix.cc, ls_share_utils.h, ls_safe_cast.h, string_utils.cc (without floating point conversion and files), wigner.cc (generator, scalar and for two angles, `wigner_d_risbo_scalar`, `_openmp`), fitshandle.cc (without column names and extension names beyond storing them, comments, history cards and `assert_pdmtype`), the part of ls_mpi_support.h used by the library |
| levels/cxxsupport/mpi_support.cc, ls_mpi_support.h | the MPI build except send/recv, barrier and the clock; the helpers for tables, single numbers, `reduce` and the reduction in place in `Mgr/More` (used through `convolve`: Tod/Spmd) |
| python/libconviqt_wrapper/__init__.py | `Beam`, `Sky`, `Detector`, `Pointing`, `Convolver` (not the library search at import) |
| levels/c_utils/parser.c | everything except `getVarDouble`, `closeParams`; `push_params` as appending (its macro `REALLOC` is defined nowhere in the repository: read as `realloc`) |
| levels/cxxsupport/ls_xcomplex.h, ls_vec3.h | everything except `abs`, `exp` and printing |
| levels/libfftpack | complex transforms (fftpack.c, fftpack_inc.c, bluestein.c, ls_fft.c complex plans); real plans of ls_fft.c, with fftpack's real passes (radf*, radb*) as a hypothesis; class `cfft` (ls_fftpack_support.h) |

### Not modelled

* Rounding errors of the numerics other than the signal of a sample as a function of the rings (C58, C62) the rings as a function of the Wigner elements (C64), and the complex Fourier transforms and tables (C65) (C12–C14, C16–C20, C38, C39, C41, C47, C50, C51 are statements in exact arithmetic; the code
  stores coefficients, and multiplies them, in single precision). Exponent overflow/underflow and subnormals.
* Decimal constants of libfftpack and of ls_constants.h are replaced by the numbers they approximate (C65: they are parameters with an accuracy).
* Memory exhaustion outside `arrT` (C36); the text of the log and the timers.
* SSE variants of the Wigner generator (the library calls the scalar `calc`), the
  passes of the real-input FFTs (`rfftf`, `rfftb`), svd_c.c, wrec3a.c,
  memusage/walltime, the test programs, the build system.

## 4. Findings (properties violated by the code)

Each is a theorem about the model; names in MANIFEST.json.

1. **NaN pointing is accepted** (C05) and reaches an undefined conversion; a sample whose colatitude cannot be binned is
   undefined behaviour (`C05_nan_not_rejected`, `C05_unbinned_undefined`).
2. **A sample at the equator indexes one past the histogram** in IEEE arithmetic: `halfpi/(halfpi/100000)` truncates to
   100000 (`C43_equator_undefined`, `C43_table_undefined`, `C43_job_undefined`); too few bins exhaust the table
   (`C43_few_bins_undefined`).
3. **Deadlock when a rank has neither samples nor segments**: `if (totsize || outBetaSegSize) { barrier; all2allv }`
   (`C06_deadlock_iff`, `C06_lonely_stuck`).
4. **An exception on one rank blocks the others** (`C07_error_on_one_rank_deadlocks`; the exact condition is `C07_ends_iff`). The
   caller's time column has been overwritten by then (`C05_rows_intact_partial` says what is intact).
5. **int overflow of counts**: 429496729 samples per rank, 2^31-1 doubles received, data cube counts from `lmax = 6000` on
   (`C45_send_iff`, `C45_recv_iff`, `C45_cube_negative_count`).
6. **int overflow of the a_lm index** from `lmax = 46340` on although `LMAXMAX = 100000` (`C25_sky_limit`,
   `C25_LMAXMAX_overflow`).
7. **The compressed writer drops a coefficient next to a NaN** (`C28_compressed_nan_drops_coefficient`); a non-positive index
   in a file is undefined instead of an error (`C27_nonpositive_index_ub`).
8. **`read` does not reset `normalized`** (`C23_read_after_normalize`).
9. **`beam::read` with `mmax < lmax` reports `mmax = lmax`** (`C30_beam_mmax_wrong`), and with a default `lmax` reads an
   indeterminate member (`C30_beam_default_lmax_undefined`).
10. **A missing or malformed file deadlocks the other ranks** (`C31_*_deadlock`).
11. **A negative `lmax` selects the larger of the two limits**; the kernel then reads out of bounds (`C34_default_lmax`,
    `C34_default_out_of_bounds`); `beammmax <= lmax` and polarisation are not checked (`C34_mmax_above_lmax_undefined`,
    `C34_pol_unchecked`).
12. **The C interface lets exceptions escape** (`C35_escape_list`, `C35_convolver_new`, `C35_convolve_never_reports`), a rejected
    read modifies the object (`C35_rejected_read_modifies`), the status of normalize is ambiguous (`C35_normalize_ambiguous`).
13. **A failed allocation inside `arr::alloc` leads to a double free** (`C36_alloc_failure_double_free`).
14. **The kernel drops non-negligible Wigner elements** on rings at and near the poles because the first degree is the larger of those for `m` and
    `-m` (`C40_large_element_dropped`); in general on every ring with `sin(ϑ/2)^(2m) <= 1e-30` (`C40_dropped_on_rings`): for beam and sky
    order 20 up to 19 degrees from the pole (`C40_dropped_19_degrees`).
15. **`isqrt` of large 64 bit arguments** overflows (signed) or returns 0 or 1 (unsigned) (`C42_isqrt64_overflow`,
    `C42_isqrtU64_wrong`).
16. **`set_sky`/`set_beam`/`set_detector` perform no checks** and keep stale default limits (`C44_set_sky_unchecked`,
    `C44_stale_default_limits`, `C44_unset_epsilon_undefined`).
17. **The first `prepare` of a Wigner generator multiplies the sentinel -1234567890**, a signed overflow (`C38_first_prepare_overflows`).
18. **Euler extraction is inexact for 0 < sin β <= 1e-6**, `toAxisAngle` divides by zero for some half turns
    (`C51_extract_inexact`, `C51_axis_division_by_zero`).
19. **Mixed radix plans overflow the factor array at n = 3^14** (`C41_factor_overflow`; not reachable through the convolver).
20. **`PowSpec::smoothWithGauss` ignores the sign of the width** (`C50_smooth_negative`); `intToString(INT64_MIN)` is undefined
    (`C49_int_min_ub`); `tokenize` drops a trailing empty field (`C49_tokenize_trailing`); Risbo `recurse()` one call too many
    writes outside the table (`C47_one_call_too_many`).

21. **File names of 1025 or more characters overflow a stack buffer** in `fitshandle::open` (undefined in the model, `openHdu`).
22. **Python**: `Convolver(...)` never raises (`C55_convolver_never_raises`): bad limits give an object without convolver, whose first
    use is undefined, or end the process; exceptions in `convolve` end the process (`C55_convolve`); a rejected `set_data` may
    have replaced components (`C55_set_data_not_atomic`); `normalize` of a beam with negative monopole raises after scaling
    (`C55_normalize_raises`); a convolver does not keep its sky, beam and detector alive, nor an array its pointing
    (`C56_dangling_sky`, `C56_orphan_view`, `C56_stale_view`); `normalized()` survives `set_data` (`C57_set_data_after`).

23. **Every practical job converts NaN to `long`** in `get_latitude_tables` (`C60_conversion_iff`, `C60_single_rank`): undefined behaviour
    by the standard, harmless on common processors because the result is not used afterwards (C09).
24. **Bad limits accepted by the constructor surface only in the convolution**: `lmax = 0` makes every convolution throw inside an
    OpenMP region (`C34_lmax_zero_throws`); `beammmax > lmax`, a defaulted `lmax` above one of the files' and `pol` without
    polarised data make every job that reaches the kernel undefined (`C34_*_job_undefined`, `C44_set_sky_job_undefined`); if the
    sentinel product of finding 17 is taken as undefined, so is every convolution (`C38_every_convolution_overflows`).
25. **Ranks with different verbosity deadlock** (`C66_mixed_report_hangs`, `C66_mixed_debug_hangs`): `report_timing` and the barriers of
    the debug output are executed only by the ranks whose own `verbosity` asks for them. A user who gives verbosity 1 to rank 0 only,
    to get one copy of the log, hangs every job that would otherwise return.
26. **Integers are passed to C modulo 2^64** (2^32, 2^8): `Convolver(…, lmax=2**64+2, …)` passes the limit on `lmax` as 2, `pol=256` means
    unpolarised (`C67_limit_passed`, `C67_beam`, `C67_full_refuted`); a file name is cut at a zero byte.
27. **`MPI_Manager::sendrecv` communicates nothing** (`C68_sendrecv_noop`: `||` should be `&&` in its guard), `sendrecv_replace` never does
    (`C68_sendrecv_replace_noop`); `gatherv` and `all2allv_easy` throw on a rank whose buffers are empty and leave the others waiting
    (`C68_gatherv_empty_never_returns`, `C68_all2allv_easy_idle_never_returns`); gathering tables divides by the first rank's number of
    columns without a check (`C68_gatherv_table_no_columns`, `C68_gatherv_table_columns_differ`). `convolve` does not call these helpers with such
    arguments; it guards its own exchanges. The scalar code of mpi_support.cc does not compile (the constructor is not declared).
28. **`create_alm_pol` ignores GG and CC at degrees with TT = 0** (`C69_pol_expected_partial`, `C69_full_refuted`); `create_alm` and
    `create_alm_pol` do not check the length of the spectra (`C69_short_spectrum`).

29. **The beam is turned by half a turn about its axis**: the orientation of the instrument for the pointing (theta, phi, psi) is
    Rz(phi)Ry(theta)Rz(psi + pi), not Rz(phi)Ry(theta)Rz(psi) (`C72_total`, example after `C72_uniform`): a beam with odd orders
    convolved with itself at the identity pointing gives minus the sum of squares of its odd orders. A convention nowhere documented,
    invisible for beams symmetric under half a turn.

30. **`fitshandle` loses track of the file** (C73): after writing a column with more than one element per row `nrows_` is the
    number of elements (`C73_full_refuted`), so later reads of the handle pass its own range check; after a failed `goto_hdu` the
    handle goes on describing the old HDU although cfitsio has moved (`C73_stale_after_failed_move`); `efficientChunkSize(i)`
    checks column 1 and then indexes with `i` (`C73_chunk_size_unchecked`); `insert_asctab` compares a `PDT` with cfitsio's
    `TSTRING`, so ASCII tables cannot have string columns (`C73_ascii_string_impossible`); `read_subimage` of a rectangle that
    sticks out returns pixels of the next row (`C73_subimage_wraps`).

31. **Zero threshold in the pair evaluation** (`C75_zero_threshold`): with threshold 0 the third loop ends while the factor of a component is
    still 0, and all its elements become 0.

32. **Handles are not checked** (C77): `C77_bad_handle` — null, stale or foreign handles are undefined behaviour in every function
    except `delete` of null; the `try` blocks do not change that. `C77_dangling` — a convolver does not keep its sky and beam alive.
    `C77_failed_alloc` — after a failed `conviqt_pointing_alloc` (-1) the same call reports success without memory, and deleting
    the pointing releases its old block twice. `C77_reads_negative` — a negative order passed to `conviqt_beam_read` succeeds on a file
    whose header carries negative limits and leaves an object with one coefficient and `lmax = mmax = -3`.
33. **`Alm::Set` is not safe against its own exceptions** (C79): the limits are changed before `Num_Alms` may throw, so a client that
    catches the exception holds an object whose limits do not fit its storage (`C79_failed_set`); for `mmax = -2` the storage is released
    and the allocation fails, after which destroying or resizing the object releases it a second time, and asking for the same limits again
    reports success (`C79_negative_limits`). `Set` to limits with the same number of coefficients keeps the old ones, contrary to its
    documentation (`C79_set_keeps`).

34. **The parameter file reader** (C81): lines are read in pieces of 1999 characters, so the tail of a long comment can be a definition
    (`C81_full_refuted`); numerals that do not fit are accepted with a wrong value (`C81_number_range`); capacity 0 means no limit
    (`C81_string_prot_zero`); a carriage return stays part of the value, so numbers of files with DOS line ends are refused.
35. **Factors are passed by reference** (C82): `z *= z.re` and `z /= z.re` change the factor half-way (`C82_own_factor`: right only if the
    imaginary part is 0 or the real part 0 or 1), and `z.Set(z.im, z.re)` does not exchange (`C82_set_exchange`). Not used that way here.
36. `matmult`, `TransposeTimes` (rotmatrix.cc:180-196) and `Transform(vec, vec2)` (ls_rotmatrix.h:111-116) store each entry of the result before the last use of the operands; called with the result in place of an operand they give a wrong product, and nothing checks it or says so (`C85_full_refuted`, `C85_transform_in_place`). No caller in the repository does.

Observed in the text, not modelled: cconviqt.h lacks a declaration of `conviqt_detector_set_id`; `::tolower` on
negative `char`; `cfft(0)` loops forever in `prime_factor_sum`.

## 5. Mutation testing

`seeded/LOG.jsonl` has one record per edit of the model: definition, edit, claim broken, theorems that failed, theorems tightened.
The edits are made in a copy outside /verif, the whole project is rebuilt, and a record with no failing theorem leads to a tighter
theorem in /verif.
