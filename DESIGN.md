# Formal model of allantools in Lean 4

A machine-checked model of `aewallin/allantools` (sources read from `/repo`, never executed
here) and proofs of the properties listed in `properties.jsonl`. `MANIFEST.json` maps every property
to its theorems and status.

## Layout

| path | content |
|---|---|
| `lean/Verif/Py.lean` | Python and numpy primitives: exceptions as values (`PyErr`, `Py α = Except PyErr α`), slices, indexing, element-wise operations with numpy's broadcasting check, `np.round`, `np.unique`, `np.linspace`, numpy numbers that may be NaN or infinite (`NV`) |
| `lean/Verif/Model/*.lean` | the model, one definition per Python function (or loop body), each citing file and lines |
| `lean/Verif/Spec/*.lean` | specifications used by several property files: textbook formulas as `Finset` sums, rounding, quantiles. They use no model definition. Specifications used by one file only are at its head, in the namespace `AT.Spec` |
| `lean/Verif/Lemmas/*.lean` | helper lemmas |
| `lean/Verif/Props/*.lean` | the property theorems and, beside them, an `example` on a concrete case |
| `seeded/LOG.jsonl` | log of deliberately wrong edits of the model and of the theorems that caught them |
| `conformance/` | compiles the model over doubles and compares it with the reference values of the repository's tests; not part of the Lake project |
| `AXIOMS.md` | the axioms of every theorem named in the manifest |

## Trusted base

* The Lean 4.33.0 kernel. Axioms: `propext`, `Classical.choice`, `Quot.sound` and no others; see
  `AXIOMS.md`. No `sorry`, `native_decide` or `bv_decide`.
* The reading of the Python sources into `Verif/Model`. There is no mechanical link to the code.
* The numpy and Python primitives in `Verif/Py.lean`.
* Exact real numbers instead of IEEE doubles (next section).
* The specifications.
* The assumptions about external functions (section after next). They are hypotheses of
  the theorems, never axioms.

## Simplifications

* **Numbers.** IEEE doubles are exact reals, `np.sum` and `np.cumsum` are exact sums, decimal
  literals are the numbers they denote. `Model/Float`, `Model/FloatMore`, `Model/FloatMoreFreq`, `Model/FloatTot`, `Model/FloatHat`, `Model/RealtimeFloat`, `Model/RealtimeAutoFloat`, `Model/MtieMemFloat`, `Model/MtieFastFloat` and `Model/FloatGradevFreq` are the exception: they repeat `tau_generator`,
  `frequency2phase`, fifteen deviation functions, the three-cornered hat, `gradev`, `mtie_phase_fast`, the streaming classes and two truncations with every result rounded (C66, C67, C82, C87, C91, C99, C100, C110, C111, C113, C114, C116, C120 to C127). Infinities and
  subnormal numbers are not modelled; C97, C105, C106, C118, C119 and C120 show that they do not occur in fifteen deviation functions, the hat of `oadev`, `gradev`, `mtie_phase_fast` and the streaming classes for data of moderate size, and C67, C82, C87, C91, C99 and C100 hold there for arithmetic of limited range (`mtotdev` and `ttotdev` of frequency data for a narrower range of data and rates).
* **NaN and infinity** are `none : Option ℝ` (`NV`) where the code inspects or can produce them:
  `trim_data`, `frequency2phase`, `gradev`, ci.py, realtime.py, noise_kasdin.py, the PSD conversions. `Model/Nan`
  repeats eight deviation functions on data with NaN (C81, `mtie` without its fallback) and `Model/NanMore.lean` six more (C108), `Model/RealtimeNan` the streaming classes (C109), `Model/NanTwo` `gcodev` and the three-cornered hat (C112); everywhere else
  the data are finite.
* **Division by zero.** Lean's `x / 0 = 0`. Where the code can divide by zero the model has an
  explicit case: ZeroDivisionError for Python floats (`pyDiv`), `none` for numpy floats (`nvDiv`). Elsewhere the
  theorem assumes the guard (`0 < rate`, `0 < tau0`) or the point is dropped by
  `remove_small_ns`.
* **Averaging factors**, which numpy stores as integral floats, are `ℕ` or `ℤ`.
* **Exceptions.** The order in which Python raises is kept. Messages, warnings and `print` output
  are not modelled.
* **Input types.** Lists and arrays are lists. Scalars or tuples for `taus`, arrays for the mask
  functions, and array-likes of the wrong dimension are not modelled.

## External functions

| function | treatment | assumed |
|---|---|---|
| `np.random` | parameter: the numbers drawn | nothing |
| IEEE rounding in `Model/Float` | parameter | `FloatRound`: relative error at most 2^-53; `IsBinary64` (round to nearest even, unlimited exponents) for the counterexamples; existence proved |
| `np.sum` in `Model/Float` | parameter | `FloatSum`: rounded additions in any order; existence proved |
| `np.logspace` in `Model/RealtimeAutoFloat` | parameter: the table `af_taus` | `LogTable`: relative error at most 2^-50 |
| `np.fft.rfft`, `irfft` | defining sums over `ℂ` | — |
| `scipy.stats.chi2.ppf` | parameter | `Chi2Ppf`: for 0 < q < 1 and positive degrees of freedom it returns `Spec.chi2Quantile`, defined in `Spec/Chi2.lean` from Mathlib's gamma measure |
| `np.polyfit` in `detrend` | parameter | a least-squares fit (`IsLSFit`, existence proved) where needed |
| `scipy.integrate.quad` | parameter | `Spec.QuadExact`: the exact integral of an integrable function |
| `scipy.interpolate.interp1d` (cubic) | parameter | `Spec.CubicSpline`: right length, reproduces cubics (existence proved) |
| `scipy.integrate.simpson` | scipy's formula for an odd number of points, the only case that occurs | — |
| matplotlib axes | list of calls; `plot` raises for unequal lengths, `errorbar` also for a wrong shape or a negative entry of `yerr` | nothing about drawing; reaction to `None` is a parameter |
| `scipy.signal.welch` | defined from its documentation (overlap n//2, mean removed, periodic Hann window, one-sided density, mean over segments), with its argument checks | — |
| memory for the `mtie` window array | parameter: whether the rolling window raises ValueError | nothing |
| file system in `write_results` | map from names to lines | opening never fails |

## What is modelled

| file | lines | where | not modelled |
|---|---|---|---|
| allantools.py | 130–1377 deviation functions | `Model/Dev` | |
| | 1380–1537 `mtie`, `mtie_phase_fast` | `Model/Mtie` | the strides trick is a list of windows |
| | 1546–1665 `gradev` | `Model/Gradev` | |
| | 1668–1764 `psd2allan` | `Model/Psd2allan` | non-positive `df` |
| | 1767–1977 PSD conversions | `Model/Psd` | powers of `tau ≤ 0` |
| | 1985–2229, 2313–2403 input conversion, `tau_generator`, `tau_reduction`, `remove_small_ns`, `trim_data` | `Model/Tau`, `Model/Convert` | |
| | 130–387, 627–836 (`tdev`, `mdev`, `adev`, `oadev`, `hdev`, `ohdev`), 1996–2125, 2313–2341, rounded | `Model/Float` | overflow and underflow (excluded by C97 for moderate data) |
| | 390–624 (`pdev`, `gcodev`), 839–924 (`totdev`), 1261–1377 (`theo1`, `tierms`), 1413–1481 (`mtie`), rounded, phase data | `Model/FloatMore` | overflow and underflow (excluded by C97 for moderate data) |
| | 1413–1481 (`mtie` with its low-memory loop), rounded, phase data | `Model/MtieMemFloat` | |
| | 1985–1993 (`input_to_phase`) and the same functions, rounded, frequency data | `Model/FloatMoreFreq` | as above |
| | 927–1258 (`mtotdev`, `ttotdev`, `htotdev` and their helpers), 2363–2379 (`phase2frequency`), rounded | `Model/FloatTot` | overflow and underflow (excluded by C105 for moderate data) |
| | 2232–2305 `three_cornered_hat_phase` | `Model/Hat` | |
| | 2232–2305 (`three_cornered_hat_phase`), 1546–1665 (`gradev` of phase data), rounded | `Model/FloatHat` | rounding of the error bars of `gradev`; overflow and underflow (excluded by C119 for moderate data) |
| | 1546–1665 (`gradev` of frequency data without NaN), rounded | `Model/FloatGradevFreq` | as above |
| | 511–624 (`gcodev`), 2232–2305 (`three_cornered_hat_phase`), with NaN | `Model/NanTwo` | |
| | 1413–1481 (`mtie` with its low-memory loop), with NaN | `Model/NanMtie` | |
| | 1484–1537 (`mtie_phase_fast`), with NaN | `Model/NanMtieFast` | |
| | 1484–1537 (`mtie_phase_fast`), rounded | `Model/MtieFastFloat` | the value of `np.log2` for a positive length is not negative |
| ci.py | all functions | `Model/Ci` | `verbose` printing |
| dataset.py | all methods | `Model/Dataset` | number formatting, OS failures, the precise exception for `data=None` |
| realtime.py | all classes | `Model/Realtime` | |
| | 78–82, 108–238, rounded | `Model/RealtimeFloat` | |
| | 43, 52–82, 108–115, 147–154, 183–193, with `auto_afs`, rounded | `Model/RealtimeAutoFloat` | |
| mask.py | all functions | `Model/Mask` | array arguments (they raise) |
| noise.py | all functions | `Model/Noise`, `Model/Welch` | `seed` of `timmer_koenig_from_psd` |
| noise_kasdin.py | all methods | `Model/Kasdin` | negative `nr` and `qd`, `tau ≤ 0` |
| plot.py | `__init__`, `plot` | `Model/Plot` | a missing matplotlib, extra keyword arguments, `show`, `save` |

## Where the code does not have the property

The theorem that proves the failure is named. In every case the `_partial` theorems or an exact formula state what
the code does instead.

| property | finding | theorem |
|---|---|---|
| C16 | The low-memory loop of `mtie` skips pairs: it never exceeds the true value, is always 0 at m = 1, and can be 0 where the true value is arbitrarily large | `mtie_fallback_zero`, `mtie_fallback_wrong`, `mtie_fallback_unbounded` |
| C17 | `mtie_phase_fast` uses windows of 2^(k+1) points for the label tau = 2^k | `mtie_phase_fast_disagrees` |
| C20 | `gradev` raises ZeroDivisionError when exactly m samples are present and white phase noise intervals are asked for | `gradev_crash_example` |
| C21 | `gradev` swaps the arguments of `confidence_interval`: NaN bars; noise names map to the wrong exponent | `gradev_bars_nan_partial`, `gradev_alpha_wrong` |
| C26 | `pdev` never uses the last sample for m > 1, so it is not invariant under time reversal | `pdev_reverse_wrong` |
| C37 | Streaming frequency data is off by 1/tau0 unless tau0 = 1 | `realtime_freq_wrong` |
| C38 | Automatically added factors lose their first term (OADEV, TDEV) | `realtime_auto_wrong` |
| C41 | The averaging factor column is m/m0; an existing file is destroyed when nothing was computed | `write_results_af_wrong`, `write_results_loses` |
| C42 | For ci < 1/2 the interval is that of 1 - ci | `confidence_interval_not_nested` |
| C43 | `edf_greenhall` raises for two families of arguments; the row for alpha = 3 wraps around to the last row | `edf_greenhall_assert`, `edf_greenhall_notImplemented`, `greenhall_table1_wraps` |
| C45 | `edf_simple` raises for N = 3, alpha = -2; `edf_totdev` is non-positive for alpha = 2 and NaN for alpha = 1 | `edf_simple_crash`, `edf_totdev_wrong`, `edf_totdev_nan` |
| C47 | `autocorr_noise_id` can return 167 and -5 | `autocorr_noise_id_unbounded`, `autocorr_noise_id_below` |
| C48 | The arithmetic-mean branch of `b1_boundary` is dead code | `b1_boundary_geometric` |
| C49 | Three masks decrease at a break point: `eprtc_tdev` at 30000, `eprtc_mtie` at 100, `prtcA_mtie` at 273 | `eprtc_tdev_not_mono`, `eprtc_mtie_not_mono`, `prtcA_mtie_not_mono` |
| C51 | The flicker PM prediction for ADEV is not a power of tau | `kasdin_adev_fpm_wrong` |
| C52 | Values with 2^c at least the depth are never replaced | `pinkValue_constant` |
| C54 | Odd n from 7 on raises ValueError, n = 5 gives a wrong spectrum; the PSD is 0 at the last node | `tk_odd_wrong`, `tk_five`, `tkSy_last_wrong` |
| C55 | The piecewise PSD is continuous only for decade-spaced times; one slope gives two nodes for one coefficient; slopes ±2 are accepted | `adev2psd_continuous_iff`, `adev2psd_roundtrip_wrong`, `adev2psd_divergent_accepted` |
| C57 | `rn` and `b1` use the averaging factor round(af·rate²) | `rn_wrong`, `b1_wrong` |
| C60 | For a negative rate deviations are negative | stated for positive rates |
| C61 | MDEV coefficient for flicker FM is 27/20·ln 2 instead of (27 ln 3 - 32 ln 2)/8; PDEV coefficient for flicker PM is wrong | `kasdin_mdev_psd_ffm_wrong`, `kasdin_pdev_psd_fpm_wrong` |
| C62 | The octave list lacks the largest power of two up to n unless n rounds to it; of a frequency array only f[1]-f[0] is used | `psdFactors_octave_wrong`, `psd2allan_array` |
| C63 | For odd lengths the frequency axis is stretched; the values at 0 and f_s/2 are doubled | `numpy_psd_axis_odd_wrong`, `numpy_psd_power` |
| C65 | `rn_theory` is 1 for white, flicker and random walk FM; the variance ratios are 1/2, 0.67 and 33/40 | `rn_theory_fm_wrong` |
| C66 | The averaging factor column is truncated: at 10 Hz the factor 3 is written as 2. `timmer_koenig_from_psd` makes 6 samples of 0.7 s in steps of 0.1 s | `af_column_wrong`, `tk_samples_wrong` |
| C67 | Cancellation: for four doubles the computed `oadev` is 0, the exact one is positive | `oadev_float_zero` |
| C70 | The expected square of `theo1` for white frequency noise is the Allan variance at 3/4 of the tau it reports | `white_freq_mean` |
| C71 | The generated series has more Allan variance at small m than predicted: 1 + 1/(2m²) times for random walk frequency noise, over 10 % at tau0 for both flicker types; MDEV 1 + 1/m² times for white frequency noise | `kasdin_simulated`, `kasdin_simulated_flicker_wrong` |
| C73 | `numpy_psd` of brown noise is more than twice, and up to π²/2 times, the documented density at every frequency; of violet noise it has the constant part b fs²/(2π²n). `scipy_psd` of white noise is b0/6, 5 b0/6 at the two lowest frequencies and b0/2 at the Nyquist frequency | `brown_numpy_double`, `violet_numpy_psd`, `white_scipy_psd` |
| C74 | For white frequency noise at m = 1 `edf_greenhall` exceeds the equivalent degrees of freedom of the overlapping Allan variance by the factor (27M-9)/(23M-6) | `edf_white_freq_one` |
| C93 | For white frequency noise at m = 1 the confidence interval of the overlapping Allan deviation contains the deviation less often than asked for, however long the record | `coverage_white_freq_one` |
| C95 | For a random walk of the frequency without averaging (m = 1) `edf_simple` returns `(N² - 5N + 8)/(N - 3)²` times the true degrees of freedom: four times too many for N = 4, twice for N = 5 | `edf_simple_phase` |
| C96 | The error bars `dev/√n` of the overlapping functions count terms that are nearly the same: for white or random walk frequency noise (and for `mdev`, `tdev` always) the bar contains the deviation of the noise with a probability that tends to less than 1.4/√m, for m = 100 less than 14 % | `bars_short`, `bars_vanish` |
| C97 | Squares of second differences below about `2^-537` underflow: `oadev` of the phase 0, t, 0, t with t = 2^-600 returns 0 | `oadev_underflow` |
| C98 | `edf_totdev` claims `1 + 5/(4 m²)` times the degrees of freedom for white frequency noise; at `m = 1`, where `totdev` is the Allan deviation, 9/4 times, and the intervals are 2/3 as long as they should be | `coverage_tot_white_freq`, `tot_white_short` |
| C99 | `frequency2phase` removes a rounded mean; `tierms` and `mtie` see the slope that is left, and for the frequencies 1 and 1 + 2⁻⁵² the computed `mtie` is twice the exact one | `mtie_freq_float_mean` |
| C100 | none; `htotdev` of frequency data does not remove the mean for m > 1, so its rounding error grows with the frequency offset, unlike the one of the other deviations | `htotdev_freq_float` |
| C101 | The density is sampled on a grid from 1/((n-1)dt) to 1/(2dt), but the coefficient k belongs to k/(n dt): the grid is almost one step too high at low frequencies. The lowest coefficient has a quarter of its power for white FM and a sixteenth for random walk FM | `tkFreq_eq`, `tk_low`, `tk_low_ratio` |
| C102 | `mtotdev`, `ttotdev` and `htotdev` are biased and not corrected (FIXMEs in the docstrings). The bias of `htotdev` is the one in its docstring, in the limit; the bias of `mtotdev` is not the one in its docstring (0.94, 0.73) but 0.995 for white phase and 0.771 for white frequency noise; at m = 1 the squares are half of what they should be | `mtot_white_phase`, `mtot_white_freq`, `htot_walk_freq`, `bias_limit`, `bias_mtot`, `bias_one` |
| C103 | The same for random walk FM (`mtotdev`) and random run FM (`htotdev`): the bias tends to 0.6787, the factor 0.679 of the docstring of `htotdev` and not the factor 0.69 of the docstring of `mtotdev` | `mtot_walk_freq`, `htot_run_freq`, `bias2_limit` |
| C104 | For random walk FM `totdev` and `theo1` are not corrected for their bias either (FIXMEs in the docstrings); the squares are too small by 1 - 0.75 m/N and by 1/2.7 | `totdev_walk_freq`, `totdev_walk_bias`, `walk_freq_more`, `theo1_walk_bias` |
| C108 | `htotdev` of frequency data trims NaN at the ends only for `m = 1`: with one leading or trailing NaN all other functions return numbers, `htotdev` NaN for every `m ≥ 2`. `pdev` with `m ≥ 2` never uses the last phase sample | `nan_htotdev_freq`, `nan_more_edge`, `nan_pdev_last` |
| C109 | One NaN sample spoils a streaming object for ever: there is no reset. In automatic mode `oadev_realtime` ignores a NaN in the first sample for every factor but 1, unlike the batch function | `nan_realtime_forever`, `nan_realtime_auto_first` |
| C110 | The hat subtracts variances: a clock `2^-30` times better than the others has deviation zero in double precision | `hat_float_lost` |
| C112 | `gcodev` of frequency data trims the NaN at the ends of each series on its own, so that series lacking different ends are multiplied with a time shift | `nan_gcodev_shift`, `nan_gcodev_misaligned` |
| C115 | The low-memory loop of `mtie` overlooks a NaN after the first m samples and can ignore everything that follows it, where the normal path returns NaN | `mtie_fallback_deaf`, `mtie_fallback_nan_unbounded` |
| C116 | `mtie_phase_fast` asserts on `2**int(floor(log2(N)))`; where the rounded logarithm reaches the next integer (`N = 2^49 - 1`) the assertion fails; such lengths are out of reach of memory | `mtie_phase_fast_float_fails` |
| C117 | `mtie_phase_fast` ignores a NaN that does not start a window, with samples after it, since Python's `max(a, NaN)` is `a` | `mtie_phase_fast_nan_unbounded` |
| C76 | The reflected ends bias the square of `totdev` of white phase noise upwards by the factor 1 + 4 (m - 1 + [m even]) / (3 (N - 2)), almost 5/3 at m = N/2; the code has no bias correction (a FIXME in the docstring) | `totdev_white_phase` |
| C78 | The noise of the counters does not cancel in the three-cornered hat: with equal counters half the variance of a counter is added to that of the clock; it does cancel in `gcodev`, as its docstring says | `hat_settles`, `gcodev_settles` |
| C79 | The identification works in the limit for the three white noises; but the unrounded `alpha` of random walk FM is biased if the data are decimated: it tends to -2 - 2(m²-1)/(5m²+1), up to -2.4, not -2 | `noise_id_phase_ok`, `noise_id_freq_ok` |
| C80 | `rn_theory` returns 1 for all frequency noises, but R(n) of white FM tends to (m²+1)/(2m²) and of random walk FM to about 0.83. For white FM and averaging factors 2 to 19 the limit is below the boundary to flicker PM, so long white FM series are taken for flicker PM | `rn_settles`, `rn_white_freq_wrong` |
| C81 | The error bar of `tierms` is 0 even where its value is NaN. One interior NaN in frequency data makes every value of six functions NaN, without an exception or warning | `nan_dev`, `nan_freq` |
| C82 | The comment that subtracting the mean frequency before the integration avoids precision issues is right: the absolute error depends on the distances from the mean | `oadev_freq_float` |
| C83 | After `set_input` a `Noise` object still holds the series of the old settings, while `adev_from_qd` and the others use the new ones | `noise_history` |
| C84 | `mdev` of `Noise` with b = -3 predicts with the coefficient 27/20 ln 2 = 0.93575 where long simulated noise has (27 ln 3 - 32 ln 2)/8 = 0.93523 | `kasdin_limits` |
| C85 | The lag-1 autocorrelation identifies flicker PM correctly only up to averaging factor 17; from 18 on the estimate rounds to 2, white PM, and the confidence intervals follow | `kasdin_id_phase`, `id_right`, `ci_flicker_wrong` |
| C87 | `gcodev` loses half the digits: for doubles of size 1 the codeviation is 2^-31 and the program returns 0. The assertion in `theo1` compares an integer with a float: it is safe up to 2^26 values, as far as proved | `gcodev_float_zero`, `theo1_float` |
| C91 | An outlier leaves an error in the running sum of `tdev_realtime` for ever: after a phase of 2^53 and any number of zeros the window sum is 2, not 0 | `tdev_realtime_residue` |
| C89 | The entries 1.033 and 0.607 of table 1 (modified variance of white FM) are 31/30 and 17/28 rounded; the other entries for white noise are exact limits for large m | `edf_white_closed`, `edf_white_table` |
| C86 | R(n) of flicker FM at averaging factor 2 tends to a value between the boundaries of flicker PM, so long flicker FM series are taken for flicker PM there; from averaging factor 3 on the side is right. With the finding of C80 this is the whole list for the five types | `generateNoise_ratios`, `sim_ratio_says`, `rnSays_unique` |
| C68 | Error bars of results for a negative rate make matplotlib raise ValueError | `plot_negative_rate` |

## Comparison of the model with the reference values of the tests

`conformance/run.sh` copies the definitions of `Verif/Py` and `Verif/Model` into one file in a scratch
directory, reads `ℝ` as `Float`, compiles it and compares the results with the reference values that the
tests of the repository use (Stable32 tables, NBS14 tables, mask tables). No code of the repository is run. This tests the
reading of the Python sources; no theorem depends on it. The chi-square quantile and the polynomial fit are
written in the driver, because they are parameters of the model.

| data | compared | result |
|---|---|---|
| NBS14, 10 and 1000 points | deviations of phase and frequency data, the streaming classes, `tau_reduction`, `taus` keywords | agree |
| mask tables, PHASE.DAT, pink noise, OCXO, TIC | deviations, intervals, noise identification | agree within the digits of the tables |
| OCXO `totdev` | — | left out: the table contains a bias correction, and the repository's test is disabled for that reason |

Default: 1526 values in about a minute. `run.sh pink ocxo tic` adds 2040 values.

## How the properties are proved

| id | method |
|---|---|
| C01–C03 | membership characterisation of `tau_generator`, strict sortedness of the deduplicated merge sort, `⌊logb⌋` against powers |
| C04–C14, C18, C22, C28, C60 | every driver equals a table over the admissible factors; slices are normalised to tabulated lists, sums become `Finset` sums; loop invariants "running sum = window sum" |
| C15–C17 | maximum over windows as maximum over pairs; invariant of the fallback loop; induction over the doubling |
| C19–C21 | as C07 with Cauchy–Schwarz; complete case analysis over gaps |
| C23–C29 | algebra on the specifications, lifted to whole results including exceptions |
| C30–C33 | list lemmas on cumulative sums and differences; bilinearity |
| C34–C38 | state machines, invariant by induction over the stream |
| C39–C41, C68, C83 | induction over call histories |
| C42–C48, C57, C58 | monotonicity of quantiles; evenness of kernels; termination measure for the differencing loop; limits |
| C49 | case analysis over all real tau |
| C50–C54 | discrete Fourier inversion and convolution, invariant of the pink generator, complete outcomes |
| C64 | the kernel at zero is the Laplace transform of a nonnegative trigonometric polynomial; monotone antiderivatives |
| C55, C56, C61–C63, C65, C69 | improper integrals in closed form by Laplace transforms, `rpow` algebra, exact trigonometric sums, Parseval |
| C66, C67 | composition of relative and absolute rounding errors; Cauchy–Schwarz for root mean squares; induction over summation trees and running sums |
| C84 | covariances of flicker noise by a telescoping identity and Wallis' product; law of large numbers from bounds on the covariances; fourth antidifferences of the odd harmonic numbers |
| C87 | as C67, with a weighted Cauchy–Schwarz inequality; harmonic numbers bound the weights of `theo1`; the root of an absolute value is Hölder with exponent 1/2 (`gcodev`) |
| C85 | as C79, from a structure (`Noisy`) that keeps only what is used of the noise: mean squares of the series and of its differences, bounded variance of the sums; for flicker noise from the covariances of C84; the limits compared with half-integers through the odd harmonic numbers |
| C86 | the limits of C84 for the variances; the limits compared with the boundaries through bounds of the odd harmonic numbers by logarithms (`Lemmas/FlickerRatio`). The sample variance of flicker FM grows like a logarithm: bounded below by differences over about M^(1/4) of the M values, whose covariances are bounded by the distance (`Lemmas/FlickerSpread`), and above by Markov |
| C70, C71, C72 | second moments of weighted sums of uncorrelated variables; closed forms of the sums of squared weights |
| C73 | orthogonality of the characters of ℤ/n; summation by parts turns the weights of a random walk into partial sums of characters |
| C74 | fourth moments of linear forms in independent normal variables by induction over the variables; autocovariances of tap and block filters; the basic sum is a sum over lags |
| C88 | the covariance of the data is a mixture of the covariance that the code sums and a short-range one (`minkowski` on the sums over lags) |
| C89 | sums of squares of piecewise cubic covariances over the lags in closed form; `√` is 1-Lipschitz near 1 |
| C90 | the sum of 100 terms and the sum over all lags are trapezoidal rules of one function; a second-order error bound for convex and for smooth functions, without integrals in the result |
| C92 | summation by parts turns the differences into filters of the innovations, whose autocovariances are polynomials of degree five in the lags between breakpoints (uniqueness of second differences); they differ from the covariances that the code sums by kernels of lower order, whose squares summed over the lags are bounded through convexity of norms |
| C93 | the squared deviation is a mean of squares of a finite filter of the driving samples; a central limit theorem for such means by cutting the sum into long blocks separated by short gaps (`Lemmas/BlockClt`: characteristic functions, Lévy); the chi-square quantiles are approximately normal for many degrees of freedom, from the same theorem applied to chi-square variables (`Lemmas/Chi2Limit`); the interval of the limit law follows the ratio of the degrees of freedom (`Lemmas/CoverageNear`) |
| C94 | closed forms of the sums of the squared kernel over all lags (polynomials of degree 11), compared with the tables; where the coarse sum is used, the kernels are smooth and the trapezoidal rule with 100 steps is near the sum over all lags (`Lemmas/EdfWalkSmooth`); then C92 for the distance of the kernel from the covariance of the noise |
| C95 | the degrees of freedom of the squared overlapping Allan deviation are `M² c₀² / Σ c_l²` with the covariances `c_l` of the second differences (C74, C88, C92); their sums in closed form (`Lemmas/EdfSimple`), with the cases `M < m`, `m ≤ M < 2m`, `2m ≤ M`; the comparisons with the formula of the code become polynomials with nonnegative coefficients; the limits are limits of rational functions of `1/N`; coverage as in C93 |
| C96 | the squared deviation is asymptotically normal with `2/edf` as relative variance (C93), so `|d - σ| ≤ d/√n` has the limit probability of `[-√(2ρ), √(2ρ)]` with `ρ = lim edf/n` (`Lemmas/Bars`); `ρ` is one over the sum of the squared autocorrelations of the differences, which is summed in closed form for all functions and noises (`Lemmas/BarSums`) |
| C97 | every intermediate value is a multiple of some `2^g` and at most `2^b` in magnitude, or between `2^a` and `2^b`; the operations map such classes to each other and stay in the normal range (`Lemmas/FloatRange`). Two arithmetics that agree in the normal range, one of them without limits on the exponent, give the same results (`Lemmas/FloatRangeDev`, `Lemmas/FloatRangeRun`, `Lemmas/FloatRangeMore`, `Lemmas/FloatRangeFreq`), so C67, C82, C87 and C99 apply |
| C98 | the terms of `totdev` at the reflected ends are sums of second differences of neighbours with bounded coefficients, so the mean distance of the total variance and of the overlapping Allan variance is at most a constant over `N - 2` (`Lemmas/TotClt`); the characteristic functions have the same limits, and the arguments of C93 and C96 apply |
| C99 | each deviation as a function of the data moves by at most a constant times the largest error of the data, after a line has been removed where the deviation does not see it; put together with the rounding bounds for phase data and with the bound for `frequency2phase` |
| C100 | invariant of the loop over the 6m updates: the window sum after j updates is a float sum of the 3m mirrored values with at most m - 1 + 2j roundings each, relative to m times the largest value; then as C91 and C99 |
| C101 | the phase is a linear combination of cosines and sines with uncorrelated coefficients, so the mean square of a linear form is a sum over the frequencies; transforms of the waves by geometric sums; limits by dominated convergence of step functions |
| C102 | the terms are quadratic forms; the mirrored points lie on a circle of 6m points (`Lemmas/Circle`, `Lemmas/TotSum`), where the sums of squares of the coefficients are sums of periodic sequences; the part of the slope by prefix sums (`Lemmas/TotForm`, `Lemmas/TotCoef`) |
| C103 | as C102, with the second antidifference on the circle of 6m points and the slopes of ramps; the part of the slope splits into a part even about the middle of the subsequence, which vanishes, and an odd one (`Lemmas/TotRun`) |
| C104 | a series is the sum of ramps weighted with its second differences (`second_sum`); weights of the second differences in each term, their sums of squares as sums of polynomials; the terms at the end of `totdev` by time reversal |
| C105 | as C97: bounds on the grid and the magnitude of every intermediate result; sums of squares keep the lower bound of their terms (`PAcc`) |
| C106 | the closed forms of the running sums of C91, with the same bounds on grid and magnitude carried by induction over the stream |
| C107 | both results are compared with the exact deviation (C67, C82, C91); the exact deviations at the two averaging times differ by a factor within two roundings of 1; limited range by the simulation of C105 and C106 |
| C108 | as C81; the loops by their state as (condition, partial sum); a NaN in a subsequence of `mtotdev` or `htotdev` is met by the first three sums, because the reflected copy comes first |
| C109 | the entry of a factor as (condition, value) for each of its three numbers, by induction on the samples; the state as in C34–C38 |
| C110 | forward error analysis of the variance; the root of a clipped variance is 1/2-Hölder, and Lipschitz away from zero; an exact run on powers of two for the cancellation |
| C111 | as C67, with the sum over the positions of the complete differences, listed in order |
| C112 | as C81; the rows of the three series of the hat have the same factors |
| C113 | the powers `10^(i/p)` of twelve decades are compared with half-integers by integer arithmetic on their `p`-th powers; larger factors are out of reach of the stream; then the induction of C38 with the entries of C91 |
| C114 | the rounded and the exact loop run side by side: the extremes agree and the running values differ by one rounding, which a maximum preserves; then as C87 |
| C115 | invariant of the loop: extremes that are numbers are samples of the window, the running value is NaN from the start or never; once an extreme is NaN it stays NaN and the running value never changes |
| C116 | the doubling columns are exact; the distance of the logarithm of an integer from the next integers bounds the error of `np.log2`; round to nearest is monotone, so the largest rounded difference is the rounded largest difference |
| C117 | induction on the doubling: an entry is NaN exactly if the first sample of its window is, a number in it is a sample of the window |
| C118 | all intermediate results are multiples of `2^-343` and below `2^241`, so the rounding agrees with one of unlimited range |
| C119 | deviations of moderate data are multiples of `2^-316` and below `2^170`, so that their squares stay in the normal range |
| C120 | without gaps the rounded row of `gradev` is written with the same expression as that of `oadev`; the bounds then follow from C82 and C20 |
| C121 | uniqueness of the rounding gives `fl (2^k x) = 2^k fl x`; a relation between the two runs is carried through every statement |
| C122 | as C121; for negative factors maxima and minima change places |
| C123 | as C121, with the factor on the rate; the factors cancel in `taus * rate`, so the same averaging factors are chosen |
| C124 | the phases made from frequencies are multiplied by `2^-k`; then C123 and C121 |
| C125 | as C123; in the hat the variances have the factor `2^2j`, which keeps their signs, and the square root returns `2^j` |
| C126 | as C121 and C123, with missing values; the confidence interval is proportional to the deviation |
| C127 | as C121, with a relation between the columns of the two recursions |
| C91 | the rounded loops are followed entry by entry to closed forms; the running sum collects one rounding per sample of the size of the window sum |
| C75 | the square of a deviation is the mean of one quadratic form over moving windows; the variance of the mean by Cauchy-Schwarz for overlapping windows and zero for disjoint ones; Chebyshev |
| C76 | weights of the samples (phase noise) or increments (frequency noise) in each term, their sums of squares by induction m -> m + 2, then as C75 |
| C77 | the phase of a sum of noises is a linear form in the driving samples of all sources, laid out as one stream; cross terms vanish because flipping the sign of one source keeps the law |
| C78 | each measured difference is a sum of noises with an offset; the hat is a Lipschitz function of three squares; `gcodev` is the difference of two `oadev` squares (polarization), for the sum and the difference of the two records |
| C79 | the fitted polynomial is small against the noise at the last stage (least squares, Abel summation); laws of large numbers for linear forms that move with the index give the limit of `rho`; before the last stage long third differences, which no quadratic changes, bound the variance from below by any multiple of the differences, so that `rho > 1/4` |
| C80 | convergence in probability (`Lemmas/InProb`) of the numerators and denominators; for the random walk the sample variance is bounded below by differences over about M^(3/4) of the M values (Chebyshev with the overlap of the windows) and above by Markov; logarithms in terms of powers of two |
| C81 | arrays with NaN as tables of (condition, number); the conditions are carried through slices, sums and cumulative sums beside the run on any completion of the data |
| C82 | Lipschitz bounds of the deviations in the phase, modulo frequency offsets; running sums of rounded terms |
| C59 | counting distinct rounded logarithms |
