{
 "claims": [
  {
   "property": "C01",
   "status": "proved",
   "theorems": [
    "AT.tau_generator_sound",
    "AT.tau_generator_taus_sorted",
    "AT.tau_generator_cases"
   ],
   "note": "every successful tau_generator call; scalar and tuple taus arguments are not modelled"
  },
  {
   "property": "C02",
   "status": "proved",
   "theorems": [
    "AT.tau_generator_explicit_iff",
    "AT.tau_generator_set"
   ],
   "note": "explicit lists and arrays"
  },
  {
   "property": "C03",
   "status": "proved",
   "theorems": [
    "AT.tau_generator_all",
    "AT.tau_generator_octave",
    "AT.tau_generator_decade",
    "AT.tau_generator_log10",
    "AT.tau_generator_rate_free"
   ],
   "note": "keywords"
  },
  {
   "property": "C04",
   "status": "proved",
   "theorems": [
    "AT.run_ok",
    "AT.run_ns",
    "AT.run_taus_sorted",
    "AT.run_userWarning",
    "AT.gradev_ok"
   ],
   "note": "all 14 functions and gradev"
  },
  {
   "property": "C05",
   "status": "proved",
   "theorems": [
    "AT.run_rate_zero",
    "AT.run_unknown_type",
    "AT.run_unknown_taus"
   ],
   "note": "all 14 functions"
  },
  {
   "property": "C06",
   "status": "proved",
   "theorems": [
    "AT.adev_phase_eq"
   ],
   "note": "non-overlapping ADEV equals its table for every phase list, nonnegative rate and taus argument"
  },
  {
   "property": "C07",
   "status": "proved",
   "theorems": [
    "AT.oadev_phase_eq"
   ],
   "note": "overlapping ADEV"
  },
  {
   "property": "C08",
   "status": "proved",
   "theorems": [
    "AT.mdev_phase_eq"
   ],
   "note": "MDEV incremental window sum equals the defining double sum"
  },
  {
   "property": "C09",
   "status": "proved",
   "theorems": [
    "AT.ohdev_phase_eq",
    "AT.hdev_phase_eq"
   ],
   "note": "Hadamard"
  },
  {
   "property": "C10",
   "status": "proved",
   "theorems": [
    "AT.totdev_phase_eq",
    "AT.totdev_short"
   ],
   "note": "TOTDEV"
  },
  {
   "property": "C11",
   "status": "proved",
   "theorems": [
    "AT.mtotdev_phase_eq",
    "AT.ttotdev_phase_eq"
   ],
   "note": "MTOTDEV and TTOTDEV"
  },
  {
   "property": "C12",
   "status": "proved",
   "theorems": [
    "AT.htotdev_phase_eq",
    "AT.htotdev_freq_eq"
   ],
   "note": "HTOTDEV"
  },
  {
   "property": "C13",
   "status": "proved",
   "theorems": [
    "AT.theo1_phase_eq"
   ],
   "note": "THEO1"
  },
  {
   "property": "C14",
   "status": "proved",
   "theorems": [
    "AT.tierms_phase_eq"
   ],
   "note": "TIE rms"
  },
  {
   "property": "C15",
   "status": "proved",
   "theorems": [
    "AT.mtie_phase_eq",
    "AT.mtie_isGreatest",
    "AT.mtie_mono",
    "AT.mtie_devs_mono",
    "AT.tierms_le_mtie",
    "AT.tierms_le_mtie_out"
   ],
   "note": "MTIE"
  },
  {
   "property": "C16",
   "status": "partial",
   "theorems": [
    "AT.mtie_fallback_le_partial",
    "AT.mtie_fallback_zero",
    "AT.mtie_fallback_wrong",
    "AT.mtie_fallback_unbounded",
    "AT.mtie_mem_partial"
   ],
   "note": "the property is false of the code: the low-memory loop never looks at windows of m+1 points that contain both of its end points for m=1 (always 0). Proved: the fallback never exceeds the true value, and no lower bound holds: it can be 0 where the true value is any K, for every length and factor"
  },
  {
   "property": "C17",
   "status": "partial",
   "theorems": [
    "AT.mtie_phase_fast_eq_partial",
    "AT.mtie_phase_fast_disagrees"
   ],
   "note": "the windowed peak-to-peak part is proved; the agreement with mtie at the same tau is false (window 2^(k+1) points labelled tau=2^k), counterexample proved"
  },
  {
   "property": "C18",
   "status": "proved",
   "theorems": [
    "AT.pdev_phase_eq"
   ],
   "note": "PDEV"
  },
  {
   "property": "C19",
   "status": "proved",
   "theorems": [
    "AT.gcodev_phase_eq",
    "AT.gcodev_self",
    "AT.gcodev_comm",
    "AT.gcodev_sq_le",
    "AT.gcodev_le"
   ],
   "note": "symmetry is for phase data"
  },
  {
   "property": "C20",
   "status": "proved",
   "theorems": [
    "AT.gradev_phase_eq",
    "AT.gradev_phase_error",
    "AT.gradev_ok",
    "AT.gradev_eq_oadev",
    "AT.gradev_freq",
    "AT.gradev_crash_example"
   ],
   "note": "complete outcome, including the ZeroDivisionError that the code raises when exactly m samples are present and confidence intervals for white phase noise are asked for"
  },
  {
   "property": "C21",
   "status": "partial",
   "theorems": [
    "AT.gradev_bars_nan_partial",
    "AT.confidence_interval_nan",
    "AT.gradev_alpha_wrong"
   ],
   "note": "the property is false of the code: the arguments of the confidence interval are swapped, proved that the bars are NaN whenever edf > 3; noise type names mapped wrongly"
  },
  {
   "property": "C22",
   "status": "proved",
   "theorems": [
    "AT.tdev_phase_eq"
   ],
   "note": "TDEV"
  },
  {
   "property": "C23",
   "status": "proved",
   "theorems": [
    "AT.run_affine"
   ],
   "note": "all 12 functions, any rate, all result arrays and errors"
  },
  {
   "property": "C24",
   "status": "proved",
   "theorems": [
    "AT.run_quadratic",
    "AT.run_drift"
   ],
   "note": "any drift coefficient"
  },
  {
   "property": "C25",
   "status": "proved",
   "theorems": [
    "AT.run_scale"
   ],
   "note": "all 14 functions"
  },
  {
   "property": "C26",
   "status": "partial",
   "theorems": [
    "AT.run_reverse_partial",
    "AT.pdev_reverse_wrong"
   ],
   "note": "the property is false of the code for pdev: for m>1 the last phase sample is never used. Proved for all the other listed functions, counterexample proved for pdev"
  },
  {
   "property": "C27",
   "status": "proved",
   "theorems": [
    "AT.run_rate",
    "AT.times_keyword"
   ],
   "note": "rate scaling of taus, deviations and errors"
  },
  {
   "property": "C28",
   "status": "proved",
   "theorems": [
    "AT.run_tau0_allan",
    "AT.run_tau0_hadamard"
   ],
   "note": "whole result at taus=[tau0]"
  },
  {
   "property": "C29",
   "status": "proved",
   "theorems": [
    "AT.run_freq",
    "AT.run_freq_offset"
   ],
   "note": "all 14 functions, any data including empty and rate 0"
  },
  {
   "property": "C30",
   "status": "proved",
   "theorems": [
    "AT.frequency2phase_eq",
    "AT.frequency2phase_ends",
    "AT.phase2frequency_frequency2phase",
    "AT.frequency2phase_phase2frequency",
    "AT.frequency2phase_nv_eq",
    "AT.frequency2phase_nv_gap",
    "AT.frequency2phase_nv_some"
   ],
   "note": "closed form, both round trips, gaps"
  },
  {
   "property": "C31",
   "status": "proved",
   "theorems": [
    "AT.trim_data_iff",
    "AT.trim_data_error",
    "AT.trim_data_none",
    "AT.trim_data_idem"
   ],
   "note": "characterisation, errors, idempotence"
  },
  {
   "property": "C32",
   "status": "proved",
   "theorems": [
    "AT.phase2radians_eq",
    "AT.phase2radians_linear",
    "AT.frequency2fractional_explicit",
    "AT.frequency2fractional_default"
   ],
   "note": "mean -1 is the marker for the default"
  },
  {
   "property": "C33",
   "status": "proved",
   "theorems": [
    "AT.hat_eq",
    "AT.hat_oadev",
    "AT.hat_uncorrelated",
    "AT.hat_nonneg"
   ],
   "note": "any deviation function; exact recovery for uncorrelated sources"
  },
  {
   "property": "C34",
   "status": "proved",
   "theorems": [
    "AT.oadev_realtime_eq",
    "AT.realtime_eq",
    "AT.realtime_batch"
   ],
   "note": "fixed averaging factors, any stream, tau0 > 0"
  },
  {
   "property": "C35",
   "status": "proved",
   "theorems": [
    "AT.ohdev_realtime_eq",
    "AT.realtime_eq",
    "AT.realtime_batch"
   ],
   "note": "fixed averaging factors, any stream, tau0 > 0"
  },
  {
   "property": "C36",
   "status": "proved",
   "theorems": [
    "AT.tdev_realtime_eq",
    "AT.realtime_eq",
    "AT.realtime_batch"
   ],
   "note": "fixed averaging factors, any stream, tau0 > 0; includes mdev() and that the assertion never fires"
  },
  {
   "property": "C37",
   "status": "partial",
   "theorems": [
    "AT.feed_frequency_eq",
    "AT.realtime_freq_eq",
    "AT.realtime_freq_batch_partial",
    "AT.realtime_freq_batch_one",
    "AT.realtime_freq_wrong"
   ],
   "note": "feeding frequencies is feeding their sums (proved). The agreement with the batch function is false of the code unless tau0 = 1: the streaming value is 1/tau0 times the batch value (proved), counterexample proved"
  },
  {
   "property": "C38",
   "status": "partial",
   "theorems": [
    "AT.realtime_auto",
    "AT.realtime_auto_prefix",
    "AT.ohdev_auto",
    "AT.autoAf_strictMono_iff",
    "AT.oadev_auto_partial",
    "AT.tdev_auto_partial",
    "AT.realtime_auto_wrong",
    "AT.realtime_auto_misaligned"
   ],
   "note": "alignment and append-only proved; OHDEV agrees with batch; for OADEV and TDEV the code loses the first second difference of every automatically added factor: exact reported value proved, counterexample proved"
  },
  {
   "property": "C39",
   "status": "proved",
   "theorems": [
    "AT.dataset_history",
    "AT.compute_state",
    "AT.compute_ok_iff"
   ],
   "note": "all call sequences, any evaluation"
  },
  {
   "property": "C40",
   "status": "proved",
   "theorems": [
    "AT.compute_name",
    "AT.compute_names",
    "AT.compute_odd_names",
    "AT.compute_dev",
    "AT.compute_gradev"
   ],
   "note": "all strings; gcodev and psd_piecewise_to_adev pass the name check and fail with TypeError"
  },
  {
   "property": "C41",
   "status": "partial",
   "theorems": [
    "AT.write_results_partial",
    "AT.write_results_af",
    "AT.write_results_af_wrong",
    "AT.write_results_loses",
    "AT.write_results_gradev"
   ],
   "note": "contents proved; the property is false of the code: the averaging-factor column is m/m0 with m0 the first factor, and an existing file is destroyed when nothing was computed or after gradev (both proved). Number formatting and operating-system failures are not modelled"
  },
  {
   "property": "C42",
   "status": "partial",
   "theorems": [
    "AT.confidence_interval_eq",
    "AT.confidence_interval_bounds_partial",
    "AT.confidence_interval_reflect",
    "AT.confidence_interval_ordered",
    "AT.confidence_interval_scale",
    "AT.confidence_interval_nested_partial",
    "AT.confidence_interval_not_nested",
    "AT.confidence_interval_coverage_partial"
   ],
   "note": "for any ppf that is the chi-square quantile (defined by measure theory, shown to exist). Nesting and coverage hold for ci >= 1/2; for ci < 1/2 they are false of the code, which treats ci as 1-ci (proved)"
  },
  {
   "property": "C43",
   "status": "partial",
   "theorems": [
    "AT.edf_greenhall_eq_partial",
    "AT.edf_greenhall_reject",
    "AT.ghTable1_pos",
    "AT.ghTable2_pos",
    "AT.edf_greenhall_assert",
    "AT.edf_greenhall_notImplemented",
    "AT.greenhall_table1_wraps",
    "AT.edf_greenhall_table_pos",
    "AT.edf_greenhall_simple_eq",
    "AT.edf_greenhall_simple_agrees"
   ],
   "note": "complete outcome proved against an independent statement of the algorithm. The property is false of the code on two families of arguments where it raises (proved); positivity of every accepted case is C64"
  },
  {
   "property": "C44",
   "status": "proved",
   "theorems": [
    "AT.greenhall_sw_even",
    "AT.greenhall_sx_even",
    "AT.greenhall_sz_even",
    "AT.greenhall_sz_central",
    "AT.greenhall_sx_central"
   ],
   "note": "all alpha, all real t"
  },
  {
   "property": "C45",
   "status": "partial",
   "theorems": [
    "AT.edf_simple_eq_partial",
    "AT.edf_simple_crash",
    "AT.edf_simple_unknown",
    "AT.edf_totdev_eq",
    "AT.edf_totdev_other_partial",
    "AT.edf_totdev_wrong",
    "AT.edf_totdev_nan",
    "AT.edf_mtotdev_eq",
    "AT.edf_mtotdev_unknown"
   ],
   "note": "complete outcomes proved; false of the code in three cases, each proved: crash for N=3 and alpha=-2, nonpositive edf for totdev with alpha=2, NaN for alpha=1"
  },
  {
   "property": "C46",
   "status": "proved",
   "theorems": [
    "AT.lag1_acf_range",
    "AT.lag1_acf_const",
    "AT.lag1_acf_nil",
    "AT.lag1_acf_affine"
   ],
   "note": "all lists"
  },
  {
   "property": "C47",
   "status": "partial",
   "theorems": [
    "AT.autocorr_noise_id_eq",
    "AT.noise_id_loop_fuel",
    "AT.autocorr_noise_id_range_partial",
    "AT.autocorr_noise_id_short",
    "AT.autocorr_noise_id_short_phase",
    "AT.autocorr_noise_id_short_freq",
    "AT.noise_id_prepare_phase",
    "AT.noise_id_prepare_freq",
    "AT.autocorr_noise_id_unbounded",
    "AT.autocorr_noise_id_below",
    "AT.confidence_interval_noiseID_unbounded",
    "AT.exists_isLSFit"
   ],
   "note": "termination, exact result and the short-data exception proved; the range -4..2 is false of the code: inputs giving 167 and -5 exhibited and proved"
  },
  {
   "property": "C48",
   "status": "proved",
   "theorems": [
    "AT.b1_theory_eq",
    "AT.b1_theory_zero",
    "AT.b_to_mu_eq",
    "AT.rn_theory_eq",
    "AT.b1_boundary_between",
    "AT.b1_boundary_geometric",
    "AT.rn_boundary_between"
   ],
   "note": "all N >= 2, all integer mu, limit at mu = 0; the intended arithmetic mean for steep noise is dead code (proved)"
  },
  {
   "property": "C49",
   "status": "partial",
   "theorems": [
    "AT.prc_tdev_eq",
    "AT.prc_tdev_mono",
    "AT.prc_tdev_bounds",
    "AT.prc_mtie_eq",
    "AT.prc_mtie_mono",
    "AT.prc_mtie_pos",
    "AT.eprtc_tdev_eq",
    "AT.eprtc_tdev_bounds",
    "AT.eprtc_tdev_not_mono",
    "AT.eprtc_tdev_mono_partial",
    "AT.eprtc_mtie_eq",
    "AT.eprtc_mtie_bounds",
    "AT.eprtc_mtie_not_mono",
    "AT.eprtc_mtie_mono_partial",
    "AT.prtcA_tdev_eq",
    "AT.prtcA_tdev_mono",
    "AT.prtcA_tdev_bounds",
    "AT.prtcB_tdev_eq",
    "AT.prtcB_tdev_mono",
    "AT.prtcB_tdev_bounds",
    "AT.prtcA_mtie_eq",
    "AT.prtcA_mtie_bounds",
    "AT.prtcA_mtie_not_mono",
    "AT.prtcA_mtie_mono_partial",
    "AT.prtcB_mtie_eq",
    "AT.prtcB_mtie_mono",
    "AT.prtcB_mtie_bounds"
   ],
   "note": "all real tau. Five masks proved monotone; three are not monotone in the code (drops proved, and the size of each drop bounded)"
  },
  {
   "property": "C50",
   "status": "proved",
   "theorems": [
    "AT.generateNoise_eq",
    "AT.generateNoise_zero",
    "AT.kasdinNoise_white",
    "AT.kasdinNoise_walk",
    "AT.kasdinNoise_run"
   ],
   "note": "all draws, all nr, all real b; rfft/irfft by their defining sums"
  },
  {
   "property": "C51",
   "status": "partial",
   "theorems": [
    "AT.frequency_psd_eq",
    "AT.frequency_psd_slope",
    "AT.c_avar_eq",
    "AT.kasdin_adev_eq",
    "AT.kasdin_mdev_eq",
    "AT.kasdin_adev_scale_partial",
    "AT.kasdin_adev_fpm_wrong",
    "AT.kasdin_mdev_scale",
    "AT.kasdin_qd_scale",
    "AT.kasdin_other"
   ],
   "note": "all proved except that for flicker phase noise the Allan deviation prediction has a log(tau) factor, so the pure power-law scaling is false there (proved)"
  },
  {
   "property": "C52",
   "status": "proved",
   "theorems": [
    "AT.pinkNext_eq",
    "AT.pink_eq",
    "AT.pink_zero",
    "AT.pinkValue_constant"
   ],
   "note": "all depths >= 1, all random sources, all numbers of samples, with an explicit formula for every sample; depth 0 raises"
  },
  {
   "property": "C53",
   "status": "proved",
   "theorems": [
    "AT.white_eq",
    "AT.white_negative",
    "AT.brown_eq",
    "AT.brown_draws",
    "AT.brown_diff",
    "AT.violet_eq",
    "AT.violet_draws",
    "AT.brown_zero"
   ],
   "note": "all lengths, non-negative coefficients, rates and draws"
  },
  {
   "property": "C54",
   "status": "partial",
   "theorems": [
    "AT.tkSy_eq_partial",
    "AT.tkSy_last_wrong",
    "AT.exists_segment",
    "AT.tk_odd_wrong",
    "AT.tk_length_partial",
    "AT.tk_reject",
    "AT.tk_invalid",
    "AT.tk_even",
    "AT.tk_five",
    "AT.tkNan_of_nonneg"
   ],
   "note": "complete for even n. The property is false of the code for odd n: ValueError from 7 on, a wrong spectrum for 5; and the PSD is zero at a frequency equal to the last node (all proved)"
  },
  {
   "property": "C55",
   "status": "partial",
   "theorems": [
    "AT.adev2psd_reject",
    "AT.adev2psd_slope_reject",
    "AT.psdFilter_eq",
    "AT.adev2psd_eq",
    "AT.adev2psd_continuous_iff",
    "AT.adev2psd_nodes",
    "AT.adev2psd_continuous_partial",
    "AT.adev2psd_octave_wrong",
    "AT.adev2psd_single",
    "AT.psd_single_roundtrip",
    "AT.adev2psd_roundtrip_partial",
    "AT.adev2psd_roundtrip_wrong",
    "AT.adev2psd_divergent_accepted"
   ],
   "note": "Validation proved. Continuity holds exactly for decade-spaced times (iff, for all inputs whose slopes differ) and is false otherwise; the round trip holds with no nodes and is false with the two nodes the code returns for a single slope; slopes -2 and 2 are accepted although the integral diverges. Assumes the quadrature is exact on integrable functions."
  },
  {
   "property": "C56",
   "status": "proved",
   "theorems": [
    "AT.psd_piecewise_to_adev_eq",
    "AT.psd_nonneg",
    "AT.psd_scale",
    "AT.psd_split",
    "AT.psd_index_error"
   ],
   "note": "All segment lists and positive taus; the quadrature is a parameter, assumed exact on integrable functions (not needed for psd_nonneg and psd_scale). Splitting needs a convergent integral on the split segment."
  },
  {
   "property": "C57",
   "status": "partial",
   "theorems": [
    "AT.rn_eq",
    "AT.rn_rate_one_partial",
    "AT.rn_wrong",
    "AT.b1_eq",
    "AT.b1_rate_one_partial",
    "AT.b1_wrong"
   ],
   "note": "exact value proved: the averaging factor used is round(af*rate^2). The property holds at rate 1 and is false of the code otherwise (counterexample proved)"
  },
  {
   "property": "C58",
   "status": "proved",
   "theorems": [
    "AT.confidence_interval_noiseID_eq",
    "AT.confidence_interval_noiseID_error",
    "AT.confidence_interval_noiseID_name",
    "AT.confidence_interval_noiseID_flags"
   ],
   "note": "all arguments"
  },
  {
   "property": "C59",
   "status": "proved",
   "theorems": [
    "AT.tau_reduction_eq",
    "AT.tau_reduction_spec"
   ],
   "note": "All M, rates and n_per_decade."
  },
  {
   "property": "C60",
   "status": "proved",
   "theorems": [
    "AT.run_devs_nonneg",
    "AT.run_errs",
    "AT.run_errs_special"
   ],
   "note": "positive rate; for negative rate the code returns negative deviations (see DESIGN)"
  },
  {
   "property": "C61",
   "status": "partial",
   "theorems": [
    "AT.kasdin_adev_psd",
    "AT.kasdin_adev_psd_wpm",
    "AT.kasdin_mdev_psd",
    "AT.kasdin_mdev_psd_ffm_wrong",
    "AT.kasdin_pdev_psd",
    "AT.kasdin_pdev_psd_fpm_wrong",
    "AT.kasdin_adev_piecewise",
    "AT.kasdin_adev_psd_fpm",
    "AT.kasdin_adev_psd_fpm_rel",
    "AT.S4_asymp",
    "AT.euler_bounds"
   ],
   "note": "Exact integrals proved. The property is false of the code in two cases (proved): mdev for flicker FM uses 27/20 ln 2 instead of (27 ln 3 - 32 ln 2)/8; pdev for flicker PM uses 3 ln 16 - 1 instead of 3 (ln 16 - 1). For white PM the Allan variance is exact at multiples of tau0 with the cut-off 1/(2 tau0). For flicker PM the Allan variance is the integral up to a relative error tau0/tau + 2e-6 (the formula is asymptotic)."
  },
  {
   "property": "C62",
   "status": "partial",
   "theorems": [
    "AT.psd2allan_eq",
    "AT.psd2allan_array",
    "AT.psd2allan_short",
    "AT.psdExponent_spec",
    "AT.psdFactors_base",
    "AT.psdFactors_all",
    "AT.psdFactors_octave_wrong",
    "AT.psdFactors_bounds",
    "AT.psd2allan_white_pm",
    "AT.psd2allan_nonneg",
    "AT.psd2allan_scale",
    "AT.exists_cubicSpline"
   ],
   "note": "Value formula proved for all spectra; interp1d is a parameter assumed to return one value per point and, for the white PM value, to reproduce cubics (exists_cubicSpline: such a routine exists). The property is false of the code for the factors: the largest power of two up to n is missing unless n rounds to it (psdFactors_octave_wrong, proved as an equivalence)."
  },
  {
   "property": "C63",
   "status": "partial",
   "theorems": [
    "AT.numpy_psd_eq",
    "AT.numpy_psd_axis_even",
    "AT.numpy_psd_axis_odd_wrong",
    "AT.numpy_psd_power",
    "AT.numpy_psd_scale"
   ],
   "note": "The property is false of the code in two respects, both proved exactly: for odd lengths the axis is k f_s/(N-1), and the integral exceeds the mean square by the squared mean and, for even lengths, the squared alternating mean, because the values at 0 and f_s/2 are doubled."
  },
  {
   "property": "C64",
   "status": "proved",
   "theorems": [
    "AT.greenhall_sz_zero_ne",
    "AT.edf_greenhall_pos",
    "AT.ghSz_fin_pos",
    "AT.ghSz_inf_pos"
   ],
   "note": "For every accepted argument (ghCrash = none lists the refused ones, see C43). The kernel is a Laplace transform of the positive spectrum (2-2cos w)^d (2-2cos(w/F))."
  },
  {
   "property": "C65",
   "status": "partial",
   "theorems": [
    "AT.rn_theory_wpm",
    "AT.rn_theory_fpm",
    "AT.rn_theory_fm_wrong"
   ],
   "note": "Proved for white and flicker PM. The property is false of the code for the frequency noise types (proved): rn_theory is 1 while the ratios are 1/2, (27 ln 3 - 32 ln 2)/(16 ln 2) = 0.67 and 33/40."
  },
  {
   "property": "C66",
   "status": "partial",
   "theorems": [
    "AT.tau_generator_float",
    "AT.tau_generator_float_safe",
    "AT.tau_generator_float_again",
    "AT.af_column_partial",
    "AT.af_column_wrong",
    "AT.tk_samples_wrong",
    "AT.af_column_rounded"
   ],
   "note": "factors of keywords and returned taus proved for every rate; false for the factors written to a file: int() truncates, 3 is written as 2 at 10 Hz"
  },
  {
   "property": "C67",
   "status": "proved",
   "theorems": [
    "AT.oadev_float",
    "AT.adev_float",
    "AT.ohdev_float",
    "AT.hdev_float",
    "AT.mdev_float",
    "AT.oadev_float_zero"
   ],
   "note": "Overflow and underflow are excluded by the rounding model FloatRound. oadev_float_zero: for four doubles the computed deviation is 0 and the exact one positive, so the absolute part of the bound is needed."
  },
  {
   "property": "C68",
   "status": "proved",
   "theorems": [
    "AT.plot_history",
    "AT.plot_filled",
    "AT.drawable_dev",
    "AT.drawable_gradev",
    "AT.plot_negative_rate"
   ],
   "note": "Argument checks of matplotlib are modelled, drawing is not. plot_negative_rate: the hypothesis on the rates is needed."
  },
  {
   "property": "C69",
   "status": "proved",
   "theorems": [
    "AT.scipy_psd_eq",
    "AT.scipy_psd_outcomes",
    "AT.welch_power",
    "AT.scipy_psd_affine",
    "AT.welchPsd_nonneg",
    "AT.segments_fit",
    "AT.segments_whole",
    "AT.hann_sum"
   ],
   "note": "welch is defined from the documentation of scipy."
  },
  {
   "property": "C70",
   "status": "proved",
   "theorems": [
    "AT.white_phase_mean",
    "AT.white_freq_mean",
    "AT.walk_freq_mean"
   ],
   "note": "Finding: the expectation of theo1 for white frequency noise is the Allan variance at 3/4 of the tau that theo1 reports."
  },
  {
   "property": "C71",
   "status": "partial",
   "theorems": [
    "AT.kasdin_simulated",
    "AT.kasdin_simulated_any",
    "AT.kasdin_simulated_flicker_wrong"
   ],
   "note": "Equality holds for white phase noise and for adev of white frequency noise. It is false of the code otherwise: the exact factors for mdev of white frequency noise and for random walk frequency noise are proved; they tend to 1. For the flicker types the exact expectation is a finite sum and exceeds the prediction at tau0 by more than 10 percent; its limits are proved in C84."
  },
  {
   "property": "C72",
   "status": "proved",
   "theorems": [
    "AT.white_allan",
    "AT.brown_allan",
    "AT.violet_allan"
   ],
   "note": "The sampled random walk has the factor 1 + 1/(2 m^2) over the textbook value; it is part of the statement."
  },
  {
   "property": "C73",
   "status": "partial",
   "theorems": [
    "AT.white_numpy_psd",
    "AT.white_scipy_psd",
    "AT.brown_numpy_psd",
    "AT.brown_numpy_double",
    "AT.brown_scipy_psd",
    "AT.brown_scipy_ge",
    "AT.violet_numpy_psd",
    "AT.violet_scipy_psd",
    "AT.violet_scipy_le",
    "AT.brown_scipy_low",
    "AT.violet_scipy_low"
   ],
   "note": "True for white noise with numpy_psd and at the inner frequencies of scipy_psd. False of the code otherwise: the exact expectations are proved; numpy_psd of brown noise is more than twice the density at every frequency, and of violet noise it has a constant part. scipy_psd of brown and violet noise is covered at all frequencies (brown_scipy_low, violet_scipy_low: the two lowest)."
  },
  {
   "property": "C74",
   "status": "partial",
   "theorems": [
    "AT.edf_white_phase_partial",
    "AT.edf_white_freq_partial",
    "AT.edf_white_freq_one"
   ],
   "note": "White phase noise: exact for adev, oadev, hdev, ohdev wherever the code does not raise NotImplementedError, and for mdev and tdev where the basic sum has at most 100 terms (beyond that the code uses rounded tables or a coarse sum). White frequency noise: exact for m (d+1) > 100 with at most 100 terms. For smaller m the code models phase that is averaged over the sampling interval, and the claim is false of the data that allantools generates: at m = 1 the result is up to 17 percent too large (edf_white_freq_one). C88, C89 and C90 bound the error elsewhere. Not covered: the noise types other than white."
  },
  {
   "property": "C75",
   "status": "proved",
   "theorems": [
    "AT.phase_settles",
    "AT.freq_settles",
    "AT.white_phase_settles",
    "AT.white_freq_settles"
   ],
   "note": ""
  },
  {
   "property": "C76",
   "status": "proved",
   "theorems": [
    "AT.totdev_white_phase",
    "AT.totdev_white_freq",
    "AT.totdev_phase_settles",
    "AT.totdev_freq_settles"
   ],
   "note": ""
  },
  {
   "property": "C77",
   "status": "proved",
   "theorems": [
    "AT.mix_settles",
    "AT.mix_limits"
   ],
   "note": ""
  },
  {
   "property": "C78",
   "status": "proved",
   "theorems": [
    "AT.hat_settles",
    "AT.hat_ideal",
    "AT.gcodev_settles"
   ],
   "note": ""
  },
  {
   "property": "C79",
   "status": "proved",
   "theorems": [
    "AT.noise_id_phase_ok",
    "AT.noise_id_freq_ok",
    "AT.ci_noise_id_ok"
   ],
   "note": ""
  },
  {
   "property": "C80",
   "status": "partial",
   "theorems": [
    "AT.rn_settles",
    "AT.b1_settles",
    "AT.b1_identifies",
    "AT.rn_white_phase",
    "AT.rn_random_walk",
    "AT.rn_white_freq_partial",
    "AT.rn_white_freq_wrong"
   ],
   "note": "The limits and the decisions by B1 are proved for all averaging factors. The decision by R(n) is proved for white phase noise and random walk FM from averaging factor 2 on (at 1 the ratio is always 1) and for white FM from 20 on; for white FM at 2 to 19 the property is false of the code, proved as rn_white_freq_wrong: the theory value 1 that rn_theory returns is not the limit (m^2+1)/(2m^2). For rates other than 1 see C57."
  },
  {
   "property": "C81",
   "status": "proved",
   "theorems": [
    "AT.nan_dev",
    "AT.nan_free",
    "AT.nan_spreads",
    "AT.nan_off_grid",
    "AT.nan_freq"
   ],
   "note": "mtie: the rolling-window path; the fallback for arrays that numpy cannot stride over is not modelled for NaN."
  },
  {
   "property": "C82",
   "status": "proved",
   "theorems": [
    "AT.frequency2phase_float",
    "AT.oadev_near",
    "AT.adev_near",
    "AT.ohdev_near",
    "AT.hdev_near",
    "AT.mdev_near",
    "AT.oadev_freq_float",
    "AT.adev_freq_float",
    "AT.ohdev_freq_float",
    "AT.hdev_freq_float",
    "AT.mdev_freq_float",
    "AT.tdev_freq_float",
    "AT.tdev_float"
   ],
   "note": "Overflow and underflow are excluded by the rounding model FloatRound, as in C67."
  },
  {
   "property": "C83",
   "status": "proved",
   "theorems": [
    "AT.noise_history",
    "AT.plot_sequence"
   ],
   "note": "The random draws are parameters; of matplotlib only the argument checks are modelled."
  },
  {
   "property": "C84",
   "status": "proved",
   "theorems": [
    "AT.kasdin_settles",
    "AT.kasdin_limits",
    "AT.fpm_gap"
   ],
   "note": "The draws of numpy are modelled as independent standard normal numbers; rfft and irfft by their defining sums, as in C50."
  },
  {
   "property": "C85",
   "status": "proved",
   "theorems": [
    "AT.kasdin_id_phase",
    "AT.kasdin_id_freq",
    "AT.generateNoise_id",
    "AT.id_right",
    "AT.ci_flicker_wrong"
   ],
   "note": "The draws of numpy are modelled as independent standard normal numbers; numpy.polyfit by any exact least-squares fit, as in C79."
  },
  {
   "property": "C86",
   "status": "proved",
   "theorems": [
    "AT.generateNoise_ratios",
    "AT.kasdin_rn_settles",
    "AT.kasdin_rn_says",
    "AT.sim_ratio_says",
    "AT.rnSays_unique",
    "AT.kasdin_b1_says"
   ],
   "note": "The draws of numpy are modelled as independent standard normal numbers."
  },
  {
   "property": "C87",
   "status": "proved",
   "theorems": [
    "AT.totdev_float",
    "AT.pdev_float",
    "AT.theo1_float",
    "AT.tierms_float",
    "AT.mtie_float",
    "AT.gcodev_float",
    "AT.gcodev_float_zero",
    "AT.binary64_intExact"
   ],
   "note": "Rounding has relative error at most 2^-53: no overflow or underflow. Integers are exact. mtie without its low-memory loop (C114)."
  },
  {
   "property": "C88",
   "status": "proved",
   "theorems": [
    "AT.edf_white_freq_near"
   ],
   "note": "The overlapping deviations where the basic sum has more than 100 terms are the subject of C89."
  },
  {
   "property": "C89",
   "status": "proved",
   "theorems": [
    "AT.edf_white_closed",
    "AT.edf_white_table"
   ],
   "note": "Between the two regimes (more than 100 terms and at most (d+1) m summands) edf_greenhall uses a basic sum of 100 terms, which is the subject of C90."
  },
  {
   "property": "C90",
   "status": "proved",
   "theorems": [
    "AT.edf_white_all"
   ],
   "note": "The constants are those of a worst-case bound of the trapezoidal rule with 100 intervals; the true errors are smaller."
  },
  {
   "property": "C91",
   "status": "proved",
   "theorems": [
    "AT.realtime_float",
    "AT.tdev_realtime_mdev_float",
    "AT.realtime_freq_float",
    "AT.tdev_realtime_residue"
   ],
   "note": "Rounding has relative error at most 2^-53: no overflow or underflow. Fixed averaging factors. realtime_freq_float compares with the phase the class itself integrates, without tau0 (C37)."
  },
  {
   "property": "C92",
   "status": "proved",
   "theorems": [
    "AT.edf_walk_freq_near",
    "AT.edf_walk_phase_near"
   ],
   "note": "The overlapping deviations where the basic sum has more than 100 terms (tables, coarse sum) are in C94."
  },
  {
   "property": "C93",
   "status": "proved",
   "theorems": [
    "AT.coverage_phase",
    "AT.coverage_white_phase",
    "AT.coverage_white_freq",
    "AT.coverage_walk_freq",
    "AT.coverage_noise_id",
    "AT.coverage_white_freq_one"
   ],
   "note": ""
  },
  {
   "property": "C94",
   "status": "proved",
   "theorems": [
    "AT.edf_walk_freq_all",
    "AT.edf_walk_phase_all"
   ],
   "note": ""
  },
  {
   "property": "C95",
   "status": "proved",
   "theorems": [
    "AT.edf_simple_phase",
    "AT.edf_simple_freq",
    "AT.edf_simple_limit",
    "AT.coverage_simple_phase",
    "AT.coverage_simple_white_freq",
    "AT.coverage_simple_walk_freq"
   ],
   "note": "The exponents 1 and -1 (flicker noise) of edf_simple are not covered: there is no model of flicker noise with a closed form of the covariances."
  },
  {
   "property": "C96",
   "status": "proved",
   "theorems": [
    "AT.bars_phase",
    "AT.bars_white_freq",
    "AT.bars_walk_freq",
    "AT.bars_short",
    "AT.bars_vanish",
    "AT.bars_fair"
   ],
   "note": ""
  },
  {
   "property": "C97",
   "status": "proved",
   "theorems": [
    "AT.adev_range",
    "AT.oadev_range",
    "AT.hdev_range",
    "AT.ohdev_range",
    "AT.mdev_range",
    "AT.tdev_range",
    "AT.adev_freq_range",
    "AT.oadev_freq_range",
    "AT.hdev_freq_range",
    "AT.ohdev_freq_range",
    "AT.mdev_freq_range",
    "AT.tdev_freq_range",
    "AT.totdev_range",
    "AT.pdev_range",
    "AT.theo1_range",
    "AT.tierms_range",
    "AT.mtie_range",
    "AT.gcodev_range",
    "AT.totdev_freq_range",
    "AT.pdev_freq_range",
    "AT.theo1_freq_range",
    "AT.tierms_freq_range",
    "AT.mtie_freq_range",
    "AT.gcodev_freq_range",
    "AT.oadev_underflow",
    "AT.exists_binary64Range"
   ],
   "note": ""
  },
  {
   "property": "C98",
   "status": "proved",
   "theorems": [
    "AT.tot_bars_phase",
    "AT.tot_bars_white_freq",
    "AT.tot_bars_walk_freq",
    "AT.coverage_tot_phase",
    "AT.coverage_tot_white_freq",
    "AT.coverage_tot_walk_freq",
    "AT.tot_white_short",
    "AT.tot_white_near",
    "AT.tot_other_near"
   ],
   "note": ""
  },
  {
   "property": "C99",
   "status": "proved",
   "theorems": [
    "AT.totdev_near",
    "AT.pdev_near",
    "AT.theo1_near",
    "AT.tierms_near",
    "AT.mtie_near",
    "AT.gcodev_near",
    "AT.totdev_freq_float",
    "AT.pdev_freq_float",
    "AT.theo1_freq_float",
    "AT.tierms_freq_float",
    "AT.mtie_freq_float",
    "AT.gcodev_freq_float",
    "AT.mtie_freq_float_mean"
   ],
   "note": ""
  },
  {
   "property": "C100",
   "status": "proved",
   "theorems": [
    "AT.mtotdev_float",
    "AT.ttotdev_float",
    "AT.htotdev_float",
    "AT.mtotdev_freq_float",
    "AT.ttotdev_freq_float",
    "AT.htotdev_freq_float",
    "AT.mtotdev_near"
   ],
   "note": ""
  },
  {
   "property": "C101",
   "status": "proved",
   "theorems": [
    "AT.tk_expects",
    "AT.tk_numpy_psd",
    "AT.tkFreq_eq",
    "AT.tk_low",
    "AT.tk_low_ratio",
    "AT.tk_adev_limit",
    "AT.tk_hdev_limit",
    "AT.tk_mdev_limit"
   ],
   "note": ""
  },
  {
   "property": "C102",
   "status": "proved",
   "theorems": [
    "AT.mtot_white_phase",
    "AT.mtot_white_freq",
    "AT.htot_walk_freq",
    "AT.bias_range",
    "AT.bias_one",
    "AT.bias_limit",
    "AT.bias_mtot"
   ],
   "note": ""
  },
  {
   "property": "C103",
   "status": "proved",
   "theorems": [
    "AT.mtot_walk_freq",
    "AT.htot_run_freq",
    "AT.bias2_range",
    "AT.bias2_limit"
   ],
   "note": ""
  },
  {
   "property": "C104",
   "status": "proved",
   "theorems": [
    "AT.totdev_walk_freq",
    "AT.totdev_walk_bias",
    "AT.walk_freq_more",
    "AT.theo1_walk_bias"
   ],
   "note": ""
  },
  {
   "property": "C105",
   "status": "proved",
   "theorems": [
    "AT.mtotdev_range",
    "AT.ttotdev_range",
    "AT.htotdev_range",
    "AT.htotdev_freq_range",
    "AT.mtotdev_freq_range",
    "AT.ttotdev_freq_range"
   ],
   "note": ""
  },
  {
   "property": "C106",
   "status": "proved",
   "theorems": [
    "AT.realtime_range",
    "AT.tdev_realtime_mdev_range",
    "AT.realtime_freq_range"
   ],
   "note": "fixed averaging factors (auto_afs false)"
  },
  {
   "property": "C107",
   "status": "proved",
   "theorems": [
    "AT.realtime_batch_float",
    "AT.realtime_mdev_batch_float",
    "AT.realtime_batch_range",
    "AT.realtime_mdev_batch_range"
   ],
   "note": "fixed averaging factors (auto_afs false), phase data"
  },
  {
   "property": "C108",
   "status": "proved",
   "theorems": [
    "AT.nan_dev_more",
    "AT.nan_more_free",
    "AT.nan_more_spreads",
    "AT.nan_pdev_last",
    "AT.nan_more_edge",
    "AT.nan_edge",
    "AT.nan_more_freq",
    "AT.nan_htotdev_freq"
   ],
   "note": ""
  },
  {
   "property": "C109",
   "status": "proved",
   "theorems": [
    "AT.nan_realtime",
    "AT.nan_realtime_free",
    "AT.nan_realtime_batch",
    "AT.nan_realtime_forever",
    "AT.nan_realtime_spreads",
    "AT.nan_realtime_auto",
    "AT.nan_realtime_auto_first",
    "AT.feed_frequency_eq_nv",
    "AT.nan_realtime_freq",
    "AT.nan_realtime_mdev"
   ],
   "note": ""
  },
  {
   "property": "C110",
   "status": "proved",
   "theorems": [
    "AT.hat_float",
    "AT.hat_oadev_float",
    "AT.hat_float_lost",
    "AT.hat_var_float",
    "AT.hat_root_float"
   ],
   "note": ""
  },
  {
   "property": "C111",
   "status": "proved",
   "theorems": [
    "AT.gradev_float",
    "AT.calc_gradev_phase_fl_eq"
   ],
   "note": "the error bars are not compared"
  },
  {
   "property": "C112",
   "status": "proved",
   "theorems": [
    "AT.nan_gcodev",
    "AT.nan_hat",
    "AT.nan_gcodev_free",
    "AT.nan_gcodev_shift",
    "AT.nan_gcodev_misaligned"
   ],
   "note": ""
  },
  {
   "property": "C113",
   "status": "proved",
   "theorems": [
    "AT.realtime_auto_float",
    "AT.realtime_auto_freq_float",
    "AT.ohdev_auto_float",
    "AT.tdev_auto_mdev_float",
    "AT.tdev_auto_mdev_freq_float"
   ],
   "note": "the accuracy of numpy.logspace is a hypothesis (LogTable)"
  },
  {
   "property": "C114",
   "status": "proved",
   "theorems": [
    "AT.mtie_mem_float",
    "AT.mtie_mem_float_le",
    "AT.mtie_fallback_float_one"
   ],
   "note": "phase data; rounding has relative error at most 2^-53: no overflow or underflow"
  },
  {
   "property": "C115",
   "status": "proved",
   "theorems": [
    "AT.mtie_mem_nan",
    "AT.mtie_fallback_nan",
    "AT.mtie_fallback_nv_some",
    "AT.mtie_fallback_deaf",
    "AT.mtie_fallback_nan_unbounded"
   ],
   "note": ""
  },
  {
   "property": "C116",
   "status": "proved",
   "theorems": [
    "AT.mtie_phase_fast_float",
    "AT.mtie_phase_fast_float_mono",
    "AT.mtie_phase_fast_binary64",
    "AT.mtie_phase_fast_float_assert",
    "AT.mtie_phase_fast_float_fails",
    "AT.isBinary64_mono"
   ],
   "note": ""
  },
  {
   "property": "C117",
   "status": "proved",
   "theorems": [
    "AT.mtie_phase_fast_nan",
    "AT.mtie_phase_fast_nan_unbounded"
   ],
   "note": ""
  },
  {
   "property": "C118",
   "status": "proved",
   "theorems": [
    "AT.mtie_mem_range",
    "AT.mtie_phase_fast_range"
   ],
   "note": ""
  },
  {
   "property": "C119",
   "status": "proved",
   "theorems": [
    "AT.hat_oadev_range",
    "AT.gradev_range"
   ],
   "note": ""
  },
  {
   "property": "C120",
   "status": "proved",
   "theorems": [
    "AT.gradev_fl_eq_oadev",
    "AT.gradev_freq_float",
    "AT.gradev_freq_range"
   ],
   "note": ""
  },
  {
   "property": "C121",
   "status": "proved",
   "theorems": [
    "AT.adev_scale_float",
    "AT.hdev_scale_float",
    "AT.mdev_scale_float",
    "AT.freq_scale_float"
   ],
   "note": ""
  },
  {
   "property": "C122",
   "status": "proved",
   "theorems": [
    "AT.totdev_scale_float",
    "AT.pdev_scale_float",
    "AT.theo1_scale_float",
    "AT.tierms_scale_float",
    "AT.mtie_scale_float",
    "AT.gcodev_scale_float",
    "AT.mtotdev_scale_float",
    "AT.htotdev_scale_float",
    "AT.freq_scale_float_more"
   ],
   "note": ""
  },
  {
   "property": "C123",
   "status": "proved",
   "theorems": [
    "AT.adev_time_float",
    "AT.mdev_time_float",
    "AT.mtotdev_time_float",
    "AT.totdev_time_float",
    "AT.mtie_time_float"
   ],
   "note": ""
  },
  {
   "property": "C124",
   "status": "proved",
   "theorems": [
    "AT.freq_time_float",
    "AT.freq_time_float_times"
   ],
   "note": ""
  },
  {
   "property": "C125",
   "status": "proved",
   "theorems": [
    "AT.gcodev_time_float",
    "AT.htotdev_time_float",
    "AT.hat_factor_float",
    "AT.hat_scale_float",
    "AT.hat_time_float"
   ],
   "note": ""
  },
  {
   "property": "C126",
   "status": "proved",
   "theorems": [
    "AT.gradev_units_float",
    "AT.gradev_freq_units_float"
   ],
   "note": ""
  },
  {
   "property": "C127",
   "status": "proved",
   "theorems": [
    "AT.mtie_phase_fast_scale_float"
   ],
   "note": ""
  }
 ]
}