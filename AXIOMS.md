# Axioms of the theorems named in MANIFEST.json

Output of `#print axioms`, grouped.

## propext, Classical.choice, Quot.sound

* `AT.tau_generator_sound`
* `AT.tau_generator_taus_sorted`
* `AT.tau_generator_cases`
* `AT.tau_generator_explicit_iff`
* `AT.tau_generator_set`
* `AT.tau_generator_all`
* `AT.tau_generator_octave`
* `AT.tau_generator_decade`
* `AT.tau_generator_log10`
* `AT.tau_generator_rate_free`
* `AT.run_ok`
* `AT.run_ns`
* `AT.run_taus_sorted`
* `AT.run_userWarning`
* `AT.gradev_ok`
* `AT.run_rate_zero`
* `AT.run_unknown_type`
* `AT.run_unknown_taus`
* `AT.adev_phase_eq`
* `AT.oadev_phase_eq`
* `AT.mdev_phase_eq`
* `AT.ohdev_phase_eq`
* `AT.hdev_phase_eq`
* `AT.totdev_phase_eq`
* `AT.totdev_short`
* `AT.mtotdev_phase_eq`
* `AT.ttotdev_phase_eq`
* `AT.htotdev_phase_eq`
* `AT.htotdev_freq_eq`
* `AT.theo1_phase_eq`
* `AT.tierms_phase_eq`
* `AT.mtie_phase_eq`
* `AT.mtie_isGreatest`
* `AT.mtie_mono`
* `AT.mtie_devs_mono`
* `AT.tierms_le_mtie`
* `AT.tierms_le_mtie_out`
* `AT.mtie_fallback_le_partial`
* `AT.mtie_fallback_zero`
* `AT.mtie_fallback_wrong`
* `AT.mtie_fallback_unbounded`
* `AT.mtie_mem_partial`
* `AT.mtie_phase_fast_eq_partial`
* `AT.mtie_phase_fast_disagrees`
* `AT.pdev_phase_eq`
* `AT.gcodev_phase_eq`
* `AT.gcodev_self`
* `AT.gcodev_comm`
* `AT.gcodev_sq_le`
* `AT.gcodev_le`
* `AT.gradev_phase_eq`
* `AT.gradev_phase_error`
* `AT.gradev_eq_oadev`
* `AT.gradev_freq`
* `AT.gradev_crash_example`
* `AT.gradev_bars_nan_partial`
* `AT.confidence_interval_nan`
* `AT.tdev_phase_eq`
* `AT.run_affine`
* `AT.run_quadratic`
* `AT.run_drift`
* `AT.run_scale`
* `AT.run_reverse_partial`
* `AT.pdev_reverse_wrong`
* `AT.run_rate`
* `AT.times_keyword`
* `AT.run_tau0_allan`
* `AT.run_tau0_hadamard`
* `AT.run_freq`
* `AT.run_freq_offset`
* `AT.frequency2phase_eq`
* `AT.frequency2phase_ends`
* `AT.phase2frequency_frequency2phase`
* `AT.frequency2phase_phase2frequency`
* `AT.frequency2phase_nv_eq`
* `AT.frequency2phase_nv_gap`
* `AT.frequency2phase_nv_some`
* `AT.trim_data_iff`
* `AT.trim_data_error`
* `AT.trim_data_none`
* `AT.trim_data_idem`
* `AT.phase2radians_eq`
* `AT.phase2radians_linear`
* `AT.frequency2fractional_explicit`
* `AT.frequency2fractional_default`
* `AT.hat_eq`
* `AT.hat_oadev`
* `AT.hat_uncorrelated`
* `AT.hat_nonneg`
* `AT.oadev_realtime_eq`
* `AT.realtime_eq`
* `AT.realtime_batch`
* `AT.ohdev_realtime_eq`
* `AT.tdev_realtime_eq`
* `AT.feed_frequency_eq`
* `AT.realtime_freq_eq`
* `AT.realtime_freq_batch_partial`
* `AT.realtime_freq_batch_one`
* `AT.realtime_freq_wrong`
* `AT.realtime_auto`
* `AT.realtime_auto_prefix`
* `AT.ohdev_auto`
* `AT.autoAf_strictMono_iff`
* `AT.oadev_auto_partial`
* `AT.tdev_auto_partial`
* `AT.realtime_auto_wrong`
* `AT.realtime_auto_misaligned`
* `AT.dataset_history`
* `AT.compute_state`
* `AT.compute_ok_iff`
* `AT.compute_name`
* `AT.compute_names`
* `AT.compute_odd_names`
* `AT.compute_dev`
* `AT.compute_gradev`
* `AT.write_results_partial`
* `AT.write_results_af`
* `AT.write_results_af_wrong`
* `AT.write_results_loses`
* `AT.write_results_gradev`
* `AT.confidence_interval_eq`
* `AT.confidence_interval_bounds_partial`
* `AT.confidence_interval_reflect`
* `AT.confidence_interval_ordered`
* `AT.confidence_interval_scale`
* `AT.confidence_interval_nested_partial`
* `AT.confidence_interval_not_nested`
* `AT.confidence_interval_coverage_partial`
* `AT.edf_greenhall_eq_partial`
* `AT.edf_greenhall_reject`
* `AT.ghTable1_pos`
* `AT.ghTable2_pos`
* `AT.edf_greenhall_assert`
* `AT.edf_greenhall_notImplemented`
* `AT.greenhall_table1_wraps`
* `AT.edf_greenhall_table_pos`
* `AT.edf_greenhall_simple_eq`
* `AT.edf_greenhall_simple_agrees`
* `AT.greenhall_sw_even`
* `AT.greenhall_sx_even`
* `AT.greenhall_sz_even`
* `AT.greenhall_sz_central`
* `AT.greenhall_sx_central`
* `AT.edf_simple_eq_partial`
* `AT.edf_simple_crash`
* `AT.edf_simple_unknown`
* `AT.edf_totdev_eq`
* `AT.edf_totdev_other_partial`
* `AT.edf_totdev_wrong`
* `AT.edf_totdev_nan`
* `AT.edf_mtotdev_eq`
* `AT.edf_mtotdev_unknown`
* `AT.lag1_acf_range`
* `AT.lag1_acf_const`
* `AT.lag1_acf_nil`
* `AT.lag1_acf_affine`
* `AT.autocorr_noise_id_eq`
* `AT.noise_id_loop_fuel`
* `AT.autocorr_noise_id_range_partial`
* `AT.autocorr_noise_id_short`
* `AT.autocorr_noise_id_short_phase`
* `AT.autocorr_noise_id_short_freq`
* `AT.noise_id_prepare_phase`
* `AT.noise_id_prepare_freq`
* `AT.autocorr_noise_id_unbounded`
* `AT.autocorr_noise_id_below`
* `AT.confidence_interval_noiseID_unbounded`
* `AT.exists_isLSFit`
* `AT.b1_theory_eq`
* `AT.b1_theory_zero`
* `AT.b_to_mu_eq`
* `AT.rn_theory_eq`
* `AT.b1_boundary_between`
* `AT.b1_boundary_geometric`
* `AT.rn_boundary_between`
* `AT.prc_tdev_eq`
* `AT.prc_tdev_mono`
* `AT.prc_tdev_bounds`
* `AT.prc_mtie_eq`
* `AT.prc_mtie_mono`
* `AT.prc_mtie_pos`
* `AT.eprtc_tdev_eq`
* `AT.eprtc_tdev_bounds`
* `AT.eprtc_tdev_not_mono`
* `AT.eprtc_tdev_mono_partial`
* `AT.eprtc_mtie_eq`
* `AT.eprtc_mtie_bounds`
* `AT.eprtc_mtie_not_mono`
* `AT.eprtc_mtie_mono_partial`
* `AT.prtcA_tdev_eq`
* `AT.prtcA_tdev_mono`
* `AT.prtcA_tdev_bounds`
* `AT.prtcB_tdev_eq`
* `AT.prtcB_tdev_mono`
* `AT.prtcB_tdev_bounds`
* `AT.prtcA_mtie_eq`
* `AT.prtcA_mtie_bounds`
* `AT.prtcA_mtie_not_mono`
* `AT.prtcA_mtie_mono_partial`
* `AT.prtcB_mtie_eq`
* `AT.prtcB_mtie_mono`
* `AT.prtcB_mtie_bounds`
* `AT.generateNoise_eq`
* `AT.generateNoise_zero`
* `AT.kasdinNoise_white`
* `AT.kasdinNoise_walk`
* `AT.kasdinNoise_run`
* `AT.frequency_psd_eq`
* `AT.frequency_psd_slope`
* `AT.c_avar_eq`
* `AT.kasdin_adev_eq`
* `AT.kasdin_mdev_eq`
* `AT.kasdin_adev_scale_partial`
* `AT.kasdin_adev_fpm_wrong`
* `AT.kasdin_mdev_scale`
* `AT.kasdin_qd_scale`
* `AT.kasdin_other`
* `AT.pinkNext_eq`
* `AT.pink_eq`
* `AT.pink_zero`
* `AT.pinkValue_constant`
* `AT.white_eq`
* `AT.white_negative`
* `AT.brown_eq`
* `AT.brown_draws`
* `AT.brown_diff`
* `AT.violet_eq`
* `AT.violet_draws`
* `AT.brown_zero`
* `AT.tkSy_eq_partial`
* `AT.tkSy_last_wrong`
* `AT.exists_segment`
* `AT.tk_odd_wrong`
* `AT.tk_length_partial`
* `AT.tk_reject`
* `AT.tk_invalid`
* `AT.tk_even`
* `AT.tk_five`
* `AT.tkNan_of_nonneg`
* `AT.adev2psd_reject`
* `AT.adev2psd_slope_reject`
* `AT.psdFilter_eq`
* `AT.adev2psd_eq`
* `AT.adev2psd_continuous_iff`
* `AT.adev2psd_nodes`
* `AT.adev2psd_continuous_partial`
* `AT.adev2psd_octave_wrong`
* `AT.adev2psd_single`
* `AT.psd_single_roundtrip`
* `AT.adev2psd_roundtrip_partial`
* `AT.adev2psd_roundtrip_wrong`
* `AT.adev2psd_divergent_accepted`
* `AT.psd_piecewise_to_adev_eq`
* `AT.psd_nonneg`
* `AT.psd_scale`
* `AT.psd_split`
* `AT.psd_index_error`
* `AT.rn_eq`
* `AT.rn_rate_one_partial`
* `AT.rn_wrong`
* `AT.b1_eq`
* `AT.b1_rate_one_partial`
* `AT.b1_wrong`
* `AT.confidence_interval_noiseID_eq`
* `AT.confidence_interval_noiseID_error`
* `AT.confidence_interval_noiseID_name`
* `AT.confidence_interval_noiseID_flags`
* `AT.tau_reduction_eq`
* `AT.tau_reduction_spec`
* `AT.run_devs_nonneg`
* `AT.run_errs`
* `AT.run_errs_special`
* `AT.kasdin_adev_psd`
* `AT.kasdin_adev_psd_wpm`
* `AT.kasdin_mdev_psd`
* `AT.kasdin_mdev_psd_ffm_wrong`
* `AT.kasdin_pdev_psd`
* `AT.kasdin_pdev_psd_fpm_wrong`
* `AT.kasdin_adev_piecewise`
* `AT.kasdin_adev_psd_fpm`
* `AT.kasdin_adev_psd_fpm_rel`
* `AT.S4_asymp`
* `AT.euler_bounds`
* `AT.psd2allan_eq`
* `AT.psd2allan_array`
* `AT.psd2allan_short`
* `AT.psdExponent_spec`
* `AT.psdFactors_base`
* `AT.psdFactors_all`
* `AT.psdFactors_octave_wrong`
* `AT.psdFactors_bounds`
* `AT.psd2allan_white_pm`
* `AT.psd2allan_nonneg`
* `AT.psd2allan_scale`
* `AT.exists_cubicSpline`
* `AT.numpy_psd_eq`
* `AT.numpy_psd_axis_even`
* `AT.numpy_psd_axis_odd_wrong`
* `AT.numpy_psd_power`
* `AT.numpy_psd_scale`
* `AT.greenhall_sz_zero_ne`
* `AT.edf_greenhall_pos`
* `AT.ghSz_fin_pos`
* `AT.ghSz_inf_pos`
* `AT.rn_theory_wpm`
* `AT.rn_theory_fpm`
* `AT.rn_theory_fm_wrong`
* `AT.tau_generator_float`
* `AT.tau_generator_float_safe`
* `AT.tau_generator_float_again`
* `AT.af_column_partial`
* `AT.af_column_wrong`
* `AT.tk_samples_wrong`
* `AT.af_column_rounded`
* `AT.oadev_float`
* `AT.adev_float`
* `AT.ohdev_float`
* `AT.hdev_float`
* `AT.mdev_float`
* `AT.oadev_float_zero`
* `AT.plot_history`
* `AT.plot_filled`
* `AT.drawable_dev`
* `AT.drawable_gradev`
* `AT.plot_negative_rate`
* `AT.scipy_psd_eq`
* `AT.scipy_psd_outcomes`
* `AT.welch_power`
* `AT.scipy_psd_affine`
* `AT.welchPsd_nonneg`
* `AT.hann_sum`
* `AT.white_phase_mean`
* `AT.white_freq_mean`
* `AT.walk_freq_mean`
* `AT.kasdin_simulated`
* `AT.kasdin_simulated_any`
* `AT.kasdin_simulated_flicker_wrong`
* `AT.white_allan`
* `AT.brown_allan`
* `AT.violet_allan`
* `AT.white_numpy_psd`
* `AT.white_scipy_psd`
* `AT.brown_numpy_psd`
* `AT.brown_numpy_double`
* `AT.brown_scipy_psd`
* `AT.brown_scipy_ge`
* `AT.violet_numpy_psd`
* `AT.violet_scipy_psd`
* `AT.violet_scipy_le`
* `AT.brown_scipy_low`
* `AT.violet_scipy_low`
* `AT.edf_white_phase_partial`
* `AT.edf_white_freq_partial`
* `AT.edf_white_freq_one`
* `AT.phase_settles`
* `AT.freq_settles`
* `AT.white_phase_settles`
* `AT.white_freq_settles`
* `AT.totdev_white_phase`
* `AT.totdev_white_freq`
* `AT.totdev_phase_settles`
* `AT.totdev_freq_settles`
* `AT.mix_settles`
* `AT.mix_limits`
* `AT.hat_settles`
* `AT.hat_ideal`
* `AT.gcodev_settles`
* `AT.noise_id_phase_ok`
* `AT.noise_id_freq_ok`
* `AT.ci_noise_id_ok`
* `AT.rn_settles`
* `AT.b1_settles`
* `AT.b1_identifies`
* `AT.rn_white_phase`
* `AT.rn_random_walk`
* `AT.rn_white_freq_partial`
* `AT.rn_white_freq_wrong`
* `AT.nan_dev`
* `AT.nan_free`
* `AT.nan_spreads`
* `AT.nan_off_grid`
* `AT.nan_freq`
* `AT.frequency2phase_float`
* `AT.oadev_near`
* `AT.adev_near`
* `AT.ohdev_near`
* `AT.hdev_near`
* `AT.mdev_near`
* `AT.oadev_freq_float`
* `AT.adev_freq_float`
* `AT.ohdev_freq_float`
* `AT.hdev_freq_float`
* `AT.mdev_freq_float`
* `AT.tdev_freq_float`
* `AT.tdev_float`
* `AT.noise_history`
* `AT.plot_sequence`
* `AT.kasdin_settles`
* `AT.kasdin_limits`
* `AT.fpm_gap`
* `AT.kasdin_id_phase`
* `AT.kasdin_id_freq`
* `AT.generateNoise_id`
* `AT.id_right`
* `AT.ci_flicker_wrong`
* `AT.generateNoise_ratios`
* `AT.kasdin_rn_settles`
* `AT.kasdin_rn_says`
* `AT.sim_ratio_says`
* `AT.rnSays_unique`
* `AT.kasdin_b1_says`
* `AT.totdev_float`
* `AT.pdev_float`
* `AT.theo1_float`
* `AT.tierms_float`
* `AT.mtie_float`
* `AT.gcodev_float`
* `AT.gcodev_float_zero`
* `AT.binary64_intExact`
* `AT.edf_white_freq_near`
* `AT.edf_white_closed`
* `AT.edf_white_table`
* `AT.edf_white_all`
* `AT.realtime_float`
* `AT.tdev_realtime_mdev_float`
* `AT.realtime_freq_float`
* `AT.tdev_realtime_residue`
* `AT.edf_walk_freq_near`
* `AT.edf_walk_phase_near`
* `AT.coverage_phase`
* `AT.coverage_white_phase`
* `AT.coverage_white_freq`
* `AT.coverage_walk_freq`
* `AT.coverage_noise_id`
* `AT.coverage_white_freq_one`
* `AT.edf_walk_freq_all`
* `AT.edf_walk_phase_all`
* `AT.edf_simple_phase`
* `AT.edf_simple_freq`
* `AT.edf_simple_limit`
* `AT.coverage_simple_phase`
* `AT.coverage_simple_white_freq`
* `AT.coverage_simple_walk_freq`
* `AT.bars_phase`
* `AT.bars_white_freq`
* `AT.bars_walk_freq`
* `AT.bars_short`
* `AT.bars_vanish`
* `AT.bars_fair`
* `AT.adev_range`
* `AT.oadev_range`
* `AT.hdev_range`
* `AT.ohdev_range`
* `AT.mdev_range`
* `AT.tdev_range`
* `AT.adev_freq_range`
* `AT.oadev_freq_range`
* `AT.hdev_freq_range`
* `AT.ohdev_freq_range`
* `AT.mdev_freq_range`
* `AT.tdev_freq_range`
* `AT.totdev_range`
* `AT.pdev_range`
* `AT.theo1_range`
* `AT.tierms_range`
* `AT.mtie_range`
* `AT.gcodev_range`
* `AT.totdev_freq_range`
* `AT.pdev_freq_range`
* `AT.theo1_freq_range`
* `AT.tierms_freq_range`
* `AT.mtie_freq_range`
* `AT.gcodev_freq_range`
* `AT.oadev_underflow`
* `AT.exists_binary64Range`
* `AT.tot_bars_phase`
* `AT.tot_bars_white_freq`
* `AT.tot_bars_walk_freq`
* `AT.coverage_tot_phase`
* `AT.coverage_tot_white_freq`
* `AT.coverage_tot_walk_freq`
* `AT.tot_white_short`
* `AT.tot_white_near`
* `AT.tot_other_near`
* `AT.totdev_near`
* `AT.pdev_near`
* `AT.theo1_near`
* `AT.tierms_near`
* `AT.mtie_near`
* `AT.gcodev_near`
* `AT.totdev_freq_float`
* `AT.pdev_freq_float`
* `AT.theo1_freq_float`
* `AT.tierms_freq_float`
* `AT.mtie_freq_float`
* `AT.gcodev_freq_float`
* `AT.mtie_freq_float_mean`
* `AT.mtotdev_float`
* `AT.ttotdev_float`
* `AT.htotdev_float`
* `AT.mtotdev_freq_float`
* `AT.ttotdev_freq_float`
* `AT.htotdev_freq_float`
* `AT.mtotdev_near`
* `AT.tk_expects`
* `AT.tk_numpy_psd`
* `AT.tkFreq_eq`
* `AT.tk_low`
* `AT.tk_low_ratio`
* `AT.tk_adev_limit`
* `AT.tk_hdev_limit`
* `AT.tk_mdev_limit`
* `AT.mtot_white_phase`
* `AT.mtot_white_freq`
* `AT.htot_walk_freq`
* `AT.bias_range`
* `AT.bias_one`
* `AT.bias_limit`
* `AT.bias_mtot`
* `AT.mtot_walk_freq`
* `AT.htot_run_freq`
* `AT.bias2_range`
* `AT.bias2_limit`
* `AT.totdev_walk_freq`
* `AT.totdev_walk_bias`
* `AT.walk_freq_more`
* `AT.theo1_walk_bias`
* `AT.mtotdev_range`
* `AT.ttotdev_range`
* `AT.htotdev_range`
* `AT.htotdev_freq_range`
* `AT.mtotdev_freq_range`
* `AT.ttotdev_freq_range`
* `AT.realtime_range`
* `AT.tdev_realtime_mdev_range`
* `AT.realtime_freq_range`
* `AT.realtime_batch_float`
* `AT.realtime_mdev_batch_float`
* `AT.realtime_batch_range`
* `AT.realtime_mdev_batch_range`
* `AT.nan_dev_more`
* `AT.nan_more_free`
* `AT.nan_more_spreads`
* `AT.nan_pdev_last`
* `AT.nan_more_edge`
* `AT.nan_edge`
* `AT.nan_more_freq`
* `AT.nan_htotdev_freq`
* `AT.nan_realtime`
* `AT.nan_realtime_free`
* `AT.nan_realtime_batch`
* `AT.nan_realtime_forever`
* `AT.nan_realtime_spreads`
* `AT.nan_realtime_auto`
* `AT.nan_realtime_auto_first`
* `AT.feed_frequency_eq_nv`
* `AT.nan_realtime_freq`
* `AT.nan_realtime_mdev`
* `AT.hat_float`
* `AT.hat_oadev_float`
* `AT.hat_float_lost`
* `AT.hat_var_float`
* `AT.hat_root_float`
* `AT.gradev_float`
* `AT.calc_gradev_phase_fl_eq`
* `AT.nan_gcodev`
* `AT.nan_hat`
* `AT.nan_gcodev_free`
* `AT.nan_gcodev_shift`
* `AT.nan_gcodev_misaligned`
* `AT.realtime_auto_float`
* `AT.realtime_auto_freq_float`
* `AT.ohdev_auto_float`
* `AT.tdev_auto_mdev_float`
* `AT.tdev_auto_mdev_freq_float`
* `AT.mtie_mem_float`
* `AT.mtie_mem_float_le`
* `AT.mtie_fallback_float_one`
* `AT.mtie_mem_nan`
* `AT.mtie_fallback_nan`
* `AT.mtie_fallback_nv_some`
* `AT.mtie_fallback_deaf`
* `AT.mtie_fallback_nan_unbounded`
* `AT.mtie_phase_fast_float`
* `AT.mtie_phase_fast_float_mono`
* `AT.mtie_phase_fast_binary64`
* `AT.mtie_phase_fast_float_assert`
* `AT.mtie_phase_fast_float_fails`
* `AT.isBinary64_mono`
* `AT.mtie_phase_fast_nan`
* `AT.mtie_phase_fast_nan_unbounded`
* `AT.mtie_mem_range`
* `AT.mtie_phase_fast_range`
* `AT.hat_oadev_range`
* `AT.gradev_range`
* `AT.gradev_fl_eq_oadev`
* `AT.gradev_freq_float`
* `AT.gradev_freq_range`
* `AT.adev_scale_float`
* `AT.hdev_scale_float`
* `AT.mdev_scale_float`
* `AT.freq_scale_float`
* `AT.totdev_scale_float`
* `AT.pdev_scale_float`
* `AT.theo1_scale_float`
* `AT.tierms_scale_float`
* `AT.mtie_scale_float`
* `AT.gcodev_scale_float`
* `AT.mtotdev_scale_float`
* `AT.htotdev_scale_float`
* `AT.freq_scale_float_more`
* `AT.adev_time_float`
* `AT.mdev_time_float`
* `AT.mtotdev_time_float`
* `AT.totdev_time_float`
* `AT.mtie_time_float`
* `AT.freq_time_float`
* `AT.freq_time_float_times`
* `AT.gcodev_time_float`
* `AT.htotdev_time_float`
* `AT.hat_factor_float`
* `AT.hat_scale_float`
* `AT.hat_time_float`
* `AT.gradev_units_float`
* `AT.gradev_freq_units_float`
* `AT.mtie_phase_fast_scale_float`

## none

* `AT.gradev_alpha_wrong`

## propext, Quot.sound

* `AT.segments_fit`
* `AT.segments_whole`
