{
 "claims": [
  {
   "property": "C01",
   "status": "proved",
   "theorems": [
    "PyNLO.C01_transforms_inverse",
    "PyNLO.C01_set_AT_get_AT",
    "PyNLO.C01_set_AW_get_AW",
    "PyNLO.C01_nonvacuous"
   ],
   "note": "all sizes >= 1, all fields"
  },
  {
   "property": "C02",
   "status": "partial",
   "theorems": [
    "PyNLO.C02_fourier_pair_even_partial",
    "PyNLO.C02_fourier_pair_odd_refuted",
    "PyNLO.C02_nonvacuous"
   ],
   "note": "proved for every even NPTS; refuted for every odd NPTS (half-bin phase error on the advertised grids)"
  },
  {
   "property": "C03",
   "status": "proved",
   "theorems": [
    "PyNLO.C03_parseval"
   ],
   "note": ""
  },
  {
   "property": "C04",
   "status": "partial",
   "theorems": [
    "PyNLO.C04_grid_geometry",
    "PyNLO.C04_centre_bin_even",
    "PyNLO.C04_centre_bin_odd_refuted",
    "PyNLO.C04_dF_times_window",
    "PyNLO.C04_dF_needs_two_points",
    "PyNLO.C04_nonvacuous"
   ],
   "note": "geometry proved for all NPTS, centre bin for even NPTS; centre bin refuted for every odd NPTS"
  },
  {
   "property": "C05",
   "status": "partial",
   "theorems": [
    "PyNLO.C05_units",
    "PyNLO.C05_center_wavelength_mks_refuted",
    "PyNLO.C05_nonvacuous",
    "PyNLO.C05_cached"
   ],
   "note": "uncached accessors proved (cached ones under C07); center_wavelength_mks refuted: factor 1e18 off for every pulse"
  },
  {
   "property": "C06",
   "status": "proved",
   "theorems": [
    "PyNLO.C06_time_window",
    "PyNLO.C06_center_wavelength",
    "PyNLO.C06_center_wavelength_zero",
    "PyNLO.C06_frequency_window",
    "PyNLO.C06_npts",
    "PyNLO.C06_nonvacuous"
   ],
   "note": "zero wavelength / zero window error branch covered; non-zero otherwise"
  },
  {
   "property": "C07",
   "status": "partial",
   "theorems": [
    "PyNLO.C07_grids_fresh_partial",
    "PyNLO.C07_stale_after_window_change",
    "PyNLO.C07_grids_fresh_refuted",
    "PyNLO.C07_key_collision",
    "PyNLO.C07_nonvacuous"
   ],
   "note": "fresh for every history that keeps the window and whose (frequency, NPTS) keys do not collide; stale grid after a window change and after a key collision refuted"
  },
  {
   "property": "C08",
   "status": "proved",
   "theorems": [
    "PyNLO.C08_not_ready",
    "PyNLO.C08_no_field",
    "PyNLO.C08_bad_length_unchanged",
    "PyNLO.C08_bad_length_unchanged_AT",
    "PyNLO.C08_length_stable",
    "PyNLO.C08_rejected_first_assignment_leaves_zeros",
    "PyNLO.C08_nonvacuous"
   ],
   "note": ""
  },
  {
   "property": "C09",
   "status": "partial",
   "theorems": [
    "PyNLO.C09_field_isolated_partial",
    "PyNLO.C09_only_setters_change_field",
    "PyNLO.C09_set_stores_contents",
    "PyNLO.C09_grid_alias_refuted",
    "PyNLO.C09_grid_alias_always_refuted",
    "PyNLO.C09_length",
    "PyNLO.C09_wrong_length",
    "PyNLO.C09_nonvacuous"
   ],
   "note": "field arrays isolated for every interleaving; cached wavelength/frequency grid arrays are handed out by reference (refuted)"
  },
  {
   "property": "C10",
   "status": "proved",
   "theorems": [
    "PyNLO.C10_set_epp",
    "PyNLO.C10_nonvacuous"
   ],
   "note": "positive energy before the call, E >= 0"
  },
  {
   "property": "C11",
   "status": "proved",
   "theorems": [
    "PyNLO.C11_chirp_phase_only",
    "PyNLO.C11_apply_phase_only",
    "PyNLO.C11_offset_phase_only",
    "PyNLO.C11_remove_poly_phase_only",
    "PyNLO.C11_remove_poly_exact",
    "PyNLO.C11_nonvacuous"
   ],
   "note": "unwrap and polyfit are arbitrary functions"
  },
  {
   "property": "C12",
   "status": "proved",
   "theorems": [
    "PyNLO.C12_chirp_additive",
    "PyNLO.C12_chirp_undo",
    "PyNLO.C12_chirp_formula"
   ],
   "note": ""
  },
  {
   "property": "C13",
   "status": "partial",
   "theorems": [
    "PyNLO.C13_epp_under_chirp_partial",
    "PyNLO.C13_epp_under_chirp_refuted"
   ],
   "note": "holds when the two end samples carry equal power before and after; refuted in general (trapezoid rule on a periodic grid)"
  },
  {
   "property": "C14",
   "status": "partial",
   "theorems": [
    "PyNLO.C14_offset_is_roll",
    "PyNLO.C14_offset_additive",
    "PyNLO.C14_offset_zero",
    "PyNLO.C14_direction_refuted",
    "PyNLO.C14_nonvacuous"
   ],
   "note": "circular shift, additivity proved for all sizes; the direction (later) is refuted: a positive offset moves the pulse to earlier T_ps"
  },
  {
   "property": "C15",
   "status": "proved",
   "theorems": [
    "PyNLO.C15_expand",
    "PyNLO.C15_nonvacuous"
   ],
   "note": ""
  },
  {
   "property": "C16",
   "status": "partial",
   "theorems": [
    "PyNLO.C16_expand_atomic_refuted",
    "PyNLO.C16_expand_no_field_partial",
    "PyNLO.C16_witness"
   ],
   "note": "refuted: after an error the old field is already lost; the no-field branch is proved"
  },
  {
   "property": "C17",
   "status": "proved",
   "theorems": [
    "PyNLO.C17_rotate",
    "PyNLO.C17_rotate_errors",
    "PyNLO.C17_rotate_one_point",
    "PyNLO.C17_nonvacuous"
   ],
   "note": ""
  },
  {
   "property": "C18",
   "status": "proved",
   "theorems": [
    "PyNLO.C18_filter",
    "PyNLO.C18_nonvacuous"
   ],
   "note": ""
  },
  {
   "property": "C19",
   "status": "proved",
   "theorems": [
    "PyNLO.C19_clone",
    "PyNLO.C19_clone_wrong_length",
    "PyNLO.C19_nonvacuous"
   ],
   "note": ""
  },
  {
   "property": "C20",
   "status": "proved",
   "theorems": [
    "PyNLO.C20_dict_round_trip",
    "PyNLO.C20_nonvacuous"
   ],
   "note": ""
  },
  {
   "property": "C21",
   "status": "proved",
   "theorems": [
    "PyNLO.C21_too_many",
    "PyNLO.C21_subset",
    "PyNLO.C21_nonvacuous"
   ],
   "note": ""
  },
  {
   "property": "C22",
   "status": "proved",
   "theorems": [
    "PyNLO.Pulse.C22_wavelength",
    "PyNLO.C22_centroid",
    "PyNLO.C22_nonvacuous"
   ],
   "note": ""
  },
  {
   "property": "C23",
   "status": "partial",
   "theorems": [
    "PyNLO.C23_autocorrelation_partial",
    "PyNLO.C23_scaling",
    "PyNLO.C23_scaling_refuted",
    "PyNLO.C23_symmetry_refuted"
   ],
   "note": "holds only when every |A(t)| is 0 or 1; scaling and symmetry are refuted in general"
  },
  {
   "property": "C24",
   "status": "partial",
   "theorems": [
    "PyNLO.C24_sech_peak",
    "PyNLO.C24_gaussian_peak",
    "PyNLO.C24_sinc_peak",
    "PyNLO.C24_sech_average",
    "PyNLO.C24_gaussian_average",
    "PyNLO.C24_sinc_average",
    "PyNLO.C24_sinc_average_shape_refuted",
    "PyNLO.C24_nonvacuous"
   ],
   "note": "peak powers and average powers proved; the sinc shape with an average power request is refuted"
  },
  {
   "property": "C25",
   "status": "partial",
   "theorems": [
    "PyNLO.C25_cw_center",
    "PyNLO.C25_cw_offset",
    "PyNLO.C25_cw_odd_refuted",
    "PyNLO.C25_nonvacuous",
    "PyNLO.C25_cw_wrapped_refuted",
    "PyNLO.C25_cw_offset_outside",
    "PyNLO.C25_wrapped_nonvacuous"
   ],
   "note": "even NPTS proved for offsets inside the grid; odd NPTS refuted; refuted for offsets below the grid (the line wraps round), offsets above it raise IndexError"
  },
  {
   "property": "C26",
   "status": "partial",
   "theorems": [
    "PyNLO.C26_noise_pulse_refuted",
    "PyNLO.C26_add_noise",
    "PyNLO.C26_dark_bin",
    "PyNLO.C26_nonvacuous"
   ],
   "note": "add_noise proved; the uniform phase of NoisePulse is refuted (its exponent is real)"
  },
  {
   "property": "C27",
   "status": "partial",
   "theorems": [
    "PyNLO.C27_frame",
    "PyNLO.C27_gvd_returns",
    "PyNLO.C27_d_format",
    "PyNLO.C27_odd_refuted",
    "PyNLO.C27_unknown_format",
    "PyNLO.C27_unknown_format_propagate_refuted"
   ],
   "note": "even NPTS proved for GVD, n and D formats; odd NPTS refuted; unknown formats return -1"
  },
  {
   "property": "C28",
   "status": "proved",
   "theorems": [
    "PyNLO.C28_beta2",
    "PyNLO.C28_nonvacuous",
    "PyNLO.C28_unknown_format"
   ],
   "note": ""
  },
  {
   "property": "C29",
   "status": "partial",
   "theorems": [
    "PyNLO.C29_generate",
    "PyNLO.C29_db",
    "PyNLO.C29_db_per_m_refuted",
    "PyNLO.C29_nonvacuous",
    "PyNLO.C29_db_without_gamma"
   ],
   "note": "per-km proved for generate_fiber and the data base; data base entries in any other unit are silently loaded with zero dispersion (refuted)"
  },
  {
   "property": "C30",
   "status": "proved",
   "theorems": [
    "PyNLO.C30_gain",
    "PyNLO.C30_gain_file",
    "PyNLO.C30_missing"
   ],
   "note": ""
  },
  {
   "property": "C31",
   "status": "partial",
   "theorems": [
    "PyNLO.C31_independent_partial",
    "PyNLO.C31_shared_dictionary_refuted",
    "PyNLO.C31_nonvacuous"
   ],
   "note": "non-interference proved for interleavings that do not write into the class-level dictionary; refuted otherwise"
  },
  {
   "property": "C32",
   "status": "partial",
   "theorems": [
    "PyNLO.C32_mutates_refuted",
    "PyNLO.C32_effect_partial",
    "PyNLO.C32_second_call_refuted"
   ],
   "note": "refuted: the caller's D column is multiplied by 1e-6; exact effect proved"
  },
  {
   "property": "C33",
   "status": "proved",
   "theorems": [
    "PyNLO.C33_repeatable"
   ],
   "note": "user dispersion functions are pure functions of z"
  },
  {
   "property": "C34",
   "status": "proved",
   "theorems": [
    "PyNLO.C34_conversion",
    "PyNLO.C34_exact_data",
    "PyNLO.C34_file",
    "PyNLO.C34_propagation_constant",
    "PyNLO.C34_nonvacuous"
   ],
   "note": "polyfit is an arbitrary function"
  },
  {
   "property": "C35",
   "status": "proved",
   "theorems": [
    "PyNLO.C35_integrate_returns",
    "PyNLO.C35_terminates",
    "PyNLO.C35_nonvacuous"
   ],
   "note": "exact arithmetic for the lengths; in double precision: C170"
  },
  {
   "property": "C36",
   "status": "proved",
   "theorems": [
    "PyNLO.C36_step_stays_positive",
    "PyNLO.C36_nonvacuous"
   ],
   "note": ""
  },
  {
   "property": "C37",
   "status": "partial",
   "theorems": [
    "PyNLO.C37_zero_length_refuted",
    "PyNLO.C37_zero_length_returns_partial"
   ],
   "note": "refuted: the stored step becomes 0 and the next call never returns"
  },
  {
   "property": "C38",
   "status": "partial",
   "theorems": [
    "PyNLO.C38_overshoot_refuted",
    "PyNLO.C38_distance_partial",
    "PyNLO.C38_single_step"
   ],
   "note": "never less than requested; exact unless a remainder of at most 2*dz_min is left; overshoot refuted"
  },
  {
   "property": "C39",
   "status": "partial",
   "theorems": [
    "PyNLO.C39_error_control_partial",
    "PyNLO.C39_nonvacuous",
    "PyNLO.C39_nan_refuted",
    "PyNLO.C39_nan_one_step_refuted"
   ],
   "note": "all non-NaN errors proved; NaN errors are accepted (refuted)"
  },
  {
   "property": "C40",
   "status": "proved",
   "theorems": [
    "PyNLO.C40_cache_coherent",
    "PyNLO.C40_fresh_unique",
    "PyNLO.C40_nonvacuous"
   ],
   "note": "arbitrary segment lists, parameters may change between segments"
  },
  {
   "property": "C41",
   "status": "proved",
   "theorems": [
    "PyNLO.C41_linear_exact",
    "PyNLO.C41_short_segment",
    "PyNLO.C41_nonvacuous",
    "PyNLO.C41_propagate"
   ],
   "note": "integrator and propagate; the integrated distance can exceed the request (see C38)"
  },
  {
   "property": "C42",
   "status": "proved",
   "theorems": [
    "PyNLO.C42_agreement",
    "PyNLO.C42_cancels_leading_error"
   ],
   "note": ""
  },
  {
   "property": "C43",
   "status": "partial",
   "theorems": [
    "PyNLO.C43_bookkeeping",
    "PyNLO.C43_zero_steps",
    "PyNLO.C43_returns",
    "PyNLO.C43_nonvacuous",
    "PyNLO.C43_odd_rotation",
    "PyNLO.C43_odd_refuted'",
    "PyNLO.C43_odd_refuted"
   ],
   "note": "even grids proved; refuted for odd grids, where pulse_out is rotated by one sample"
  },
  {
   "property": "C44",
   "status": "proved",
   "theorems": [
    "PyNLO.C44_kerr",
    "PyNLO.C44_setup"
   ],
   "note": ""
  },
  {
   "property": "C45",
   "status": "proved",
   "theorems": [
    "PyNLO.C45_global_phase",
    "PyNLO.C45_nonvacuous",
    "PyNLO.C45_propagate"
   ],
   "note": "self-steepening disabled (its division by A+1e-20 is not phase covariant)"
  },
  {
   "property": "C46",
   "status": "proved",
   "theorems": [
    "PyNLO.C46_time_shift",
    "PyNLO.C46_propagate"
   ],
   "note": ""
  },
  {
   "property": "C47",
   "status": "proved",
   "theorems": [
    "PyNLO.C47_lossless",
    "PyNLO.C47_reversible",
    "PyNLO.C47_nonvacuous"
   ],
   "note": ""
  },
  {
   "property": "C48",
   "status": "partial",
   "theorems": [
    "PyNLO.C48_rk4ip",
    "PyNLO.C48_ssfm_half_dispersion",
    "PyNLO.C48_ssfm_refuted"
   ],
   "note": "refuted for METHOD_SSFM: half of the dispersion is applied"
  },
  {
   "property": "C49",
   "status": "partial",
   "theorems": [
    "PyNLO.C49_causal",
    "PyNLO.C49_disabled",
    "PyNLO.C49_fraction_refuted",
    "PyNLO.C49_odd_refuted",
    "PyNLO.C49_default"
   ],
   "note": "causality and normalisation proved on even grids; refuted: the default response ignores f_R, and odd grids keep a response at negative delay"
  },
  {
   "property": "C50",
   "status": "proved",
   "theorems": [
    "PyNLO.C50_bounds",
    "PyNLO.C50_value",
    "PyNLO.C50_too_few",
    "PyNLO.C50_nonvacuous"
   ],
   "note": ""
  },
  {
   "property": "C51",
   "status": "partial",
   "theorems": [
    "PyNLO.C51_never_returns_refuted",
    "PyNLO.C51_raises"
   ],
   "note": "refuted: the call always fails (pulse_out.frep does not exist)"
  },
  {
   "property": "C52",
   "status": "proved",
   "theorems": [
    "PyNLO.Ode.C52_log",
    "PyNLO.Ode.C52_log_witness",
    "PyNLO.Ode.C52_no_nsaves_refuted"
   ],
   "note": "Output(nsaves); Output() without nsaves raises on the first save"
  },
  {
   "property": "C53",
   "status": "proved",
   "theorems": [
    "PyNLO.Ode.C53_lands",
    "PyNLO.Ode.C53_raises",
    "PyNLO.Ode.C53_nonvacuous"
   ],
   "note": "rejected steps may be rounded (Rounds); other arithmetic exact; positions in double precision: C173"
  },
  {
   "property": "C54",
   "status": "proved",
   "theorems": [
    "PyNLO.Ode.C54_from_zero",
    "PyNLO.Ode.C54_nonvacuous",
    "PyNLO.Ode.C54_acceptance"
   ],
   "note": "rejected steps may be rounded (Rounds)"
  },
  {
   "property": "C55",
   "status": "proved",
   "theorems": [
    "PyNLO.Ode.C55_integrate",
    "PyNLO.Ode.C55_terminates",
    "PyNLO.Ode.C55_step",
    "PyNLO.Ode.C55_refusal",
    "PyNLO.Ode.C55_returns",
    "PyNLO.Ode.C55_nonvacuous",
    "PyNLO.Ode.C55_exact_at_zero"
   ],
   "note": "at x = 0 under the hypothesis that tiny products underflow to zero"
  },
  {
   "property": "C56",
   "status": "proved",
   "theorems": [
    "PyNLO.Ode.C56_values",
    "PyNLO.Ode.C56_derivatives"
   ],
   "note": ""
  },
  {
   "property": "C57",
   "status": "partial",
   "theorems": [
    "PyNLO.Ode.C57_grid_partial",
    "PyNLO.Ode.C57_missing_refuted",
    "PyNLO.Ode.C57_one_step_partial"
   ],
   "note": "every saved position is a grid point except the position after the second step and the end point; single-step integrations give the full grid; refuted: y'=1 in two steps leaves grid points out; positions in double precision: C173"
  },
  {
   "property": "C58",
   "status": "partial",
   "theorems": [
    "PyNLO.Ode.C58_raises_refuted",
    "PyNLO.Ode.C58_nonvacuous"
   ],
   "note": "refuted: y' = 0 raises for every initial value (0/0 in the error estimate)"
  },
  {
   "property": "C59",
   "status": "proved",
   "theorems": [
    "PyNLO.Ode.C59_row_sums",
    "PyNLO.Ode.C59_quadrature",
    "PyNLO.Ode.C59_err5",
    "PyNLO.Ode.C59_bhh",
    "PyNLO.Ode.C59_step_exact",
    "PyNLO.Ode.C59_estimates",
    "PyNLO.Ode.C59_estimates_sharp"
   ],
   "note": "row sums, quadrature conditions and both error estimates; exact decimal values of the literals"
  },
  {
   "property": "C60",
   "status": "partial",
   "theorems": [
    "PyNLO.Ode.C60_flag_partial",
    "PyNLO.Ode.C60_after_success_partial",
    "PyNLO.Ode.C60_history_refuted"
   ],
   "note": "independent of every history whose last integration returned; refuted after a failed integration (class-level reject flag)"
  },
  {
   "property": "C61",
   "status": "proved",
   "theorems": [
    "PyNLO.Xtal.C61_qpm",
    "PyNLO.Xtal.C61_two_missing",
    "PyNLO.Xtal.C61_returns",
    "PyNLO.Xtal.C61_nonvacuous"
   ],
   "note": "crystal length may be None; a period that is infinite or NaN is outside the statement"
  },
  {
   "property": "C62",
   "status": "proved",
   "theorems": [
    "PyNLO.Xtal.C62_matched",
    "PyNLO.Xtal.C62_raises",
    "PyNLO.Xtal.C62_fill",
    "PyNLO.Xtal.C62_nonvacuous"
   ],
   "note": "positive wavelengths and indices; the converse needs different principal indices at the pump"
  },
  {
   "property": "C63",
   "status": "proved",
   "theorems": [
    "PyNLO.Xtal.C63_ends",
    "PyNLO.Xtal.C63_between",
    "PyNLO.Xtal.C63_axis"
   ],
   "note": "positive principal indices"
  },
  {
   "property": "C64",
   "status": "partial",
   "theorems": [
    "PyNLO.Xtal.C64_cached_partial",
    "PyNLO.Xtal.C64_off",
    "PyNLO.Xtal.C64_stale_refuted",
    "PyNLO.Xtal.C64_none_axis_refuted",
    "PyNLO.Xtal.C64_nonvacuous"
   ],
   "note": "holds when equal cache strings mean equal arrays; refuted for a second crystal, after a temperature change, and for the axis called \"None\""
  },
  {
   "property": "C65",
   "status": "partial",
   "theorems": [
    "PyNLO.Xtal.C65_refuted",
    "PyNLO.Xtal.C65_partial"
   ],
   "note": "refuted: creating PPLN changes the threshold of existing crystals; holds for AgGaSe2 and after the first PPLN"
  },
  {
   "property": "C66",
   "status": "partial",
   "theorems": [
    "PyNLO.Xtal.C66_delay_algebra",
    "PyNLO.Xtal.C66_group_velocity",
    "PyNLO.Xtal.C66_sign_refuted",
    "PyNLO.Xtal.C66_units",
    "PyNLO.Xtal.C66_nonvacuous",
    "PyNLO.Xtal.C66_ppln_sign_refuted",
    "PyNLO.Xtal.C66_group_velocity_smooth",
    "PyNLO.Xtal.C66_dispersion_smooth",
    "PyNLO.Xtal.C66_sign_smooth",
    "PyNLO.Xtal.C66_ppln",
    "PyNLO.Xtal.C66_ppln_nonvacuous"
   ],
   "note": "delay algebra proved for every index; group velocity and dispersion proved exact for polynomial indices of degree <= 10, within an explicit bound for indices with eleven derivatives, and within 1e-19 (group index) and 1e-11 ps/nm/km for PPLN between 0.5 and 4.9 um; refuted: D has the opposite sign (for PPLN between 0.5 and 1.8 um the code returns a positive number where the dispersion is negative)"
  },
  {
   "property": "C67",
   "status": "proved",
   "theorems": [
    "PyNLO.Xtal.C67_physical",
    "PyNLO.Xtal.C67_nonvacuous"
   ],
   "note": "0.4-5 um, 20-250 degC, both data sources"
  },
  {
   "property": "C68",
   "status": "proved",
   "theorems": [
    "PyNLO.Dfg.C68_domains",
    "PyNLO.Dfg.C68_in_period",
    "PyNLO.Dfg.C68_terminates",
    "PyNLO.Dfg.C68_constant",
    "PyNLO.Dfg.C68_constant_witness",
    "PyNLO.Dfg.C68_forever",
    "PyNLO.Dfg.C68_chirp_forever"
   ],
   "note": "also: a period function that is not bounded below makes precompute_poling loop forever"
  },
  {
   "property": "C69",
   "status": "proved",
   "theorems": [
    "PyNLO.Dfg.C69_conv",
    "PyNLO.Dfg.C69_corr",
    "PyNLO.Dfg.C69_aligned",
    "PyNLO.Dfg.C69_nonvacuous",
    "PyNLO.Dfg.C69_odd_refuted"
   ],
   "note": "even grid sizes as quantified; for odd sizes the window is off by one bin (C69_odd_refuted)"
  },
  {
   "property": "C70",
   "status": "proved",
   "theorems": [
    "PyNLO.Dfg.C70_power",
    "PyNLO.Dfg.C70_manley_rowe",
    "PyNLO.Dfg.C70_trajectory",
    "PyNLO.Dfg.C70_nonvacuous",
    "PyNLO.Dfg.C70_constructed"
   ],
   "note": "waveguide beams with one index value per wave, even NPTS, matched grids"
  },
  {
   "property": "C71",
   "status": "proved",
   "theorems": [
    "PyNLO.Dfg.C71_outcome",
    "PyNLO.Dfg.C71_waves",
    "PyNLO.Dfg.C71_guided_bpm",
    "PyNLO.Dfg.C71_nonvacuous",
    "PyNLO.Dfg.C71_bpm_nonvacuous"
   ],
   "note": "full outcome of the constructor for usable pulses"
  },
  {
   "property": "C72",
   "status": "partial",
   "theorems": [
    "PyNLO.Dfg.C72_moduli_partial",
    "PyNLO.Dfg.C72_second_call",
    "PyNLO.Dfg.C72_z",
    "PyNLO.Dfg.C72_repeat_refuted"
   ],
   "note": "refuted: a second call multiplies the phases into the saved fields again; the moduli part holds for every output"
  },
  {
   "property": "C73",
   "status": "partial",
   "theorems": [
    "PyNLO.Dfg.C73_call_partial",
    "PyNLO.Dfg.C73_last_call",
    "PyNLO.Dfg.C73_refuted",
    "PyNLO.Dfg.C73_nonvacuous"
   ],
   "note": "refuted: all get_* calls return one shared pulse; holds for the last call of any sequence"
  },
  {
   "property": "C74",
   "status": "partial",
   "theorems": [
    "PyNLO.Dfg.C74_default_refuted",
    "PyNLO.Dfg.C74_chi2_partial",
    "PyNLO.Dfg.C74_nonvacuous"
   ],
   "note": "refuted: disable_SPM=False raises AttributeError for every problem; with True the derivative exists exactly for the known modes"
  },
  {
   "property": "C75",
   "status": "proved",
   "theorems": [
    "PyNLO.MultiRun.C75_open",
    "PyNLO.MultiRun.C75_get_run",
    "PyNLO.MultiRun.C75_out_of_range",
    "PyNLO.MultiRun.C75_param",
    "PyNLO.MultiRun.C75_enumerates",
    "PyNLO.MultiRun.C75_next_succeeds",
    "PyNLO.MultiRun.C75_failed_call_skips",
    "PyNLO.MultiRun.C75_nonvacuous"
   ],
   "note": "files that hold complete runs; a get_next_run call that raises skips its run"
  },
  {
   "property": "C76",
   "status": "proved",
   "theorems": [
    "PyNLO.Beam.C76_radius",
    "PyNLO.Beam.C76_q",
    "PyNLO.Beam.C76_gouy",
    "PyNLO.Beam.C76_nonvacuous",
    "PyNLO.Beam.C76_mode_radius"
   ],
   "note": ""
  },
  {
   "property": "C77",
   "status": "proved",
   "theorems": [
    "PyNLO.Beam.C77_confocal",
    "PyNLO.Beam.C77_central",
    "PyNLO.Beam.C77_nonvacuous"
   ],
   "note": ""
  },
  {
   "property": "C78",
   "status": "proved",
   "theorems": [
    "PyNLO.Beam.C78_range",
    "PyNLO.Beam.C78_identical",
    "PyNLO.Beam.C78_mode_overlap",
    "PyNLO.Beam.C78_nonvacuous"
   ],
   "note": ""
  },
  {
   "property": "C79",
   "status": "proved",
   "theorems": [
    "PyNLO.Treacy.C79_derivative",
    "PyNLO.Treacy.C79_units",
    "PyNLO.Treacy.C79_theta_array",
    "PyNLO.Treacy.C79_nonvacuous",
    "PyNLO.Treacy.C79_hod",
    "PyNLO.Treacy.C79_hod_error",
    "PyNLO.Treacy.C79_tod_nonvacuous"
   ],
   "note": "frequencies with a real diffracted order; the weights of the stencil are the exact inverse of the Vandermonde matrix, which in double precision is badly conditioned"
  },
  {
   "property": "C80",
   "status": "proved",
   "theorems": [
    "PyNLO.Treacy.C80_phase_only"
   ],
   "note": "quadrature and fit are arbitrary functions"
  },
  {
   "property": "C81",
   "status": "partial",
   "theorems": [
    "PyNLO.FieldClasses.C81_overlap",
    "PyNLO.FieldClasses.C81_overlap_type",
    "PyNLO.FieldClasses.C81_overlap_refuted",
    "PyNLO.FieldClasses.C81_read_back",
    "PyNLO.FieldClasses.C81_containers_independent",
    "PyNLO.FieldClasses.C81_copy",
    "PyNLO.FieldClasses.C81_set_row",
    "PyNLO.FieldClasses.C81_constant",
    "PyNLO.FieldClasses.C81_set_all",
    "PyNLO.FieldClasses.C81_nonvacuous"
   ],
   "note": "refuted for index 3 of calculate_overlap (IndexError); the container part is proved for every history"
  },
  {
   "property": "C82",
   "status": "proved",
   "theorems": [
    "PyNLO.C82_frog_energy",
    "PyNLO.C82_frog_missing_file",
    "PyNLO.C82_nonvacuous"
   ],
   "note": "trace with positive energy on the grid"
  },
  {
   "property": "C83",
   "status": "proved",
   "theorems": [
    "PyNLO.C83_round_trip"
   ],
   "note": ""
  },
  {
   "property": "C84",
   "status": "partial",
   "theorems": [
    "PyNLO.C84_generate_resets_partial",
    "PyNLO.C84_stale_functions_refuted"
   ],
   "note": "holds unless a dispersion or gamma function was set before (refuted then)"
  },
  {
   "property": "C85",
   "status": "partial",
   "theorems": [
    "PyNLO.C85_gain_spectrum_refuted"
   ],
   "note": "refuted: get_gain raises for every fibre with a gain spectrum (pulse.frep_Hz does not exist)"
  },
  {
   "property": "C86",
   "status": "partial",
   "theorems": [
    "PyNLO.C86_seed_refuted"
   ],
   "note": "refuted: random_seed is ignored"
  },
  {
   "property": "C87",
   "status": "partial",
   "theorems": [
    "PyNLO.Ode.C87_reuse_refuted",
    "PyNLO.Ode.C87_reuse_witness"
   ],
   "note": "refuted: the count is not reset, old rows become zeros"
  },
  {
   "property": "C88",
   "status": "partial",
   "theorems": [
    "PyNLO.Xtal.C88_default_axis_refuted",
    "PyNLO.Xtal.C88_ordinary_partial"
   ],
   "note": "refuted: default axis raises ValueError on AgGaSe2; axis 'o' proved"
  },
  {
   "property": "C89",
   "status": "partial",
   "theorems": [
    "PyNLO.Xtal.C89_chirp_refuted",
    "PyNLO.Xtal.C89_own_period_refuted",
    "PyNLO.Xtal.C89_own_period_nonvacuous"
   ],
   "note": "refuted for set_pp_chirp (self.length does not exist) and for set_pp(calculate_poling_period(p, s, i)) with all three wavelengths given, which returns a plain number that pp then calls (TypeError); proved for set_pp with a tuple, a function, and the period computed with one wavelength left out"
  },
  {
   "property": "C90",
   "status": "proved",
   "theorems": [
    "PyNLO.Xtal.C90_temperature",
    "PyNLO.Xtal.C90_thermal"
   ],
   "note": "rise with temperature: 0.5-4 um, 20-250 degC"
  },
  {
   "property": "C91",
   "status": "proved",
   "theorems": [
    "PyNLO.Xtal.C91_normal_dispersion"
   ],
   "note": ""
  },
  {
   "property": "C92",
   "status": "proved",
   "theorems": [
    "PyNLO.Xtal.C92_symmetric"
   ],
   "note": ""
  },
  {
   "property": "C93",
   "status": "proved",
   "theorems": [
    "PyNLO.Xtal.C93_physical"
   ],
   "note": ""
  },
  {
   "property": "C94",
   "status": "proved",
   "theorems": [
    "PyNLO.Beam.C94_power",
    "PyNLO.Beam.C94_waveguide",
    "PyNLO.Beam.C94_nonvacuous"
   ],
   "note": ""
  },
  {
   "property": "C95",
   "status": "partial",
   "theorems": [
    "PyNLO.Beam.C95_objective_partial",
    "PyNLO.Beam.C95_objective_sum_partial",
    "PyNLO.Beam.C95_centred_refuted",
    "PyNLO.Beam.C95_waist"
   ],
   "note": "equals minus the integral from the focus to one crystal length; refuted for a focus in the crystal centre"
  },
  {
   "property": "C96",
   "status": "partial",
   "theorems": [
    "PyNLO.Treacy.C96_array",
    "PyNLO.Treacy.C96_order1_partial",
    "PyNLO.Treacy.C96_units_refuted",
    "PyNLO.Treacy.C96_order1",
    "PyNLO.Treacy.C96_order1_error",
    "PyNLO.Treacy.C96_nonvacuous",
    "PyNLO.Treacy.C96_order2_refuted"
   ],
   "note": "order 1 proved, with an error bound; refuted for higher orders (factor 10^(15 n (n+1)) instead of 10^(15 (n+1))), with a grating for which order 2 is too large by more than 10^44"
  },
  {
   "property": "C97",
   "status": "partial",
   "theorems": [
    "PyNLO.Treacy.C97_delay_left",
    "PyNLO.Treacy.C97_delay_refuted"
   ],
   "note": "refuted: the subtracted slope is the second-order coefficient, a positive delay is left for every grating whose GDD is below its delay in SI units"
  },
  {
   "property": "C99",
   "status": "partial",
   "theorems": [
    "PyNLO.Dfg.C99_free_refuted",
    "PyNLO.Dfg.C99_uniform_partial"
   ],
   "note": "refuted for free-space beams with a concrete problem; holds when the waist in use is the same in all bins"
  },
  {
   "property": "C98",
   "status": "partial",
   "theorems": [
    "PyNLO.Dfg.C98_matched_iff",
    "PyNLO.Dfg.C98_refuted"
   ],
   "note": "refuted with a concrete problem whose windows differ; the three grids match exactly when the windows are equal"
  },
  {
   "property": "C101",
   "status": "partial",
   "theorems": [
    "PyNLO.Dfg.C101_grid",
    "PyNLO.Dfg.C101_signal_grid",
    "PyNLO.Dfg.C101_refuted"
   ],
   "note": "refuted with a concrete problem; the grid is the signal grid exactly when the windows are equal"
  },
  {
   "property": "C100",
   "status": "partial",
   "theorems": [
    "PyNLO.MultiRun.C100_refuted",
    "PyNLO.MultiRun.C100_unreadable",
    "PyNLO.MultiRun.C100_old_libraries",
    "PyNLO.MultiRun.C100_other_parameters"
   ],
   "note": "refuted: add_run raises for every input and library version; with old libraries the waves are left in the file with repetition rate zero and no parameter, and the writer is stuck; other parameters are untouched"
  },
  {
   "property": "C102",
   "status": "proved",
   "theorems": [
    "PyNLO.Dfg.C102_frame",
    "PyNLO.Dfg.C102_nonvacuous",
    "PyNLO.Dfg.C102_result"
   ],
   "note": "even NPTS, matched grids"
  },
  {
   "property": "C103",
   "status": "proved",
   "theorems": [
    "PyNLO.Dfg.C103_delay",
    "PyNLO.Dfg.C103_phase",
    "PyNLO.Dfg.C103_delay_result",
    "PyNLO.Dfg.C103_phase_result"
   ],
   "note": "even NPTS; delays need matched grids; exact arithmetic in the integration"
  },
  {
   "property": "C104",
   "status": "proved",
   "theorems": [
    "PyNLO.Dfg.C104_no_history",
    "PyNLO.Dfg.C104_after_any_calls"
   ],
   "note": ""
  },
  {
   "property": "C105",
   "status": "partial",
   "theorems": [
    "PyNLO.FieldClasses.C105_shared",
    "PyNLO.FieldClasses.C105_refuted"
   ],
   "note": "refuted: k0s is one list of the class"
  },
  {
   "property": "C106",
   "status": "partial",
   "theorems": [
    "PyNLO.MultiRun.C106_rate_partial",
    "PyNLO.MultiRun.C106_refuted"
   ],
   "note": "refuted with a file of two runs; holds exactly for runs whose rate equals that of run 0"
  },
  {
   "property": "C107",
   "status": "proved",
   "theorems": [
    "PyNLO.Dfg.C107_quadratic",
    "PyNLO.Dfg.C107_single_wave"
   ],
   "note": ""
  },
  {
   "property": "C108",
   "status": "proved",
   "theorems": [
    "PyNLO.Ode.C108_affine",
    "PyNLO.Ode.C108_linear_invariant",
    "PyNLO.Ode.C108_real",
    "PyNLO.Ode.C108_nonvacuous"
   ],
   "note": ""
  },
  {
   "property": "C109",
   "status": "proved",
   "theorems": [
    "PyNLO.Ode.C109_interpolant",
    "PyNLO.Ode.C109_sharp",
    "PyNLO.Ode.C109_nonvacuous"
   ],
   "note": "floats are idealised as real numbers; the bound is the rounding of the printed constants; C109_sharp shows that degree 7 is not reproduced"
  },
  {
   "property": "C110",
   "status": "proved",
   "theorems": [
    "PyNLO.Ode.C110_method",
    "PyNLO.Ode.C110_order_conditions",
    "PyNLO.Ode.C110_estimate_conditions",
    "PyNLO.Ode.C110_sharp",
    "PyNLO.Ode.C110_local_error",
    "PyNLO.Ode.C110_estimates",
    "PyNLO.Ode.C110_step",
    "PyNLO.Ode.C110_nonvacuous"
   ],
   "note": "autonomous equations only: the nodes c_i are covered by C59 and C109; floats are idealised as real numbers; C110_sharp shows that the order is not nine"
  },
  {
   "property": "C111",
   "status": "proved",
   "theorems": [
    "PyNLO.C111_least_squares",
    "PyNLO.C111_least_squares_nonvacuous",
    "PyNLO.Pulse.C111_dechirp",
    "PyNLO.Pulse.C111_chirp_dechirp",
    "PyNLO.Pulse.C111_delay",
    "PyNLO.Pulse.C111_nonvacuous"
   ],
   "note": "np.unwrap is modelled exactly; np.polyfit is any least-squares fit (C111_least_squares shows that these reproduce polynomials)"
  },
  {
   "property": "C112",
   "status": "partial",
   "theorems": [
    "PyNLO.Pulse.C112_value",
    "PyNLO.Pulse.C112_time",
    "PyNLO.Pulse.C112_scale",
    "PyNLO.Pulse.C112_centre_partial",
    "PyNLO.Pulse.C112_axis_refuted",
    "PyNLO.Pulse.C112_errors",
    "PyNLO.Pulse.C112_extent",
    "PyNLO.Pulse.C112_frog",
    "PyNLO.Pulse.C112_rows_below_nyquist",
    "PyNLO.Pulse.C112_nonvacuous"
   ],
   "note": "refuted: the frequency axis is mirrored about the centre frequency, row f shows the spectrum at 2\u00b7f0 \u2212 f; a concrete four-point pulse is the witness. Proved: exact value of every entry, the centre row, both axes, the time axis, scaling and errors"
  },
  {
   "property": "C113",
   "status": "partial",
   "theorems": [
    "PyNLO.Pulse.C113_value",
    "PyNLO.Pulse.C113_shift",
    "PyNLO.Pulse.C113_energy_le",
    "PyNLO.Pulse.C113_energy_shift",
    "PyNLO.Pulse.C113_energy_refuted",
    "PyNLO.Pulse.C113_errors",
    "PyNLO.Pulse.C113_nonvacuous"
   ],
   "note": "refuted: the energy is not kept for moves by a fraction of a bin, two opposite lines lose three quarters of it. Proved: value of every sample, exact shift and exact energy for whole bins, upper bounds for energy and samples, errors. The positive time window makes the grid sorted; a stale W_mks cache is excluded by hypothesis (see C07)"
  },
  {
   "property": "C114",
   "status": "proved",
   "theorems": [
    "PyNLO.C114_step",
    "PyNLO.C114_accepted",
    "PyNLO.C114_estimate",
    "PyNLO.C114_nonvacuous"
   ],
   "note": "with self-steepening the field must exceed the threshold 1e-15 everywhere, otherwise the operator is not even continuous; the equation contains the regularised division of the code"
  },
  {
   "property": "C115",
   "status": "partial",
   "theorems": [
    "PyNLO.C115_kerr",
    "PyNLO.C115_steepening",
    "PyNLO.C115_threshold",
    "PyNLO.C115_threshold_refuted"
   ],
   "note": "refuted: where |A| <= 1e-15 one of the two self-steepening terms is dropped, so at a zero of the field the operator times the field vanishes although the right-hand side does not. Proved: equality without self-steepening, error of at most 1.0001e-5 times the term above the threshold, exact defect below it"
  },
  {
   "property": "C116",
   "status": "proved",
   "theorems": [
    "PyNLO.C116_fourth",
    "PyNLO.C116_converges",
    "PyNLO.C116_exists",
    "PyNLO.C116_unique",
    "PyNLO.C116_nonvacuous"
   ],
   "note": "exact arithmetic; without self-steepening (with it the operator is discontinuous, see C115); odd grids rotate the field between segments (C43)"
  },
  {
   "property": "C117",
   "status": "proved",
   "theorems": [
    "PyNLO.C117_energy"
   ],
   "note": "exact arithmetic; without self-steepening"
  },
  {
   "property": "C118",
   "status": "proved",
   "theorems": [
    "PyNLO.Ode.C118_part",
    "PyNLO.Ode.C118_converges",
    "PyNLO.Ode.C118_segments",
    "PyNLO.Ode.C118_nonvacuous"
   ],
   "note": "exact arithmetic with the literals of the code; forward integration; the constants C and h0 depend on the equation only"
  },
  {
   "property": "C119",
   "status": "partial",
   "theorems": [
    "PyNLO.Ode.C119_row_refuted",
    "PyNLO.Ode.C119_rows_partial",
    "PyNLO.Ode.C119_all_rows",
    "PyNLO.Ode.C119_nonvacuous",
    "PyNLO.Ode.C119_order_conditions",
    "PyNLO.Ode.C119_method"
   ],
   "note": "refuted: rows inside the second step are extrapolated backwards from the third (Output.out saves only its end when nstp == 1): for y' = 1000(x-7/8)^7 with absolute tolerance 1 a row is off by more than 5 while the result is right to 20 digits (C119_row_refuted). Proved for all other rows, and for all rows if the second step is not longer than the spacing of the rows; forward integration"
  },
  {
   "property": "C120",
   "status": "proved",
   "theorems": [
    "PyNLO.Ode.C120_part",
    "PyNLO.Ode.C120_converges",
    "PyNLO.Ode.C120_bound",
    "PyNLO.Ode.C120_smooth",
    "PyNLO.Ode.C120_first_order",
    "PyNLO.Ode.C120_nonvacuous"
   ],
   "note": "exact arithmetic with the literals of the code; forward integration; the constants C and h0 depend on the equation only"
  },
  {
   "property": "C121",
   "status": "proved",
   "theorems": [
    "PyNLO.Dfg.C121_solution",
    "PyNLO.Dfg.C121_order",
    "PyNLO.Dfg.C121_converges",
    "PyNLO.Dfg.C121_power",
    "PyNLO.Dfg.C121_photons",
    "PyNLO.Dfg.C121_nonvacuous"
   ],
   "note": "waveguide mode, even N, disable_SPM=True (SPM raises, C74); the fields along the computed solution must stay small enough that len*exp(52*N*kappa*R*len)*1e-27*M is below the margin; exact arithmetic with the literals of the code"
  },
  {
   "property": "C122",
   "status": "proved",
   "theorems": [
    "PyNLO.Ode.C122_pass",
    "PyNLO.Ode.C122_total",
    "PyNLO.Ode.C122_nonvacuous"
   ],
   "note": "visited is a ghost list of the positions after each step"
  },
  {
   "property": "C123",
   "status": "proved",
   "theorems": [
    "PyNLO.C123_solution",
    "PyNLO.C123_converges",
    "PyNLO.C123_split_step",
    "PyNLO.C123_propagate",
    "PyNLO.C123_nonvacuous"
   ],
   "note": "exact arithmetic; the distance of METHOD_SSFM columns can exceed the nominal one (C38); METHOD_SSFM applies half the gain (C48), hence no gain there"
  },
  {
   "property": "C124",
   "status": "proved",
   "theorems": [
    "PyNLO.C124_solution",
    "PyNLO.C124_converges",
    "PyNLO.C124_no_raman",
    "PyNLO.C124_raman",
    "PyNLO.C124_nonvacuous"
   ],
   "note": "exact arithmetic; without self-steepening"
  },
  {
   "property": "C125",
   "status": "proved",
   "theorems": [
    "PyNLO.C125_converges",
    "PyNLO.C125_regularised",
    "PyNLO.C125_lipschitz",
    "PyNLO.C125_exists",
    "PyNLO.C125_wave",
    "PyNLO.C125_nonvacuous"
   ],
   "note": "exact arithmetic; solutions that cross the threshold are outside, there the operator is discontinuous (C115)"
  },
  {
   "property": "C126",
   "status": "partial",
   "theorems": [
    "PyNLO.Xtal.C126_symmetric",
    "PyNLO.Xtal.C126_two_preimages",
    "PyNLO.Xtal.C126_round_trip_refuted",
    "PyNLO.Xtal.C126_long_pump_refuted",
    "PyNLO.Xtal.C126_error_partial",
    "PyNLO.Xtal.C126_exact_partial",
    "PyNLO.Xtal.C126_unique_partial",
    "PyNLO.Xtal.C126_round_trip_partial",
    "PyNLO.Xtal.C126_nonvacuous"
   ],
   "note": "refuted: signal and idler have the same period, so for a pump at 800 nm no optimiser recovers both 1500 nm and 1714 nm; pumps beyond 1998 nm raise ValueError with the default bound. Proved: the error of the period is the root of the objective; with an exact optimiser the wavelength returned has the period asked for, and it is the signal itself when it lies at or below twice the pump and the wavelengths are between 0.5 and 1.8 um (strict convexity of the wave number)"
  },
  {
   "property": "C127",
   "status": "partial",
   "theorems": [
    "PyNLO.C127_file",
    "PyNLO.C127_stale_function_refuted",
    "PyNLO.C127_nonvacuous",
    "PyNLO.C127_least_squares",
    "PyNLO.C127_least_squares_nonvacuous"
   ],
   "note": "refuted after set_dispersion_function: the table of the file is ignored in favour of the old function; proved otherwise, for every least-squares fit"
  },
  {
   "property": "C128",
   "status": "partial",
   "theorems": [
    "PyNLO.C128_interpolates_partial",
    "PyNLO.C128_constant_index",
    "PyNLO.C128_cauchy_partial",
    "PyNLO.C128_speed_of_light_refuted",
    "PyNLO.C128_decreasing_refuted",
    "PyNLO.C128_nonvacuous"
   ],
   "note": "refuted: the table is placed at 3e8/lambda while the pulse grid uses c, so for n = a + b/lambda^2 the result is exactly (c/3e8)^3 = 0.9979 times the dispersion of the index (C128_cauchy_partial, C128_speed_of_light_refuted); decreasing wavelengths raise; proved: curve through the table at 3e8/lambda, zero for a constant index"
  },
  {
   "property": "C129",
   "status": "proved",
   "theorems": [
    "PyNLO.C129_exists",
    "PyNLO.C129_unique",
    "PyNLO.C129_converges",
    "PyNLO.C129_without_reload",
    "PyNLO.C129_energy",
    "PyNLO.C129_set_dispersion",
    "PyNLO.C129_nonvacuous"
   ],
   "note": ""
  },
  {
   "property": "C130",
   "status": "proved",
   "theorems": [
    "PyNLO.C130_riemann",
    "PyNLO.C130_second_order_refuted",
    "PyNLO.C130_nonvacuous"
   ],
   "note": ""
  },
  {
   "property": "C131",
   "status": "partial",
   "theorems": [
    "PyNLO.C131_published",
    "PyNLO.C131_simple",
    "PyNLO.C131_default_partial",
    "PyNLO.C131_share_refuted",
    "PyNLO.C131_default_share_refuted",
    "PyNLO.C131_response_refuted",
    "PyNLO.C131_nonvacuous"
   ],
   "note": "simple kernel proved to be the published one; refuted for the default kernel: the factor of the isotropic part is inverted, so the boson peak gets more than half of the area (about 70 per cent with the default time constants) instead of 21 per cent"
  },
  {
   "property": "C132",
   "status": "proved",
   "theorems": [
    "PyNLO.C132_grid",
    "PyNLO.C132_converges",
    "PyNLO.C132_times",
    "PyNLO.C132_fiber",
    "PyNLO.C132_breather",
    "PyNLO.C132_nonvacuous",
    "PyNLO.C132_unique"
   ],
   "note": "combined with existence and convergence in the number of steps (C116); the equation has only one solution with given input; instance: the Akhmediev breather in a generated fibre"
  },
  {
   "property": "C133",
   "status": "proved",
   "theorems": [
    "PyNLO.C133_grid",
    "PyNLO.C133_converges",
    "PyNLO.C133_modulated",
    "PyNLO.C133_fiber",
    "PyNLO.C133_nonvacuous",
    "PyNLO.C133_unique"
   ],
   "note": "the sampled kernel is a Riemann sum of the continuous one, whose area is shown positive over every window; the equation has only one solution with given input; instance: pulses of every smooth shape in a fibre without dispersion, where the exact solution is given, with the default Raman response"
  },
  {
   "property": "C134",
   "status": "partial",
   "theorems": [
    "PyNLO.Beam.C134_power",
    "PyNLO.Beam.C134_fixed_waist",
    "PyNLO.Beam.C134_rayleigh_refuted",
    "PyNLO.Beam.C134_waveguide",
    "PyNLO.Beam.C134_nonvacuous"
   ],
   "note": "refuted for rtP_to_a: it ignores z, so its field carries P*(1+(2z/b)^2), twice the power at the Rayleigh range; proved for rtP_to_a_2 and the waveguide"
  },
  {
   "property": "C135",
   "status": "proved",
   "theorems": [
    "PyNLO.C135_resume",
    "PyNLO.C135_nonvacuous"
   ],
   "note": ""
  },
  {
   "property": "C136",
   "status": "proved",
   "theorems": [
    "PyNLO.C136_reload",
    "PyNLO.C136_nonvacuous"
   ],
   "note": ""
  },
  {
   "property": "C137",
   "status": "partial",
   "theorems": [
    "PyNLO.C137_transform",
    "PyNLO.C137_centre",
    "PyNLO.C137_stokes",
    "PyNLO.C137_sampled",
    "PyNLO.C137_agree",
    "PyNLO.C137_repeat_refuted",
    "PyNLO.C137_nonvacuous"
   ],
   "note": "refuted: with the default (non-simple) response and the switch on, the first call uses the f_R given by the user and stores 0.245, so the next call uses another response at every frequency but the centre (C137_repeat_refuted). Proved: transform, centre value, sign, limit of the sampled response for both kernels, and the agreement for the simple kernel with explicit terms"
  },
  {
   "property": "C138",
   "status": "partial",
   "theorems": [
    "PyNLO.C138_off_output",
    "PyNLO.C138_odd_refuted",
    "PyNLO.C138_nonvacuous"
   ],
   "note": "refuted for odd NPTS (C138_odd_refuted: with the switch on pulse_out is one sample off, with it off it is the last column on every grid, C138_off_output); proved for every even grid as equality of complete runs (C138_prefftshift), and the shipped values give the model used elsewhere (C138_shipped)"
  },
  {
   "property": "C139",
   "status": "proved",
   "theorems": [
    "PyNLO.C139_law",
    "PyNLO.C139_energy",
    "PyNLO.C139_kerr",
    "PyNLO.C139_redshift",
    "PyNLO.C139_leak",
    "PyNLO.C139_computed",
    "PyNLO.C139_computed_kerr",
    "PyNLO.C139_two_lines",
    "PyNLO.C139_nonvacuous"
   ],
   "note": "laws for energy and momentum of the equation (C139_law, C139_energy), conservation (C139_kerr), red shift with explicit cut-off term (C139_redshift, C139_leak), computed pulses (C139_computed, C139_computed_kerr), closed form for two lines (C139_two_lines). Self-steepening is off; the run is RK4IP and the equation is assumed to have a smooth solution, as in C132 and C133"
  },
  {
   "property": "C140",
   "status": "proved",
   "theorems": [
    "PyNLO.Xtal.C140_sulfide",
    "PyNLO.Xtal.C140_absorbs",
    "PyNLO.Xtal.C140_selenide",
    "PyNLO.Xtal.C140_tuning",
    "PyNLO.Xtal.C140_unique",
    "PyNLO.Xtal.C140_nonvacuous"
   ],
   "note": "C140_sulfide, C140_selenide (order and range of the indices), C140_tuning, C140_unique (strict monotony in the angle). XTAL_AgGaS.py starts with `import exceptions`, so it can be imported under Python 2 only; its formulas are modelled as written."
  },
  {
   "property": "C141",
   "status": "proved",
   "theorems": [
    "PyNLO.Pulse.C141_frame",
    "PyNLO.Pulse.C141_history",
    "PyNLO.Pulse.C141_rate",
    "PyNLO.Pulse.C141_shaped",
    "PyNLO.Pulse.C141_frog",
    "PyNLO.Pulse.C141_noise",
    "PyNLO.Pulse.C141_cw",
    "PyNLO.Pulse.C141_default",
    "PyNLO.Pulse.C141_nonvacuous"
   ],
   "note": "C141_frame (one call), C141_history (any history), C141_rate, constructors: C141_shaped (Sech, Gaussian, Sinc), C141_frog, C141_noise, C141_cw, C141_default."
  },
  {
   "property": "C142",
   "status": "partial",
   "theorems": [
    "PyNLO.Pulse.C142_write_frog_refuted",
    "PyNLO.Pulse.C142_gen_osa_refuted",
    "PyNLO.Pulse.C142_gen_osa_energy",
    "PyNLO.Pulse.C142_nonvacuous"
   ],
   "note": "refuted: both methods raise AttributeError on every pulse, write_frog for get_AW (C142_write_frog_refuted), gen_OSA for self.c (C142_gen_osa_refuted), the latter after the time window was changed, so that calc_epp reports another energy (C142_gen_osa_energy). write_frog leaves pulse and disk alone."
  },
  {
   "property": "C143",
   "status": "proved",
   "theorems": [
    "PyNLO.Dfg.C143_lines",
    "PyNLO.Dfg.C143_solution",
    "PyNLO.Dfg.C143_powers",
    "PyNLO.Dfg.C143_growth",
    "PyNLO.Dfg.C143_computed",
    "PyNLO.Dfg.C143_nonvacuous"
   ],
   "note": "C143_lines, C143_solution (also with pump at the input), C143_powers, C143_growth, C143_computed; \u03ba is Spec.mixStrength. The general case of unequal fluxes (elliptic functions) is not stated."
  },
  {
   "property": "C144",
   "status": "proved",
   "theorems": [
    "PyNLO.Dfg.C144_first_order",
    "PyNLO.Dfg.C144_unpoled",
    "PyNLO.Dfg.C144_poled",
    "PyNLO.Dfg.C144_qpm",
    "PyNLO.Dfg.C144_even",
    "PyNLO.Dfg.C144_sinc",
    "PyNLO.Dfg.C144_cancel",
    "PyNLO.Dfg.C144_computed",
    "PyNLO.Dfg.C144_nonvacuous"
   ],
   "note": "C144_first_order, C144_unpoled and C144_poled (the integrals), C144_qpm, C144_even, C144_sinc, C144_cancel, C144_computed (of the integrator)."
  },
  {
   "property": "C145",
   "status": "proved",
   "theorems": [
    "PyNLO.Dfg.C145_grating",
    "PyNLO.Dfg.C145_near",
    "PyNLO.Dfg.C145_first_order",
    "PyNLO.Dfg.C145_idler",
    "PyNLO.Dfg.C145_mismatch",
    "PyNLO.Dfg.C145_period",
    "PyNLO.Dfg.C145_converts",
    "PyNLO.Dfg.C145_default",
    "PyNLO.Dfg.C145_nonvacuous"
   ],
   "note": "C145_grating (exact sum over the periods), C145_near (near the period), C145_first_order, C145_idler, C145_mismatch, C145_period, C145_converts, C145_default. The start is two lines without the noise that the constructor puts in the idler."
  },
  {
   "property": "C146",
   "status": "partial",
   "theorems": [
    "PyNLO.XtalObj.C146_length",
    "PyNLO.XtalObj.C146_length_values",
    "PyNLO.XtalObj.C146_isolated",
    "PyNLO.XtalObj.C146_agree",
    "PyNLO.XtalObj.C146_cached_refuted",
    "PyNLO.XtalObj.C146_set_caching",
    "PyNLO.XtalObj.C146_methods",
    "PyNLO.XtalObj.C146_boyd_refuted",
    "PyNLO.XtalObj.C146_boyd_cached_refuted",
    "PyNLO.XtalObj.C146_beam_axis",
    "PyNLO.XtalObj.C146_beam_axis_nonvacuous",
    "PyNLO.XtalObj.C146_nonvacuous"
   ],
   "note": "refuted: with caching on, get_pulse_n keeps the index of the old temperature while get_pulse_k follows the new one, so that they disagree at every wavelength. Refuted: Boyd.load never assigns n, and stores get_n as an unbound function, so that get_n(wl) raises TypeError and get_pulse_n and get_pulse_k raise AttributeError; with caching on get_pulse_n returns the index of another crystal. Proved: the length, isolation, agreement with caching off, and what set_caching accepts."
  },
  {
   "property": "C147",
   "status": "proved",
   "theorems": [
    "PyNLO.Dfg.C147_fluxes",
    "PyNLO.Dfg.C147_limit",
    "PyNLO.Dfg.C147_matched",
    "PyNLO.Dfg.C147_gain",
    "PyNLO.Dfg.C147_signal",
    "PyNLO.Dfg.C147_idler_formula",
    "PyNLO.Dfg.C147_computed",
    "PyNLO.Dfg.C147_nonvacuous"
   ],
   "note": "The validation's formula for the idler (dfg_unit_test.py:116) carries an extra factor n_signal / n_idler; C147_idler_formula proves that it is larger than the idler power of the solution, by at least that factor, whenever the signal's index is larger."
  },
  {
   "property": "C148",
   "status": "proved",
   "theorems": [
    "PyNLO.Dfg.C148_detuned",
    "PyNLO.Dfg.C148_growth",
    "PyNLO.Dfg.C148_bounded",
    "PyNLO.Dfg.C148_computed",
    "PyNLO.Dfg.C148_nonvacuous"
   ],
   "note": ""
  },
  {
   "property": "C149",
   "status": "proved",
   "theorems": [
    "PyNLO.C149_grid",
    "PyNLO.C149_propagate",
    "PyNLO.C149_nonvacuous"
   ],
   "note": "Step size control fixed by the number of steps as in C116; Raman response and self-steepening switched off."
  },
  {
   "property": "C150",
   "status": "proved",
   "theorems": [
    "PyNLO.C150_grid",
    "PyNLO.C150_soliton",
    "PyNLO.C150_accuracy",
    "PyNLO.C150_shape"
   ],
   "note": "Raman response and self-steepening switched off, as in the textbook equation."
  },
  {
   "property": "C151",
   "status": "proved",
   "theorems": [
    "PyNLO.C151_grid",
    "PyNLO.C151_propagate",
    "PyNLO.C151_shaped",
    "PyNLO.C151_nonvacuous"
   ],
   "note": "Raman response and self-steepening switched off. The ends of the window need the same value of the initial field, as even pulses have."
  },
  {
   "property": "C152",
   "status": "proved",
   "theorems": [
    "PyNLO.C152_second_order",
    "PyNLO.C152_period",
    "PyNLO.C152_compressed",
    "PyNLO.C152_recovers"
   ],
   "note": "Raman response and self-steepening switched off, as in the textbook equation."
  },
  {
   "property": "C153",
   "status": "proved",
   "theorems": [
    "PyNLO.C153_gaussian",
    "PyNLO.C153_power",
    "PyNLO.C153_sign",
    "PyNLO.C153_length"
   ],
   "note": "The constructor uses 2.77 for 4 ln 2; the statement uses the constant of the constructor."
  },
  {
   "property": "C154",
   "status": "partial",
   "theorems": [
    "PyNLO.C154_stored",
    "PyNLO.C154_range",
    "PyNLO.C154_refuted"
   ],
   "note": "refuted: the arrays are complex64; samples 1 + 2^-30 come back as 1 while pulse_out.AT keeps them. Proved: every entry is correct to 24 binary digits per part (or 2^-150) up to 2^127, exact where a float32 can hold it, zero below 2^-150 and infinite from 2^128 on."
  },
  {
   "property": "C155",
   "status": "partial",
   "theorems": [
    "PyNLO.C155_sum",
    "PyNLO.C155_accuracy",
    "PyNLO.C155_underflow",
    "PyNLO.C155_refuted",
    "PyNLO.C155_nonvacuous"
   ],
   "note": "refuted: in single precision the product of four magnitudes of at most 2^-39 underflows, and the result is nan although all spectra are non-zero (dark 1 THz pulse with one photon of noise per bin in a 1 ns window). Proved: with all magnitudes between 2^-30 and 2^30 and T trials the error is at most (41 + 3 T (T-1)) 2^-24."
  },
  {
   "property": "C156",
   "status": "proved",
   "theorems": [
    "PyNLO.C156_step",
    "PyNLO.C156_propagate",
    "PyNLO.C156_generated"
   ],
   "note": ""
  },
  {
   "property": "C157",
   "status": "proved",
   "theorems": [
    "PyNLO.C157_mirror",
    "PyNLO.C157_symmetric",
    "PyNLO.C157_generated",
    "PyNLO.C157_nonvacuous"
   ],
   "note": ""
  },
  {
   "property": "C158",
   "status": "proved",
   "theorems": [
    "PyNLO.C158_conjugate",
    "PyNLO.C158_reversal",
    "PyNLO.C158_nonvacuous"
   ],
   "note": ""
  },
  {
   "property": "C159",
   "status": "partial",
   "theorems": [
    "PyNLO.C159_halved",
    "PyNLO.C159_refuted",
    "PyNLO.C159_nonvacuous"
   ],
   "note": "refuted: the columns converge to the solution of the equation with half of the propagation constants and half of the gain (C159_halved, first order, second order for eta = 2), and for every fibre with gain the last column stays away from the solution of the equation however many steps are taken (C159_refuted)."
  },
  {
   "property": "C160",
   "status": "proved",
   "theorems": [
    "PyNLO.Ssfm.C160_steps",
    "PyNLO.Ssfm.C160_tolerance",
    "PyNLO.Ssfm.C160_exact",
    "PyNLO.Ssfm.C160_nonvacuous"
   ],
   "note": "Self-steepening disabled, constant gain, reload_fiber_each_step off, even number of points. The distance covered may exceed the segment when a remainder of at most twice dz_min is left (see C38)."
  },
  {
   "property": "C161",
   "status": "proved",
   "theorems": [
    "PyNLO.Modulation.C161_linear",
    "PyNLO.Modulation.C161_threshold",
    "PyNLO.Modulation.C161_peak",
    "PyNLO.Modulation.C161_propagate",
    "PyNLO.Modulation.C161_fiber",
    "PyNLO.Modulation.C161_instability",
    "PyNLO.Modulation.C161_parametric",
    "PyNLO.Modulation.C161_stable",
    "PyNLO.Modulation.C161_normal",
    "PyNLO.Modulation.C161_nonvacuous"
   ],
   "note": "Default method, even number of points, gain 0, Raman scattering and self-steepening disabled. Concrete fibres: generated, second-order dispersion about the centre wavelength of the pulse; C161_linear and C161_propagate hold for every dispersion."
  },
  {
   "property": "C162",
   "status": "proved",
   "theorems": [
    "PyNLO.Hamiltonian.C162_conserved",
    "PyNLO.Hamiltonian.C162_exchange",
    "PyNLO.Hamiltonian.C162_normal",
    "PyNLO.Hamiltonian.C162_propagate",
    "PyNLO.Hamiltonian.C162_fiber",
    "PyNLO.Hamiltonian.C162_fiber_normal",
    "PyNLO.Hamiltonian.C162_nonvacuous"
   ],
   "note": "Default method, even number of points, gain 0, Raman scattering and self-steepening disabled; concrete fibres: generated, second-order dispersion about the wavelength of the pulse."
  },
  {
   "property": "C163",
   "status": "proved",
   "theorems": [
    "PyNLO.Hamiltonian.C163_bounded",
    "PyNLO.Hamiltonian.C163_fiber",
    "PyNLO.Hamiltonian.C163_nonvacuous"
   ],
   "note": "Same conditions as C162. Uses that the sum of a Lorentzian over the bins is at most 1 + T/(2*kappa), so the bound does not grow with the grid."
  },
  {
   "property": "C164",
   "status": "proved",
   "theorems": [
    "PyNLO.Ssfm.C164_rounding",
    "PyNLO.Ssfm.C164_single",
    "PyNLO.Ssfm.C164_exact",
    "PyNLO.Ssfm.C164_nonvacuous"
   ],
   "note": "Method RK4IP, self-steepening disabled. The rounding of the operations inside one Advance (FFT, exponentials) is the arbitrary error u; the binary32 theorem rounds the results of Advance and of the extrapolation."
  },
  {
   "property": "C165",
   "status": "proved",
   "theorems": [
    "PyNLO.C165_spectrum",
    "PyNLO.C165_spectrum_raman",
    "PyNLO.C165_frame",
    "PyNLO.C165_centre",
    "PyNLO.C165_centre_raman",
    "PyNLO.C165_nonvacuous",
    "PyNLO.C165_nonvacuous_raman"
   ],
   "note": "Self-steepening is off: with it, gamma belongs to the centre frequency and has to be rescaled by the user when the centre is moved."
  },
  {
   "property": "C166",
   "status": "proved",
   "theorems": [
    "PyNLO.C166_drift",
    "PyNLO.C166_equation",
    "PyNLO.C166_photons",
    "PyNLO.C166_aliasing",
    "PyNLO.C166_nonvacuous",
    "PyNLO.C166_example"
   ],
   "note": "The drift bound is stated with the solution that the columns converge to; S, the light outside the central third and the floor of the samples are bounds along that solution."
  },
  {
   "property": "C167",
   "status": "proved",
   "theorems": [
    "PyNLO.C167_exists",
    "PyNLO.C167_converges",
    "PyNLO.C167_fiber",
    "PyNLO.C167_nonvacuous"
   ],
   "note": "C133 assumes a smooth solution; here its existence over every length is proved for every dispersion order. Self-steepening is not covered."
  },
  {
   "property": "C168",
   "status": "proved",
   "theorems": [
    "PyNLO.C168_exists",
    "PyNLO.C168_converges",
    "PyNLO.C168_fiber",
    "PyNLO.C168_grids",
    "PyNLO.C168_nonvacuous"
   ],
   "note": "C132 assumes a smooth solution; here it exists for every dispersion order and every length."
  },
  {
   "property": "C169",
   "status": "proved",
   "theorems": [
    "PyNLO.C169_centroid",
    "PyNLO.C169_redshift",
    "PyNLO.C169_centre",
    "PyNLO.C169_centre_raman",
    "PyNLO.C169_noise",
    "PyNLO.C169_nonvacuous"
   ],
   "note": "C139, C149 and C165 assume a smooth solution; here it is supplied by C167 and C168. In (b) the bound uses the largest power and slope of the limit field."
  },
  {
   "property": "C170",
   "status": "proved",
   "theorems": [
    "PyNLO.C170_model",
    "PyNLO.C170_returns",
    "PyNLO.C170_range",
    "PyNLO.C170_distance",
    "PyNLO.C170_history",
    "PyNLO.C170_stuck",
    "PyNLO.C170_nonvacuous"
   ],
   "note": "rounds the lengths of the step control to nearest even with subnormals; without rounding the model is that of C35 to C39 (C170_model). The growth factor is any real number in (1, 2]. The fields stay exact; the error estimates are arbitrary, so their rounding is covered."
  },
  {
   "property": "C171",
   "status": "proved",
   "theorems": [
    "PyNLO.Dfg.C171_model",
    "PyNLO.Dfg.C171_domains",
    "PyNLO.Dfg.C171_returns",
    "PyNLO.Dfg.C171_sign",
    "PyNLO.Dfg.C171_stuck",
    "PyNLO.Dfg.C171_nonvacuous"
   ],
   "note": "C68 in exact arithmetic; without rounding the model is that of C68 (C171_model)."
  },
  {
   "property": "C172",
   "status": "partial",
   "theorems": [
    "PyNLO.C172_sech",
    "PyNLO.C172_gaussian",
    "PyNLO.C172_sinc_partial",
    "PyNLO.C172_sinc_refuted",
    "PyNLO.C172_nonvacuous"
   ],
   "note": "sech (1.762 to 1.764 times T0) and Gaussian (1.0004 to 1.0005 times T0) proved for peak and average power; refuted for SincPulse: FWHM_ps is the width where the field, not the power, is half of its maximum, so the FWHM of the power is 0.73 to 0.74 times FWHM_ps (C172_sinc_partial, C172_sinc_refuted). The formula exp(-(t/T0)^2/2) in the docstring of GaussianPulse is not the one of the code, which is exp(-2.77 (t/T0)^2/2)."
  },
  {
   "property": "C173",
   "status": "partial",
   "theorems": [
    "PyNLO.Ode.C173_model",
    "PyNLO.Ode.C173_end",
    "PyNLO.Ode.C173_rows",
    "PyNLO.Ode.C173_drift",
    "PyNLO.Ode.C173_one_step",
    "PyNLO.Ode.C173_count",
    "PyNLO.Ode.C173_exact_refuted",
    "PyNLO.Ode.C173_extra_row_refuted",
    "PyNLO.Ode.C173_hang_refuted",
    "PyNLO.Ode.C173_nonvacuous"
   ],
   "note": "proved: an integration that returns ends between x2 and x2(1+2^-51), exactly at x2 if the last step began at zero or in the second half of the interval (C173_end); every row but two is at the rounded sum of spacings (C173_rows), which drifts by about half a unit in the last place of x2 per row (C173_drift); single-step integrations with up to 190 intervals save exactly one row more (C173_count). refuted: exact landing (C173_exact_refuted), 512 requested intervals give 514 rows (C173_extra_row_refuted), and a spacing of half a unit in the last place makes the row loop run for ever (C173_hang_refuted). Positions are modelled in IEEE binary64 without overflow; the solution and the error estimate stay exact; positions are stored in an array of doubles (dtype double or complex128)."
  },
  {
   "property": "C174",
   "status": "proved",
   "theorems": [
    "PyNLO.C174_betas",
    "PyNLO.C174_chirp",
    "PyNLO.C174_exact",
    "PyNLO.C174_compress",
    "PyNLO.C174_pair",
    "PyNLO.C174_third_order",
    "PyNLO.C174_nonvacuous"
   ],
   "note": "The distance in the phases is the integrated one: at least the length, and exactly the length where the segments are at most twice the first step (overshoot of the step control: C38). C174_third_order shows that with third order dispersion the result differs from the plain chirp, by the artificial delay only. The gain multiplies by exp(gain*L/2)."
  },
  {
   "property": "C175",
   "status": "proved",
   "theorems": [
    "PyNLO.Dfg.C175_limit",
    "PyNLO.Dfg.C175_gain",
    "PyNLO.Dfg.C175_small",
    "PyNLO.Dfg.C175_computed",
    "PyNLO.Dfg.C175_nonvacuous"
   ],
   "note": "waveguide mode, exact arithmetic; the pump and the signal are single lines of the grid; averaging with explicit constants, the bound of the mean's error is one period"
  },
  {
   "property": "C176",
   "status": "proved",
   "theorems": [
    "PyNLO.Dfg.C176_first_order",
    "PyNLO.Dfg.C176_idler",
    "PyNLO.Dfg.C176_thin",
    "PyNLO.Dfg.C176_computed",
    "PyNLO.Dfg.C176_nonvacuous"
   ],
   "note": "waveguide mode, exact arithmetic; the three grids aligned as C69 requires"
  },
  {
   "property": "C177",
   "status": "proved",
   "theorems": [
    "PyNLO.FourWave.C177_first_order",
    "PyNLO.FourWave.C177_computed",
    "PyNLO.FourWave.C177_lines",
    "PyNLO.FourWave.C177_fiber",
    "PyNLO.FourWave.C177_nonvacuous"
   ],
   "note": "exact arithmetic; self-steepening off; the constant of the n_steps^-5 term depends on pulse and fibre"
  },
  {
   "property": "C178",
   "status": "proved",
   "theorems": [
    "PyNLO.C178_gain",
    "PyNLO.C178_never_rises",
    "PyNLO.C178_falls",
    "PyNLO.C178_computed",
    "PyNLO.C178_lower",
    "PyNLO.C178_nonvacuous"
   ],
   "note": "exact arithmetic; self-steepening off; default Raman time constants, simple_raman off; in the limit of fine grids and many steps"
  },
  {
   "property": "C179",
   "status": "proved",
   "theorems": [
    "PyNLO.RamanLines.C179_lines",
    "PyNLO.RamanLines.C179_nonvacuous"
   ],
   "note": "exact arithmetic; self-steepening off; default Raman time constants; fine grids, short fibres, many steps"
  },
  {
   "property": "C180",
   "status": "proved",
   "theorems": [
    "PyNLO.Broadening.C180_moment",
    "PyNLO.Broadening.C180_mean",
    "PyNLO.Broadening.C180_computed",
    "PyNLO.Broadening.C180_unchirped",
    "PyNLO.Broadening.C180_broadens",
    "PyNLO.Broadening.C180_compresses",
    "PyNLO.Broadening.C180_gaussian",
    "PyNLO.Broadening.C180_nonvacuous"
   ],
   "note": "Error bound C/NPTS with C depending on the field, gamma, gain and length only; the number of steps needed may depend on the grid. The field must be smooth and periodic in the time window."
  },
  {
   "property": "C181",
   "status": "proved",
   "theorems": [
    "PyNLO.Steepening.C181_rate",
    "PyNLO.Steepening.C181_computed",
    "PyNLO.Steepening.C181_edges",
    "PyNLO.Steepening.C181_nonvacuous"
   ],
   "note": "First order in the distance. C depends on the field, dispersion, gain, gamma and w0 only; the length and the number of steps may depend on the pulse object."
  },
  {
   "property": "C182",
   "status": "proved",
   "theorems": [
    "PyNLO.PowerFlow.C182_continuity",
    "PyNLO.PowerFlow.C182_peak",
    "PyNLO.PowerFlow.C182_computed",
    "PyNLO.PowerFlow.C182_sign",
    "PyNLO.PowerFlow.C182_nonvacuous"
   ],
   "note": "First order in the distance. The distance over which it holds and the number of steps may depend on the pulse object."
  },
  {
   "property": "C183",
   "status": "proved",
   "theorems": [
    "PyNLO.Dfg.C183_limit",
    "PyNLO.Dfg.C183_converted",
    "PyNLO.Dfg.C183_full",
    "PyNLO.Dfg.C183_detuned",
    "PyNLO.Dfg.C183_computed",
    "PyNLO.Dfg.C183_nonvacuous"
   ],
   "note": "C147 and C148 are the case of the strong pump, where the waves grow; here they oscillate. The closed form is for a crystal without poling."
  },
  {
   "property": "C184",
   "status": "proved",
   "theorems": [
    "PyNLO.Galilei.C184_equation",
    "PyNLO.Galilei.C184_field",
    "PyNLO.Galilei.C184_runs",
    "PyNLO.Galilei.C184_raman",
    "PyNLO.Galilei.C184_nonvacuous"
   ],
   "note": "Second-order dispersion only, self-steepening off. C184_equation is the symmetry of the equation, for any gain, nonlinearity and response; C184_field and C184_runs are about two runs of propagate without Raman response, C184_raman with the default one. Floats are idealised as in the other convergence theorems."
  },
  {
   "property": "C185",
   "status": "partial",
   "theorems": [
    "PyNLO.C185_next",
    "PyNLO.C185_monotone_partial",
    "PyNLO.C185_iteration",
    "PyNLO.C185_monotone_refuted",
    "PyNLO.C185_nonvacuous",
    "PyNLO.C185_double_next",
    "PyNLO.C185_double_monotone_partial",
    "PyNLO.C185_double_nonvacuous"
   ],
   "note": "refuted: next to the minimum step an error above the limit leaves a larger step than an error within it (C185_monotone_refuted, default settings). Everything else is proved"
  },
  {
   "property": "C186",
   "status": "proved",
   "theorems": [
    "PyNLO.C186_similar",
    "PyNLO.C186_nonvacuous"
   ],
   "note": "exact arithmetic; Raman response off or simple (the default response has a third time constant, 96 fs, written into the code); generated fibres with units ps^n/m"
  },
  {
   "property": "C187",
   "status": "proved",
   "theorems": [
    "PyNLO.Ode.C187_units",
    "PyNLO.Ode.C187_conj",
    "PyNLO.Ode.C187_nonvacuous"
   ],
   "note": "exact arithmetic; the rounding of rejected steps has to commute with the factor l, as it does for exact arithmetic and for powers of two without underflow"
  },
  {
   "property": "C188",
   "status": "proved",
   "theorems": [
    "PyNLO.C188_formula",
    "PyNLO.C188_inverse",
    "PyNLO.C188_commute",
    "PyNLO.C188_energy",
    "PyNLO.C188_x",
    "PyNLO.C188_axis_differs"
   ],
   "note": "axes 0 and 1; negative and invalid axes and axes of length zero are not modelled"
  },
  {
   "property": "C189",
   "status": "proved",
   "theorems": [
    "PyNLO.C189_linear",
    "PyNLO.C189_quadratic",
    "PyNLO.C189_error",
    "PyNLO.C189_fails",
    "PyNLO.C189_frequency",
    "PyNLO.C189_nonvacuous"
   ],
   "note": "one-dimensional arrays; equal neighbouring wavelengths and a vanishing group index excluded"
  },
  {
   "property": "C190",
   "status": "proved",
   "theorems": [
    "PyNLO.Xtal.C190_thermal_dispersion",
    "PyNLO.Xtal.C190_period",
    "PyNLO.Xtal.C190_nonvacuous"
   ],
   "note": "both data sources; the order is strict, and the witness is 1064 nm into 1550 nm at 25 and 150 degrees"
  },
  {
   "property": "C191",
   "status": "proved",
   "theorems": [
    "PyNLO.Xtal.C191_tuning",
    "PyNLO.Xtal.C191_invert",
    "PyNLO.Xtal.C191_nonvacuous",
    "PyNLO.Xtal.C191_invert_nonvacuous"
   ],
   "note": "both data sources, default delta_k_L; below degeneracy, since exchanging signal and idler keeps the period (C126)"
  }
 ]
}