{
 "claims": [
  {
   "property": "C01",
   "status": "proved",
   "theorems": [
    "Tftb.Props.C01_divider_closest",
    "Tftb.Props.C01_divider_zero",
    "Tftb.Props.C01_divider_negative"
   ],
   "note": ""
  },
  {
   "property": "C02",
   "status": "proved",
   "theorems": [
    "Tftb.Props.C02_nearest_odd_scalar",
    "Tftb.Props.C02_nearest_odd_array"
   ],
   "note": ""
  },
  {
   "property": "C03",
   "status": "proved",
   "theorems": [
    "Tftb.Props.C03_modulo_real",
    "Tftb.Props.C03_representative_unique",
    "Tftb.Props.C03_modulo_empty",
    "Tftb.Props.C03_modulo_complex",
    "Tftb.Props.C03_modulo_zero"
   ],
   "note": ""
  },
  {
   "property": "C04",
   "status": "proved",
   "theorems": [
    "Tftb.Props.C04_nextpow2_least",
    "Tftb.Props.C04_nextpow2_nonpos"
   ],
   "note": ""
  },
  {
   "property": "C05",
   "status": "proved",
   "theorems": [
    "Tftb.Props.C05_accepts_affine",
    "Tftb.Props.C05_accepted_almost_affine",
    "Tftb.Props.C05_short_not_linear"
   ],
   "note": ""
  },
  {
   "property": "C06",
   "status": "proved",
   "theorems": [
    "Tftb.Props.C06_izak_energy",
    "Tftb.Props.C06_izak_inverts_zak",
    "Tftb.Props.C06_izak_one_dim"
   ],
   "note": ""
  },
  {
   "property": "C07",
   "status": "proved",
   "theorems": [
    "Tftb.Props.C07_default_centre",
    "Tftb.Props.C07_default_spread",
    "Tftb.Props.C07_defaults_explicit",
    "Tftb.Props.C07_amgauss",
    "Tftb.Props.C07_amexpos_bilateral",
    "Tftb.Props.C07_amexpos_unilateral",
    "Tftb.Props.C07_amrect",
    "Tftb.Props.C07_amtriang"
   ],
   "note": ""
  },
  {
   "property": "C08",
   "status": "proved",
   "theorems": [
    "Tftb.Props.C08_reject_empty",
    "Tftb.Props.C08_zero_spread"
   ],
   "note": ""
  },
  {
   "property": "C09",
   "status": "proved",
   "theorems": [
    "Tftb.Props.C09_fmconst",
    "Tftb.Props.C09_fmconst_default",
    "Tftb.Props.C09_fmconst_rejects",
    "Tftb.Props.C09_fmconst_late_centre",
    "Tftb.Props.C09_fmconst_between"
   ],
   "note": ""
  },
  {
   "property": "C10",
   "status": "proved",
   "theorems": [
    "Tftb.Props.C10_fmlin",
    "Tftb.Props.C10_fmlin_default",
    "Tftb.Props.C10_fmlin_one_point",
    "Tftb.Props.C10_fmlin_rejects"
   ],
   "note": ""
  },
  {
   "property": "C11",
   "status": "proved",
   "theorems": [
    "Tftb.Props.C11_fmodany",
    "Tftb.Props.C11_fmodany_rejects_law",
    "Tftb.Props.C11_fmodany_rejects_t0",
    "Tftb.Props.C11_fmodany_column",
    "Tftb.Props.C11_fmodany_negative",
    "Tftb.Props.C11_fmodany_float"
   ],
   "note": ""
  },
  {
   "property": "C12",
   "status": "proved",
   "theorems": [
    "Tftb.Props.C12_fmhyp",
    "Tftb.Props.C12_fmhyp_formula",
    "Tftb.Props.C12_fmhyp_rejects",
    "Tftb.Props.C12_fmpower",
    "Tftb.Props.C12_fmpower_formula",
    "Tftb.Props.C12_fmpower_rejects",
    "Tftb.Props.C12_fmpower_counts",
    "Tftb.Props.C12_fmpower_mirrored",
    "Tftb.Props.C12_fmpower_complex",
    "Tftb.Props.C12_fmpower_not_unit"
   ],
   "note": ""
  },
  {
   "property": "C13",
   "status": "proved",
   "theorems": [
    "Tftb.Props.C13_fmhyp_warning",
    "Tftb.Props.C13_fmpar_warning",
    "Tftb.Props.C13_fmpar_law",
    "Tftb.Props.C13_fmpower_always_warns",
    "Tftb.Props.C13_fmpower_warning"
   ],
   "note": ""
  },
  {
   "property": "C14",
   "status": "proved",
   "theorems": [
    "Tftb.Props.C14_fmsin",
    "Tftb.Props.C14_domain",
    "Tftb.Props.C14_default"
   ],
   "note": ""
  },
  {
   "property": "C15",
   "status": "proved",
   "theorems": [
    "Tftb.Props.C15_fmconst",
    "Tftb.Props.C15_fmlin",
    "Tftb.Props.C15_fmodany"
   ],
   "note": ""
  },
  {
   "property": "C16",
   "status": "proved",
   "theorems": [
    "Tftb.Props.C16_range",
    "Tftb.Props.C16_default"
   ],
   "note": ""
  },
  {
   "property": "C17",
   "status": "proved",
   "theorems": [
    "Tftb.Props.C17_sigmerge",
    "Tftb.Props.C17_sigmerge_other",
    "Tftb.Props.C17_scale_invariance"
   ],
   "note": ""
  },
  {
   "property": "C18",
   "status": "proved",
   "theorems": [
    "Tftb.Props.C18_anaask",
    "Tftb.Props.C18_anabpsk",
    "Tftb.Props.C18_raises",
    "Tftb.Props.C18_negative"
   ],
   "note": ""
  },
  {
   "property": "C19",
   "status": "proved",
   "theorems": [
    "Tftb.Props.C19_anafsk",
    "Tftb.Props.C19_anaqpsk",
    "Tftb.Props.C19_anaqpsk_raises",
    "Tftb.Props.C19_negative",
    "Tftb.Props.C19_both_negative",
    "Tftb.Props.C19_defaults",
    "Tftb.Props.C19_refused",
    "Tftb.Props.C19_single"
   ],
   "note": ""
  },
  {
   "property": "C20",
   "status": "proved",
   "theorems": [
    "Tftb.Props.C20_anapulse",
    "Tftb.Props.C20_anastep",
    "Tftb.Props.C20_default",
    "Tftb.Props.C20_unique",
    "Tftb.Props.C20_empty"
   ],
   "note": ""
  },
  {
   "property": "C21",
   "status": "proved",
   "theorems": [
    "Tftb.Props.C21_noisecu",
    "Tftb.Props.C21_noisecg",
    "Tftb.Props.C21_variance",
    "Tftb.Props.C21_variance_le_one",
    "Tftb.Props.C21_short",
    "Tftb.Props.C21_constant"
   ],
   "note": ""
  },
  {
   "property": "C22",
   "status": "proved",
   "theorems": [
    "Tftb.Props.C22_atoms",
    "Tftb.Props.C22_stack",
    "Tftb.Props.C22_no_samples",
    "Tftb.Props.C22_raises"
   ],
   "note": ""
  },
  {
   "property": "C23",
   "status": "proved",
   "theorems": [
    "Tftb.Props.C23_doppler",
    "Tftb.Props.C23_rejects",
    "Tftb.Props.C23_default",
    "Tftb.Props.C23_single",
    "Tftb.Props.C23_undefined"
   ],
   "note": ""
  },
  {
   "property": "C24",
   "status": "proved",
   "theorems": [
    "Tftb.Props.C24_klauder",
    "Tftb.Props.C24_klauder_peak",
    "Tftb.Props.C24_klauder_rejects",
    "Tftb.Props.C24_altes",
    "Tftb.Props.C24_altes_rejects",
    "Tftb.Props.C24_gdpower",
    "Tftb.Props.C24_gdpower_short",
    "Tftb.Props.C24_gdpower_empty"
   ],
   "note": ""
  },
  {
   "property": "C25",
   "status": "proved",
   "theorems": [
    "Tftb.Props.C25_shape",
    "Tftb.Props.C25_mexhat",
    "Tftb.Props.C25_rejects"
   ],
   "note": ""
  },
  {
   "property": "C26",
   "status": "proved",
   "theorems": [
    "Tftb.Props.C26_even",
    "Tftb.Props.C26_odd"
   ],
   "note": ""
  },
  {
   "property": "C27",
   "status": "proved",
   "theorems": [
    "Tftb.Props.C27_stft",
    "Tftb.Props.C27_default_window",
    "Tftb.Props.C27_never_raises",
    "Tftb.Props.C27_frame"
   ],
   "note": ""
  },
  {
   "property": "C28",
   "status": "proved",
   "theorems": [
    "Tftb.Props.C28_linear"
   ],
   "note": ""
  },
  {
   "property": "C29",
   "status": "proved",
   "theorems": [
    "Tftb.Props.C29_modulation",
    "Tftb.Props.C29_energy_rolls"
   ],
   "note": ""
  },
  {
   "property": "C30",
   "status": "proved",
   "theorems": [
    "Tftb.Props.C30_stft_energy",
    "Tftb.Props.C30_spectrogram_mean",
    "Tftb.Props.C30_spectrogram_bounds",
    "Tftb.Props.C30_spectrogram_unit",
    "Tftb.Props.C30_default_window"
   ],
   "note": ""
  },
  {
   "property": "C31",
   "status": "proved",
   "theorems": [
    "Tftb.Props.C31_closed_form",
    "Tftb.Props.C31_nonneg",
    "Tftb.Props.C31_quadratic",
    "Tftb.Props.C31_modulation",
    "Tftb.Props.C31_undefined"
   ],
   "note": ""
  },
  {
   "property": "C32",
   "status": "proved",
   "theorems": [
    "Tftb.Props.C32_returns_iff",
    "Tftb.Props.C32_raises",
    "Tftb.Props.C32_default"
   ],
   "note": ""
  },
  {
   "property": "C33",
   "status": "proved",
   "theorems": [
    "Tftb.Props.C33_wvd",
    "Tftb.Props.C33_labels"
   ],
   "note": ""
  },
  {
   "property": "C34",
   "status": "proved",
   "theorems": [
    "Tftb.Props.C34_time_marginal",
    "Tftb.Props.C34_energy",
    "Tftb.Props.C34_one_bin"
   ],
   "note": ""
  },
  {
   "property": "C35",
   "status": "proved",
   "theorems": [
    "Tftb.Props.C35_support",
    "Tftb.Props.C35_scale",
    "Tftb.Props.C35_modulation",
    "Tftb.Props.C35_conj",
    "Tftb.Props.C35_reverse",
    "Tftb.Props.C35_delay"
   ],
   "note": ""
  },
  {
   "property": "C36",
   "status": "proved",
   "theorems": [
    "Tftb.Props.C36_pwvd",
    "Tftb.Props.C36_returns_iff",
    "Tftb.Props.C36_raises",
    "Tftb.Props.C36_real",
    "Tftb.Props.C36_time_marginal",
    "Tftb.Props.C36_default",
    "Tftb.Props.C36_rectangular"
   ],
   "note": ""
  },
  {
   "property": "C37",
   "status": "proved",
   "theorems": [
    "Tftb.Props.C37_even_window",
    "Tftb.Props.C37_closed_form",
    "Tftb.Props.C37_time_marginal",
    "Tftb.Props.C37_default",
    "Tftb.Props.C37_undefined",
    "Tftb.Props.C37_long_window"
   ],
   "note": ""
  },
  {
   "property": "C38",
   "status": "proved",
   "theorems": [
    "Tftb.Props.C38_returns_iff",
    "Tftb.Props.C38_margenau_hill",
    "Tftb.Props.C38_default",
    "Tftb.Props.C38_time_marginal",
    "Tftb.Props.C38_freq_marginal"
   ],
   "note": ""
  },
  {
   "property": "C39",
   "status": "proved",
   "theorems": [
    "Tftb.Props.C39_returns_iff",
    "Tftb.Props.C39_page",
    "Tftb.Props.C39_default",
    "Tftb.Props.C39_column_sum",
    "Tftb.Props.C39_row_sum",
    "Tftb.Props.C39_scale",
    "Tftb.Props.C39_not_causal",
    "Tftb.Props.C39_plot_raises"
   ],
   "note": ""
  },
  {
   "property": "C40",
   "status": "proved",
   "theorems": [
    "Tftb.Props.C40_wvd_not_repeatable",
    "Tftb.Props.C40_stft_not_repeatable",
    "Tftb.Props.C40_page_repeatable"
   ],
   "note": ""
  },
  {
   "property": "C41",
   "status": "proved",
   "theorems": [
    "Tftb.Props.C41_wvd_plot",
    "Tftb.Props.C41_spectrogram_plot",
    "Tftb.Props.C41_spectrogram_after_run",
    "Tftb.Props.C41_mh_plot_halves",
    "Tftb.Props.C41_mh_plot_iterated",
    "Tftb.Props.C41_wvd_plot_changes"
   ],
   "note": ""
  },
  {
   "property": "C42",
   "status": "proved",
   "theorems": [
    "Tftb.C42_default_lags",
    "Tftb.C42_returns_iff",
    "Tftb.C42_few_bins",
    "Tftb.C42_closed_form",
    "Tftb.C42_hermitian",
    "Tftb.C42_max_at_origin",
    "Tftb.C42_default"
   ],
   "note": ""
  },
  {
   "property": "C43",
   "status": "proved",
   "theorems": [
    "Tftb.C43_volume",
    "Tftb.C43_half_iff"
   ],
   "note": ""
  },
  {
   "property": "C44",
   "status": "proved",
   "theorems": [
    "Tftb.Props.C44_loctime",
    "Tftb.Props.C44_loctime_zero",
    "Tftb.Props.C44_range",
    "Tftb.Props.C44_scale",
    "Tftb.Props.C44_impulse",
    "Tftb.Props.C44_delay"
   ],
   "note": ""
  },
  {
   "property": "C45",
   "status": "proved",
   "theorems": [
    "Tftb.Props.C45_silent",
    "Tftb.Props.C45_outcomes",
    "Tftb.Props.C45_locfreq",
    "Tftb.Props.C45_bad_length",
    "Tftb.Props.C45_one_sample",
    "Tftb.Props.C45_range",
    "Tftb.Props.C45_scale",
    "Tftb.Props.C45_rotate",
    "Tftb.Props.C45_tone",
    "Tftb.Props.C45_odd_label"
   ],
   "note": ""
  },
  {
   "property": "C46",
   "status": "proved",
   "theorems": [
    "Tftb.Props.C46_group_delay",
    "Tftb.Props.C46_group_delay_at",
    "Tftb.Props.C46_range",
    "Tftb.Props.C46_impulse",
    "Tftb.Props.C46_scale",
    "Tftb.Props.C46_undefined",
    "Tftb.Props.C46_undefined_at"
   ],
   "note": ""
  },
  {
   "property": "C47",
   "status": "proved",
   "theorems": [
    "Tftb.C47_trapezoidal",
    "Tftb.C47_default",
    "Tftb.C47_one_column",
    "Tftb.C47_linear",
    "Tftb.C47_exact",
    "Tftb.C47_nonneg",
    "Tftb.C47_translation",
    "Tftb.C47_nonuniform_wrong"
   ],
   "note": ""
  },
  {
   "property": "C48",
   "status": "proved",
   "theorems": [
    "Tftb.C48_centred_difference",
    "Tftb.C48_antisymmetric",
    "Tftb.C48_sum",
    "Tftb.C48_short",
    "Tftb.C48_spectrum"
   ],
   "note": ""
  },
  {
   "property": "C49",
   "status": "proved",
   "theorems": [
    "Tftb.C49_scale",
    "Tftb.C49_negative",
    "Tftb.C49_time_translation",
    "Tftb.C49_formula",
    "Tftb.C49_cases",
    "Tftb.C49_shannon",
    "Tftb.C49_shannon_returns"
   ],
   "note": ""
  },
  {
   "property": "C50",
   "status": "proved",
   "theorems": [
    "Tftb.C50_freq_sorted",
    "Tftb.C50_freq_order_irrelevant",
    "Tftb.C50_times",
    "Tftb.C50_second_call"
   ],
   "note": ""
  },
  {
   "property": "C51",
   "status": "proved",
   "theorems": [
    "Tftb.C51_marks",
    "Tftb.C51_within_half_bin",
    "Tftb.C51_count",
    "Tftb.C51_default",
    "Tftb.C51_empty",
    "Tftb.C51_label_mismatch",
    "Tftb.C51_nan_misplaced"
   ],
   "note": ""
  },
  {
   "property": "C52",
   "status": "proved",
   "theorems": [
    "Tftb.C52_proportion",
    "Tftb.C52_distribution",
    "Tftb.C52_returns_iff",
    "Tftb.C52_nonneg_returns",
    "Tftb.C52_shape"
   ],
   "note": ""
  },
  {
   "property": "C53",
   "status": "proved",
   "theorems": [
    "Tftb.C53_votes",
    "Tftb.C53_default",
    "Tftb.C53_column_sum",
    "Tftb.C53_nonneg",
    "Tftb.C53_line",
    "Tftb.C53_rho_axis",
    "Tftb.C53_refuses",
    "Tftb.C53_scale",
    "Tftb.C53_opposite"
   ],
   "note": ""
  },
  {
   "property": "C54",
   "status": "proved",
   "theorems": [
    "Tftb.C54_spectrogram_total",
    "Tftb.C54_pwv_column_sums"
   ],
   "note": ""
  },
  {
   "property": "C55",
   "status": "proved",
   "theorems": [
    "Tftb.Props.C55_affine_cross",
    "Tftb.Props.C55_unterberger_form",
    "Tftb.Props.C55_scale",
    "Tftb.C55_reassigned_pmh",
    "Tftb.C55_reassigned_page",
    "Tftb.C55_reassigned_spwv",
    "Tftb.C55_morlet_scalogram",
    "Tftb.C55_pseudo_page",
    "Tftb.Props.C55_gdpower_one"
   ],
   "note": ""
  },
  {
   "property": "C56",
   "status": "proved",
   "theorems": [
    "Tftb.Props.C56_morlet",
    "Tftb.Props.C56_mexhat",
    "Tftb.Props.C56_constant",
    "Tftb.Props.C56_scaling",
    "Tftb.Props.C56_offset",
    "Tftb.Props.C56_too_many_voices",
    "Tftb.Props.C56_short_wavelet",
    "Tftb.Props.C56_too_few_voices",
    "Tftb.Props.C56_negative_wavelet",
    "Tftb.Props.C56_bad_band",
    "Tftb.Props.C56_wavelet_array",
    "Tftb.Props.C56_wavelet_errors",
    "Tftb.Props.C56_wavelet_value_error",
    "Tftb.Props.C56_affine"
   ],
   "note": ""
  },
  {
   "property": "C57",
   "status": "proved",
   "theorems": [
    "Tftb.Props.C57_entries",
    "Tftb.Props.C57_reference",
    "Tftb.Props.C57_lag_zero",
    "Tftb.Props.C57_real_part",
    "Tftb.Props.C57_scaling",
    "Tftb.Props.C57_voices",
    "Tftb.Props.C57_one_voice",
    "Tftb.Props.C57_two_dim",
    "Tftb.Props.C57_band",
    "Tftb.Props.C57_bad_band",
    "Tftb.Props.C57_default_bad",
    "Tftb.Props.C57_two_samples",
    "Tftb.Props.C57_silent",
    "Tftb.Props.C57_tone_band"
   ],
   "note": ""
  },
  {
   "property": "C58",
   "status": "proved",
   "theorems": [
    "Tftb.Props.C58_band",
    "Tftb.Props.C58_given",
    "Tftb.Props.C58_raises",
    "Tftb.Props.C58_constant",
    "Tftb.Props.C58_tone",
    "Tftb.Props.C58_tone_empty_band",
    "Tftb.Props.C58_real_part"
   ],
   "note": ""
  },
  {
   "property": "C59",
   "status": "proved",
   "theorems": [
    "Tftb.Props.C59_coefficients",
    "Tftb.Props.C59_reconstruction",
    "Tftb.Props.C59_linear",
    "Tftb.Props.C59_even_window",
    "Tftb.Props.C59_bad_lattice",
    "Tftb.Props.C59_window_outside",
    "Tftb.Props.C59_default_raises",
    "Tftb.Props.C59_default_empty",
    "Tftb.Props.C59_default_square",
    "Tftb.Props.C59_default_prime",
    "Tftb.Props.C59_every_call",
    "Tftb.Props.C59_default_iff"
   ],
   "note": ""
  },
  {
   "property": "C60",
   "status": "proved",
   "theorems": [
    "Tftb.Props.C60_fmhyp_phase",
    "Tftb.Props.C60_fmsin_phase",
    "Tftb.Props.C60_fmlin_phase",
    "Tftb.Props.C60_fmconst_phase",
    "Tftb.Props.C60_fmpar_phase_wrong"
   ],
   "note": ""
  },
  {
   "property": "C61",
   "status": "proved",
   "theorems": [
    "Tftb.Props.C61_pmh",
    "Tftb.Props.C61_long",
    "Tftb.Props.C61_column_sum",
    "Tftb.Props.C61_default",
    "Tftb.Props.C61_window"
   ],
   "note": ""
  },
  {
   "property": "C62",
   "status": "proved",
   "theorems": [
    "Tftb.C62_too_few",
    "Tftb.C62_last_column",
    "Tftb.C62_last_column_rpwv",
    "Tftb.C62_no_point",
    "Tftb.C62_threshold_ignored",
    "Tftb.C62_default_times",
    "Tftb.C62_shapes"
   ],
   "note": ""
  },
  {
   "property": "C63",
   "status": "proved",
   "theorems": [
    "Tftb.C63_spectrogram_closed",
    "Tftb.C63_impulse",
    "Tftb.C63_tone_misplaced",
    "Tftb.C63_default_short",
    "Tftb.C63_rejects",
    "Tftb.Props.C63_undefined"
   ],
   "note": ""
  },
  {
   "property": "C64",
   "status": "proved",
   "theorems": [
    "Tftb.Props.C64_positive",
    "Tftb.Props.C64_nonpositive",
    "Tftb.Props.C64_even",
    "Tftb.Props.C64_short"
   ],
   "note": ""
  },
  {
   "property": "C65",
   "status": "proved",
   "theorems": [
    "Tftb.Props.C65_dopnoise",
    "Tftb.Props.C65_default",
    "Tftb.Props.C65_undefined",
    "Tftb.Props.C65_silent",
    "Tftb.Props.C65_short"
   ],
   "note": ""
  },
  {
   "property": "C66",
   "status": "proved",
   "theorems": [
    "Tftb.Props.C66_bertrand",
    "Tftb.Props.C66_unterberger",
    "Tftb.Props.C66_flandrin",
    "Tftb.Props.C66_aspwv",
    "Tftb.Props.C66_unknown",
    "Tftb.Props.C66_reflection",
    "Tftb.Props.C66_monotone"
   ],
   "note": ""
  },
  {
   "property": "C67",
   "status": "proved",
   "theorems": [
    "Tftb.Props.C67_value",
    "Tftb.Props.C67_negative",
    "Tftb.Props.C67_ratio",
    "Tftb.Props.C67_increasing"
   ],
   "note": ""
  },
  {
   "property": "C68",
   "status": "proved",
   "theorems": [
    "Tftb.Props.C68_transform",
    "Tftb.Props.C68_marginal",
    "Tftb.Props.C68_run"
   ],
   "note": ""
  },
  {
   "property": "C69",
   "status": "proved",
   "theorems": [
    "Tftb.Props.C69_unterberger_root",
    "Tftb.Props.C69_construct",
    "Tftb.Props.C69_bertrand_limit",
    "Tftb.Props.C69_bertrand_odd",
    "Tftb.Props.C69_voices",
    "Tftb.Props.C69_run_errors",
    "Tftb.Props.C69_no_voice",
    "Tftb.Props.C69_equal_edges",
    "Tftb.Props.C69_reversed"
   ],
   "note": ""
  },
  {
   "property": "C70",
   "status": "proved",
   "theorems": [
    "Tftb.AffSpwv.C70_rank_one",
    "Tftb.AffSpwv.C70_needs",
    "Tftb.AffSpwv.C70_defaults",
    "Tftb.AffSpwv.C70_default_band",
    "Tftb.AffSpwv.C70_bad_band",
    "Tftb.AffSpwv.C70_one_voice",
    "Tftb.AffSpwv.C70_instants",
    "Tftb.AffSpwv.C70_dilations",
    "Tftb.AffSpwv.C70_value"
   ],
   "note": ""
  },
  {
   "property": "C71",
   "status": "proved",
   "theorems": [
    "Tftb.C71_closed",
    "Tftb.C71_outside",
    "Tftb.C71_tone_misplaced",
    "Tftb.C71_impulse",
    "Tftb.C71_long_window",
    "Tftb.C71_refused",
    "Tftb.C71_defaults",
    "Tftb.C71_default_short"
   ],
   "note": ""
  },
  {
   "property": "C72",
   "status": "proved",
   "theorems": [
    "Tftb.Props.C72_stft_image",
    "Tftb.Props.C72_wvd_image",
    "Tftb.Props.C72_pwvd_contour",
    "Tftb.Props.C72_pwvd_image",
    "Tftb.Props.C72_mh_image",
    "Tftb.Props.C72_mh_extent",
    "Tftb.Props.C72_affine",
    "Tftb.Props.C72_affine_refused",
    "Tftb.Props.C72_scalogram",
    "Tftb.Props.C72_spectrogram_returned",
    "Tftb.Props.C72_nothing",
    "Tftb.Props.C72_affine_erases",
    "Tftb.Props.C72_plotifl",
    "Tftb.Props.C72_panel_sizes",
    "Tftb.Props.C72_panel",
    "Tftb.Props.C72_surface",
    "Tftb.Props.C72_surface_square",
    "Tftb.Props.C72_caller_axes",
    "Tftb.Props.C72_single_instant"
   ],
   "note": ""
  },
  {
   "property": "C73",
   "status": "proved",
   "theorems": [
    "Tftb.Props.C73_products",
    "Tftb.Props.C73_determines",
    "Tftb.Props.C73_moyal",
    "Tftb.Props.C73_ambiguity"
   ],
   "note": ""
  },
  {
   "property": "C74",
   "status": "proved",
   "theorems": [
    "Tftb.Props.C74_inverse",
    "Tftb.Props.C74_determines",
    "Tftb.Props.C74_default"
   ],
   "note": ""
  },
  {
   "property": "C75",
   "status": "proved",
   "theorems": [
    "Tftb.Props.C75_returns",
    "Tftb.Props.C75_rows",
    "Tftb.Props.C75_one_bin",
    "Tftb.Props.C75_zero",
    "Tftb.Props.C75_impulse",
    "Tftb.Props.C75_past_end",
    "Tftb.Props.C75_degenerate",
    "Tftb.Props.C75_negative",
    "Tftb.Props.C75_irregular"
   ],
   "note": ""
  },
  {
   "property": "C76",
   "status": "proved",
   "theorems": [
    "Tftb.Props.C76_column",
    "Tftb.Props.C76_row",
    "Tftb.Props.C76_matrix",
    "Tftb.Props.C76_loctime_column",
    "Tftb.Props.C76_loctime_row",
    "Tftb.Props.C76_loctime_square",
    "Tftb.Props.C76_loctime_matrix",
    "Tftb.Props.C76_loctime_silent",
    "Tftb.Props.C76_object"
   ],
   "note": ""
  },
  {
   "property": "C77",
   "status": "proved",
   "theorems": [
    "Tftb.Props.C77_fmlin_chirp",
    "Tftb.Props.C77_fmconst_tone",
    "Tftb.Props.C77_wvd_chirp",
    "Tftb.Props.C77_wvd_fmlin",
    "Tftb.Props.C77_wvd_fmconst",
    "Tftb.Props.C77_pwvd_chirp",
    "Tftb.Props.C77_pwvd_fmlin"
   ],
   "note": ""
  },
  {
   "property": "C78",
   "status": "proved",
   "theorems": [
    "Tftb.Props.C78_stft_tone",
    "Tftb.Props.C78_spectrogram_tone"
   ],
   "note": ""
  },
  {
   "property": "C79",
   "status": "proved",
   "theorems": [
    "Tftb.Props.C79_ambiguity_chirp",
    "Tftb.Props.C79_ambiguity_fmlin"
   ],
   "note": ""
  },
  {
   "property": "C80",
   "status": "proved",
   "theorems": [
    "Tftb.Props.C80_positive_degree",
    "Tftb.Props.C80_law",
    "Tftb.Props.C80_float_degree",
    "Tftb.Props.C80_through_points",
    "Tftb.Props.C80_coefficients"
   ],
   "note": ""
  },
  {
   "property": "C81",
   "status": "proved",
   "theorems": [
    "Tftb.Props.C81_store",
    "Tftb.Props.C81_negative_erased",
    "Tftb.Props.C81_image_refused"
   ],
   "note": ""
  },
  {
   "property": "C82",
   "status": "proved",
   "theorems": [
    "Tftb.Props.C82_default",
    "Tftb.Props.C82_empty_given",
    "Tftb.Props.C82_narrow",
    "Tftb.Props.C82_tone",
    "Tftb.Props.C82_constant",
    "Tftb.Props.C82_impulse",
    "Tftb.Props.C82_zero_edge"
   ],
   "note": ""
  },
  {
   "property": "C83",
   "status": "proved",
   "theorems": [
    "Tftb.Props.C83_wvd",
    "Tftb.Props.C83_pwvd",
    "Tftb.Props.C83_margenau_hill",
    "Tftb.Props.C83_page",
    "Tftb.Props.C83_pmh",
    "Tftb.Props.C83_spectrogram",
    "Tftb.Props.C83_spwv",
    "Tftb.Props.C83_narrow_band",
    "Tftb.Props.C83_two_tones",
    "Tftb.Props.C83_two_tones_pwvd"
   ],
   "note": ""
  },
  {
   "property": "C84",
   "status": "proved",
   "theorems": [
    "Tftb.Props.C84_freq_marginal",
    "Tftb.Props.C84_analytic_marginal",
    "Tftb.Props.C84_inst_freq",
    "Tftb.Props.C84_loctime"
   ],
   "note": ""
  },
  {
   "property": "C85",
   "status": "proved",
   "theorems": [
    "Tftb.Props.C85_two_copies",
    "Tftb.Props.C85_uniform",
    "Tftb.Props.C85_delayed_copy",
    "Tftb.Props.C85_default_axes"
   ],
   "note": ""
  },
  {
   "property": "C86",
   "status": "proved",
   "theorems": [
    "Tftb.Props.C86_stft_delay",
    "Tftb.Props.C86_pwvd_delay",
    "Tftb.Props.C86_spectrogram_delay",
    "Tftb.Props.C86_pmh_delay",
    "Tftb.Props.C86_page_delay",
    "Tftb.Props.C86_mh_delay",
    "Tftb.Props.C86_pwvd_modulation",
    "Tftb.Props.C86_mh_modulation",
    "Tftb.Props.C86_pmh_modulation",
    "Tftb.Props.C86_ambiguity",
    "Tftb.Props.C86_page_modulation",
    "Tftb.Props.C86_spwv_modulation"
   ],
   "note": ""
  },
  {
   "property": "C87",
   "status": "proved",
   "theorems": [
    "Tftb.Props.C87_spectrogram_stft",
    "Tftb.Props.C87_reassigned_spectrogram",
    "Tftb.Props.C87_reassigned_wraps",
    "Tftb.Props.C87_reassigned_pwv"
   ],
   "note": ""
  },
  {
   "property": "C88",
   "status": "proved",
   "theorems": [
    "Tftb.Props.C88_pwvd_any_run",
    "Tftb.Props.C88_pwvd_alternates",
    "Tftb.Props.C88_mh_any_run",
    "Tftb.Props.C88_mh_drifts",
    "Tftb.Props.C88_spectrogram_any_run",
    "Tftb.Props.C88_spectrogram_grows",
    "Tftb.Props.C88_wvd_any_run",
    "Tftb.Props.C88_wvd_alternates",
    "Tftb.Props.C88_stft_any_run",
    "Tftb.Props.C88_stft_alternates",
    "Tftb.Props.C88_pmh_any_run",
    "Tftb.Props.C88_pmh_first_column"
   ],
   "note": ""
  },
  {
   "property": "C89",
   "status": "proved",
   "theorems": [
    "Tftb.Props.C89_wvd",
    "Tftb.Props.C89_stft",
    "Tftb.Props.C89_vanishes"
   ],
   "note": ""
  },
  {
   "property": "C90",
   "status": "proved",
   "theorems": [
    "Tftb.Props.C90_ignored",
    "Tftb.Props.C90_levels",
    "Tftb.Props.C90_wvd",
    "Tftb.Props.C90_not_positive",
    "Tftb.Props.C90_caller_levels",
    "Tftb.Props.C90_two_samples"
   ],
   "note": ""
  },
  {
   "property": "C91",
   "status": "proved",
   "theorems": [
    "Tftb.Props.C91_spectrogram",
    "Tftb.Props.C91_page",
    "Tftb.Props.C91_mh",
    "Tftb.Props.C91_wvd",
    "Tftb.Props.C91_histories",
    "Tftb.Props.C91_wvd_second_run",
    "Tftb.Props.C91_first_run_differs"
   ],
   "note": ""
  },
  {
   "property": "C92",
   "status": "proved",
   "theorems": [
    "Tftb.Props.C92_stft",
    "Tftb.Props.C92_spectrogram",
    "Tftb.Props.C92_wvd",
    "Tftb.Props.C92_pwvd",
    "Tftb.Props.C92_spwv",
    "Tftb.Props.C92_margenau_hill",
    "Tftb.Props.C92_page",
    "Tftb.Props.C92_pmh",
    "Tftb.Props.C92_narrow_band",
    "Tftb.Props.C92_few_bins"
   ],
   "note": ""
  },
  {
   "property": "C93",
   "status": "proved",
   "theorems": [
    "Tftb.Props.C93_stft",
    "Tftb.Props.C93_spectrogram",
    "Tftb.Props.C93_wvd",
    "Tftb.Props.C93_pwvd",
    "Tftb.Props.C93_pmh",
    "Tftb.Props.C93_margenau_hill",
    "Tftb.Props.C93_page",
    "Tftb.Props.C93_spwv",
    "Tftb.Props.C93_narrow_band",
    "Tftb.Props.C93_inst_freq",
    "Tftb.Props.C93_inst_freq_real",
    "Tftb.Props.C93_loctime",
    "Tftb.Props.C93_locfreq",
    "Tftb.Props.C93_locfreq_real"
   ],
   "note": ""
  },
  {
   "property": "C94",
   "status": "proved",
   "theorems": [
    "Tftb.Props.C94_wvd",
    "Tftb.Props.C94_wvd_stable",
    "Tftb.Props.C94_pwvd",
    "Tftb.Props.C94_pwvd_stable",
    "Tftb.Props.C94_stft",
    "Tftb.Props.C94_stft_stable",
    "Tftb.Props.C94_spectrogram",
    "Tftb.Props.C94_margenau_hill",
    "Tftb.Props.C94_page",
    "Tftb.Props.C94_wvd_sharp"
   ],
   "note": ""
  },
  {
   "property": "C95",
   "status": "proved",
   "theorems": [
    "Tftb.Props.C95_stft",
    "Tftb.Props.C95_spectrogram",
    "Tftb.Props.C95_pwvd",
    "Tftb.Props.C95_wvd",
    "Tftb.Props.C95_wvd_reach",
    "Tftb.Props.C95_pmh",
    "Tftb.Props.C95_mh_first",
    "Tftb.Props.C95_page_global",
    "Tftb.Props.C95_inst_freq"
   ],
   "note": ""
  },
  {
   "property": "C96",
   "status": "proved",
   "theorems": [
    "Tftb.Props.C96_time_zero",
    "Tftb.Props.C96_freq_zero",
    "Tftb.Props.C96_not_both",
    "Tftb.Props.C96_no_uncertainty",
    "Tftb.Props.C96_time_max",
    "Tftb.Props.C96_time_max_reached",
    "Tftb.Props.C96_freq_max",
    "Tftb.Props.C96_product_max"
   ],
   "note": ""
  },
  {
   "property": "C97",
   "status": "proved",
   "theorems": [
    "Tftb.Props.C97_stft",
    "Tftb.Props.C97_stft_default",
    "Tftb.Props.C97_spectrogram",
    "Tftb.Props.C97_spectrogram_default",
    "Tftb.Props.C97_pwvd",
    "Tftb.Props.C97_spwv",
    "Tftb.Props.C97_narrow_band",
    "Tftb.Props.C97_inst_freq",
    "Tftb.Props.C97_loctime",
    "Tftb.Props.C97_locfreq",
    "Tftb.Props.C97_group_delay",
    "Tftb.Props.C97_not_reversed"
   ],
   "note": ""
  },
  {
   "property": "C98",
   "status": "proved",
   "theorems": [
    "Tftb.Props.C98_stft",
    "Tftb.Props.C98_wvd",
    "Tftb.Props.C98_pwvd",
    "Tftb.Props.C98_pmh",
    "Tftb.Props.C98_margenau_hill",
    "Tftb.Props.C98_page",
    "Tftb.Props.C98_spectrogram",
    "Tftb.Props.C98_narrow_band",
    "Tftb.Props.C98_inst_freq",
    "Tftb.Props.C98_loctime",
    "Tftb.Props.C98_group_delay",
    "Tftb.Props.C98_locfreq"
   ],
   "note": ""
  },
  {
   "property": "C99",
   "status": "proved",
   "theorems": [
    "Tftb.Props.C99_page",
    "Tftb.Props.C99_margenau_hill",
    "Tftb.Props.C99_pmh",
    "Tftb.Props.C99_wvd",
    "Tftb.Props.C99_pwvd",
    "Tftb.Props.C99_spectrogram",
    "Tftb.Props.C99_again",
    "Tftb.Props.C99_histories",
    "Tftb.Props.C99_spwv",
    "Tftb.Props.C99_narrow_band",
    "Tftb.Props.C99_inst_freq",
    "Tftb.Props.C99_reassigned_pwv",
    "Tftb.Props.C99_reassigned_spectrogram",
    "Tftb.Props.C99_loctime",
    "Tftb.Props.C99_locfreq",
    "Tftb.Props.C99_group_delay",
    "Tftb.Props.C99_group_delay_at",
    "Tftb.Props.C99_zero"
   ],
   "note": ""
  },
  {
   "property": "C100",
   "status": "proved",
   "theorems": [
    "Tftb.Props.C100_band",
    "Tftb.Props.C100_scalogram",
    "Tftb.Props.C100_wide_band",
    "Tftb.Props.C100_constructor",
    "Tftb.Props.C100_affine",
    "Tftb.Props.C100_aspw",
    "Tftb.Props.C100_morlet_scalogram",
    "Tftb.Props.C100_phase"
   ],
   "note": ""
  },
  {
   "property": "C101",
   "status": "proved",
   "theorems": [
    "Tftb.Props.C101_tones",
    "Tftb.Props.C101_chirps",
    "Tftb.Props.C101_laws",
    "Tftb.Props.C101_gaussians",
    "Tftb.Props.C101_conjugate",
    "Tftb.Props.C101_reference",
    "Tftb.Props.C101_invisible",
    "Tftb.Props.C101_same_tone",
    "Tftb.Props.C101_same_chirp",
    "Tftb.Props.C101_backwards",
    "Tftb.Props.C101_delay"
   ],
   "note": ""
  },
  {
   "property": "C102",
   "status": "proved",
   "theorems": [
    "Tftb.C102_spectrogram_consistent",
    "Tftb.C102_pwv_consistent",
    "Tftb.C102_ridges_rsp",
    "Tftb.C102_impulse_no_ridge",
    "Tftb.C102_ridges_rpwv",
    "Tftb.C102_impulse_rpwv",
    "Tftb.C102_friedman_pwv",
    "Tftb.C102_friedman_spectrogram",
    "Tftb.C102_impulse_friedman"
   ],
   "note": ""
  },
  {
   "property": "C103",
   "status": "proved",
   "theorems": [
    "Tftb.Props.C103_friedman",
    "Tftb.Props.C103_ridges",
    "Tftb.Props.C103_hough",
    "Tftb.Props.C103_ridges_pwv",
    "Tftb.Props.C103_ridges_spectrogram",
    "Tftb.Props.C103_friedman_reassigned",
    "Tftb.Props.C103_renyi",
    "Tftb.Props.C103_hough_spwv",
    "Tftb.Props.C103_negative"
   ],
   "note": ""
  },
  {
   "property": "C104",
   "status": "proved",
   "theorems": [
    "Tftb.Props.C104_pwv_shift",
    "Tftb.Props.C104_pwv_conj",
    "Tftb.Props.C104_pwv_delay",
    "Tftb.Props.C104_spectrogram_shift",
    "Tftb.Props.C104_spectrogram_conj",
    "Tftb.Props.C104_spectrogram_delay",
    "Tftb.Props.C104_constant"
   ],
   "note": ""
  },
  {
   "property": "C105",
   "status": "proved",
   "theorems": [
    "Density.C105_returns",
    "Density.C105_order_above",
    "Density.C105_order_below",
    "Density.C105_order_across",
    "Density.C105_shannon",
    "Density.C105_upper",
    "Density.C105_lower",
    "Density.C105_not_monotone"
   ],
   "note": ""
  },
  {
   "property": "C106",
   "status": "proved",
   "theorems": [
    "Tftb.Props.C106_every_size",
    "Tftb.Props.C106_pwvd",
    "Tftb.Props.C106_spwv",
    "Tftb.Props.C106_narrow_band",
    "Tftb.Props.C106_inst_freq",
    "Tftb.Props.C106_loctime",
    "Tftb.Props.C106_reassigned",
    "Tftb.Props.C106_ambiguity_iff",
    "Tftb.Props.C106_half_shift",
    "Tftb.Props.C106_tones",
    "Tftb.Props.C106_told_apart"
   ],
   "note": ""
  },
  {
   "property": "C107",
   "status": "proved",
   "theorems": [
    "Tftb.Props.C107_wvd",
    "Tftb.Props.C107_pwvd",
    "Tftb.Props.C107_stft",
    "Tftb.Props.C107_spectrogram",
    "Tftb.Props.C107_ambiguity",
    "Tftb.Props.C107_gauss_fmlin",
    "Tftb.Props.C107_loctime",
    "Tftb.Props.C107_gauss_centre"
   ],
   "note": ""
  },
  {
   "property": "C108",
   "status": "proved",
   "theorems": [
    "Tftb.Props.C108_tone",
    "Tftb.Props.C108_own_row",
    "Tftb.Props.C108_quarter",
    "Tftb.Props.C108_bound",
    "Tftb.Props.C108_local",
    "Tftb.Props.C108_default"
   ],
   "note": ""
  },
  {
   "property": "C109",
   "status": "proved",
   "theorems": [
    "Tftb.Props.C109_pulse",
    "Tftb.Props.C109_mean",
    "Tftb.Props.C109_symmetric",
    "Tftb.Props.C109_symmetric_bins",
    "Tftb.Props.C109_shift",
    "Tftb.Props.C109_cascade",
    "Tftb.Props.C109_delay"
   ],
   "note": ""
  },
  {
   "property": "C110",
   "status": "proved",
   "theorems": [
    "Tftb.Props.C110_fmhyp",
    "Tftb.Props.C110_fmsin",
    "Tftb.Props.C110_doppler"
   ],
   "note": ""
  },
  {
   "property": "C111",
   "status": "proved",
   "theorems": [
    "Tftb.Props.C111_label",
    "Tftb.Props.C111_fmlin",
    "Tftb.Props.C111_rows"
   ],
   "note": ""
  },
  {
   "property": "C112",
   "status": "proved",
   "theorems": [
    "Tftb.Props.C112_ask",
    "Tftb.Props.C112_bpsk",
    "Tftb.Props.C112_qpsk",
    "Tftb.Props.C112_fsk"
   ],
   "note": ""
  },
  {
   "property": "C113",
   "status": "proved",
   "theorems": [
    "Tftb.Props.C113_spectrogram",
    "Tftb.Props.C113_default",
    "Tftb.Props.C113_spectrogram_gap",
    "Tftb.Props.C113_pwvd",
    "Tftb.Props.C113_pwvd_gap"
   ],
   "note": ""
  },
  {
   "property": "C114",
   "status": "proved",
   "theorems": [
    "Tftb.Props.C114_margenau_hill",
    "Tftb.Props.C114_default",
    "Tftb.Props.C114_pseudo",
    "Tftb.Props.C114_page",
    "Tftb.Props.C114_page_default"
   ],
   "note": ""
  },
  {
   "property": "C115",
   "status": "proved",
   "theorems": [
    "Tftb.Props.C115_inst_freq",
    "Tftb.Props.C115_mean_time",
    "Tftb.Props.C115_loctime",
    "Tftb.Props.C115_locfreq",
    "Tftb.Props.C115_group_delay"
   ],
   "note": ""
  },
  {
   "property": "C116",
   "status": "proved",
   "theorems": [
    "Tftb.Props.C116_row",
    "Tftb.Props.C116_column",
    "Tftb.Props.C116_tone"
   ],
   "note": ""
  },
  {
   "property": "C117",
   "status": "proved",
   "theorems": [
    "Tftb.Props.C117_even",
    "Tftb.Props.C117_odd",
    "Tftb.Props.C117_decay",
    "Tftb.Props.C117_peak",
    "Tftb.Props.C117_energy",
    "Tftb.Props.C117_loctime",
    "Tftb.Props.C117_locfreq",
    "Tftb.Props.C117_step"
   ],
   "note": ""
  },
  {
   "property": "C118",
   "status": "proved",
   "theorems": [
    "Tftb.Props.C118_square",
    "Tftb.Props.C118_quadrature",
    "Tftb.Props.C118_generators",
    "Tftb.Props.C118_noise",
    "Tftb.Props.C118_step_energy",
    "Tftb.Props.C118_marginal",
    "Tftb.Props.C118_marginal_zero",
    "Tftb.Props.C118_tone",
    "Tftb.Props.C118_sum"
   ],
   "note": ""
  },
  {
   "property": "C119",
   "status": "proved",
   "theorems": [
    "Tftb.Props.C119_product",
    "Tftb.Props.C119_pseudo",
    "Tftb.Props.C119_spectrogram"
   ],
   "note": ""
  },
  {
   "property": "C120",
   "status": "proved",
   "theorems": [
    "Tftb.Props.C120_stft",
    "Tftb.Props.C120_spectrogram",
    "Tftb.Props.C120_fmlin",
    "Tftb.Props.C120_reassigned",
    "Tftb.Props.C120_reassigned_pwv"
   ],
   "note": ""
  },
  {
   "property": "C121",
   "status": "proved",
   "theorems": [
    "Tftb.Props.C121_modulate",
    "Tftb.Props.C121_delay",
    "Tftb.Props.C121_conj",
    "Tftb.Props.C121_injective",
    "Tftb.Props.C121_critical",
    "Tftb.Props.C121_default",
    "Tftb.Props.C121_window_gain"
   ],
   "note": ""
  },
  {
   "property": "C122",
   "status": "proved",
   "theorems": [
    "Tftb.Props.C122_parity_wvd",
    "Tftb.Props.C122_parity_pwvd",
    "Tftb.Props.C122_parity_spwv",
    "Tftb.Props.C122_parity_narrow_band",
    "Tftb.Props.C122_far_pwvd",
    "Tftb.Props.C122_far_pmh",
    "Tftb.Props.C122_far_spectrogram",
    "Tftb.Props.C122_impulses_wvd",
    "Tftb.Props.C122_impulses_margenau_hill",
    "Tftb.Props.C122_impulses_page"
   ],
   "note": ""
  },
  {
   "property": "C123",
   "status": "proved",
   "theorems": [
    "Tftb.Props.C123_response_max",
    "Tftb.Props.C123_morlet_tone",
    "Tftb.Props.C123_edge_tone",
    "Tftb.Props.C123_mexhat_tone",
    "Tftb.Props.C123_linear"
   ],
   "note": ""
  },
  {
   "property": "C124",
   "status": "proved",
   "theorems": [
    "Tftb.Props.C124_scale",
    "Tftb.Props.C124_reflect",
    "Tftb.Props.C124_same",
    "Tftb.Props.C124_tail",
    "Tftb.Props.C124_shift",
    "Tftb.Props.C124_reverse",
    "Tftb.Props.C124_dop_rest"
   ],
   "note": ""
  },
  {
   "property": "C125",
   "status": "proved",
   "theorems": [
    "Tftb.Props.C125_wvd",
    "Tftb.Props.C125_one",
    "Tftb.Props.C125_two",
    "Tftb.Props.C125_inst_freq",
    "Tftb.Props.C125_ambiguity"
   ],
   "note": ""
  },
  {
   "property": "C126",
   "status": "proved",
   "theorems": [
    "Tftb.Props.C126_margenau_hill",
    "Tftb.Props.C126_page",
    "Tftb.Props.C126_spectrogram",
    "Tftb.Props.C126_narrow_band",
    "Tftb.Props.C126_loctime",
    "Tftb.Props.C126_locfreq"
   ],
   "note": ""
  },
  {
   "property": "C127",
   "status": "proved",
   "theorems": [
    "Tftb.Props.C127_stft",
    "Tftb.Props.C127_spectrogram",
    "Tftb.Props.C127_pwvd",
    "Tftb.Props.C127_fsk_spectrogram",
    "Tftb.Props.C127_fsk_pwvd",
    "Tftb.Props.C127_keyed",
    "Tftb.Props.C127_psk",
    "Tftb.Props.C127_ask"
   ],
   "note": ""
  },
  {
   "property": "C128",
   "status": "proved",
   "theorems": [
    "Tftb.Props.C128_wvd_even",
    "Tftb.Props.C128_wvd_odd",
    "Tftb.Props.C128_wvd_copies",
    "Tftb.Props.C128_determines",
    "Tftb.Props.C128_narrow_band",
    "Tftb.Props.C128_loctime",
    "Tftb.Props.C128_inst_freq"
   ],
   "note": ""
  },
  {
   "property": "C129",
   "status": "proved",
   "theorems": [
    "Tftb.Props.C129_instant",
    "Tftb.Props.C129_capture",
    "Tftb.Props.C129_capture_second",
    "Tftb.Props.C129_noise",
    "Tftb.Props.C129_beat"
   ],
   "note": ""
  },
  {
   "property": "C130",
   "status": "proved",
   "theorems": [
    "Tftb.Props.C130_symmetric",
    "Tftb.Props.C130_amrect",
    "Tftb.Props.C130_amtriang",
    "Tftb.Props.C130_centre"
   ],
   "note": ""
  },
  {
   "property": "C131",
   "status": "proved",
   "theorems": [
    "Tftb.Props.C131_detect",
    "Tftb.Props.C131_snr",
    "Tftb.Props.C131_fmconst",
    "Tftb.Props.C131_sharp",
    "Tftb.Props.C131_two_tones"
   ],
   "note": ""
  },
  {
   "property": "C132",
   "status": "proved",
   "theorems": [
    "Tftb.Props.C132_sum",
    "Tftb.Props.C132_energy",
    "Tftb.Props.C132_inflection",
    "Tftb.Props.C132_duration",
    "Tftb.Props.C132_duration_anywhere"
   ],
   "note": ""
  },
  {
   "property": "C133",
   "status": "proved",
   "theorems": [
    "Tftb.Props.C133_uncertainty",
    "Tftb.Props.C133_silent_end",
    "Tftb.Props.C133_variation"
   ],
   "note": ""
  },
  {
   "property": "C134",
   "status": "proved",
   "theorems": [
    "Tftb.Props.C134_nonneg",
    "Tftb.Props.C134_bandwidth"
   ],
   "note": ""
  },
  {
   "property": "C135",
   "status": "proved",
   "theorems": [
    "Tftb.Props.C135_unilateral",
    "Tftb.Props.C135_bilateral"
   ],
   "note": ""
  },
  {
   "property": "C136",
   "status": "proved",
   "theorems": [
    "Tftb.Props.C136_range",
    "Tftb.Props.C136_projection"
   ],
   "note": ""
  },
  {
   "property": "C137",
   "status": "proved",
   "theorems": [
    "Tftb.Props.C137_time",
    "Tftb.Props.C137_freq",
    "Tftb.Props.C137_sigmerge"
   ],
   "note": ""
  },
  {
   "property": "C138",
   "status": "proved",
   "theorems": [
    "Tftb.Props.C138_returns"
   ],
   "note": ""
  },
  {
   "property": "C139",
   "status": "proved",
   "theorems": [
    "Tftb.Props.C139_two",
    "Tftb.Props.C139_products",
    "Tftb.Props.C139_edge",
    "Tftb.Props.C139_geometric",
    "Tftb.Props.C139_shannon"
   ],
   "note": ""
  },
  {
   "property": "C140",
   "status": "proved",
   "theorems": [
    "Tftb.Props.C140_products",
    "Tftb.Props.C140_flat",
    "Tftb.Props.C140_two",
    "Tftb.Props.C140_default",
    "Tftb.Props.C140_default_shannon",
    "Tftb.Props.C140_first",
    "Tftb.Props.C140_shannon",
    "Tftb.Props.C140_mean",
    "Tftb.Props.C140_page",
    "Tftb.Props.C140_page_shannon"
   ],
   "note": ""
  }
 ]
}