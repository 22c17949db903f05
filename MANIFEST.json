{
 "claims": [
  {
   "property": "C01",
   "status": "proved",
   "theorems": [
    "Verif.Props.C01_unpack",
    "Verif.Props.C01_pack",
    "Verif.Props.C01_pack_value",
    "Verif.Props.C01_pack_short",
    "Verif.Props.C01_pack_long"
   ],
   "note": ""
  },
  {
   "property": "C02",
   "status": "proved",
   "theorems": [
    "Verif.Props.C02_bits_to_bytes",
    "Verif.Props.C02_bits_roundtrip",
    "Verif.Props.C02_bytes_roundtrip"
   ],
   "note": ""
  },
  {
   "property": "C03",
   "status": "proved",
   "theorems": [
    "Verif.Props.C03_chunks",
    "Verif.Props.C03_chunks_zero"
   ],
   "note": ""
  },
  {
   "property": "C04",
   "status": "partial",
   "theorems": [
    "Verif.Props.C04_wchunks_all",
    "Verif.Props.C04_wchunks_partial",
    "Verif.Props.C04_wchunks_extra_chunk",
    "Verif.Props.C04_wchunks_refuted"
   ],
   "note": "False as stated when the chunk size divides the length: a whole chunk of defaults is appended (C04_wchunks_extra_chunk, C04_wchunks_refuted). Proved for every other length."
  },
  {
   "property": "C05",
   "status": "partial",
   "theorems": [
    "Verif.Props.C05_inflate_partial",
    "Verif.Props.C05_inflate_zero_diverges",
    "Verif.Props.C05_inflate_refuted"
   ],
   "note": "False for 0 copies of a non-empty source: the stream never ends (C05_inflate_zero_diverges). Proved for every positive number of copies."
  },
  {
   "property": "C06",
   "status": "proved",
   "theorems": [
    "Verif.Props.C06_integrate",
    "Verif.Props.C06_nintegrate"
   ],
   "note": ""
  },
  {
   "property": "C07",
   "status": "proved",
   "theorems": [
    "Verif.Props.C07_integrate_and_dump",
    "Verif.Props.C07_nintegrate_and_dump",
    "Verif.Props.C07_period_zero_never_ends",
    "Verif.Props.C07_nperiod_zero_never_ends"
   ],
   "note": ""
  },
  {
   "property": "C08",
   "status": "partial",
   "theorems": [
    "Verif.Props.C08_convolve_actual",
    "Verif.Props.C08_convolve_partial",
    "Verif.Props.C08_convolve_symmetric_partial",
    "Verif.Props.C08_convolve_refuted",
    "Verif.Props.C08_convolve_short_refuted"
   ],
   "note": "False as stated: the filter is applied time-reversed and the tail is short when the filter is longer than the signal. The exact output is C08_convolve_actual; the claim is proved for constant filters not longer than the signal."
  },
  {
   "property": "C09",
   "status": "proved",
   "theorems": [
    "Verif.Props.C09_nonvolve"
   ],
   "note": ""
  },
  {
   "property": "C10",
   "status": "proved",
   "theorems": [
    "Verif.Props.C10_take_every",
    "Verif.Props.C10_take_every_doc",
    "Verif.Props.C10_take_every_zero_panics"
   ],
   "note": ""
  },
  {
   "property": "C11",
   "status": "proved",
   "theorems": [
    "Verif.Props.C11_scale"
   ],
   "note": ""
  },
  {
   "property": "C12",
   "status": "proved",
   "theorems": [
    "Verif.Props.C12_chunks",
    "Verif.Props.C12_wchunks",
    "Verif.Props.C12_inflate",
    "Verif.Props.C12_integrate",
    "Verif.Props.C12_integrate_and_dump",
    "Verif.Props.C12_convolve",
    "Verif.Props.C12_scale",
    "Verif.Props.C12_take_every",
    "Verif.Props.C12_nintegrate",
    "Verif.Props.C12_nintegrate_and_dump",
    "Verif.Props.C12_nonvolve"
   ],
   "note": ""
  },
  {
   "property": "C13",
   "status": "proved",
   "theorems": [
    "Verif.Props.C13_position",
    "Verif.Props.C13_length",
    "Verif.Props.C13_perm",
    "Verif.Props.C13_even",
    "Verif.Props.C13_odd",
    "Verif.Props.C13_involutive_iff"
   ],
   "note": ""
  },
  {
   "property": "C14",
   "status": "partial",
   "theorems": [
    "Verif.Props.C14_fftshift_mut_identity",
    "Verif.Props.C14_fftshift_mut_partial",
    "Verif.Props.C14_refuted"
   ],
   "note": "False as stated: fftshift_mut leaves its argument unchanged (C14_fftshift_mut_identity). Proved where fftshift is the identity."
  },
  {
   "property": "C15",
   "status": "proved",
   "theorems": [
    "Verif.Props.C15_length",
    "Verif.Props.C15_points",
    "Verif.Props.C15_increasing"
   ],
   "note": ""
  },
  {
   "property": "C16",
   "status": "proved",
   "theorems": [
    "Verif.Props.C16_value",
    "Verif.Props.C16_symm",
    "Verif.Props.C16_range",
    "Verif.Props.C16_zero_iff",
    "Verif.Props.C16_one_iff"
   ],
   "note": ""
  },
  {
   "property": "C17",
   "status": "partial",
   "theorems": [
    "Verif.Props.C17_false",
    "Verif.Props.C17_complex_false",
    "Verif.Props.C17_partial",
    "Verif.Props.C17_finite_partial",
    "Verif.Props.C17_complex_partial"
   ],
   "note": "False as stated: NaN is never detected. Proved: a vector is rejected exactly when it contains an infinity."
  },
  {
   "property": "C18",
   "status": "proved",
   "theorems": [
    "Verif.Props.C18_is_int",
    "Verif.Props.C18_guard",
    "Verif.Props.C18_bound_sharp"
   ],
   "note": ""
  },
  {
   "property": "C19",
   "status": "proved",
   "theorems": [
    "Verif.Props.C19_entries",
    "Verif.Props.C19_symmetric",
    "Verif.Props.C19_first_row",
    "Verif.Props.C19_orthogonal",
    "Verif.Props.C19_inner_product",
    "Verif.Props.C19_panics"
   ],
   "note": ""
  },
  {
   "property": "C20",
   "status": "partial",
   "theorems": [
    "Verif.Props.C20_panics",
    "Verif.Props.C20_refuted",
    "Verif.Props.C20_key_partial",
    "Verif.Props.C20_wraps",
    "Verif.Props.C20_distinct_users"
   ],
   "note": "False as stated: key(u) panics exactly when u = n-1 modulo n (C20_panics). The rest is proved."
  },
  {
   "property": "C21",
   "status": "proved",
   "theorems": [
    "Verif.Props.C21_spread",
    "Verif.Props.C21_roundtrip"
   ],
   "note": ""
  },
  {
   "property": "C22",
   "status": "proved",
   "theorems": [
    "Verif.Props.C22_tolerance"
   ],
   "note": ""
  },
  {
   "property": "C23",
   "status": "proved",
   "theorems": [
    "Verif.Props.C23_orthogonal",
    "Verif.Props.C23_walsh"
   ],
   "note": ""
  },
  {
   "property": "C24",
   "status": "proved",
   "theorems": [
    "Verif.Props.C24_symbols",
    "Verif.Props.C24_roundtrip",
    "Verif.Props.C24_receiver"
   ],
   "note": ""
  },
  {
   "property": "C25",
   "status": "proved",
   "theorems": [
    "Verif.Props.C25_roundtrip_ieee",
    "Verif.Props.C25_accurate",
    "Verif.Props.C25_decision",
    "Verif.Props.C25_roundtrip",
    "Verif.Props.C25_one_sample_fails"
   ],
   "note": ""
  },
  {
   "property": "C26",
   "status": "proved",
   "theorems": [
    "Verif.Props.C26_panics_ieee",
    "Verif.Props.C26_panics",
    "Verif.Props.C26_panics_real",
    "Verif.Props.C26_waveform",
    "Verif.Props.C26_negation"
   ],
   "note": ""
  },
  {
   "property": "C27",
   "status": "proved",
   "theorems": [
    "Verif.Props.C27_symbols",
    "Verif.Props.C27_roundtrip",
    "Verif.Props.C27_roundtrip_even"
   ],
   "note": ""
  },
  {
   "property": "C28",
   "status": "proved",
   "theorems": [
    "Verif.Props.C28_accurate",
    "Verif.Props.C28_decision",
    "Verif.Props.C28_roundtrip_iff",
    "Verif.Props.C28_roundtrip",
    "Verif.Props.C28_zero_carrier_fails"
   ],
   "note": ""
  },
  {
   "property": "C29",
   "status": "proved",
   "theorems": [
    "Verif.Props.C29_guards",
    "Verif.Props.C29_roundtrip",
    "Verif.Props.C29_complement",
    "Verif.Props.C29_guards_ieee",
    "Verif.Props.C29_accurate"
   ],
   "note": ""
  },
  {
   "property": "C30",
   "status": "proved",
   "theorems": [
    "Verif.Props.C30_decision",
    "Verif.Props.C30_separation",
    "Verif.Props.C30_channel_exists",
    "Verif.Props.C30_walsh",
    "Verif.Props.C30_noisy_ieee",
    "Verif.Props.C30_adder_ieee",
    "Verif.Props.C30_separation_ieee"
   ],
   "note": ""
  },
  {
   "property": "C31",
   "status": "proved",
   "theorems": [
    "Verif.Props.C31_roundtrip",
    "Verif.Props.C31_accurate"
   ],
   "note": ""
  },
  {
   "property": "C32",
   "status": "proved",
   "theorems": [
    "Verif.Props.C32_carriers",
    "Verif.Props.C32_guard_bands",
    "Verif.Props.C32_panics",
    "Verif.Props.C32_no_dc"
   ],
   "note": ""
  },
  {
   "property": "C33",
   "status": "partial",
   "theorems": [
    "Verif.Props.C33_roundtrip_ieee_partial",
    "Verif.Props.C33_bits_ieee_partial",
    "Verif.Props.C33_roundtrip_partial",
    "Verif.Props.C33_bits_partial",
    "Verif.Props.C33_refuted"
   ],
   "note": "False for every odd carrier count (C33_refuted); proved for every even one, over the reals with the exact DFT and in IEEE arithmetic with any accurate transform."
  },
  {
   "property": "C34",
   "status": "proved",
   "theorems": [
    "Verif.Props.C34_cyclic_prefix"
   ],
   "note": ""
  },
  {
   "property": "C35",
   "status": "partial",
   "theorems": [
    "Verif.Props.C35_count_partial",
    "Verif.Props.C35_refuted"
   ],
   "note": "False with one sample per symbol (C35_refuted); proved in any arithmetic from two samples per symbol on."
  },
  {
   "property": "C36",
   "status": "partial",
   "theorems": [
    "Verif.Props.C36_blocks_partial",
    "Verif.Props.C36_refuted",
    "Verif.Props.C36_range",
    "Verif.Props.C36_same_hops",
    "Verif.Props.C36_range_ieee"
   ],
   "note": "False for 0 or 1 frequencies, where a hop panics (C36_refuted); proved from two on."
  },
  {
   "property": "C37",
   "status": "proved",
   "theorems": [
    "Verif.Props.C37_decision",
    "Verif.Props.C37_roundtrip",
    "Verif.Props.C37_waveform",
    "Verif.Props.C37_roundtrip_ieee"
   ],
   "note": ""
  },
  {
   "property": "C38",
   "status": "partial",
   "theorems": [
    "Verif.Props.C38_length",
    "Verif.Props.C38_chirp",
    "Verif.Props.C38_upchirp_partial",
    "Verif.Props.C38_down_is_up",
    "Verif.Props.C38_refuted"
   ],
   "note": "False for the centred down-chirp, which is the up-chirp (C38_down_is_up, C38_refuted); the rest is proved."
  },
  {
   "property": "C39",
   "status": "proved",
   "theorems": [
    "Verif.Props.C39_waveform"
   ],
   "note": ""
  },
  {
   "property": "C40",
   "status": "proved",
   "theorems": [
    "Verif.Props.C40_panics",
    "Verif.Props.C40_mfsk",
    "Verif.Props.C40_list",
    "Verif.Props.C40_list_short",
    "Verif.Props.C40_waveform"
   ],
   "note": ""
  },
  {
   "property": "C41",
   "status": "proved",
   "theorems": [
    "Verif.Props.C41_offset",
    "Verif.Props.C41_energy_shift",
    "Verif.Props.C41_roundtrip_iff",
    "Verif.Props.C41_roundtrip",
    "Verif.Props.C41_roundtrip_orthogonal",
    "Verif.Props.C41_one_sample",
    "Verif.Props.C41_roundtrip_ieee",
    "Verif.Props.C41_orthogonal_ieee"
   ],
   "note": ""
  },
  {
   "property": "C42",
   "status": "proved",
   "theorems": [
    "Verif.Props.C42_waveform"
   ],
   "note": ""
  },
  {
   "property": "C43",
   "status": "proved",
   "theorems": [
    "Verif.Props.C43_orbit",
    "Verif.Props.C43_guard",
    "Verif.Props.C43_logistic",
    "Verif.Props.C43_mu_sharp",
    "Verif.Props.C43_tent",
    "Verif.Props.C43_tent_shape",
    "Verif.Props.C43_bernoulli",
    "Verif.Props.C43_bernoulli_shape",
    "Verif.Props.C43_guard_ieee",
    "Verif.Props.C43_logistic_ieee",
    "Verif.Props.C43_tent_ieee",
    "Verif.Props.C43_bernoulli_ieee"
   ],
   "note": ""
  },
  {
   "property": "C44",
   "status": "partial",
   "theorems": [
    "Verif.Props.C44_guard",
    "Verif.Props.C44_refuted",
    "Verif.Props.C44_zero_partial",
    "Verif.Props.C44_overflows"
   ],
   "note": "False for every start but 0 (C44_refuted; C44_overflows in IEEE arithmetic); holds exactly for the start 0."
  },
  {
   "property": "C45",
   "status": "proved",
   "theorems": [
    "Verif.Props.C45_decision",
    "Verif.Props.C45_roundtrip",
    "Verif.Props.C45_gain",
    "Verif.Props.C45_roundtrip_ieee"
   ],
   "note": ""
  },
  {
   "property": "C46",
   "status": "proved",
   "theorems": [
    "Verif.Props.C46_decision",
    "Verif.Props.C46_roundtrip",
    "Verif.Props.C46_margin",
    "Verif.Props.C46_iff_ieee"
   ],
   "note": ""
  },
  {
   "property": "C47",
   "status": "proved",
   "theorems": [
    "Verif.Props.C47_roundtrip",
    "Verif.Props.C47_extra_frame",
    "Verif.Props.C47_ieee_overflow"
   ],
   "note": ""
  },
  {
   "property": "C48",
   "status": "proved",
   "theorems": [
    "Verif.Props.C48_corrects",
    "Verif.Props.C48_roundtrip",
    "Verif.Props.C48_length",
    "Verif.Props.C48_systematic",
    "Verif.Props.C48_short_tail_panics"
   ],
   "note": ""
  },
  {
   "property": "C49",
   "status": "proved",
   "theorems": [
    "Verif.Props.C49_roundtrip",
    "Verif.Props.C49_corrects",
    "Verif.Props.C49_accurate"
   ],
   "note": ""
  },
  {
   "property": "C50",
   "status": "partial",
   "theorems": [
    "Verif.Props.C50_partial",
    "Verif.Props.C50_false"
   ],
   "note": "False as stated: a fresh loop outputs zeros for ever, for every finite signal, in IEEE arithmetic (C50_partial is the exact behaviour)."
  },
  {
   "property": "C51",
   "status": "partial",
   "theorems": [
    "Verif.Props.C51_length",
    "Verif.Props.C51_false",
    "Verif.Props.C51_singular_not_finite",
    "Verif.Props.C51_partial",
    "Verif.Props.C51_symmetric_partial",
    "Verif.Props.C51_spec_continuous"
   ],
   "note": "False for symbol lengths other than 1 and at the singular times; proved elsewhere (C51_partial, C51_symmetric_partial, C51_length)."
  },
  {
   "property": "C52",
   "status": "proved",
   "theorems": [
    "Verif.Props.C52_values",
    "Verif.Props.C52_bounds",
    "Verif.Props.C52_start",
    "Verif.Props.C52_symm",
    "Verif.Props.C52_complex",
    "Verif.Props.C52_ieee"
   ],
   "note": ""
  },
  {
   "property": "C53",
   "status": "partial",
   "theorems": [
    "Verif.Props.C53_energy",
    "Verif.Props.C53_nonneg",
    "Verif.Props.C53_additive",
    "Verif.Props.C53_scaling",
    "Verif.Props.C53_avg_energy",
    "Verif.Props.C53_power_actual",
    "Verif.Props.C53_power_partial",
    "Verif.Props.C53_power_refuted"
   ],
   "note": "The power clause is false: the code divides by n-1 (C53_power_actual, C53_power_refuted). The other clauses are proved."
  },
  {
   "property": "C54",
   "status": "proved",
   "theorems": [
    "Verif.Props.C54_undb_db",
    "Verif.Props.C54_db_undb",
    "Verif.Props.C54_db_mul"
   ],
   "note": ""
  },
  {
   "property": "C55",
   "status": "partial",
   "theorems": [
    "Verif.Props.C55_odd_partial",
    "Verif.Props.C55_zero",
    "Verif.Props.C55_zero_refuted",
    "Verif.Props.C55_erfc",
    "Verif.Props.C55_range"
   ],
   "note": "Odd symmetry is false at 0 (C55_zero, C55_zero_refuted); proved elsewhere, as are the range and the complement."
  },
  {
   "property": "C56",
   "status": "proved",
   "theorems": [
    "Verif.Props.C56_awgn",
    "Verif.Props.C56_awgn_complex",
    "Verif.Props.C56_awgn_py",
    "Verif.Props.C56_pure_awgn",
    "Verif.Props.C56_panics",
    "Verif.Props.C56_panics_complex",
    "Verif.Props.C56_no_noise",
    "Verif.Props.C56_scaled"
   ],
   "note": ""
  },
  {
   "property": "C57",
   "status": "proved",
   "theorems": [
    "Verif.Props.C57_shape",
    "Verif.Props.C57_incomplete",
    "Verif.Props.C57_spectrum",
    "Verif.Props.C57_idempotent",
    "Verif.Props.C57_allpass",
    "Verif.Props.C57_linear"
   ],
   "note": ""
  },
  {
   "property": "C58",
   "status": "proved",
   "theorems": [
    "Verif.Props.C58_guard",
    "Verif.Props.C58_shape",
    "Verif.Props.C58_formula",
    "Verif.Props.C58_scale",
    "Verif.Props.C58_py",
    "Verif.Props.C58_max_cut_shift",
    "Verif.Props.C58_dcs_invariant"
   ],
   "note": ""
  },
  {
   "property": "C59",
   "status": "partial",
   "theorems": [
    "Verif.Props.C59_in_range_ieee",
    "Verif.Props.C59_ieee_partial",
    "Verif.Props.C59_refuted",
    "Verif.Props.C59_in_range",
    "Verif.Props.C59_placed",
    "Verif.Props.C59_collision",
    "Verif.Props.C59_py"
   ],
   "note": "True in exact arithmetic (C59_in_range, C59_placed). In double precision the cells stay in range (C59_in_range_ieee) but an index can be rounded down by one: for n = 12, np = 4 entry (4,1) is lost (C59_refuted). Proved in doubles for powers of two (C59_ieee_partial)."
  },
  {
   "property": "C60",
   "status": "partial",
   "theorems": [
    "Verif.Props.C60_max_cut",
    "Verif.Props.C60_dcs_partial",
    "Verif.Props.C60_dcs_silence",
    "Verif.Props.C60_max_cut_signal",
    "Verif.Props.C60_dcs_signal_partial"
   ],
   "note": "The last clause is false: dcs_detector panics on a silent spectrum in IEEE arithmetic (C60_dcs_silence). The formulas are proved."
  },
  {
   "property": "C61",
   "status": "proved",
   "theorems": [
    "Verif.Props.C61_fires",
    "Verif.Props.C61_monotone",
    "Verif.Props.C61_db_monotone",
    "Verif.Props.C61_db_scale"
   ],
   "note": ""
  },
  {
   "property": "C62",
   "status": "proved",
   "theorems": [
    "Verif.Props.C62_guard",
    "Verif.Props.C62_csk",
    "Verif.Props.C62_dcsk",
    "Verif.Props.C62_zero_rate",
    "Verif.Props.C62_cdma_key"
   ],
   "note": ""
  },
  {
   "property": "C63",
   "status": "proved",
   "theorems": [
    "Verif.Props.C63_two_users"
   ],
   "note": ""
  },
  {
   "property": "C64",
   "status": "proved",
   "theorems": [
    "Verif.Props.C64_waveform"
   ],
   "note": ""
  },
  {
   "property": "C65",
   "status": "proved",
   "theorems": [
    "Verif.Props.C65_bpsk",
    "Verif.Props.C65_qpsk",
    "Verif.Props.C65_bfsk",
    "Verif.Props.C65_fh_css",
    "Verif.Props.C65_chirp",
    "Verif.Props.C65_baseband_bpsk",
    "Verif.Props.C65_cdma_bpsk"
   ],
   "note": ""
  },
  {
   "property": "C66",
   "status": "proved",
   "theorems": [
    "Verif.Props.C66_roundtrip",
    "Verif.Props.C66_roundtrip_full"
   ],
   "note": ""
  },
  {
   "property": "C67",
   "status": "proved",
   "theorems": [
    "Verif.Props.C67_frames",
    "Verif.Props.C67_passband",
    "Verif.Props.C67_hopping"
   ],
   "note": ""
  },
  {
   "property": "C68",
   "status": "proved",
   "theorems": [
    "Verif.Props.C68_tones"
   ],
   "note": ""
  },
  {
   "property": "C69",
   "status": "proved",
   "theorems": [
    "Verif.Props.C69_ofdm_lengths",
    "Verif.Props.C69_ofdm_roundtrip",
    "Verif.Props.C69_fh_ofdm_length"
   ],
   "note": ""
  },
  {
   "property": "C70",
   "status": "proved",
   "theorems": [
    "Verif.Props.C70_frames",
    "Verif.Props.C70_local",
    "Verif.Props.C70_codec_exists"
   ],
   "note": ""
  },
  {
   "property": "C71",
   "status": "proved",
   "theorems": [
    "Verif.Props.C71_bpsk",
    "Verif.Props.C71_qpsk",
    "Verif.Props.C71_cdma_accepts",
    "Verif.Props.C71_cdma_bpsk",
    "Verif.Props.C71_cdma_qpsk",
    "Verif.Props.C71_hopping",
    "Verif.Props.C71_fsk"
   ],
   "note": ""
  },
  {
   "property": "C72",
   "status": "proved",
   "theorems": [
    "Verif.Props.C72_bpsk",
    "Verif.Props.C72_qpsk",
    "Verif.Props.C72_cdma_bpsk",
    "Verif.Props.C72_cdma_qpsk",
    "Verif.Props.C72_hopping",
    "Verif.Props.C72_fsk",
    "Verif.Props.C72_inverted"
   ],
   "note": ""
  },
  {
   "property": "C73",
   "status": "proved",
   "theorems": [
    "Verif.Props.C73_bpsk",
    "Verif.Props.C73_bpsk_sharp",
    "Verif.Props.C73_cdma_bpsk",
    "Verif.Props.C73_hopping",
    "Verif.Props.C73_qpsk",
    "Verif.Props.C73_cdma_qpsk",
    "Verif.Props.C73_fsk"
   ],
   "note": ""
  },
  {
   "property": "C74",
   "status": "proved",
   "theorems": [
    "Verif.Props.C74_tx_bpsk",
    "Verif.Props.C74_tx_qpsk",
    "Verif.Props.C74_tx_cdma_bpsk",
    "Verif.Props.C74_tx_cdma_qpsk",
    "Verif.Props.C74_tx_bfsk",
    "Verif.Props.C74_tx_fsk",
    "Verif.Props.C74_tx_fm",
    "Verif.Props.C74_tx_hopping",
    "Verif.Props.C74_rx_bpsk",
    "Verif.Props.C74_rx_qpsk",
    "Verif.Props.C74_rx_cdma_bpsk",
    "Verif.Props.C74_rx_cdma_qpsk",
    "Verif.Props.C74_rx_fsk",
    "Verif.Props.C74_rx_hopping",
    "Verif.Props.C74_link_bpsk",
    "Verif.Props.C74_link_qpsk",
    "Verif.Props.C74_link_cdma_bpsk",
    "Verif.Props.C74_link_cdma_qpsk",
    "Verif.Props.C74_link_fsk",
    "Verif.Props.C74_link_hopping",
    "Verif.Props.C74_ofdm_tx",
    "Verif.Props.C74_ofdm_rx",
    "Verif.Props.C74_tx_ofdm",
    "Verif.Props.C74_bytes",
    "Verif.Props.C74_encode",
    "Verif.Props.C74_decode",
    "Verif.Props.C74_endless_bpsk",
    "Verif.Props.C74_endless_cdma",
    "Verif.Props.C74_endless_qpsk",
    "Verif.Props.C74_fsk_half"
   ],
   "note": ""
  },
  {
   "property": "C75",
   "status": "proved",
   "theorems": [
    "Verif.Props.C75_multipath",
    "Verif.Props.C75_timing",
    "Verif.Props.C75_training",
    "Verif.Props.C75_longer"
   ],
   "note": ""
  },
  {
   "property": "C76",
   "status": "proved",
   "theorems": [
    "Verif.Props.C76_total",
    "Verif.Props.C76_incomplete",
    "Verif.Props.C76_local",
    "Verif.Props.C76_linear",
    "Verif.Props.C76_energy",
    "Verif.Props.C76_errors",
    "Verif.Props.C76_noise"
   ],
   "note": ""
  },
  {
   "property": "C77",
   "status": "proved",
   "theorems": [
    "Verif.Props.C77_bpsk",
    "Verif.Props.C77_cdma",
    "Verif.Props.C77_spread",
    "Verif.Props.C77_cdma_qpsk_key",
    "Verif.Props.C77_hopping",
    "Verif.Props.C77_ieee"
   ],
   "note": ""
  },
  {
   "property": "C78",
   "status": "proved",
   "theorems": [
    "Verif.Props.C78_bpsk",
    "Verif.Props.C78_cdma_bpsk",
    "Verif.Props.C78_qpsk",
    "Verif.Props.C78_cdma_qpsk",
    "Verif.Props.C78_bfsk",
    "Verif.Props.C78_fsk",
    "Verif.Props.C78_hopping"
   ],
   "note": ""
  },
  {
   "property": "C79",
   "status": "proved",
   "theorems": [
    "Verif.Props.C79_decision_bpsk",
    "Verif.Props.C79_decision_qpsk",
    "Verif.Props.C79_wrong_key_bpsk",
    "Verif.Props.C79_wrong_key_qpsk",
    "Verif.Props.C79_walsh"
   ],
   "note": ""
  },
  {
   "property": "C80",
   "status": "proved",
   "theorems": [
    "Verif.Props.C80_bpsk",
    "Verif.Props.C80_qpsk",
    "Verif.Props.C80_channel_exists"
   ],
   "note": ""
  },
  {
   "property": "C81",
   "status": "proved",
   "theorems": [
    "Verif.Props.C81_quadrature",
    "Verif.Props.C81_quadrature_cdma",
    "Verif.Props.C81_bpsk",
    "Verif.Props.C81_bpsk_exact",
    "Verif.Props.C81_cdma_bpsk",
    "Verif.Props.C81_qpsk",
    "Verif.Props.C81_cdma_qpsk",
    "Verif.Props.C81_turned2_small",
    "Verif.Props.C81_turned2_quarters",
    "Verif.Props.C81_qpsk_exact",
    "Verif.Props.C81_fsk",
    "Verif.Props.C81_clean_bpsk",
    "Verif.Props.C81_clean_qpsk",
    "Verif.Props.C81_clean_fsk",
    "Verif.Props.C81_clean_cdma_bpsk",
    "Verif.Props.C81_clean_cdma_qpsk"
   ],
   "note": ""
  },
  {
   "property": "C82",
   "status": "proved",
   "theorems": [
    "Verif.Props.C82_bpsk_hears_qpsk",
    "Verif.Props.C82_qpsk_hears_bpsk",
    "Verif.Props.C82_no_key",
    "Verif.Props.C82_bpsk_hears_cdma",
    "Verif.Props.C82_qpsk_hears_cdma",
    "Verif.Props.C82_cdma_hears_bpsk",
    "Verif.Props.C82_fsk_hears_bfsk",
    "Verif.Props.C82_bpsk_hears_hopping"
   ],
   "note": ""
  },
  {
   "property": "C83",
   "status": "proved",
   "theorems": [
    "Verif.Props.C83_bpsk_slips",
    "Verif.Props.C83_bpsk",
    "Verif.Props.C83_cdma_bpsk",
    "Verif.Props.C83_qpsk",
    "Verif.Props.C83_cdma_qpsk",
    "Verif.Props.C83_offset_bpsk",
    "Verif.Props.C83_offset_qpsk",
    "Verif.Props.C83_offset_cdma_bpsk",
    "Verif.Props.C83_offset_cdma_qpsk",
    "Verif.Props.C83_drift_bpsk"
   ],
   "note": ""
  },
  {
   "property": "C84",
   "status": "proved",
   "theorems": [
    "Verif.Props.C84_quadrature",
    "Verif.Props.C84_unused",
    "Verif.Props.C84_stations",
    "Verif.Props.C84_channel_exists",
    "Verif.Props.C84_multiples"
   ],
   "note": ""
  },
  {
   "property": "C85",
   "status": "proved",
   "theorems": [
    "Verif.Props.C85_quadrature",
    "Verif.Props.C85_bpsk_symbols",
    "Verif.Props.C85_bpsk_first",
    "Verif.Props.C85_bpsk_second",
    "Verif.Props.C85_bpsk_tie",
    "Verif.Props.C85_qpsk_symbols",
    "Verif.Props.C85_qpsk_first",
    "Verif.Props.C85_qpsk_second",
    "Verif.Props.C85_cdma_bpsk_symbols",
    "Verif.Props.C85_cdma_qpsk_symbols",
    "Verif.Props.C85_fsk_symbols",
    "Verif.Props.C85_bpsk_silence"
   ],
   "note": ""
  },
  {
   "property": "C86",
   "status": "proved",
   "theorems": [
    "Verif.Props.C86_bpsk",
    "Verif.Props.C86_qpsk",
    "Verif.Props.C86_cdma_bpsk",
    "Verif.Props.C86_cdma_qpsk",
    "Verif.Props.C86_agree_bpsk",
    "Verif.Props.C86_agree_qpsk",
    "Verif.Props.C86_faded_bpsk",
    "Verif.Props.C86_faded_qpsk",
    "Verif.Props.C86_fdm",
    "Verif.Props.C86_near_far",
    "Verif.Props.C86_sent_bpsk",
    "Verif.Props.C86_sent_qpsk",
    "Verif.Props.C86_sent_cdma_bpsk",
    "Verif.Props.C86_sent_cdma_qpsk",
    "Verif.Props.C86_noise_bpsk",
    "Verif.Props.C86_noise_qpsk",
    "Verif.Props.C86_noise_cdma_bpsk",
    "Verif.Props.C86_noise_cdma_qpsk"
   ],
   "note": ""
  },
  {
   "property": "C87",
   "status": "proved",
   "theorems": [
    "Verif.Props.C87_accepts",
    "Verif.Props.C87_any",
    "Verif.Props.C87_bpsk",
    "Verif.Props.C87_bpsk_ieee",
    "Verif.Props.C87_cdma",
    "Verif.Props.C87_received",
    "Verif.Props.C87_cdma_received",
    "Verif.Props.C87_baseband_bpsk",
    "Verif.Props.C87_baseband_qpsk",
    "Verif.Props.C87_baseband_received",
    "Verif.Props.C87_baseband_loop"
   ],
   "note": ""
  },
  {
   "property": "C88",
   "status": "proved",
   "theorems": [
    "Verif.Props.C88_decision",
    "Verif.Props.C88_empty_raises",
    "Verif.Props.C88_weight",
    "Verif.Props.C88_roundtrip",
    "Verif.Props.C88_reads_compiled",
    "Verif.Props.C88_four_samples_fail"
   ],
   "note": ""
  },
  {
   "property": "C89",
   "status": "partial",
   "theorems": [
    "Verif.Props.C89_half_partial",
    "Verif.Props.C89_reads_compiled_partial",
    "Verif.Props.C89_output",
    "Verif.Props.C89_refuted"
   ],
   "note": "False: for every nonempty message when a symbol holds whole periods of half the carrier (C89_refuted). Missing: the outcome at other carriers. Proved: the waveform is the compiled one at half the carrier, and the receiver reads the compiled modulator."
  },
  {
   "property": "C90",
   "status": "partial",
   "theorems": [
    "Verif.Props.C90_ignores_code",
    "Verif.Props.C90_output",
    "Verif.Props.C90_refuted",
    "Verif.Props.C90_despread_partial"
   ],
   "note": "False: for every nonempty message when a chip holds whole half periods of the carrier (C90_refuted). Missing: the outcome at other carriers. Proved: the compiled receiver with the key reads the waveform."
  },
  {
   "property": "C91",
   "status": "proved",
   "theorems": [
    "Verif.Props.C91_next_power",
    "Verif.Props.C91_floor_power",
    "Verif.Props.C91_floor_power_misled",
    "Verif.Props.C91_chunk",
    "Verif.Props.C91_fftshift"
   ],
   "note": ""
  },
  {
   "property": "C92",
   "status": "proved",
   "theorems": [
    "Verif.Props.C92_generator",
    "Verif.Props.C92_shape",
    "Verif.Props.C92_columns",
    "Verif.Props.C92_bounded",
    "Verif.Props.C92_unbounded",
    "Verif.Props.C92_recoverable"
   ],
   "note": ""
  },
  {
   "property": "C93",
   "status": "proved",
   "theorems": [
    "Verif.Props.C93_dcsk_any",
    "Verif.Props.C93_dcsk_append",
    "Verif.Props.C93_dcsk_noise",
    "Verif.Props.C93_dcsk_noise_ieee",
    "Verif.Props.C93_csk_any"
   ],
   "note": ""
  },
  {
   "property": "C94",
   "status": "proved",
   "theorems": [
    "Verif.Props.C94_tx_bpsk",
    "Verif.Props.C94_tx_qpsk",
    "Verif.Props.C94_tx_cdma_bpsk",
    "Verif.Props.C94_tx_cdma_qpsk",
    "Verif.Props.C94_tx_bfsk",
    "Verif.Props.C94_tx_fsk",
    "Verif.Props.C94_tx_ofdm",
    "Verif.Props.C94_rx_bpsk",
    "Verif.Props.C94_rx_qpsk",
    "Verif.Props.C94_rx_cdma_bpsk",
    "Verif.Props.C94_rx_cdma_qpsk",
    "Verif.Props.C94_rx_fsk",
    "Verif.Props.C94_rx_ofdm",
    "Verif.Props.C94_tx_bpsk_half",
    "Verif.Props.C94_rx_bpsk_half"
   ],
   "note": ""
  },
  {
   "property": "C95",
   "status": "partial",
   "theorems": [
    "Verif.Props.C95_guard",
    "Verif.Props.C95_shape",
    "Verif.Props.C95_prefix",
    "Verif.Props.C95_formula_partial",
    "Verif.Props.C95_differ",
    "Verif.Props.C95_placed"
   ],
   "note": "Equal values is false (C95_differ): the windows differ. Proved: both are the same double sum with their windows, same cells, guards, unused sample."
  },
  {
   "property": "C96",
   "status": "partial",
   "theorems": [
    "Verif.Props.C96_dcs",
    "Verif.Props.C96_max_cut_partial",
    "Verif.Props.C96_max_cut_differ"
   ],
   "note": "False for max_cut on spectra with entries that are not positive reals (C96_max_cut_differ). Proved: dcs in full, max_cut as an upper bound and equality for positive spectra."
  },
  {
   "property": "C97",
   "status": "partial",
   "theorems": [
    "Verif.Props.C97_chirp_partial",
    "Verif.Props.C97_first",
    "Verif.Props.C97_differ",
    "Verif.Props.C97_last",
    "Verif.Props.C97_ctr_empty",
    "Verif.Props.C97_ctr_phase"
   ],
   "note": "Equal samples is false (C97_first, C97_differ). Proved: same sweep law at different instants; chirpCtr returns nothing."
  },
  {
   "property": "C98",
   "status": "partial",
   "theorems": [
    "Verif.Props.C98_figures_partial",
    "Verif.Props.C98_years",
    "Verif.Props.C98_differ",
    "Verif.Props.C98_zero",
    "Verif.Props.C98_injective"
   ],
   "note": "False from one year on unless the years are a multiple of four (C98_years, C98_differ), and at zero (C98_zero). Proved below a year, with injectivity."
  },
  {
   "property": "C99",
   "status": "proved",
   "theorems": [
    "Verif.Props.C99_ber",
    "Verif.Props.C99_ber_empty",
    "Verif.Props.C99_avg_energy",
    "Verif.Props.C99_avg_energy_iq",
    "Verif.Props.C99_scale"
   ],
   "note": ""
  },
  {
   "property": "C100",
   "status": "proved",
   "theorems": [
    "Verif.Props.C100_text",
    "Verif.Props.C100_injective",
    "Verif.Props.C100_length"
   ],
   "note": ""
  },
  {
   "property": "C101",
   "status": "proved",
   "theorems": [
    "Verif.Props.C101_bpsk",
    "Verif.Props.C101_cdma",
    "Verif.Props.C101_hopping",
    "Verif.Props.C101_bit",
    "Verif.Props.C101_ber",
    "Verif.Props.C101_count",
    "Verif.Props.C101_bpsk_curve",
    "Verif.Props.C101_cdma_curve",
    "Verif.Props.C101_hopping_curve",
    "Verif.Props.C101_bpsk_limit",
    "Verif.Props.C101_cdma_limit",
    "Verif.Props.C101_hopping_limit",
    "Verif.Props.C101_bounds"
   ],
   "note": ""
  },
  {
   "property": "C102",
   "status": "proved",
   "theorems": [
    "Verif.Props.C102_qpsk",
    "Verif.Props.C102_cdma_qpsk",
    "Verif.Props.C102_curve",
    "Verif.Props.C102_symbol",
    "Verif.Props.C102_formula"
   ],
   "note": ""
  },
  {
   "property": "C103",
   "status": "proved",
   "theorems": [
    "Verif.Props.C103_bpsk",
    "Verif.Props.C103_qpsk",
    "Verif.Props.C103_curve",
    "Verif.Props.C103_curve_qpsk"
   ],
   "note": ""
  },
  {
   "property": "C104",
   "status": "proved",
   "theorems": [
    "Verif.Props.C104_mean",
    "Verif.Props.C104_limit",
    "Verif.Props.C104_silence",
    "Verif.Props.C104_detector",
    "Verif.Props.C104_bpsk",
    "Verif.Props.C104_cdma"
   ],
   "note": ""
  },
  {
   "property": "C105",
   "status": "proved",
   "theorems": [
    "Verif.Props.C105_compiled",
    "Verif.Props.C105_python",
    "Verif.Props.C105_even",
    "Verif.Props.C105_compiled_odd",
    "Verif.Props.C105_python_odd",
    "Verif.Props.C105_odd"
   ],
   "note": ""
  },
  {
   "property": "C106",
   "status": "proved",
   "theorems": [
    "Verif.Props.C106_memoryless",
    "Verif.Props.C106_fsk",
    "Verif.Props.C106_energy",
    "Verif.Props.C106_curve",
    "Verif.Props.C106_limit",
    "Verif.Props.C106_worse"
   ],
   "note": ""
  },
  {
   "property": "C107",
   "status": "proved",
   "theorems": [
    "Verif.Props.C107_deviation",
    "Verif.Props.C107_enough",
    "Verif.Props.C107_growing"
   ],
   "note": ""
  },
  {
   "property": "C108",
   "status": "proved",
   "theorems": [
    "Verif.Props.C108_dcsk",
    "Verif.Props.C108_range",
    "Verif.Props.C108_limit"
   ],
   "note": ""
  },
  {
   "property": "C109",
   "status": "proved",
   "theorems": [
    "Verif.Props.C109_csk",
    "Verif.Props.C109_range",
    "Verif.Props.C109_limit"
   ],
   "note": ""
  },
  {
   "property": "C110",
   "status": "proved",
   "theorems": [
    "Verif.Props.C110_silence",
    "Verif.Props.C110_bpsk",
    "Verif.Props.C110_cdma",
    "Verif.Props.C110_qpsk",
    "Verif.Props.C110_cdma_qpsk",
    "Verif.Props.C110_power"
   ],
   "note": ""
  },
  {
   "property": "C111",
   "status": "proved",
   "theorems": [
    "Verif.Props.C111_erfc",
    "Verif.Props.C111_relative",
    "Verif.Props.C111_absolute",
    "Verif.Props.C111_monotone",
    "Verif.Props.C111_step",
    "Verif.Props.C111_curve"
   ],
   "note": ""
  },
  {
   "property": "C112",
   "status": "proved",
   "theorems": [
    "Verif.Props.C112_bpsk",
    "Verif.Props.C112_mirror",
    "Verif.Props.C112_pair",
    "Verif.Props.C112_curve",
    "Verif.Props.C112_qpsk",
    "Verif.Props.C112_mirror_qpsk",
    "Verif.Props.C112_ber_qpsk"
   ],
   "note": ""
  },
  {
   "property": "C113",
   "status": "proved",
   "theorems": [
    "Verif.Props.C113_bpsk",
    "Verif.Props.C113_cdma",
    "Verif.Props.C113_hopping",
    "Verif.Props.C113_unequal",
    "Verif.Props.C113_above"
   ],
   "note": ""
  },
  {
   "property": "C114",
   "status": "proved",
   "theorems": [
    "Verif.Props.C114_returns",
    "Verif.Props.C114_panics",
    "Verif.Props.C114_py",
    "Verif.Props.C114_cut"
   ],
   "note": ""
  },
  {
   "property": "C115",
   "status": "proved",
   "theorems": [
    "Verif.Props.C115_level_ieee",
    "Verif.Props.C115_zero_snr_ieee",
    "Verif.Props.C115_returns_ieee",
    "Verif.Props.C115_bpsk",
    "Verif.Props.C115_curve",
    "Verif.Props.C115_script",
    "Verif.Props.C115_qpsk",
    "Verif.Props.C115_ofdm_deaf",
    "Verif.Props.C115_ofdm_panics",
    "Verif.Props.C115_empty"
   ],
   "note": ""
  },
  {
   "property": "C116",
   "status": "proved",
   "theorems": [
    "Verif.Props.C116_roc",
    "Verif.Props.C116_order",
    "Verif.Props.C116_auc",
    "Verif.Props.C116_auc_order",
    "Verif.Props.C116_detector",
    "Verif.Props.C116_spread",
    "Verif.Props.C116_script"
   ],
   "note": ""
  },
  {
   "property": "C117",
   "status": "proved",
   "theorems": [
    "Verif.Props.C117_bound",
    "Verif.Props.C117_bpsk",
    "Verif.Props.C117_cdma",
    "Verif.Props.C117_hopping",
    "Verif.Props.C117_qpsk",
    "Verif.Props.C117_cdma_qpsk"
   ],
   "note": ""
  },
  {
   "property": "C118",
   "status": "proved",
   "theorems": [
    "Verif.Props.C118_silent",
    "Verif.Props.C118_default",
    "Verif.Props.C118_iff",
    "Verif.Props.C118_inverted",
    "Verif.Props.C118_always",
    "Verif.Props.C118_normality"
   ],
   "note": ""
  },
  {
   "property": "C119",
   "status": "proved",
   "theorems": [
    "Verif.Props.C119_baseband",
    "Verif.Props.C119_passband",
    "Verif.Props.C119_hopping",
    "Verif.Props.C119_noise"
   ],
   "note": ""
  },
  {
   "property": "C120",
   "status": "proved",
   "theorems": [
    "Verif.Props.C120_lengths",
    "Verif.Props.C120_run",
    "Verif.Props.C120_stuck",
    "Verif.Props.C120_harness",
    "Verif.Props.C120_snr",
    "Verif.Props.C120_crash"
   ],
   "note": ""
  },
  {
   "property": "C121",
   "status": "proved",
   "theorems": [
    "Verif.Props.C121_margin",
    "Verif.Props.C121_quadrature",
    "Verif.Props.C121_quadrature_cdma",
    "Verif.Props.C121_bpsk",
    "Verif.Props.C121_cdma_bpsk",
    "Verif.Props.C121_qpsk",
    "Verif.Props.C121_stations",
    "Verif.Props.C121_users",
    "Verif.Props.C121_users_qpsk",
    "Verif.Props.C121_orthogonal",
    "Verif.Props.C121_orthogonal_qpsk"
   ],
   "note": ""
  },
  {
   "property": "C122",
   "status": "proved",
   "theorems": [
    "Verif.Props.C122_split",
    "Verif.Props.C122_table",
    "Verif.Props.C122_youden",
    "Verif.Props.C122_regression",
    "Verif.Props.C122_best",
    "Verif.Props.C122_auc",
    "Verif.Props.C122_accepts",
    "Verif.Props.C122_shifted"
   ],
   "note": ""
  },
  {
   "property": "C123",
   "status": "proved",
   "theorems": [
    "Verif.Props.C123_bpsk",
    "Verif.Props.C123_qpsk",
    "Verif.Props.C123_cdma_bpsk",
    "Verif.Props.C123_cdma_qpsk",
    "Verif.Props.C123_hopping",
    "Verif.Props.C123_fsk",
    "Verif.Props.C123_dcsk",
    "Verif.Props.C123_csk",
    "Verif.Props.C123_awgn",
    "Verif.Props.C123_energy_missing",
    "Verif.Props.C123_energy_infinite"
   ],
   "note": ""
  },
  {
   "property": "C124",
   "status": "proved",
   "theorems": [
    "Verif.Props.C124_variance",
    "Verif.Props.C124_new",
    "Verif.Props.C124_pd",
    "Verif.Props.C124_transmitters",
    "Verif.Props.C124_swapped",
    "Verif.Props.C124_swapped_qpsk",
    "Verif.Props.C124_mean",
    "Verif.Props.C124_mean_new",
    "Verif.Props.C124_louder",
    "Verif.Props.C124_flat",
    "Verif.Props.C124_scripts",
    "Verif.Props.C124_flat_new",
    "Verif.Props.C124_fit"
   ],
   "note": ""
  },
  {
   "property": "C125",
   "status": "proved",
   "theorems": [
    "Verif.Props.C125_bpsk",
    "Verif.Props.C125_hopping",
    "Verif.Props.C125_qpsk",
    "Verif.Props.C125_capture",
    "Verif.Props.C125_tie"
   ],
   "note": ""
  },
  {
   "property": "C126",
   "status": "proved",
   "theorems": [
    "Verif.Props.C126_bpsk",
    "Verif.Props.C126_cdma_bpsk",
    "Verif.Props.C126_qpsk",
    "Verif.Props.C126_cdma_qpsk",
    "Verif.Props.C126_bfsk",
    "Verif.Props.C126_mean",
    "Verif.Props.C126_check"
   ],
   "note": ""
  },
  {
   "property": "C127",
   "status": "proved",
   "theorems": [
    "Verif.Props.C127_hopping",
    "Verif.Props.C127_hopping_signal",
    "Verif.Props.C127_fsk",
    "Verif.Props.C127_faded_fsk",
    "Verif.Props.C127_agree_fsk",
    "Verif.Props.C127_sent_fsk_close",
    "Verif.Props.C127_sent_fsk",
    "Verif.Props.C127_noise_fsk",
    "Verif.Props.C127_sent_hopping",
    "Verif.Props.C127_noise_hopping"
   ],
   "note": ""
  },
  {
   "property": "C128",
   "status": "proved",
   "theorems": [
    "Verif.Props.C128_decisions",
    "Verif.Props.C128_faded",
    "Verif.Props.C128_roundtrip",
    "Verif.Props.C128_few",
    "Verif.Props.C128_test",
    "Verif.Props.C128_fsk_graphs",
    "Verif.Props.C128_test_iff",
    "Verif.Props.C128_unit_test",
    "Verif.Props.C128_roundtrip_ieee",
    "Verif.Props.C128_test_ieee",
    "Verif.Props.C128_fsk_graphs_ieee"
   ],
   "note": ""
  },
  {
   "property": "C129",
   "status": "proved",
   "theorems": [
    "Verif.Props.C129_decision_ieee",
    "Verif.Props.C129_count_ieee",
    "Verif.Props.C129_room_ieee",
    "Verif.Props.C129_sixteen_ieee",
    "Verif.Props.C129_few_ieee",
    "Verif.Props.C129_decision",
    "Verif.Props.C129_on_air",
    "Verif.Props.C129_separates",
    "Verif.Props.C129_only",
    "Verif.Props.C129_room",
    "Verif.Props.C129_count",
    "Verif.Props.C129_sixteen",
    "Verif.Props.C129_thirtytwo",
    "Verif.Props.C129_sixtyfour",
    "Verif.Props.C129_few"
   ],
   "note": ""
  },
  {
   "property": "C130",
   "status": "proved",
   "theorems": [
    "Verif.Props.C130_damaged",
    "Verif.Props.C130_cut",
    "Verif.Props.C130_short",
    "Verif.Props.C130_codec_exists",
    "Verif.Props.C130_beginning",
    "Verif.Props.C130_recording",
    "Verif.Props.C130_radio",
    "Verif.Props.C130_radio_ieee",
    "Verif.Props.C130_test_samples",
    "Verif.Props.C130_test_too_short",
    "Verif.Props.C130_test"
   ],
   "note": ""
  },
  {
   "property": "C131",
   "status": "proved",
   "theorems": [
    "Verif.Props.C131_inflate_inflate",
    "Verif.Props.C131_take_every_take_every",
    "Verif.Props.C131_inflate_take_every",
    "Verif.Props.C131_chunks_flatten",
    "Verif.Props.C131_matched_filter",
    "Verif.Props.C131_matched_dump",
    "Verif.Props.C131_last_item",
    "Verif.Props.C131_dump_dump",
    "Verif.Props.C131_integrate_dump",
    "Verif.Props.C131_inflate_dump",
    "Verif.Props.C131_convolve_scale",
    "Verif.Props.C131_convolve_add",
    "Verif.Props.C131_convolve_delay"
   ],
   "note": ""
  },
  {
   "property": "C132",
   "status": "proved",
   "theorems": [
    "Verif.Props.C132_hop_table",
    "Verif.Props.C132_scrambling",
    "Verif.Props.C132_hadamard",
    "Verif.Props.C132_hadamard_weak",
    "Verif.Props.C132_energy",
    "Verif.Props.C132_chebyshev",
    "Verif.Props.C132_rms",
    "Verif.Props.C132_sine_silent",
    "Verif.Props.C132_sine_quiet",
    "Verif.Props.C132_bitstream",
    "Verif.Props.C132_bch",
    "Verif.Props.C132_baseband_bpsk",
    "Verif.Props.C132_baseband_qpsk",
    "Verif.Props.C132_dcsk",
    "Verif.Props.C132_csk_any",
    "Verif.Props.C132_csk",
    "Verif.Props.C132_full_bpsk",
    "Verif.Props.C132_full_qpsk",
    "Verif.Props.C132_hopping",
    "Verif.Props.C132_baseband_cdma",
    "Verif.Props.C132_cdma_bpsk",
    "Verif.Props.C132_cdma_qpsk",
    "Verif.Props.C132_coded",
    "Verif.Props.C132_baseband_ofdm",
    "Verif.Props.C132_ofdm",
    "Verif.Props.C132_fh_ofdm"
   ],
   "note": ""
  },
  {
   "property": "C133",
   "status": "proved",
   "theorems": [
    "Verif.Props.C133_transmitter",
    "Verif.Props.C133_receiver",
    "Verif.Props.C133_roundtrip",
    "Verif.Props.C133_roundtrip_full",
    "Verif.Props.C133_test"
   ],
   "note": ""
  },
  {
   "property": "C134",
   "status": "proved",
   "theorems": [
    "Verif.Props.C134_filter",
    "Verif.Props.C134_allpass",
    "Verif.Props.C134_tones",
    "Verif.Props.C134_twice"
   ],
   "note": ""
  },
  {
   "property": "C135",
   "status": "proved",
   "theorems": [
    "Verif.Props.C135_energy",
    "Verif.Props.C135_tones"
   ],
   "note": ""
  },
  {
   "property": "C136",
   "status": "proved",
   "theorems": [
    "Verif.Props.C136_bpsk",
    "Verif.Props.C136_qpsk",
    "Verif.Props.C136_cdma",
    "Verif.Props.C136_fsk",
    "Verif.Props.C136_hopping",
    "Verif.Props.C136_noise"
   ],
   "note": ""
  },
  {
   "property": "C137",
   "status": "proved",
   "theorems": [
    "Verif.Props.C137_mean",
    "Verif.Props.C137_limit",
    "Verif.Props.C137_detector",
    "Verif.Props.C137_tone"
   ],
   "note": ""
  },
  {
   "property": "C138",
   "status": "proved",
   "theorems": [
    "Verif.Props.C138_any",
    "Verif.Props.C138_cube",
    "Verif.Props.C138_cdma",
    "Verif.Props.C138_exponent"
   ],
   "note": ""
  },
  {
   "property": "C139",
   "status": "proved",
   "theorems": [
    "Verif.Props.C139_down",
    "Verif.Props.C139_up",
    "Verif.Props.C139_mirrored",
    "Verif.Props.C139_bpsk",
    "Verif.Props.C139_qpsk",
    "Verif.Props.C139_cdma",
    "Verif.Props.C139_front_end",
    "Verif.Props.C139_front_end_up",
    "Verif.Props.C139_tones"
   ],
   "note": ""
  },
  {
   "property": "C140",
   "status": "proved",
   "theorems": [
    "Verif.Props.C140_channel",
    "Verif.Props.C140_bit",
    "Verif.Props.C140_message"
   ],
   "note": ""
  },
  {
   "property": "C141",
   "status": "proved",
   "theorems": [
    "Verif.Props.C141_bpsk",
    "Verif.Props.C141_qpsk",
    "Verif.Props.C141_cdma",
    "Verif.Props.C141_link_bpsk",
    "Verif.Props.C141_link_qpsk",
    "Verif.Props.C141_link_cdma"
   ],
   "note": ""
  },
  {
   "property": "C142",
   "status": "proved",
   "theorems": [
    "Verif.Props.C142_erf",
    "Verif.Props.C142_erfc",
    "Verif.Props.C142_inf",
    "Verif.Props.C142_nan",
    "Verif.Props.C142_granular",
    "Verif.Props.C142_relative_lost"
   ],
   "note": ""
  },
  {
   "property": "C143",
   "status": "proved",
   "theorems": [
    "Verif.Props.C143_bpsk",
    "Verif.Props.C143_cdma_bpsk",
    "Verif.Props.C143_qpsk",
    "Verif.Props.C143_cdma_qpsk"
   ],
   "note": ""
  },
  {
   "property": "C144",
   "status": "proved",
   "theorems": [
    "Verif.Props.C144_bpsk",
    "Verif.Props.C144_cdma_bpsk",
    "Verif.Props.C144_hopping"
   ],
   "note": ""
  },
  {
   "property": "C145",
   "status": "proved",
   "theorems": [
    "Verif.Props.C145_bpsk",
    "Verif.Props.C145_qpsk_second",
    "Verif.Props.C145_qpsk"
   ],
   "note": ""
  },
  {
   "property": "C146",
   "status": "proved",
   "theorems": [
    "Verif.Props.C146_bpsk",
    "Verif.Props.C146_qpsk",
    "Verif.Props.C146_length"
   ],
   "note": ""
  },
  {
   "property": "C147",
   "status": "proved",
   "theorems": [
    "Verif.Props.C147_bpsk",
    "Verif.Props.C147_cdma",
    "Verif.Props.C147_joint",
    "Verif.Props.C147_code",
    "Verif.Props.C147_coded",
    "Verif.Props.C147_exponent"
   ],
   "note": ""
  },
  {
   "property": "C148",
   "status": "proved",
   "theorems": [
    "Verif.Props.C148_within",
    "Verif.Props.C148_fsk",
    "Verif.Props.C148_code",
    "Verif.Props.C148_limit"
   ],
   "note": ""
  },
  {
   "property": "C149",
   "status": "proved",
   "theorems": [
    "Verif.Props.C149_unchecked",
    "Verif.Props.C149_bpsk",
    "Verif.Props.C149_bfsk",
    "Verif.Props.C149_cdma",
    "Verif.Props.C149_hop",
    "Verif.Props.C149_ofdm",
    "Verif.Props.C149_dcsk",
    "Verif.Props.C149_nan"
   ],
   "note": ""
  },
  {
   "property": "C150",
   "status": "proved",
   "theorems": [
    "Verif.Props.C150_entry",
    "Verif.Props.C150_max"
   ],
   "note": ""
  },
  {
   "property": "C151",
   "status": "proved",
   "theorems": [
    "Verif.Props.C151_dcsk",
    "Verif.Props.C151_dcsk_message",
    "Verif.Props.C151_csk"
   ],
   "note": ""
  },
  {
   "property": "C152",
   "status": "proved",
   "theorems": [
    "Verif.Props.C152_avg",
    "Verif.Props.C152_mono",
    "Verif.Props.C152_detector",
    "Verif.Props.C152_detector_mono",
    "Verif.Props.C152_empty",
    "Verif.Props.C152_power_short"
   ],
   "note": ""
  },
  {
   "property": "C153",
   "status": "proved",
   "theorems": [
    "Verif.Props.C153_bpsk",
    "Verif.Props.C153_cdma",
    "Verif.Props.C153_hopping"
   ],
   "note": ""
  },
  {
   "property": "C154",
   "status": "proved",
   "theorems": [
    "Verif.Props.C154_chirp",
    "Verif.Props.C154_css"
   ],
   "note": ""
  },
  {
   "property": "C155",
   "status": "proved",
   "theorems": [
    "Verif.Props.C155_fm",
    "Verif.Props.C155_fm_digital",
    "Verif.Props.C155_tones"
   ],
   "note": ""
  },
  {
   "property": "C156",
   "status": "proved",
   "theorems": [
    "Verif.Props.C156_bpsk",
    "Verif.Props.C156_cdma"
   ],
   "note": ""
  },
  {
   "property": "C157",
   "status": "proved",
   "theorems": [
    "Verif.Props.C157_detection",
    "Verif.Props.C157_ber",
    "Verif.Props.C157_find",
    "Verif.Props.C157_window",
    "Verif.Props.C157_panels"
   ],
   "note": ""
  },
  {
   "property": "C158",
   "status": "proved",
   "theorems": [
    "Verif.Props.C158_rates"
   ],
   "note": ""
  },
  {
   "property": "C159",
   "status": "proved",
   "theorems": [
    "Verif.Props.C159_affine",
    "Verif.Props.C159_silence",
    "Verif.Props.C159_bpsk",
    "Verif.Props.C159_cdma",
    "Verif.Props.C159_detector",
    "Verif.Props.C159_size"
   ],
   "note": ""
  },
  {
   "property": "C160",
   "status": "proved",
   "theorems": [
    "Verif.Props.C160_tx_bpsk",
    "Verif.Props.C160_tx_qpsk",
    "Verif.Props.C160_rx_qpsk",
    "Verif.Props.C160_rx_bpsk",
    "Verif.Props.C160_roundtrip",
    "Verif.Props.C160_down"
   ],
   "note": ""
  },
  {
   "property": "C161",
   "status": "proved",
   "theorems": [
    "Verif.Props.C161_bpsk",
    "Verif.Props.C161_qpsk",
    "Verif.Props.C161_overheard",
    "Verif.Props.C161_overheard_qpsk",
    "Verif.Props.C161_key",
    "Verif.Props.C161_inverted",
    "Verif.Props.C161_ambiguity",
    "Verif.Props.C161_noise",
    "Verif.Props.C161_key_noise",
    "Verif.Props.C161_bpsk_ieee",
    "Verif.Props.C161_overheard_ieee"
   ],
   "note": ""
  }
 ]
}