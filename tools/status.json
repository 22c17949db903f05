{
 "C04": {"note": "False as stated when the chunk size divides the length: a whole chunk of defaults is appended (C04_wchunks_extra_chunk, C04_wchunks_refuted). Proved for every other length."},
 "C05": {"note": "False for 0 copies of a non-empty source: the stream never ends (C05_inflate_zero_diverges). Proved for every positive number of copies."},
 "C08": {"note": "False as stated: the filter is applied time-reversed and the tail is short when the filter is longer than the signal. The exact output is C08_convolve_actual; the claim is proved for constant filters not longer than the signal."},
 "C14": {"note": "False as stated: fftshift_mut leaves its argument unchanged (C14_fftshift_mut_identity). Proved where fftshift is the identity."},
 "C17": {"note": "False as stated: NaN is never detected. Proved: a vector is rejected exactly when it contains an infinity."},
 "C20": {"note": "False as stated: key(u) panics exactly when u = n-1 modulo n (C20_panics). The rest is proved."},
 "C33": {"note": "False for every odd carrier count (C33_refuted); proved for every even one, over the reals with the exact DFT and in IEEE arithmetic with any accurate transform."},
 "C35": {"note": "False with one sample per symbol (C35_refuted); proved in any arithmetic from two samples per symbol on."},
 "C36": {"note": "False for 0 or 1 frequencies, where a hop panics (C36_refuted); proved from two on."},
 "C38": {"note": "False for the centred down-chirp, which is the up-chirp (C38_down_is_up, C38_refuted); the rest is proved."},
 "C44": {"note": "False for every start but 0 (C44_refuted; C44_overflows in IEEE arithmetic); holds exactly for the start 0."},
 "C50": {"note": "False as stated: a fresh loop outputs zeros for ever, for every finite signal, in IEEE arithmetic (C50_partial is the exact behaviour)."},
 "C51": {"note": "False for symbol lengths other than 1 and at the singular times; proved elsewhere (C51_partial, C51_symmetric_partial, C51_length)."},
 "C53": {"note": "The power clause is false: the code divides by n-1 (C53_power_actual, C53_power_refuted). The other clauses are proved."},
 "C55": {"note": "Odd symmetry is false at 0 (C55_zero, C55_zero_refuted); proved elsewhere, as are the range and the complement."},
 "C59": {"note": "True in exact arithmetic (C59_in_range, C59_placed). In double precision the cells stay in range (C59_in_range_ieee) but an index can be rounded down by one: for n = 12, np = 4 entry (4,1) is lost (C59_refuted). Proved in doubles for powers of two (C59_ieee_partial)."},
 "C60": {"note": "The last clause is false: dcs_detector panics on a silent spectrum in IEEE arithmetic (C60_dcs_silence). The formulas are proved."},
 "C89": {"note": "False: for every nonempty message when a symbol holds whole periods of half the carrier (C89_refuted). Missing: the outcome at other carriers. Proved: the waveform is the compiled one at half the carrier, and the receiver reads the compiled modulator."},
 "C90": {"note": "False: for every nonempty message when a chip holds whole half periods of the carrier (C90_refuted). Missing: the outcome at other carriers. Proved: the compiled receiver with the key reads the waveform."},
 "C95": {"note": "Equal values is false (C95_differ): the windows differ. Proved: both are the same double sum with their windows, same cells, guards, unused sample."},
 "C96": {"note": "False for max_cut on spectra with entries that are not positive reals (C96_max_cut_differ). Proved: dcs in full, max_cut as an upper bound and equality for positive spectra."},
 "C97": {"note": "Equal samples is false (C97_first, C97_differ). Proved: same sweep law at different instants; chirpCtr returns nothing."},
 "C98": {"note": "False from one year on unless the years are a multiple of four (C98_years, C98_differ), and at zero (C98_zero). Proved below a year, with injectivity."}
}
