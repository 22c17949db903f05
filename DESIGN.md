# Design

Target: Komunikilo (`/repo`), a Rust library of modulators, demodulators, spreading codes, chaotic maps,
stream adapters and detectors.  The Rust code is never built here; it is read and transcribed into Lean.

## 1. What is modelled, and how

### 1.1 Control and effects (`Verif/Rust/`)
* `RM α` is the result of running Rust code: a value, a *panic* (explicit error constructor), or *divergence*.
  It is `ExceptT Panic Option`; loops whose termination is not structural are written with `partial_fixpoint`,
  so that an endless loop is literally the value "diverges", not a hidden totalisation.
* `RIter ι α` is Rust's `Iterator`: a state type with `next : ι → RM (Option α × ι)`.
  Every adapter of the crate (`Chunks`, `Inflate`, ...) and every std / itertools adapter that the crate uses
  (`map`, `enumerate`, `zip`, `cycle`, `skip`, `take`, `flat_map`, `tuples`, `vec::IntoIter`, ...) is a structure with the
  same fields as the Rust struct and an instance transcribing `next`.
* `collect` drains an iterator.  `Beh s f` says that the n-th call of `next` from state `s` returns `f n` without panicking;
  `Yields s l` is the special case "exactly the items of `l`, then `None` for ever".
* `usize` is `ℕ`; underflow and division by zero panic (as in Rust), 64-bit overflow is not modelled
  (it would need messages of more than 2^64 samples). `f64 as usize` saturates at 2^64-1.

### 1.2 Numbers (`Verif/Rust/Flt.lean`)
The numeric code is transcribed once, over an abstract type `F` with the operations that `f64` has (class `Flt`).
It is then instantiated at
* `Float`, whose arithmetic (`+ - * / sqrt abs neg < ≤ ==`, conversions) is Lean's logical model of IEEE-754 binary64
  (kernel-checked definitions); `sin cos exp log10 pow` are opaque there, so theorems at `Float` hold for any libm;
* `FloatL L` for an arbitrary mathematical library `L : Libm`: the same IEEE arithmetic, with `sin`, `cos`, ... taken from `L`.
  `Accurate L ε X` says that the sine and cosine of `L` are within `ε` of the true ones for arguments up to `X`; the IEEE
  round trips assume `ε ≤ 1/1024` (`2^-12`, `2^-15` for C41, C30), and `accurate_rounded` exhibits such a library;
* `ℝ`, the exact-arithmetic idealisation.  Theorems at `ℝ` say so in their name or doc comment.
Structural theorems (lengths, layout, which panics) hold for every `F`.

`Verif/F64/*` is a small library about Lean's model of binary64: `rnd : ℝ → ℝ` is rounding to nearest even, and each
operation is proved to be the rounded exact operation on finite values (`add_val`, `mul_val`, ...).  `Ap x r e` ("`x` is finite
and within `e` of `r`") carries error bounds through programs.

`Iterator::sum` is modelled as a left fold from `0`; recent Rust starts from `-0.0`, which differs in the sign of an empty or
all-negative-zero sum only, and no theorem depends on it.

### 1.3 Parameters instead of third-party code
* `rustfft`: class `Fft F` (a length-preserving transform of vectors); its `ℝ` instance is the exact unnormalised DFT;
  structural theorems leave it arbitrary.  `realfft`: class `RealFft F`, likewise.
* `rand` shuffles: class `Rng ρ`, an arbitrary deterministic generator whose shuffles are permutations (theorems quantify over it).
* `rand_distr::Normal`: `new` fails exactly when the standard deviation is not finite; a sample is `mean + std_dev * z` with `z`
  the next item of an arbitrary stream of standard normal variates (`normalIter`).  In the probabilistic properties the stream
  gives independent standard normal variables (`White P 1 z`).
* `reed_solomon`: encoder/decoder with contract "systematic, corrects up to 2 byte errors in a frame".
* `sci_rs`/scipy filters, `plotpy`, `PyO3` conversion glue: not modelled.

## 2. File layout
* `Verif/Rust/*`   semantics of the Rust fragment (effects, iterators, numbers).
* `Verif/Model/*`  one file per Rust source file, every definition cites file and lines.
* `Verif/Lemmas/*` helper lemmas.
* `Verif/Spec/*`   small independent specifications (list functions, sums, DFT) not mentioning the model.
* `Verif/Props/*`  the property theorems only, named `Cnn_...`, each followed by `example`s exhibiting non-trivial instances.

## 3. Properties: what is modelled and how it is proved
(see MANIFEST.json for the exact theorem names; "F" = any float type, "IEEE" = Lean `Float`, "ℝ" = exact)

| id | modelled | proof |
|----|----------|-------|
| C01 | bool_to_u8, u8_to_bools on `UInt8` | bit extensionality |
| C02 | chunking + packing as streams | induction on the stream |
| C03-C11 | the adapter structs, state machine by state machine | coinductive simulation `Beh`, then list induction |
| C04, C05, C08 | same; claims false at the boundary | negation + `_partial` |
| C12 | same | simulation with a truncated source |
| C13, C14 | fftshift(_mut) on lists | rotation arithmetic; C14 negation |
| C15, C16 | linspace, ber | arithmetic; ℝ for order |
| C17 | no_nans at IEEE | negation at IEEE NaN, `_partial` for infinities |
| C18 | is_int at IEEE | reasoning about correctly rounded division in Lean's binary64 model |
| C19, C20 | Hadamard construction, key | induction on k; C20 negation + `_partial` |
| C21-C23 | baseband CDMA | counting |
| C24, C27 | baseband BPSK/QPSK | IEEE sign facts by evaluation |
| C25, C26, C28 | passband BPSK/QPSK | ℝ: sums of squares, product-to-sum; structure for any F |
| C29-C31, C49 | CDMA over BPSK/QPSK | reduction to block correlations |
| C32-C35 | OFDM | index arithmetic, DFT inversion; C33 fails for odd sizes, C35 fails |
| C36, C37 | HopTable, FH-BPSK | block invariant on table state |
| C38-C42 | chirps, FSK, FM | structure for any F, trig over ℝ |
| C43-C46 | chaos, DCSK, CSK | interval invariants; 2-adic valuation over ℚ ⊂ ℝ for CSK |
| C47 | FH-OFDM-DCSK | DFT inversion + permutation tracking |
| C48 | bch.rs with RS contract | frame induction |
| C50, C51 | Costas loop, rrcos | negations + `_partial` |
| C52-C56 | windows, energy, dB, erf, awgn | ℝ analysis |
| C57 | bandpass | DFT linear algebra over ℂ |
| C58-C60 | SSCA, detectors; the index formulas of C59 also at IEEE doubles | structure, homogeneity, index arithmetic; in doubles: bounds kept by the monotonicity of rounding for all sizes, no rounding at all for powers of two (Lemmas/IeeeSscaMap), evaluation of the 48 cells for the counterexample n = 12, np = 4 |
| C61, C62 | energy detector, Python wrappers | ℝ / structure |
| C63 | two CDMA users with arbitrary keys | ℝ: block correlations |
| C64 | legacy hopping transmitter | structure, any F |
| C65 | Python entry points, round trips | reduction to C25/C28/C41 |
| C66 | OFDM passband through a decimating receiver | ℝ: carrier leakage of the half-band integration |
| C67 | FH-OFDM-DCSK frames | index arithmetic |
| C68 | bandpass on sums of tones | DFT of tones over ℂ |
| C69 | Python OFDM entry points | reduction to C32/C33/C67 |
| C70 | coded stream with arbitrary damage, per frame | any codec with the contract (as C48) |
| C71 | receivers on arbitrary signals | any F: output = map over complete symbols (Spec/Symbols) |
| C72 | gain of the received signal | ℝ: homogeneity of the correlators |
| C73 | additive disturbances | ℝ: Cauchy-Schwarz, Bessel for the FSK correlators |
| C74 | adapters on a source whose first items are known (`Starts`); `KeepsUp` compares with a batch run | any F: induction on the arrived items, per adapter; endless messages from all prefixes (ℝ). Passband OFDM reception is one sample late by construction (convolution tail), hence only its transmitter is claimed |
| C75 | baseband OFDM through a finite impulse response (Spec/Channel) | ℝ: the prefix makes the convolution circular, shift theorem of the DFT; sharpness by an explicit two-frame stream |
| C76 | baseband OFDM receiver on arbitrary lists | any F with any length-preserving transform: locality, panic on an incomplete frame; ℝ: linearity, Parseval, bit errors bounded by noise energy (Spec/Energy) |
| C77 | transmitters and the energy measurements, generic in the arithmetic | any F with `SignSq` (a factor ±1 disappears in a square): proved for ℝ and for all doubles incl. NaN/∞/±0 (F64/Square: multiplication commutes, (-x)(-x) = x·x); guards are read off from the successful transmission |
| C78 | same transmitters over ℝ | sums of cos², sin², cos·sin over whole half periods; per block, then summed; example shows the half-period condition is needed |
| C79 | passband CDMA with a receiver key different from the sender's | ℝ: every signal is a quadrature pair times a key (`Lane`, Lemmas/Users); chip sums of cos², sin², cos·sin; decision = sign of a weighted sum of key correlations |
| C80 | same, several stations with gains | C79 decision + orthogonality; existence of the channel proved separately |
| C81 | A recording is a list of `n·k` samples given by a function of symbol number and sample number (`Spec/Fading`), so strengths and phases are arbitrary sequences; exact arithmetic | The correlators over a symbol with a whole number of half carrier periods isolate the two amplitudes (`quad_corr`), the key cancels (`rx_quad_key`), the energies at the two FSK tones do not depend on the phase (`toneEnergy_self'`, `toneEnergy_other'`). `C81_clean_*` show that the transmitters send the case of strength one and phase zero. |
| C82 | the transmitter of one scheme composed with the receiver of another, exact arithmetic | the transmitters as recordings (C81), amplitudes isolated by the correlators, C79 with a key of only true chips |
| C83 | receivers over ℝ on recordings whose carrier phase differs per sample; transmitter and receiver with different carriers | each product cos(x+t)·cos x bounded below, the squares summed exactly over whole half periods; a frequency offset is a linearly growing phase |
| C84 | sums of transmitted signals on several carriers over ℝ, received by the BPSK and QPSK receivers | cross-correlation of two carriers is a sum of two geometric sums over whole periods, hence zero; induction over the list of stations leaves the own term |
| C85 | transmitted signals over ℝ with samples removed from or silence added to the front, received by the receivers | recordings shifted by d k + e samples; each symbol window split in two runs of whole half periods, the correlator sums of which are exact |
| C86 | The PSK and CDMA receivers and modulators in IEEE doubles with an arbitrary library `L` of accuracy ε, on recordings within τ of a real signal (`Spec/Near.lean`: `NearRecording`, `Radio`). | Error analysis of one correlation (`F64/Corr.lean`, `corr_bound`: products and left-to-right sum, relative and subnormal rounding); a decision whose exact value exceeds the error has the exact sign (`C86_bpsk/qpsk/cdma_*`); agreement with the exact receiver (`C86_agree_*`); exact correlations from C81, C84, C79 give `C86_faded_*`, `C86_fdm`, `C86_near_far`; transmitted waveforms `C86_sent_*`; `C86_noise_*` composes them. Removing chips is exact in doubles. |
| C87 | `kom_py/psk.py`, `kom_py/cdma.py` (`Model/KomPy.lean`, exceptions as `PyErr`, numpy's `repeat`, `tile`, `convolve` as lists) beside the compiled modulators, generic in the number type. | Closed forms of the Python output (`txBpsk_eq`, `txBpskCdma_eq`) against the compiled waveforms; the guards agree by `guards_real`, in doubles by exactness of integer quotients (`C87_bpsk_ieee`); reception from C25 and C29; the baseband receivers are compared symbol by symbol for every number type. |
| C88 | `rx_bpsk` over ℝ: mixing, full convolution with ones, every k-th value, the first dropped. | `conv_window`: a full convolution with ones is a window sum; the kept values are windows one sample late (`C88_decision`); weight of own and next symbol (`C88_weight`), `C88_four_samples_fail` shows the bound is needed. |
| C89 | `tx_qpsk`, `rx_qpsk` over ℝ. | False. `tx_qpsk` is √2 times the compiled waveform at half the carrier (`C89_half_partial`); f/2 and f are orthogonal over a symbol, so the pair returns only sample edges (`C89_output`, `C89_refuted`, for every nonempty message when a symbol holds whole periods of the halved carrier). `C89_reads_compiled_partial`: the receiver alone is right. |
| C90 | `tx_bpsk_cdma`, `rx_bpsk_cdma` over ℝ. | False. The receiver is the plain BPSK one (`C90_ignores_code`); the key is balanced, so only sample edges remain (`C90_output`, `C90_refuted`). `C90_despread_partial`: the compiled receiver with the key reads the waveform. |
| C91 | `kom_py/util.py` on natural numbers and lists; `log(x, 2).is_integer()` is a parameter. Negative arguments are not modelled. | `Nat.size` is `bit_length`; strong induction on the list for `chunk`. |
| C92 | `tx_fh_dcsk` over ℝ with the column permutations as parameter; `rx_fh_dcsk` has no body. | Closed form `txFhDcsk_eq`; the iterated map keeps [-1, 1]; the eleventh start value is 1.001. The generator `chebyshev` (`chebyshevNext`) follows by the double-angle formula. |
| C93 | `rxDcsk`, `rxCsk` on every list of samples; DCSK noise margin over ℝ and in IEEE doubles. | `pairs` read by position; the logistic orbit stays in [0.0950625, 0.975] (`orbit_inv`, `orbit_39_ieee`), so disturbed samples keep their sign and the rounded product too. |
| C94 | Three runs of each modulator or receiver (whole, first piece, second piece) over ℝ; OFDM in any arithmetic. Spec: `CutAt`, `CutWith` (Spec/Frames). | `wave_append`, `fullBlocks_append_dvd`, `phase_shift` by whole periods; the FSK decision is a comparison of energies, unchanged by a rotation (`rxFskChunk_shift`); half a period negates the cosine. |
| C95 | `ssca` of `kom_py/ssca.py` (`Model/KomPyMore.lean`; `np.hamming` by its documented formula, `np.fft` as the transform of `Model/Fft.lean`) beside `sscaBase`/`sscaMapped`. Spec: `sscaWith` with the windows as parameters (Spec/Ssca). | Closed form of every entry (`pyBase_ok`, any arithmetic), then the double sum (`pyVal_spec`) with the phase factors of C58; the mapping formulas coincide (`sscaCell_real`), placement as in C59. |
| C96 | `max_cut` and `dcs` of `kom_py/ssca.py`; `np.max` of complex numbers is lexicographic (numbers, no NaN). Zero entries are excluded because `log10 0` is `-inf` in numpy and has no real value. | `npMax_real` by induction; monotone logarithm against C60. |
| C97 | `chirpz`, `chirpCtr` of `kom_py/chirp.py` over ℝ; `np.linspace` includes the end. Rates not negative. | Sample formulas beside C38; `C97_differ` at two samples; empty grid for `chirpCtr` from `⌊rep/fs⌋ = 0`. |
| C98 | `secs_to_str` on non-negative rationals (every `int` and the value of every `float`; `//` and `%` of floats are taken as exact). | Floors of quotients by whole numbers reduce to ℕ (`ratMod_floor`), then linear arithmetic; injectivity by splitting the text at its letters (`num_split`). |
| C99 | `ber`, `avg_energy`, `avg_energy_iq`, `scale` of the Python scripts beside `ber`, `avgEnergy`. Python's `sum` is left to right. | Direct; NaN by evaluating `0/0` in IEEE arithmetic. |
| C100 | `Display` for `HadamardMatrix` (`hadamardDisplay`). | Characters of the text by induction; a prefix code is injective. |
| C101 | `awgn` with its generator given by white Gaussian noise on a probability space (Spec/Gauss `White`), the BPSK, CDMA-BPSK and hopping chains, `ber`. | The decision statistics are orthogonal projections of the noise, hence independent Gaussians; the law of the received bits is a product (`Flips`); Gaussian tail = `Erfc`; strong law of large numbers for the limit. Exact arithmetic. |
| C102 | The same for QPSK and CDMA-QPSK. | Cosine and sine rails are orthogonal over whole half periods. |
| C103 | `awgn_complex` with the baseband transmitters and receivers. | One noise sample per symbol, on the real part. |
| C104 | `awgn`, `avg_energy`, `energy_detector`, the BPSK and CDMA-BPSK transmitters; noise as a white Gaussian sequence (`Spec.White`). | Strong law for the squares; a sub-Gaussian tail and Borel–Cantelli for the cross term (`Lemmas/GaussEnergy`). |
| C105 | `ssca_base` and the Python `ssca` for sizes of either parity. | The double sum of C58/C95 with the demodulating frequency left as written; a cyclic change of row absorbs the difference. |
| C106 | `tx_fsk`, `awgn` with the noise stream of an outcome, `rx_fsk`, `ber`, exact arithmetic; noise as for C101; textbook rate `envelopeError` in Spec/Gauss | a receiver that decides from the samples of one symbol makes independent errors in independent noise (Lemmas/Memoryless); the four correlations of a symbol are independent normal variables; the chance that one Rayleigh length exceeds a shifted one by polar coordinates (Lemmas/Rayleigh); strong law for the limit |
| C107 | `ber` on any chain with `Flips` (the specification of an independent-flip channel) | exponential Chebyshev with Mathlib's sub-Gaussian moment bound for each flip, multiplied over independent flips; Borel–Cantelli for growing messages (Lemmas/Hoeffding) |
| C108 | `txDcsk`, `awgn`, `rxDcsk` on ℝ; noise as in C101 | two samples per bit, memoryless blocks (Lemmas/Memoryless); sign changes of two independent Gaussians; invariant interval of the logistic map |
| C109 | `txCsk`, `awgn`, `rxCsk` on ℝ; noise as in C101 | nearest of two distinct values under one Gaussian; the orbits never meet (C46) |
| C110 | `awgn`, `avgEnergy`, `energyDetector` and the four phase transmitters over exact reals with white Gaussian noise | Symbols equal up to sign and order of samples give independent identically distributed block energies (the noise law is invariant under signs and permutations; QPSK's two shapes are each other's reversal); mean and variance from the Gaussian moments; Mathlib's central limit theorem for the blocks, `Erfc` as its tail (`energy_clt`). `C110_power` combines it with the law of large numbers of C104. The hypothesis of whole half periods is needed: otherwise symbols differ in energy |
| C111 | `erf`, `erfc` over ℝ; `Spec.Erfc` is the integral | `exp(x²)·erfc(x)/t` with `t = 1/(1 + x/2)` is replaced by a polynomial `W(t)` of degree 14: `exp(-x²)·t·W(t)` has a derivative within 6·10⁻¹⁰ (relative) of that of `erfc` and the same limit, so both functions are that close. A second polynomial `U` of degree 16 has almost the derivative of `P - log W`, `P` being the exponent of the library. All that is needed of the polynomials on [0,1] is checked by an integer Taylor-shift bound, proved sound and evaluated by the kernel (`Lemmas/IntPoly.lean`, `Lemmas/ErfPoly.lean`) |
| C112 | `txBasebandOfdm`, `awgnComplex`, `rxBasebandOfdm`, the baseband BPSK/QPSK mappers (ℝ); `White` noise; `carrierOf`, `mirrored`, `atPositions` (Spec/Carriers) | a received symbol is the sent one plus the DFT of the noise of its window (`noisy_rails`); the real and imaginary rows of the DFT at data bins have energy n/2 and are orthogonal unless the bins are equal or opposite (`rail_ortho`), so `flips_offset` gives the memoryless channel on unmirrored positions; opposite bins have equal real and opposite imaginary rows (`row_mirrored`); prefix energy is between 0 and the body's (Parseval) for the curve |
| C113 | `txBpsk`, `txCdmaBpsk`, `txFhBpsk`, their receivers, `awgn`, `ber` over exact reals; white Gaussian noise calibrated from the recorded signal as in tests/ber.rs:71-75 | C101 gives each bit the error probability of its own symbol's energy; `erfc(sqrt x)` is strictly convex (`erfc_sqrt_convex`, by the derivative), so Jensen's inequality bounds the mean from below, with equality only for equal energies; the energies of the first two symbols differ by a product of two sines (`first_energies`), which vanishes only for the excluded carriers. |
| C114 | `rxOfdmQpsk`, `pyRxOfdm` for any number type and any transform | The front end (mix, convolve with ones, take every k-th, skip) yields a stream whose length depends on the input's length alone (`rxOfdmQpsk_front`, `Yields.decimate`); the framing receiver crashes on a part of a frame (`rxBasebandOfdm_crash`). |
| C115 | `Model/KomPyBer`: `getBer`, `calcBer`, `berSigma`, the three receivers of kom_py/ber.py; multiprocessing is a map with one noise source per point | The script's deviation is that of tests/ber.rs at the ratio `snr * sym^2 / fs`, so C113 and C101/C99 apply; `2121` and `4000` satisfy `C113_unequal`; the OFDM receiver passes the data, hence C114 decides whether it panics. Double precision (Props/IeeeBer): `nan_to_num` of a positive quotient by zero is the largest double; the level is finite in every case, so the sweep returns. |
| C116 | `energyDetectorDb`, `energyDetector`, `awgnPy`, `pureAwgn`, `txBpsk`, `txCdmaBpsk` over exact reals, `lambdasSigma` (kom_py/lambdas.py); white Gaussian noise | The noise vector is Mathlib's `stdGaussian`, invariant under reflections, so only the norm of the signal matters (`above_congr`) and it may be put into the first sample; there, by Fubini, the claim is that `P((r + g)^2 > c)` grows with `r`, whose derivative is a difference of two Gaussian densities (`over_strictMono`); spheres are null sets (`sphere_null`), so there are no ties. |
| C117 | `Verif/Props/Optimal.lean`: the chains transmitter, `awgn`, receiver on the two messages that differ in bit n, against an arbitrary `rule : List ℝ → Bool` measurable on recordings of that length. | `Lemmas/Bayes.lean`: the standard Gaussian vector is rotated so that the difference of the two signals lies along the first axis; for two Gaussian shifts `gauss_gap` bounds how much a half space can gain over any other set (`Spec.White.two_signals`, the Neyman-Pearson bound at equal priors). The distance of the two transmissions is twice the root of the symbol's energy, so the bound is `bitError`, which `C101_*`/`C102_*` show the library attains. |
| C118 | `Model/KomPyWillie.lean`: `neyman_pearson` with NaN as `none`; `scipy.stats.norm.ppf` is any function satisfying `Quantile`, the p-value of `normaltest` any function. | Both likelihoods in closed form (`likelihood_real`); squared ratio `(u·exp(1-q))^n` with `u ≤ q` (`avg_split`), at most one by `1 + x ≤ exp x` (`gain_le`, with the case of equality). A quantile function exists (`quantile_exists`), so nothing is vacuous. Rounding and underflow of the products are not modelled. |
| C119 | `txBasebandFhOfdm`, `txFhOfdm`, `txFhOfdm2`, `pyTxFhOfdmDcsk`, `awgnPy` at IEEE-754 with any library. The Fourier transform is any function of the right length that does not hide an infinity or NaN in eight points (`Spreads`); the transform by definition does so with any factors (`spreads_sumDft`) | infinities and NaN survive `+ - *` and division (`F64/Spread`, cases on the unpacked number); the chaotic sequence is infinite from its eighth value on (C47), so the last entry of every frame is not finite; the hop is a permutation, the transform spreads it, scaling and carrier keep it (`C119_baseband`, `C119_passband`, `C119_hopping`); the energy then is not finite and the noise generator refuses it (`C119_noise`) |
| C120 | kom_py/lambdas.py `__run` up to the statistics (`growBits`, `runAt`, `runExperiment`), the eight transmitters of `harness`, `random_data`. Draws are named by the place they are made for. The regression and the plots are not modelled | the loop by induction on the number of rounds, divergence by fixpoint induction (`C120_stuck`); lengths of the eight transmitters from C62, C65, C69; the whole run and every number it returns (`C120_run`, `C120_harness`); the mean energy of the noise from C104 (`C120_snr`); the failure in double precision from C119 (`C120_crash`) |
| C121 | BPSK, QPSK and CDMA receivers on recordings as in C79–C81 and C84 (any strength and phase per symbol, stations on other carriers, stations with other keys), put through `awgn`. `marginError a E σ` (Spec/Margin) is the textbook error probability for an amplitude. | The decision statistic is the correlation of the recording (known from C79–C84) plus a Gaussian projection; projections on different symbols, and on cosine and sine of one, are independent (`bpsk_rec`, `qpsk_rec`, `cdma_rec`, `cdma_qpsk_rec`). `C121_margin` relates margins to energies, `C121_quadrature` treats any amplitudes, the rest computes them. |
| C122 | `__log_regress`, `__auc`, `__youden_j`, `__best_threshold` of kom_py/lambdas.py with `train_test_split` (any permutation), the fitted regression (any weight and intercept), `roc_curve` without thinning, `roc_auc_score`, the stable sort of the table and the switch on the number of rates (Model/KomPyRoc). Missing rates (no reading of one kind) are NaN, modelled as `none`. Exact arithmetic: the logistic function is strictly monotone, which doubles lose for far-away readings. | `reach`, `beats`, `readings` (Spec/Roc) define fractions and chances by counting. The points of the curve are the counts above each distinct score (`rocPoints_*`); the logistic function preserves order; the largest gap at the readings is the largest gap at all (the fractions change only there); trapezoids add up to the Mann–Whitney count (`auc_wins`). `C122_shifted` is a witness for the tie defect, `C122_accepts` says exactly when the script stops. |
| C123 | The receivers of C71, CSK, DCSK, `awgn` and the energies in IEEE arithmetic with any library (`FloatL L`) on arbitrary lists of doubles. `isMissing`, `isUnusable`, `Spoilt`, `FailsLow` (Spec/Bad) say what a spoilt recording and a contained failure are. OFDM is left out: what an FFT does with NaN depends on its algorithm. | NaN passes through `+`, `-`, `*`, `/`, `sqrt` and compares false (Lemmas/Nan, by cases on the unpacked format); non-finite values stay non-finite under sums and products and `∞ - ∞` is NaN. Locality by the symbol forms of Lemmas/Symbols. |
| C124 | The experiments of tests/billiam.rs (Model/Billiam): both `get_pds`, the four transmitters they are run with and the two `radiometer_pmd_*` loops; bits and noise of each attempt are named by place and arbitrary; plots, pickles and `fit_erfc` (scipy) are not modelled. | Variance of a sum of squares of shifted normals (C110's moments) and Chebyshev's inequality; the lists of counts by `mapM`; means by linearity; ordering by the strict monotonicity of C116; the constants by arithmetic. `Sends` (number of samples, energy per sample) is proved for the four transmitters from C78. |
| C125 | `txBpsk`/`rxBpsk`, `txQpsk`/`rxQpsk`, `txFhBpsk`/`rxFhBpsk` over ℝ; strengths, sum on the channel and the vote in Spec/Shared. | All stations of one kind ride on the same carrier samples, so the channel is the vote times that carrier; correlating multiplies the vote by the (positive) energy of the carrier. Capture and ties follow by arithmetic. |
| C126 | tests/eb.rs (Model/Eb): `check_eb!` and the test `check_ebs`, with its random bits as argument; the transmitters over ℝ. | The squared samples of BPSK are those of the bare carrier; sums of `cos 2(a + j d)` telescope and are at most `1/|sin d|`; QPSK and BFSK symbol by symbol. Exact values by C78. |
| C127 | The hopping and FSK modulators and receivers in IEEE doubles with an arbitrary library `L` of accuracy ε, on recordings within τ of a real signal, as in C86. | One correlation as in C86; the energy of a tone is a sum of two squared correlations, whose error is bounded in `F64.energy_bound`, and the comparison of two energies in `rxFskChunk_near` (`Lemmas/IeeeRxFsk.lean`). `C127_hopping`, `C127_fsk` name the decisions with their margins, `C127_agree_fsk` compares with the exact receiver; `C127_faded_fsk` uses the exact energies of C81, `C127_hopping_signal` the exact correlation. `C127_sent_*` bound the error of the modulators, `C127_noise_*` compose them: for FSK the root of a tone's energy changes by at most k times the disturbance (Cauchy–Schwarz, `toneEnergy_norm`), so 0.24 is close to the limit 1/4. |
| C128 | `txFsk`/`rxFsk` (existing model of src/fm.rs) with a carrier of `c` symbol rates, read at ℝ and in double precision | closed forms of the two tone energies of a symbol (`Lemmas/FskTones`: Dirichlet kernels), bounds on `sin` for `c ≥ 3`, explicit bounds for `c = 1, 2` and for the setting of tests/fm.rs; double precision through C127 (`C127_fsk`, `C127_sent_fsk_close`) |
| C129 | `txCdmaBpsk`/`rxCdmaBpsk` (existing model of src/cdma.rs) and `hadamardNew`/`hadamardKey`, any number of users; the sum of the signals is a hypothesis on the channel (`OnAir`), in double precision the fold `addUp` of the test; read at ℝ and in double precision | `C129_decision` from C30; `C129_separates`/`C129_only` are the two directions; `C129_room` by Cauchy–Schwarz over the chips (closed form of the energy of a chip; squares of signed sums of orthogonal rows); `C129_count` by an injection of all patterns into the misread ones (the heavy users set against the own bit, the remaining ones possibly turned) and a product over the symbols; `C129_few`, `C129_sixteen`, `C129_thirtytwo`, `C129_sixtyfour` are the settings of the test, from tables of signed sums of `cos (kπ/16)` (`Lemmas/WalshCos`); `C129_decision_ieee`, `C129_room_ieee`, `C129_count_ieee`, `C129_sixteen_ieee`, `C129_few_ieee` |
| C130 | `bchStreamEncode`/`bchStreamDecode`, `txCodedCdmaBpsk`/`rxCodedCdmaBpsk` (existing model of src/bch.rs and src/cdma.rs); the recording is the beginning of what was sent (`List.take`); the channel of the unit test is a specification of its own (`CodedChannel`: zeros, to which the transmission is added as far as it fits; the length computed in double precision). Any arithmetic for `C130_beginning`/`C130_recording`, ℝ for `C130_radio`, double precision for `C130_radio_ieee` and `C130_test` | completing the last byte with `false` does not change it, so the received bytes are those sent but for the last one (`C130_damaged`, `C130_cut` from the frame-wise correction of C48); `C130_short` counts the bytes of the frames; the receiver answers symbol by symbol, so a beginning gives a beginning; C86 for disturbed samples; `C130_test_samples` evaluates the length of the channel |
| C131 | the adapters of src/iter (existing model, Model/Iter), combined with each other and with `skip` and `flat_map` of the standard library; any item type for the rate laws, any commutative semiring for the laws with sums (not double precision: the order of the additions differs) | both chains are evaluated to lists with the lemmas of C03–C11 and compared item by item; sums of blocks as sums over `Finset.range`; `SameItems` says that both streams end after the same items |
| C132 | the unit tests under `#[cfg(test)]` in src, one theorem per test with its numbers (existing models; the loops of the tests `hop_table`, `frequency_scrambling` and `hadamard` are transcribed in Props/UnitTests and Props/UnitChecks); double precision except OFDM on a carrier, the energy test and the ignored FH-OFDM-DCSK test (exact arithmetic). The receiver reads the transmitter's stream where the tests collect it first. Not covered: `normtest_awgn` (a p-value of scipy), the FSK test (C128, fails), the multi-user CDMA tests (C129, C130) | instances of the general theorems; CSK: the two orbits of the logistic map are followed in integer arithmetic through 9001 roundings by kernel evaluation (Lemmas/CskOrbit, legs of 500 steps) and shown to be the double-precision orbits (Lemmas/CskSim); hop table and scrambling by induction; Hadamard by counting common ones from agreements and row weights; energy detector by Chebyshev's inequality |
| C133 | Passband OFDM chain over `FloatL L`; recordings `Disturbed τ` | Each stage (frame, carrier, mixing, moving sum, transform) is compared item by item with the exact chain of C66; the transform and the library enter through `AccurateDft` and `Accurate` (and `exp(0) = 1`); decisions from the margin of the exact values |
| C134 | `bandpass` read at `Float`; the transforms of the library enter as any pair of functions with an error bound (`AccurateRfft`) | the computed frequency of a bin is the rounded exact one, and rounding is monotone, so a bin in the band is never lost and one outside by more than a rounding is never kept; the errors of the forward transform pass the inverse one, which is linear with unit coefficients; then C57 and C68. The correctly rounded transforms meet the hypothesis (`accurate_rfft`) |
| C135 | `bandpass` over ℝ with the exact transforms; tones are given by frequency, amplitude and phase | a bin `d` bins from a tone holds at most `a·n/(2d)` (geometric sum, `sin x ≥ 2x/π`); the squares of `1/d` beyond a distance `D` sum to at most `2/(D - 1/2)` (telescoping); Parseval; the triangle inequality for several tones |
| C136 | `bandpass` over exact reals in front of the modelled receivers; `OnBin` (Spec/Bins) says that a frequency makes a whole number of cycles in a block | the filter is an orthogonal projection (`bpOut_corr`, from the Pythagoras law of C135), so the correlation of its output with a tone on a bin of the band equals that of its input, and is 0 for other bins; summed over the blocks of a symbol; noise by C101 |
| C137 | `awgn`, `bandpass`, `avgEnergy`, `energyDetector`; the share of the spectrum in the band is `bandBins` (Spec/Band), a count of bin frequencies | The energy of a filtered block is the sum of the squared transform values of the bins in the band (Parseval), each a sum of two squared linear forms of the noise, whose means come from their covariances; `C137_mean` adds up the blocks, `C137_limit` is the strong law for the independent, identically distributed blocks of a periodic signal, `C137_detector` and `C137_tone` compare with the threshold. |
| C138 | The encoder, decoder and coded CDMA chain of C48/C49 with the noise of C101; the bit channel enters only through `Flips` (independent flips). | A decoding failure needs three wrong bytes in one frame of twelve (`three_wrong`, from C48). The probability that given bytes are all wrong is the product of the byte error probabilities (`Flips.wrongBytes`, inclusion-exclusion over independent bits). Union bound over frames and triples (`Flips.frames`), then `bitError_anti` and `Erfc_le`. |
| C139 | Transmitters and receivers of C24-C31, the filter of C57; the mixer is a specification (`Spec.mixed`), it is not in the crate except in tests/fft.rs, where two tones are multiplied by hand. | The product is the sum of two quadrature signals (`mixed_low`, `mixed_high`), so the frequency-division theorem C84 applies with both images as stations; the key commutes with the mixer; C136 puts the filter in between; tones by C68. |
| C140 | the passband OFDM transmitter, `awgn` on a stream giving white Gaussian samples, and the passband receiver, exact arithmetic | every received bit is the sign of its clean value plus a projection of the noise (`pass_bits`): the clean value is `±k/√2` up to 8 because the correlator window is one sample late (`pass_clean`), the projections have equal length `nk/2` and are pairwise orthogonal because the mixer turns real noise into circular complex noise (`brow_energy`, `brow_ortho`); only the last window of the transmission lacks a sample. The law of the bits follows as in C101; the union bound gives the message |
| C141 | the filter (C134) in front of the phase-shift and CDMA receivers (C86), all over `FloatL L`, with any transform accurate to `δ` | the filtered doubles are near the exact filter's output (C134), whose correlations with an on-bin carrier are those of the recording (C136, `Kept`), and C86 decides their sign; the link follows from the modulators' accuracy and the correlation of an undisturbed symbol |
| C142 | `erf`, `erfc` at `FloatL L`, the exponential of the library being any function with `AccurateExp L ε` (absolute accuracy up to the argument 4, and at minus infinity) | Lemmas/IeeeErf bounds every step for arguments up to 32 and compares with the exact formula of C55, whose distance to the error function is C111; beyond 32, and at the infinities, the argument of the exponential is below -1000 by one-sided bounds that allow infinite intermediate results. `C142_granular` uses the spacing of doubles around one; `C142_relative_lost` is the negative counterpart of C111's relative bound |
| C143 | modulators, `awgn` and receivers at `FloatL L`; the generator is any stream of doubles `Sampled` from white Gaussian samples (Spec/Gauss) to `η` up to `Z` | Lemmas/IeeeNoise bounds one sample of `awgn` in doubles; the recording is then near the exact noisy signal and C86 gives the decision off a margin. `margin_core` turns the margin into two tails of the exact Gaussian statistic and `white_far` bounds the chance of a sample beyond `Z`. The events are not assumed measurable: both bounds hold for the outer measure |
| C144 | BPSK, CDMA-BPSK and hopped BPSK through `awgn` in doubles (as C143), any carrier: `cosEnergy` is the energy of the carrier over one symbol, `Rates` bundles the two-sided bound per bit and the bound for the message | the margin theorems of C86/C127 give the decision as the sign of the exact correlation beyond `k·loss`; the correlation is `E·b + σ·(projection of white noise)`, whose tails are exact; union bound for the message and for the samples beyond `Z`. |
| C145 | baseband BPSK and QPSK through `awgnComplex` in doubles; the generator as in C143 | one sample per symbol: `x + (0 + σ d)` is within `ση` and a few roundings of `±a + σ z`, so the decision at zero is the sign of the exact sum beyond that margin; tails as in C144. Second QPSK bit: the imaginary part is never touched. |
| C146 | baseband OFDM (`txBasebandOfdm`, `rxBasebandOfdm`) with BPSK/QPSK symbols through `awgnComplex` in doubles; the transform is any `AccurateDft` with error δ, the generator as in C143 | transmitter frames, noise and deframing are followed with error bounds (`frames_near`, `noisy_cap`, `received_near`: every received symbol within `n(3Sδ + 2ση + S/2^44)` of the exact one); the exact symbol is amplitude plus a projection of the noise of energy `n/2` (as for C112), so a decision differs from the exact one only inside that margin; `margins_core` gives both tails. Lengths are structural and hold for any noise. |
| C147 | `txBpsk`/`txCdmaBpsk`, `awgn`, `rxBpsk`/`rxCdmaBpsk` and the coded versions in doubles; the generator as in C143 | specification `Within`: a memoryless channel (`Flips`) on the same probability space whose errors cover those of the link outside an event of probability r. The comparison channel (`shaky`) is wrong when the exact correlation does not clear the margin; it depends on the noise of its own symbol only, hence `memoryless`. Fewer wrong bits give no more wrong bytes (`frameErrors_mono`), so the bound of C138 carries over. |
| C148 | `txFsk`, `awgn`, `rxFsk`, `bchStreamEncode`, `bchStreamDecode` in doubles; the generator as in C143 | the four correlations of a symbol are within a margin of the exact ones, and the sign of the difference of the computed energies is right as soon as the exact amplitudes differ by four margins (`energy_sign`). The amplitudes in exact arithmetic are Rice and Rayleigh distributed: the probability that a squared length in one plane exceeds μ times the displaced one by C is `exp(-C/2v) exp(-μ/(1+μ) A²/2v)/(1+μ)` (`envelope_margin`), and a margin for amplitudes is traded for one for energies by Young's inequality with the parameter l. Comparison channel as in C147. |
| C149 | The checks at the head of every passband function (`rassert`, `udiv`, `usub`, `index`) in the order of the source; a call is `Guarded` by a condition when it returns under the condition and panics without it. | `Lemmas/Guards`: `Guarded` composes along the monadic bind, so each function's condition is read off its checks in any arithmetic; `Props/Guards`: the quotient check is divisibility for doubles (C18) and the cast of a finite double is its floor (`toNat_val`), so the conditions become statements on the numbers themselves. |
| C150 | `ssca_base` and `max_cut_detector` read at IEEE doubles with any library (`FloatL L`) and any transform of accuracy δ; specification: the exact strip spectral correlation `Spec.ssca` of the real values of the samples | Relative error algebra of complex products and transforms (F64/CMul: `CM`), carried through window, first transform, shift, product and second transform (Lemmas/IeeeSsca: `ssca_cm`); `max_by` on finite doubles never panics and finds a largest (`maxBy_fin`). `dcs_detector` and the mapped variant stay with exact arithmetic (C59, C60). |
| C151 | `tx_baseband_dcsk`, `rx_baseband_dcsk`, `tx_baseband_csk`, `rx_baseband_csk` and `awgn` read at IEEE doubles; the generator is any stream of doubles that follows white Gaussian samples (`Sampled`, C143); amplitudes are those of the logistic iterator in doubles | Decisions agree with the exact ones outside a margin (`product_sign`, `nearer_decide`); the margin events have product probabilities by independence (`pair_core`, `single_core` in Lemmas/IeeeChaosNoise). |
| C152 | `avgEnergy`, `energyDetector`, `power` read over `FloatL L` | rounding: one `|error| ≤ n(3uE + 4·tiny)` induction over the running sum; monotone rounding for the order statements; NaN and infinities by cases on the unpacked doubles |
| C153 | The links of C101 on carriers of any frequency; the noise level of `calculate_bers`. Specification: `erfc` by its integral, the energies read off the transmitted recording. | `erfc(√x)` is strictly convex (sign of the second derivative), Jensen's inequality with its equality case (Lemmas/Jensen), on top of C101; for hopping no symbol is silent because each hop starts at phase zero. |
| C154 | `linearChirp`, `txFhCss` read in IEEE doubles with an accurate cosine | number of samples: rounded quotient of dividing integers is exact; phase: errors counted in units of `A/2^52` through every operation (`Sc`), including the rounded band edges; hops from C36 |
| C155 | `txFm`, `txBfsk` read in IEEE doubles with an accurate cosine | error of a recursive sum (`Ap.rsum`), exactness of integer sums below `2^53` (`rsum_int`), product with the rounded literal 0.05, relative error of the carrier phase |
| C156 | the two integration tests with noise and an assertion, function by function up to the assertion, and the macro `error!`; plots and files left out | exact arithmetic and white Gaussian noise: the bits are independent flips (C78 energies, C101 counts) with energy-to-noise ratios 49/16 and 8, the assertion is the event that at most two (none) flipped; the bounds from `Erfc_le` and the tail of the exponential |
| C157 | the functions of kom_py/pd_ber_snr_example.py and `db`, the two curves of each panel, the loop of `find_idx_closest_to_point` with a round counter; SciPy's `erfc` is a parameter read as the integral | monotonicity of the exponential, the logarithm and `Erfc`; the crossing of the error curve from the intermediate value theorem between two rationals where the polynomial of C111 decides; logarithms of 10 and 19 from Taylor bounds |
| C158 | `txOfdmQpsk`, `awgn`, `rxOfdmQpsk` read at IEEE doubles with any accurate library and transform; the generator is any stream of doubles near white Gaussian noise up to a size `Z` | Lemmas/IeeePassNoise bounds mixer, moving sum and transform on recordings of any size; the exact values behind the decisions (`pass_values`, from C140) are ±D plus a projection of the noise, so a bit can only differ from the exact one when that value is within `passLoss` of zero; Gaussian tails as in C143 (`margins_core`) |
| C159 | `excessKurtosis` (the statistic of tests/normtest.rs, two-pass form of the `average` crate's estimator), `txBpsk`, `txCdmaBpsk`, `awgn` in exact arithmetic with white Gaussian noise | the excess is a rational function of the first four mean powers (`kurtosis_range`); the signs of message and key move into the noise, which stays white; the strong law on each column of the symbol period gives the mean fourth power; the mean goes to zero because every chip holds whole cycles |
| C160 | the eight BPSK/QPSK functions, over ℝ; specification `upconvert`/`downconvert` in Spec/UpDown.lean: multiplication by a complex exponential, sum over each whole symbol | `C160_tx_bpsk`, `C160_tx_qpsk`: sample by sample through `wave_getElem?`; `C160_rx_qpsk`, `C160_rx_bpsk`: the receivers as maps over the complete blocks of any recording, the tie at zero stated separately (the example on a silent recording shows that it occurs); `C160_roundtrip`: orthogonality of cosine and sine over whole half cycles; `C160_down` puts them together |
| C161 | the CDMA transmitters, `rx_cdma_bpsk_signal` and the plain BPSK/QPSK functions, over ℝ; specification `chips`, `chips2` in Spec/Chips.lean | `C161_bpsk`, `C161_qpsk`: sample by sample, the product of two NRZ levels is the NRZ level of their equality; `C161_overheard`, `C161_overheard_qpsk`: the round trips C25 and C28 at the chip rate; `C161_key`: the first chips are the key or its complement, then C29; `C161_inverted`: `b == k` is `!b ^ k`, then C22; `C161_ambiguity`: the chips determine message and key up to a common inversion; `C161_noise`, `C161_key_noise`: C101 on the chips with the chip energy of C78, and a union bound; `C161_bpsk_ieee`, `C161_overheard_ieee`: multiplication by ±1 is exact for every double, then C25 in doubles |

IEEE versions (any libm, or an accurate one; for C33 any accurate FFT, `AccurateDft`): C17, C18, C24, C25–C31, C33, C36, C37, C41, C43–C46, C49, C50, C51, C52, C60; C53 and C61 in C152.
C30 is stated there with a noisy channel: each sample may be off by an eighth of one user's amplitude, and the rounding of the
adder is shown to fit (`C30_adder_ieee`).  C36/C37 bound the accumulated rounding of the hop table; C41 assumes the two
correlation energies differ by `k²/32`, which orthogonal tones satisfy (`C41_orthogonal_ieee`).

### 3.1 Disagreements between the code and the claims
Each is a theorem with a concrete witness; the `_partial` theorem beside it says what does hold.

| claim | what the code does | theorem |
|-------|--------------------|---------|
| C04 | `wchunks` appends a whole chunk of defaults when the size divides the length | `C04_wchunks_refuted` |
| C05 | `inflate(0)` never ends on a non-empty source | `C05_inflate_refuted` |
| C08 | `convolve` applies the filter reversed, and drains too little when it is longer than the signal | `C08_convolve_refuted`, `C08_convolve_short_refuted` |
| C13 | (claim agrees) `fftshift` twice is a rotation by one for odd lengths | `C13_odd`, `C13_involutive_iff` |
| C14 | `fftshift_mut` leaves its argument unchanged | `C14_refuted` |
| C17 | `no_nans` lets NaN through | `C17_false` |
| C18 | `is_int` guard is fooled from 2^53+1 on | `C18_bound_sharp` |
| C20 | `key(u)` panics for u ≡ n-1 (mod n) | `C20_refuted` |
| C33 | baseband OFDM does not come back for any odd carrier count | `C33_refuted` |
| C35 | the passband OFDM receiver panics with one sample per symbol | `C35_refuted` |
| C36 | a hop table with 0 or 1 frequencies panics | `C36_refuted` |
| C38 | the centred down-chirp is the up-chirp | `C38_refuted` |
| C44, C47 | the Chebyshev iterator diverges (`mu` has the wrong sign convention) and is infinite from step 8 on in f64 | `C44_refuted`, `C44_overflows` |
| C50 | a fresh Costas loop outputs zeros for ever | `C50_false` |
| C51 | `rrcosfilter` is wrong for symbol lengths other than 1 and at its singular times | `C51_false`, `C51_singular_not_finite` |
| C53 | `power` divides by n-1, and by zero for a single sample | `C53_power_refuted`, `C152_power_short` |
| C55 | `erf(0) ≠ 0`, so `erf` is not odd | `C55_zero_refuted` |
| C111 | `erf` is not monotone: it steps down at zero | `C111_step` |
| C59 | mapped SSCA cells collide when np does not divide n; in doubles an entry is lost even when it does (n = 12, np = 4) | `C59_collision`, `C59_refuted` |
| C60 | `dcs_detector` panics on silence | `C60_dcs_silence` |
| C62 | the chaotic Python transmitters hang for sample rate 0 | `C62_zero_rate` |
| C88 | (claim agrees) the Python receiver's window starts one sample late, so four samples per symbol are too few; an empty recording raises | `C88_four_samples_fail`, `C88_empty_raises` |
| C89 | `tx_qpsk` (Python) uses π f t for 2π f t, i.e. half the carrier its own receiver tunes to | `C89_refuted` |
| C90 | `rx_bpsk_cdma` (Python) never multiplies by the key | `C90_refuted` |
| C92 | (claim agrees) from eleven rows on `tx_fh_dcsk` starts outside the interval its map keeps | `C92_unbounded` |
| C95 | the Python SSCA uses symmetric Hamming windows, the compiled one periodic ones; it also insists on one sample it never uses | `C95_differ`, `C95_prefix` |
| C96 | the Python `max_cut` takes `np.max` of complex numbers, which compares real parts, before taking magnitudes | `C96_max_cut_differ` |
| C97 | the Python chirp is a sine on a time grid that includes the end of the sweep, the compiled one a cosine on a grid that does not; `chirpCtr` passes its arguments in the wrong order and returns nothing | `C97_first`, `C97_differ`, `C97_ctr_empty` |
| C98 | `secs_to_str` takes hours from the remainder modulo a day although a year is not a whole number of days; zero prints "Эспэранто" | `C98_years`, `C98_differ`, `C98_zero` |
| C102 | (claim agrees) the QPSK curve drawn by tests/ber.rs and kom_py/ber_theory.py, p - p², is below the bit error rate p and below half the symbol error rate | `C102_formula` |
| C103 | (claim agrees) `awgn_complex` adds noise to the real part only: the second bit of a baseband QPSK symbol is never disturbed | `C103_qpsk`, `C103_curve_qpsk` |
| C105 | (claim agrees) with an odd number of channels the spectral correlation is demodulated half a channel (compiled) or a whole channel (Python) away from the channel that was filtered | `C105_odd`, `C105_compiled_odd`, `C105_python_odd` |
| C112 | (claim agrees) `awgn_complex` adds real noise only, so OFDM carriers `c` and `n - c` hear the same noise: errors come in pairs, and the calibrated curve is better than the textbook one by up to 3 dB | `C112_mirror`, `C112_pair`, `C112_curve` |
| C114 | (claim agrees) the passband OFDM receiver panics on a recording that lost more than `k - 2` samples of its last symbol, instead of dropping the incomplete frame | `C114_panics`, `C114_cut` |
| C115 | (claim agrees) kom_py/ber.py: the noise level is right only if `symbol_rate^2 = sample_rate`; both carriers of the script give symbols of unequal energy, so the BPSK curve lies strictly above theory; `ofdm_rx` decodes the global `data` instead of the signal and panics on the script's 9001 bits; `noise_sig` (unused) reads an undefined name | `C115_bpsk`, `C115_script`, `C115_ofdm_deaf`, `C115_ofdm_panics` |
| C116 | (claim agrees) kom_py/lambdas.py hands `avg_energy/snr`, a variance-like quantity, to `awgn` as the standard deviation: the power ratio it simulates is `snr^2/avg_energy`, and the louder of two signals is the harder one to detect | `C116_script` |
| C118 | (claim agrees) `neyman_pearson` of kom_py/willie.py can never return `True` at its default level; `p_value` there and `normal_detector` of src/willie.rs answer oppositely | `C118_default`, `C118_inverted`, `C118_normality` |
| C119 | (claim agrees) In double precision the FH-OFDM-DCSK transmitters send nothing but infinities and NaN: the map in src/chaos/chebyshev.rs is not the Chebyshev polynomial (it adds the linear term) and leaves the range of a double within the first frame. The round trip test of src/fh_ofdm_dcsk.rs is marked `#[ignore]` | `C119_baseband`, `C119_passband`, `C119_hopping`, `C119_noise` |
| C120 | (claim agrees) The loop of kom_py/lambdas.py that lengthens the message is never entered for any of the eight modulations; the last of them, FH-OFDM-DCSK, stops the whole script with a panic in double precision, after all the others have been run | `C120_harness`, `C120_crash` |
| C122 | The table of kom_py/lambdas.py assumes that no test reading is repeated: one repetition shifts the rates by a row and the best threshold can separate nothing, two stop the script with `ValueError`. (`plot_auc_vs_snr` there passes `__auc` two arguments and would raise `TypeError`; not modelled.) | `C122_shifted`, `C122_accepts` |
| C124 | (claim agrees) `get_pds` of tests/billiam.rs counts the readings at or below the threshold as detections, `radiometer_pmd_*` the readings above it as misses; the thresholds plotted for BPSK, CDMA-BPSK and CDMA-QPSK miss the transition; the OFDM run divides ten thousand attempts by one thousand; the steepness asserted for CDMA-QPSK is half of what the variance gives | `C124_swapped`, `C124_louder`, `C124_scripts`, `C124_flat_new`, `C124_fit` |
| C125 | (claim agrees) `SEED` of src/fh.rs is a constant, so hopping gives no multiple access: every station with the same range hops with every other. | `C125_hopping`, `C125_tie` |
| C126 | (claim agrees) The second reading of tests/eb.rs (`avg_energy / num_bits`) is the energy per bit over the number of samples and vanishes for long messages; a symbol of its BFSK tone 1600 (90 symbols per second) is not a whole number of half periods, so C78 does not apply to it and the BFSK value is only bounded. | `C126_mean`, `C126_check` |
| C128 | (claim stated for what holds) the tones of `tx_fsk` are too close for carriers of one or two cycles per symbol: messages beginning with a false bit come back beginning with a true one. The assertion of tests/fm.rs (`assert_eq!(rx, data)` at 44100/900/1800) does not hold of the code as modelled: bits 0 and 5 of its data are read wrongly, in exact arithmetic and (bit 5) in double precision for any accurate `sin`/`cos`. The unit test of src/fm.rs draws 4000 random bits in the same setting; 16^400 of the 1024^400 messages pass | `C128_few`, `C128_test`, `C128_test_iff`, `C128_unit_test`, `C128_fsk_graphs`, `C128_test_ieee`, `C128_fsk_graphs_ieee` |
| C129 | (claim stated for what holds) with 16, 32 and 64 keys `bpsk_cdma_multi_user` of src/cdma.rs asserts something that holds of hardly any of the data sets it draws: a chip there lasts 5, 8 or 4 samples of a carrier of 32 or more, the overlaps of a few other keys outweigh the own. At most (31/32)^1000, (15/16)^1000 and (15/16)^1000 of the data sets pass | `C129_sixteen`, `C129_thirtytwo`, `C129_sixtyfour`, `C129_sixteen_ieee` |
| C130 | (claim stated for what holds) the channel of `coded_bpsk_cdma_multi_user` in src/cdma.rs is too short: 1720 coded bits are sent, 1714 and part of another arrive. The test passes only because the code corrects the incomplete last byte | `C130_test_too_short`, `C130_test` |
| C131 | (claim stated for what holds) the plot of the I/Q data in tests/qpsk.rs:91-109 filters every symbol by itself and keeps the last item: that is the last mixed sample of the symbol, not its integral | `C131_last_item` |
| C132 | (claim stated for what holds) the test `hadamard` (src/hadamard.rs:57-82) announces orthogonality and computes the parity of the number of common ones: the correct matrices of size 2 and 4 fail it (those cases are commented out) and a matrix of identical rows passes | `C132_hadamard`, `C132_hadamard_weak` |
| C132 | (claim stated for what holds) `energy_test` (src/lib.rs:295-313) accepts the power 500/999/1000 as 5e-4: the absolute tolerance hides the sample too few | `C132_energy` |
| C132 | (claim stated for what holds) the "sine wave" of `normtest_sine` (src/willie.rs:47-56) is sampled at whole cycles and is silent up to rounding | `C132_sine_silent`, `C132_sine_quiet` |
| C132 | (claim stated for what holds) the ignored `no_nans_test` (src/chaos/chebyshev.rs:35-42) passes because `is_nan` counts infinities; there is no NaN among the values | `C132_chebyshev` |
| C156 | (claim agrees) the assertions of `bpsk_graphs` and `cdma_graphs` fail by chance: neither test is deterministic | `C156_bpsk`, `C156_cdma` |
| C157 | (claim agrees) `find_idx_closest_to_point` of kom_py/pd_ber_snr_example.py loops for ever on every non-empty list (it is not called) | `C157_find` |
| C161 | (claim agrees) baseband CDMA sends bit xor key, passband CDMA the level product, which is the inverse: the chips of one read by the other's receiver give the message inverted | `C161_inverted` |

## 4. Trusted base
* Lean 4.33 kernel; axioms allowed: `propext`, `Classical.choice`, `Quot.sound` only.
* Fidelity of the transcription (each definition cites its source lines).
* Lean's `Float` logical model being IEEE-754 binary64, as Rust's `f64` is.
* Not modelled: bit-exact libm, 64-bit overflow of `usize`, memory exhaustion, PyO3 argument conversion, plotting,
  `sci_rs` filters (`butterpass`), scipy's `normaltest`.
