#!/usr/bin/env python3
"""Writes ../properties.jsonl.  Kept so that the English list stays reviewable in one place."""
import json, os
P=[]
def p(id,title,statement,quantifier,why,anchors):
    P.append(dict(id=id,title=title,statement=statement,quantifier=quantifier,why_tests_cant=why,anchors=anchors))

p("C01","Byte/bit conversion is a bijection, least significant bit first",
  "Unpacking a byte gives exactly 8 bits, bit i being the coefficient of 2^i, and packing those 8 bits gives the byte back; conversely packing any 8 bits and unpacking gives the same 8 bits. Packing fewer than 8 bits behaves as if the missing high bits were false, packing more ignores the bits after the eighth.",
  "every byte and every slice of booleans of any length","the existing test draws one random 33-bit vector",
  ["src/lib.rs: bool_to_u8, u8_to_bools"])
p("C02","Bit stream to byte stream and back loses nothing",
  "Converting a bit stream to bytes yields ceil(n/8) bytes, always terminates (the padding loop in the code never spins), and converting these bytes back yields the original bits followed by fewer than 8 false bits. Converting any byte stream to bits and back is the identity.",
  "every finite bit stream and byte stream, every length","lengths modulo 8 and contents are unbounded; the padding loop condition `!len < 8` is a bitwise not, so testing one length cannot show that it neither hangs nor matters",
  ["src/lib.rs: bools_to_u8s, u8s_to_bools"])
p("C03","chunks splits without loss",
  "For a positive chunk size k, the emitted chunks concatenate to the source, every chunk but the last has exactly k items, the last has between 1 and k items, the number of chunks is ceil(n/k); for k = 0 nothing is emitted.",
  "every source stream, every chunk size","sizes are unbounded",
  ["src/iter/chunks.rs: Chunks", "src/iter/mod.rs: Iter::chunks"])
p("C04","wchunks pads only the last chunk and only when needed",
  "For a positive chunk size k every emitted chunk has exactly k items, the chunks concatenate to the source followed by default values, and padding is only added to complete a started chunk (so a source whose length is a multiple of k gets no padding).",
  "every source stream, every chunk size","the code is wrong exactly at the boundary n = 0 mod k, which a test with one length misses",
  ["src/iter/chunks.rs: WholeChunks", "src/iter/mod.rs: Iter::wchunks"])
p("C05","inflate repeats each item `copies` times in order",
  "inflate(c) is the same stream as flat_map(|x| repeat(x).take(c)) as its documentation says: item i of the output is item i/c of the source and the output has c*n items, for every c including 0.",
  "every source stream, every copy count","the documentation test uses copies = 5; the claim breaks at copies = 0",
  ["src/iter/inflate.rs: Inflate", "src/iter/mod.rs: Iter::inflate"])
p("C06","integrate emits all prefix sums",
  "Output i of integrate is the sum of source items 0..=i in source order, one output per input; nintegrate does this on every lane of an N-lane stream.",
  "every source stream, every additive type, every lane count","sizes unbounded",
  ["src/iter/integrate.rs: Integrate, Nintegrate"])
p("C07","integrate_and_dump emits the sum of each complete block",
  "With a positive period d, output i is the sum of source items i*d .. (i+1)*d, there are floor(n/d) outputs, an incomplete trailing block is dropped; the N-lane version does this per lane. With d = 0 the stream never ends.",
  "every source stream, every period, every lane count","sizes unbounded; non-termination cannot be observed by a test",
  ["src/iter/integrate.rs: IntegrateDump, NintegrateDump"])
p("C08","convolve is linear convolution",
  "Convolving an n-item signal with an m-tap filter emits the n+m-1 items of their linear convolution, out[i] = sum_j signal[i-j]*filter[j].",
  "every signal, every filter","the test uses one all-ones filter, for which tap order and tail alignment are invisible",
  ["src/iter/convolution.rs: Convolver, convolve_linear (test oracle)"])
p("C09","nonvolve is convolve on every lane",
  "Lane j of nonvolve applied to an N-lane stream is convolve applied to lane j, and both have the same length.",
  "every N-lane stream, every filter","sizes unbounded",
  ["src/iter/convolution.rs: Nonvolver"])
p("C10","take_every keeps exactly the items at multiples of the frequency",
  "take_every(f) emits source items 0, f, 2f, ... for f > 0 and panics on the first pull for f = 0.",
  "every source stream, every frequency","sizes unbounded",
  ["src/iter/take_every.rs: Take"])
p("C11","scale multiplies every item by the scalar",
  "scale(k) emits x*k for every source item x in order and nothing else.",
  "every source stream, every scalar, every multiplication","trivial per item but quantified over streams",
  ["src/iter/scale.rs: Scale"])
p("C12","The stream adapters are causal and lazy",
  "The first k outputs of chunks, inflate, integrate, integrate_and_dump, convolve, nonvolve, take_every and scale depend only on a stated finite prefix of the source, whatever the source does afterwards (more items, end, infinite stream).",
  "every pair of sources agreeing on a prefix, every k","tests only ever use finite sources and collect everything",
  ["src/iter/*.rs"])
p("C13","fftshift is the half rotation and is undone by itself for even lengths",
  "fftshift moves item i to position (i + floor(n/2)) mod n, keeps the length and the multiset of items, and applying it twice is the identity for every even length; for odd lengths applying it twice rotates by one, so it is its own inverse only when n is even or all items are equal.",
  "every vector of every length","odd lengths are never tested",
  ["src/lib.rs: fftshift"])
p("C14","fftshift_mut computes the same as fftshift",
  "The in-place fftshift_mut leaves in its argument exactly what fftshift returns.",
  "every vector","no test calls it; the claim is false for every vector of length > 1 with distinct items",
  ["src/lib.rs: fftshift_mut"])
p("C15","linspace divides the half-open interval evenly",
  "linspace(a,b,n) yields n points, the i-th is a + i*(b-a)/n; for a < b the points strictly increase, start at a, and all lie in [a,b).",
  "every pair of endpoints and every count","reals are unbounded; exact arithmetic idealisation stated",
  ["src/lib.rs: linspace"])
p("C16","ber is the fraction of differing positions of the common prefix",
  "For non-empty common length, ber is (number of differing positions)/(common length), lies in [0,1], is symmetric, is 0 exactly when the common prefixes agree and 1 exactly when they disagree everywhere.",
  "every pair of bit vectors","contents unbounded",
  ["src/lib.rs: ber"])
p("C17","no_nans rejects vectors containing a NaN or an infinity",
  "no_nans returns true exactly when no component is NaN or infinite, for real and for complex vectors.",
  "every vector of IEEE doubles","the check compares with == NAN, which is never true; no finite test on finite data sees it",
  ["src/lib.rs: IsNan, no_nans"])
p("C18","The integer-rate guard accepts exactly the dividing rates",
  "The guard is_int(sample_rate as f64 / symbol_rate as f64) used by every modulator accepts exactly when the symbol rate is non-zero and divides the sample rate, for all rates below 2^53, in IEEE double arithmetic; and is_int itself accepts exactly the natural numbers up to the u64 range.",
  "every pair of rates below 2^53, every double","2^106 pairs; rounding of the quotient could make a non-integer look like an integer",
  ["src/lib.rs: is_int", "src/bpsk.rs: tx_bpsk_signal"])
p("C19","Walsh-Hadamard codes are orthogonal",
  "HadamardMatrix::new(2^k) is the 2^k x 2^k Sylvester matrix: symmetric, first row all true, entry (i,j) true exactly when i AND j has an even number of set bits, and any two distinct rows agree in exactly half of their positions.",
  "every k and every pair of rows","the test only checks a parity for six sizes",
  ["src/hadamard.rs: HadamardMatrix::new"])
p("C20","Every user index below the size gets its own non-trivial Walsh code",
  "For a matrix of size n = 2^k, key(u) returns for every user index u a row other than the all-true row, distinct users u < n-1 get distinct (hence orthogonal) rows, indices wrap modulo n, and no index panics.",
  "every size and every user index","key() adds one after the modulo, so one residue class is out of range; tests stop just before it",
  ["src/hadamard.rs: HadamardMatrix::key"])
p("C21","Baseband CDMA round trip",
  "Decoding with the same non-empty key what was spread with that key gives back the message; the spread stream has message length times key length chips.",
  "every message, every non-empty key","keys and messages unbounded",
  ["src/cdma.rs: tx_baseband_cdma, rx_baseband_cdma"])
p("C22","Baseband CDMA tolerates fewer than half chip errors per bit",
  "If in every key-length block of the spread stream fewer than half of the chips are flipped, decoding still returns the message.",
  "every message, key and error pattern within the bound","the number of error patterns is exponential",
  ["src/cdma.rs: rx_baseband_cdma"])
p("C23","Decoding baseband CDMA with an orthogonal key reveals nothing",
  "If the two keys differ in exactly half of the positions (as any two Walsh codes do), decoding a stream spread with one key using the other key yields false for every message bit, whatever the message.",
  "every message, every pair of equal-length keys at half distance, in particular every pair of distinct Walsh rows","quantifies over all messages and keys",
  ["src/cdma.rs: rx_baseband_cdma", "src/hadamard.rs"])
p("C24","Baseband BPSK round trip",
  "rx_baseband_bpsk_signal(tx_baseband_bpsk_signal(m)) = m in IEEE double arithmetic, symbols are +1 and -1 with zero imaginary part.",
  "every message","unbounded messages",
  ["src/bpsk.rs: tx_baseband_bpsk_signal, rx_baseband_bpsk_signal"])
p("C25","Passband BPSK round trip for every carrier",
  "For all sample and symbol rates accepted by the transmitter's guards with at least two samples per symbol, and every carrier frequency, receiving what was transmitted gives back the message (exact arithmetic; with one sample per symbol it can fail).",
  "every message, every accepted rate pair, every carrier","carrier frequencies are a continuum; a zero of the carrier on all samples of a symbol would lose bits",
  ["src/bpsk.rs: tx_bpsk_signal, rx_bpsk_signal"])
p("C26","BPSK transmitter: guards, length and waveform",
  "tx_bpsk_signal panics exactly when the symbol rate is zero or does not divide the sample rate or the whole part of the carrier exceeds half the sample rate (rounded down); for a positive sample rate it otherwise emits samples_per_symbol samples per bit, sample i being +-cos(2 pi fc i/fs) according to bit i/sps, and inverting all message bits negates the waveform.",
  "every message, every parameter","parameters unbounded",
  ["src/bpsk.rs: tx_bpsk_signal"])
p("C27","Baseband QPSK round trip, odd bit dropped",
  "rx_baseband_qpsk_signal(tx_baseband_qpsk_signal(m)) returns m without its last bit when the length is odd and m itself when it is even, for the constellation (+-sqrt2, +-sqrt2), in IEEE double arithmetic.",
  "every message","unbounded messages",
  ["src/qpsk.rs: tx_baseband_qpsk_signal, rx_baseband_qpsk_signal"])
p("C28","Passband QPSK round trip",
  "If every symbol lasts a whole number of carrier half-periods (and the carrier is not a multiple of half the sample rate), receiving what was transmitted gives back the message up to a trailing odd bit; more generally it holds whenever on every symbol |sum cos*sin| < min(sum cos^2, sum sin^2). It fails for a zero carrier.",
  "every message, every rate pair and carrier meeting the condition","carriers are a continuum",
  ["src/qpsk.rs: tx_qpsk_signal, rx_qpsk_signal"])
p("C29","Single-user CDMA/BPSK round trip",
  "For all parameters accepted by the guards of tx_cdma_bpsk_signal and every carrier, rx_cdma_bpsk_signal with the same key returns the message; guards reject an empty key.",
  "every message, key, rate pair and carrier accepted by the guards","keys, messages and carriers unbounded",
  ["src/cdma.rs: tx_cdma_bpsk_signal, rx_cdma_bpsk_signal"])
p("C30","Multi-user CDMA/BPSK separation",
  "When several users with pairwise orthogonal keys transmit equally long messages at once (their signals added sample by sample) and each chip lasts a whole number of carrier half-periods, each receiver recovers exactly its own user's message.",
  "every number of users, every set of pairwise orthogonal keys, every messages","users, messages and keys unbounded",
  ["src/cdma.rs: tx_cdma_bpsk_signal, rx_cdma_bpsk_signal", "src/hadamard.rs"])
p("C31","Single-user CDMA/QPSK round trip",
  "For all accepted parameters such that each symbol lasts a whole number of carrier half-periods and the carrier is not a multiple of half the sample rate, rx_cdma_qpsk_signal with the same key returns the message up to a trailing odd bit.",
  "every message, key, rate pair and such carrier","unbounded",
  ["src/cdma.rs: tx_cdma_qpsk_signal, rx_cdma_qpsk_signal"])
p("C32","OFDM data subcarriers are well allocated",
  "For 1 <= pilots <= subcarriers the data subcarrier list has exactly subcarriers - pilots entries, strictly increasing, all below subcarriers and none equal to the DC position subcarriers/2; for pilots = 0 or pilots > subcarriers the transmitter panics.",
  "every pair of counts","pairs of naturals; tests use (64,12) only",
  ["src/ofdm.rs: get_data_subcarriers, tx_baseband_ofdm_signal"])
p("C33","Baseband OFDM round trip",
  "For every subcarrier count and every pilot count between 1 and subcarriers-1, rx_baseband_ofdm_signal returns the transmitted symbols followed by zeros up to a multiple of the data subcarrier count (exact arithmetic, exact DFT).",
  "every symbol stream, every subcarrier and pilot count","tests use (64,12); odd subcarrier counts break because fftshift is not its own inverse",
  ["src/ofdm.rs: tx_baseband_ofdm_signal, rx_baseband_ofdm_signal"])
p("C34","OFDM frames carry a cyclic prefix",
  "Each transmitted OFDM frame has subcarriers + subcarriers/4 samples, its first subcarriers/4 samples equal its last ones, and the number of frames is ceil(symbols/(subcarriers-pilots)).",
  "every symbol stream, every accepted count pair","sizes unbounded",
  ["src/ofdm.rs: tx_baseband_ofdm_signal"])
p("C35","Passband OFDM receiver does not lose symbols",
  "Feeding the passband OFDM receiver with the passband transmission of any message never panics and yields the same number of demodulated bits as the transmitted frames carry.",
  "every message and parameter","the matched filter is sampled one sample late; at one sample per symbol a frame goes missing and the FFT panics",
  ["src/ofdm.rs: tx_ofdm_qpsk_signal, rx_ofdm_qpsk_signal"])
p("C36","The hop table visits every frequency once per period",
  "For at least two frequencies, each block of num_freqs consecutive hops is a permutation of the num_freqs evenly spaced frequencies in [low, high), for ever; transmitter and receiver with the same seed see the same hops. The same holds for one frequency (no panic).",
  "every frequency range, every table size, every shuffle, every number of hops","the shuffle is arbitrary; tests use one seed and 8 frequencies; one frequency panics",
  ["src/fh.rs: HopTable"])
p("C37","Frequency-hopped BPSK round trip",
  "For at least two hop frequencies, low <= high, and parameters accepted by the guards, rx_fh_bpsk_signal(tx_fh_bpsk_signal(m)) = m, whatever the hop order.",
  "every message, range, table size, shuffle","hop orders and carriers unbounded",
  ["src/fh.rs: tx_fh_bpsk_signal, rx_fh_bpsk_signal"])
p("C38","Linear chirps: length, start and sweep direction",
  "linear_chirp emits floor(sample_rate/chirp_rate) samples starting at phase 0 with sample i equal to cos(2 pi (f0 + k t/2) t); the centred up-chirp sweeps from low to high and the centred down-chirp from high to low.",
  "every rate, centre and bandwidth","continuum of parameters; the down-chirp is a copy of the up-chirp",
  ["src/fh_css.rs: linear_chirp, linear_upchirp_centered, linear_downchirp_centered"])
p("C39","FH-CSS transmitter length",
  "For accepted parameters, tx_fh_css_signal emits exactly sample_rate/symbol_rate samples per message bit, an up-chirp for true and a down-chirp for false around the hop frequency.",
  "every message, every accepted rate pair and band, every table of at least two frequencies","unbounded",
  ["src/fh_css.rs: tx_fh_css_signal"])
p("C40","BFSK transmitters pick the tone by bit",
  "tx_bfsk_signal emits sps samples per bit, sample i being cos(2 pi f i/fs) with f the high tone iff bit i/sps is true; tx_mfsk_signal ignores its number of tones; tx_fsk_signal with the list [high, low] equals tx_bfsk_signal and panics with fewer than two tones.",
  "every message, every parameter accepted by the guards with a positive sample rate","unbounded",
  ["src/fsk.rs: tx_bfsk_signal, tx_mfsk_signal, tx_fsk_signal"])
p("C41","The FSK receiver does not depend on the phase reference",
  "The decision of rx_fsk on a chunk is the same whatever time offset is used for its correlators (so the receiver's wrong chunk time base is harmless), and rx_fsk(tx_fsk(m)) = m whenever on every symbol the matched tone energy exceeds the other tone's (for a true bit ties are allowed).",
  "every signal chunk, every time offset, every carrier","continuum of signals and offsets",
  ["src/fm.rs: rx_fsk, tx_fsk"])
p("C42","FM transmitter: phase is the running sum of the message",
  "tx_fm emits sps samples per message value, sample i being cos(2 pi fc i/fs + 0.05 * S_i) where S_i is the sum of the first i+1 inflated message values; samples stay in [-1,1].",
  "every message, every rate pair with at least one sample per symbol, every carrier","unbounded",
  ["src/fm.rs: tx_fm"])
p("C43","Chaotic maps stay in their intervals",
  "The logistic iterator with 0 <= mu <= 4 started in [0,1] stays in [0,1] for ever (and rejects other starts); the tent map with 0 <= mu <= 1 maps [-1,1] into [-1,1]; the Bernoulli map with 0 <= mu <= 2 maps [-1,1] into [-1,1].",
  "every start, every parameter, every number of steps","infinite orbits",
  ["src/chaos/logistic_map.rs", "src/chaos/mod.rs: tent_map, bernoulli_map"])
p("C44","The Chebyshev iterator stays in [-1,1]",
  "Started in [-1,1] the Chebyshev iterator stays in [-1,1] for ever.",
  "every start, every number of steps","orbit behaviour; the implemented cubic 3x^3+2x expands, so the claim is false for every non-zero start",
  ["src/chaos/chebyshev.rs"])
p("C45","DCSK round trip",
  "rx_baseband_dcsk(tx_baseband_dcsk(m)) = m, with two samples per bit, the first being the chaotic reference and the second the reference or its negation.",
  "every message (so every orbit length)","depends on the logistic orbit never hitting 0",
  ["src/dcsk.rs"])
p("C46","CSK round trip",
  "rx_baseband_csk(tx_baseband_csk(m)) = m in exact arithmetic; in IEEE double arithmetic it holds exactly as long as the two reference orbits differ at every position of the message that holds a true bit.",
  "every message (so every orbit length)","depends on two logistic orbits never meeting, for ever",
  ["src/csk.rs"])
p("C47","FH-OFDM-DCSK baseband round trip",
  "rx_baseband_fh_ofdm_dcsk_signal(tx_baseband_fh_ofdm_dcsk_signal(m)) returns m followed by padding bits only (exact arithmetic, any shuffle sequence shared by both sides), the padding completing the last frame of 7 bits.",
  "every message, every shuffle sequence","the only test is ignored; the padding adds a whole extra frame when 7 divides the length",
  ["src/fh_ofdm_dcsk.rs"])
p("C48","Block-coded bit stream round trip and error correction",
  "Decoding the encoded bit stream returns the data followed by fewer than 8 false bits; it still does when at most 2 bytes of every 12-byte frame are corrupted; each full frame of 7 bytes is expanded to 12.",
  "every bit stream, every corruption within the bound; the Reed-Solomon crate is a parameter with its published contract","unbounded data and error patterns",
  ["src/bch.rs"])
p("C49","Coded CDMA/BPSK round trip",
  "For accepted parameters and a message whose length is a multiple of 8, rx_coded_cdma_bpsk_signal(tx_coded_cdma_bpsk_signal(m)) = m; for other lengths false bits are appended up to the next multiple of 8.",
  "every message, key, rate pair, carrier","unbounded",
  ["src/cdma.rs: tx_coded_cdma_bpsk_signal, rx_coded_cdma_bpsk_signal"])
p("C50","The Costas loop passes a phase-aligned signal",
  "A freshly created Costas loop applied to a signal outputs the signal rotated by its oscillator phase, so a non-zero input gives a non-zero output.",
  "every finite input sequence","history dependent; the implemented oscillator output is phase*(-i), which is 0 initially and stays 0 for ever",
  ["src/costas.rs"])
p("C51","Root-raised-cosine taps",
  "rrcosfilter returns `taps` values, equal to the root-raised-cosine impulse response at (i - taps/2)/samp_rate including its removable singularities at t = 0 and t = +-T/(4 beta), and symmetric about the centre.",
  "every tap count, roll-off, symbol length and rate","singular points are isolated parameter values",
  ["src/filters.rs: rrcosfilter"])
p("C52","Hamming windows",
  "hamming_window(n) has n values in [0.08, 1], starts at 0.08, is symmetric w[i] = w[n-i] for 0 < i < n, and the complex version has the same real parts and zero imaginary parts.",
  "every length and index","lengths unbounded",
  ["src/lib.rs: hamming_window, hamming_window_complex"])
p("C53","Energy and power",
  "energy is non-negative, additive under concatenation, scales with the square of the amplitude, is zero exactly for the zero signal; avg_energy*n = energy*fs; power is the energy divided by the number of samples.",
  "every signal, every non-zero rate (power: at least two samples; shorter recordings in C152)","unbounded; power divides by n-1",
  ["src/lib.rs: energy, avg_energy, power"])
p("C54","db and undb are inverse",
  "undb(db(x)) = x for x > 0 and db(undb(y)) = y for all y, db turns products into sums (exact arithmetic).",
  "every real","continuum",
  ["src/lib.rs: db, undb"])
p("C55","erf approximation: symmetry and range",
  "erf(-x) = -erf(x) for every x, erfc(x) = 1 - erf(x), erf takes values in (-1,1).",
  "every real","continuum; at x = 0 the approximation is not exactly 0 so oddness fails there",
  ["src/lib.rs: erf, erfc"])
p("C56","AWGN only adds the noise samples",
  "awgn, awgn_complex and the Python awgn emit one sample per input sample, equal to the input plus sigma times the i-th standard normal variate of the generator (on the real part only for awgn_complex); pure_awgn emits sigma times each variate. awgn and awgn_complex panic exactly when sigma is not finite. With sigma 0 the input is returned, and multiplying sigma by c multiplies the noise by c.",
  "every signal, every stream of variates, every sigma","the noise stream is random: only a universally quantified statement is meaningful",
  ["src/lib.rs: awgn, awgn_complex, pure_awgn"])
p("C57","The FFT band-pass keeps in-band bins and is a projection",
  "For signals whose length is a multiple of the FFT length, bandpass keeps the length and is linear; applying it twice is the same as once; a pass band covering all bins returns the signal unchanged (exact arithmetic); otherwise it panics on the incomplete last chunk.",
  "every signal, band, rate and FFT length","continuum of signals",
  ["src/bpf.rs: bandpass"])
p("C58","SSCA: shape, guard and bilinearity",
  "ssca_base panics exactly when n <= np or the signal is shorter than n + np - 1; otherwise it returns an n x np matrix; scaling the signal by c scales every entry by c^2, so for c not 0 and a spectrum with a non-zero entry (for DCS: no zero in its first row) the detector statistics shift by 40 log10|c| dB (max cut) or not at all (DCS).",
  "every signal, n and np","unbounded",
  ["src/ssca.rs: ssca_base", "src/lib.rs: max_cut_detector, dcs_detector"])
p("C59","SSCA output mapping stays in range and does not overwrite",
  "ssca_mapped writes every entry inside its (np+1) x (2n+1) output, and when np divides n two different entries never land on the same cell.",
  "every n and np, every recording; exact arithmetic and double precision with any library and transform","pairs of naturals; the indices are computed in floating point and truncated, so a rounding error of one unit moves an entry to the neighbouring cell for some sizes only",
  ["src/ssca.rs: ssca_mapped"])
p("C60","Detectors return the maximum and do not fail on silence",
  "max_cut_detector_sxf is 10 log10 of the maximum squared magnitude; dcs_detector is 10 log10 of the maximum over columns of (column energy / first-row energy); both return a value for every non-empty spectrum.",
  "every spectrum","the DCS detector divides by the first row, an all-zero column gives NaN and a panic",
  ["src/lib.rs: max_cut_detector, max_cut_detector_sxf, dcs_detector, dcs_detector_sxf"])
p("C61","Energy detector is monotone in the signal energy",
  "willie's energy_detector fires exactly when the RMS of the signal exceeds n0; scaling a signal up never turns a detection off.",
  "every non-empty signal and every threshold (the empty signal in C152)","continuum",
  ["src/willie.rs: energy_detector"])
p("C62","Python wrappers emit whole symbols",
  "tx_csk and tx_dcsk accept exactly dividing rates, and emit sps (respectively 2*sps) samples per bit, each block constant; tx_cdma_bpsk uses the 16-chip code number 1.",
  "every message and rate pair","unbounded",
  ["src/lib.rs: module_with_functions"])
p("C63","Two CDMA/BPSK users are separated without orthogonality",
  "When exactly two users transmit equally long messages at once and their equally long keys are neither equal nor complementary, each receiver recovers its own user's message at every accepted carrier frequency.",
  "every pair of messages, every such pair of keys, every rate pair and carrier","keys, messages and carriers are unbounded",
  ["src/cdma.rs: tx_cdma_bpsk_signal, rx_cdma_bpsk_signal"])
p("C64","Legacy hopping transmitter: length and time base",
  "tx_fh_bpsk_signal_old emits sps samples per bit; sample j of bit number i is (+/-1) cos(2 pi fc t) cos(2 pi hop_i t) with t = (i + j)/sample_rate, that is, its time base advances one sample per bit, not one symbol.",
  "every message, range, shuffle, accepted rate pair and carrier, every table of at least two frequencies","unbounded messages and continuous carriers",
  ["src/fh.rs: tx_fh_bpsk_signal_old"])
p("C65","Round trips through the Python entry points",
  "Called with Python lists, rx_bpsk(tx_bpsk(m)) = m for every accepted rate pair with at least two samples per symbol, and rx_qpsk(tx_qpsk(m)) = m for even-length messages with whole half periods per symbol and a carrier that is not a multiple of half the sample rate; tx_bfsk returns sps samples per bit of the tone of the bit, tx_fh_css sps samples per bit of the chirp of the bit, chirp floor(fs/rate) samples of the chirp from f0 to f1, tx_baseband_bpsk one point per bit; what tx_cdma_bpsk sends is decoded by the CDMA receiver with the alternating 16-chip key.",
  "every message, rate pair and carrier","unbounded",
  ["src/lib.rs: module_with_functions"])
p("C66","Passband OFDM round trip",
  "In exact arithmetic, with an even number of carriers, at least 12 samples per symbol and a whole number of carrier periods per symbol (and a carrier that is not a multiple of half the sample rate), receiving an unaltered OFDM transmission returns every transmitted bit in order, followed only by padding up to a whole frame; messages that fill their frames come back exactly.",
  "every message, every even carrier count, every accepted pilot count, rate pair and carrier frequency as described",
  "The receiver's correlator window starts one sample late, so every sample leaks into its neighbour and frames leak into each other; a test covers one message, one carrier count and one rate, while the bound on the leak has to hold for all of them.",
  ["src/ofdm.rs: tx_ofdm_qpsk_signal, rx_ofdm_qpsk_signal"])
p("C67","FH-OFDM-DCSK: frame shape and passband waveform",
  "The baseband transmitter sends floor(len/7)+1 frames of ten samples, each beginning with a copy of its last two samples; the passband transmitters repeat each baseband sample sample_rate/symbol_rate times and output the real part of it rotated by -2 pi f t, where f is the carrier, or the entry of the hop table for that baseband sample.",
  "every message, every rate passing the guards, any arithmetic, transform and generator","unbounded messages and rates; the only test is ignored",
  ["src/fh_ofdm_dcsk.rs: tx_baseband_fh_ofdm_dcsk_signal, tx_fh_ofdm_dcsk_signal, tx_fh_ofdm_dcsk_signal_2"])
p("C68","The band-pass separates tones",
  "A sum of tones at multiples of sample_rate/fft_len, with any amplitudes and phases: bandpass returns exactly the tones whose frequency lies in [low, high] (exact arithmetic), for any number of blocks.",
  "every finite set of tones, every band, block length and number of blocks","the crate's test accepts an error of 0.4 for three fixed tones",
  ["src/bpf.rs: bandpass"])
p("C69","OFDM through the Python entry points",
  "For 1 <= pilots < subcarriers and at least two samples per symbol, tx_ofdm returns (frames)*(subcarriers + subcarriers/4)*(sample_rate/symbol_rate) samples and rx_ofdm on that list returns 2*(subcarriers - pilots) bits per frame without panicking, whatever the arithmetic; in exact arithmetic, under the conditions of C66, rx_ofdm(tx_ofdm(m)) = m for messages that fill their frames. tx_fh_ofdm_dcsk returns 10*(floor(len/7)+1)*(sample_rate/symbol_rate) samples.",
  "every message, carrier and pilot count, rates and carrier meeting the stated conditions","the Python module is only exercised by plotting scripts",
  ["src/lib.rs: tx_ofdm, rx_ofdm, tx_fh_ofdm_dcsk"])
p("C70","Damage to one coded frame does not spread",
  "bch_stream_decode works frame by frame: whatever happens to the other frames, a twelve byte frame with at most two damaged bytes gives back its seven data bytes at their own position in the output, and a frame that the codec rejects gives its first seven bytes as received; no bit of any other frame is changed, lost or shifted.",
  "every message, every pattern of damage in any number of frames, every codec that keeps its documented contract (one such codec is exhibited)",
  "the repository's test sends one undamaged message; the damage patterns of a few frames alone are astronomically many",
  ["src/bch.rs: bch_stream_encode, bch_stream_decode"])
p("C71","Receivers are total and decide symbol by symbol",
  "On every finite list of samples (from a transmitter or not) the BPSK, QPSK, CDMA and hopping receivers return, without panicking, exactly one bit (QPSK: two bits) per complete symbol of sample_rate/symbol_rate samples, and the bits of a symbol depend only on the samples of that symbol: two recordings that agree on symbol n give the same bits there whatever else they contain. rx_fsk does the same and also answers an incomplete last symbol.",
  "every signal of every length, every rate pair with at least one sample per symbol, every carrier, key and hop table the receiver accepts, every arithmetic (IEEE included, so also signals with NaN and infinities)",
  "tests feed the output of the matching transmitter; independence of the rest of an arbitrary recording is a statement about pairs of unbounded signals",
  ["src/bpsk.rs: rx_bpsk_signal","src/qpsk.rs: rx_qpsk_signal","src/cdma.rs: rx_cdma_bpsk_signal, rx_cdma_qpsk_signal","src/fh.rs: rx_fh_bpsk_signal","src/fm.rs: rx_fsk"])
p("C72","Decisions do not depend on the volume",
  "Multiplying any received signal by a positive factor changes no output bit of the BPSK, QPSK, CDMA, hopping and FSK receivers (for FSK any non-zero factor), in exact arithmetic; inverting a signal inverts every BPSK decision that is not exactly undecided.",
  "every signal, every factor, every accepted parameter","uncountably many signals and factors",
  ["src/bpsk.rs: rx_bpsk_signal","src/qpsk.rs: rx_qpsk_signal","src/cdma.rs: rx_cdma_bpsk_signal, rx_cdma_qpsk_signal","src/fh.rs: rx_fh_bpsk_signal","src/fm.rs: rx_fsk"])
p("C73","Guaranteed noise tolerance",
  "If a disturbance is added to a transmission and in every symbol has less energy (sum of squared samples) than the transmitted symbol, BPSK, CDMA-BPSK and hopping BPSK are received without error, and for BPSK this bound is sharp; QPSK and CDMA-QPSK with whole half-periods per symbol and FSK with orthogonal tones are received without error when twice the energy of the disturbance is below the energy of the symbol (exact arithmetic).",
  "every message, every disturbance of the stated energy, every parameter as described",
  "tests add pseudo-random noise of one seed and accept a bit error rate; a guarantee concerns every disturbance",
  ["src/bpsk.rs: tx_bpsk_signal, rx_bpsk_signal","src/qpsk.rs: tx_qpsk_signal, rx_qpsk_signal","src/cdma.rs","src/fh.rs: tx_fh_bpsk_signal, rx_fh_bpsk_signal","src/fm.rs: tx_fsk, rx_fsk"])
p("C74","Streams are processed live, without lookahead",
  "If some items of a message or signal have arrived and the source then blocks, panics or continues in any way, every transmitter (BPSK, QPSK, CDMA, FSK, FM, hopping; OFDM for whole frames), every receiver (BPSK, QPSK, CDMA, hopping; FSK for whole symbols; baseband OFDM for whole frames) and the byte packing, encoding and decoding of whole frames has already delivered everything a run on exactly these items followed by end of stream would return, without asking the source for another item; consequently a transmitter-receiver pair delivers every bit handed to it, and an endless message is received bit for bit for ever (exact arithmetic for the last claim).",
  "every source and every future behaviour of it, every message, every accepted parameter, any arithmetic",
  "a test feeds complete vectors and collects the whole output; it cannot observe whether an adapter reads ahead, and endless inputs never finish",
  ["src/bpsk.rs: tx_bpsk_signal, rx_bpsk_signal","src/qpsk.rs: tx_qpsk_signal, rx_qpsk_signal","src/cdma.rs","src/fh.rs","src/fm.rs","src/fsk.rs: tx_bfsk_signal","src/ofdm.rs","src/bch.rs","src/iter: inflate, chunks, integrate_and_dump, nintegrate_and_dump"])
p("C75","The OFDM cyclic prefix absorbs multipath",
  "When baseband OFDM samples pass through any channel that adds delayed and weighted copies, none later than a quarter of the carrier count, the receiver returns on every data carrier of every frame the transmitted symbol multiplied by the gain of the channel at that carrier's frequency, without interference from other carriers or frames; in particular a receiver started up to that many samples early sees pure rotations, and the gain of a carrier can be measured on any frame and used on any other. One sample of delay more and a frame disturbs the next one on every carrier, for every carrier and pilot count. Even carrier counts, exact arithmetic.",
  "every symbol stream, every even carrier count and pilot count, every channel with up to n/4+1 complex taps",
  "tests send OFDM over a perfect channel only; the claim ranges over all symbol streams and all impulse responses",
  ["src/ofdm.rs: tx_baseband_ofdm_signal, rx_baseband_ofdm_signal, get_data_subcarriers"])
p("C76","The OFDM receiver on arbitrary recordings",
  "On any list of whole frames rx_baseband_ofdm_signal returns one symbol per data carrier and frame; the symbols of a frame depend only on the last n samples of that frame (never on its prefix or on other frames); an incomplete last frame is a panic that occurs only after the symbols of all complete frames were delivered. In exact arithmetic the receiver is linear over the complex numbers, a transmitted frame body has the energy of its symbols divided by the carrier count, and for QPSK symbols any disturbance of total energy E causes at most E*n/2 wrong bits, hence none for E < 2/n (even carrier counts).",
  "every recording, every carrier and pilot count, every pair of recordings and factors, every message and every disturbance",
  "tests decode undisturbed output of the transmitter; the claims are about arbitrary recordings and disturbances",
  ["src/ofdm.rs: rx_baseband_ofdm_signal, tx_baseband_ofdm_signal","src/qpsk.rs: tx_baseband_qpsk_signal, rx_baseband_qpsk_signal"])
p("C77","Energy measurements reveal neither message nor key",
  "For BPSK, CDMA-BPSK and frequency-hopping BPSK, two messages of the same length give transmissions whose squared samples agree one by one, so avg_energy, energy, power and both energy_detector functions return identical results, bit for bit in doubles and for every math library. For CDMA the spreading keys may also differ (even in length), and the spread transmission has the energy of the plain one; for CDMA-QPSK the same message under two keys cannot be told apart.",
  "all pairs of messages of equal length, all pairs of accepted keys, all rates, carriers, hop generators and thresholds, IEEE doubles with any sin/cos and exact arithmetic",
  "a test compares a few transmissions up to a tolerance; bit-exact independence from message and key is a statement about all pairs",
  ["src/lib.rs: avg_energy, energy, power, energy_detector","src/willie.rs: energy_detector","src/bpsk.rs: tx_bpsk_signal","src/cdma.rs: tx_cdma_bpsk_signal, tx_cdma_qpsk_signal","src/fh.rs: tx_fh_bpsk_signal"])
p("C78","Energy per symbol",
  "In exact arithmetic, when a symbol holds a whole number of half carrier periods (carrier not a multiple of half the sample rate), every symbol of k samples has energy k/2 for BPSK, CDMA-BPSK, BFSK, FSK and hopping and k for QPSK and CDMA-QPSK, so avg_energy is exactly 1/2 resp. 1, energy is the number of symbols times the symbol energy over the sample rate, and a bit costs the same in BPSK and QPSK.",
  "every message, key and hop generator, every rate and carrier meeting the half-period condition",
  "tests compute the energy of a few random messages to within a tolerance; the property fixes every symbol of every message",
  ["src/bpsk.rs: tx_bpsk_signal","src/qpsk.rs: tx_qpsk_signal","src/cdma.rs: tx_cdma_bpsk_signal, tx_cdma_qpsk_signal","src/fsk.rs: tx_bfsk_signal, tx_fsk_signal","src/fh.rs: tx_fh_bpsk_signal","src/lib.rs: avg_energy, energy"])
p("C79","Reading spread signals with a wrong key",
  "In exact arithmetic, with chips of whole half carrier periods, reading CDMA-BPSK or CDMA-QPSK with a key of the same length that agrees with the sender's key in a of L places returns the message if 2a > L, its exact complement if 2a < L, and a constant (all false for BPSK, all true for QPSK) if 2a = L; so a listener with a different row of the Walsh matrix reads nothing about the message. With any number of stations of any strengths each decision is the sign of the sum over the stations of strength times bit times (agreements minus disagreements of the keys).",
  "every message, every pair of keys of equal length, every set of stations with any real strengths, all admissible rates and carriers",
  "tests use the right key; what a wrong key sees depends on both keys and must hold for all messages",
  ["src/cdma.rs: tx_cdma_bpsk_signal, rx_cdma_bpsk_signal, tx_cdma_qpsk_signal, rx_cdma_qpsk_signal","src/hadamard.rs: HadamardMatrix"])
p("C80","Near-far resistance of synchronous CDMA",
  "Any number of synchronous stations with pairwise orthogonal keys, received at arbitrary positive strengths on one channel: every CDMA-BPSK and every CDMA-QPSK receiver returns exactly the message of its own station, however much stronger the others are (exact arithmetic, chips of whole half carrier periods).",
  "every number of stations, all messages of equal length, all orthogonal keys, all positive strengths",
  "a test can try a few strengths; that no strength ratio breaks the separation is a statement about all of them",
  ["src/cdma.rs: tx_cdma_bpsk_signal, rx_cdma_bpsk_signal, tx_cdma_qpsk_signal, rx_cdma_qpsk_signal"])
p("C81","Reception with changing strength and carrier phase",
"Suppose during symbol n the signal arrives multiplied by a positive strength g_n and with its carrier turned by an angle t_n, both different for every symbol, and a symbol holds a whole number of half carrier periods. Then the BPSK and CDMA BPSK receivers return the bits sent wherever |t_n| is less than a quarter turn, the complement where it is more and false where it is exactly a quarter turn; the QPSK and CDMA QPSK receivers return both bits unchanged below an eighth of a turn, and a quarter turn maps the bits (a,b) to (not b, a), half a turn to (not a, not b); the FSK receiver returns the message for every sequence of phases and every non-zero strengths (carrier a multiple of 20 cycles per symbol). More generally the PSK receivers return the signs of the two amplitudes of the carrier in each symbol.",
"every message, every sequence of strengths and phases, all admissible rates, carriers and keys; exact arithmetic",
"the strengths and phases are arbitrary sequences of reals",
["src/bpsk.rs: rx_bpsk_signal","src/qpsk.rs: rx_qpsk_signal","src/cdma.rs: rx_cdma_bpsk_signal, rx_cdma_qpsk_signal","src/fm.rs: rx_fsk"])
p("C82","Receivers listening to the signals of other schemes",
"With matching rates and carrier, a whole number of half carrier periods per symbol (per chip with a key): the BPSK receiver listening to QPSK returns the first bit of every pair; the QPSK receiver listening to BPSK returns every bit followed by true; the receivers without key behave as receivers with a key of only true chips, so on a CDMA signal they return the message if more than half of the chips of the sender's key are true, its complement if fewer, and a constant if the key is balanced, and a CDMA receiver listening to BPSK does likewise; the FSK receiver decodes tx_bfsk with tones 2.5% below and above its carrier; hopping over a band of width zero sends the BPSK signal when a symbol holds whole carrier periods.",
"every message, key, rate pair and carrier satisfying the stated conditions; exact arithmetic",
"pairs of schemes over unbounded messages and arbitrary keys",
["src/bpsk.rs: rx_bpsk_signal, tx_bpsk_signal","src/qpsk.rs: rx_qpsk_signal, tx_qpsk_signal","src/cdma.rs: tx_cdma_bpsk_signal, tx_cdma_qpsk_signal, rx_cdma_bpsk_signal, rx_cdma_qpsk_signal","src/fsk.rs: tx_bfsk_signal","src/fm.rs: rx_fsk","src/fh.rs: tx_fh_bpsk_signal"])
p("C83", "Tolerance to phase noise and to a mistuned transmitter",
  "With a whole number of half carrier periods per symbol: if the received carrier phase is disturbed differently in every sample, by less than an eighth of a turn, the BPSK and CDMA BPSK receivers still return the message for all positive strengths; QPSK and CDMA QPSK do so up to a sixteenth of a turn. A symbol whose phase stays that close to an odd number of half turns is returned complemented by BPSK, and close to an even number correctly. Consequently a transmitter tuned to f' is decoded without error by a receiver tuned to f whenever 8 |f'-f| times the number of samples sent is at most the sample rate (BPSK, with or without key; 16 instead of 8 for QPSK).",
  "every message (of even length for QPSK), every per-sample phase sequence within the bound, every pair of carrier frequencies within the bound; exact arithmetic",
  "phase noise is an arbitrary real sequence and the frequency error a real number",
  ["src/bpsk.rs: tx_bpsk_signal, rx_bpsk_signal", "src/qpsk.rs: tx_qpsk_signal, rx_qpsk_signal", "src/cdma.rs: tx_cdma_bpsk_signal, rx_cdma_bpsk_signal, tx_cdma_qpsk_signal, rx_cdma_qpsk_signal"])
p("C84", "Frequency division: stations on separate carriers do not disturb each other",
  "Any number of BPSK and QPSK stations transmit simultaneously with the same rates on different carriers. If for every two carriers their sum and difference are multiples of the symbol rate and not of the sample rate (for instance different multiples of the symbol rate below half the sample rate), and each carrier has a whole number of half periods per symbol, then whatever positive strengths the stations are received with, the receiver tuned to a station returns exactly that station's message. More generally it decides on the two amplitudes of the signal at its own carrier alone, and a receiver tuned to an unused such carrier returns false for every symbol (BPSK) or true, true (QPSK).",
  "every number of stations, all messages of the same number of symbols, all strengths and carriers satisfying the stated conditions; exact arithmetic",
  "the number of stations, their strengths and the messages are unbounded",
  ["src/bpsk.rs: tx_bpsk_signal, rx_bpsk_signal", "src/qpsk.rs: tx_qpsk_signal, rx_qpsk_signal"])
p("C85", "Receivers that join late or early",
  "Suppose a symbol (k samples) holds p half carrier periods, p an integer. A BPSK, QPSK, CDMA BPSK or CDMA QPSK receiver started d whole symbols after the transmitter returns the message without the bits of the first d symbols, complemented if d p is odd; the FSK receiver does so without ever complementing (carrier a multiple of 20 cycles per symbol, both tones below half the sample rate). A BPSK receiver started d symbols before the signal returns d times false first, and then the message, complemented if d p is odd. If the start is another e < k samples late, holding q half periods, then for BPSK and QPSK the bits are those of the symbol that fills more than half of the window (the earlier one for 2e < k, the later one for 2e > k), complemented if d p + q is odd; BPSK joined exactly half a symbol late returns true only where both neighbouring symbols would give true.",
  "every message (of even length for QPSK), every d and e, all rates the transmitter accepts and carriers satisfying the stated conditions; exact arithmetic",
  "delays and messages are unbounded; the statement relates two runs of the receiver at different starting points",
  ["src/bpsk.rs: tx_bpsk_signal, rx_bpsk_signal", "src/qpsk.rs: tx_qpsk_signal, rx_qpsk_signal", "src/cdma.rs: rx_cdma_bpsk_signal, rx_cdma_qpsk_signal", "src/fm.rs: tx_fsk, rx_fsk"])
p("C86","double-precision receivers decide as exact ones, with an explicit margin",
"Take any recording of finite doubles, each within tau of a real number s_i, bounded by S, and a mathematical library whose sine and cosine are accurate to eps. rx_bpsk_signal and rx_qpsk_signal (and the CDMA receivers on the recording under the chips of their key) return one decision per symbol (two for QPSK), and each decision equals the sign of the exact correlation of the s_i with the carrier whenever that correlation exceeds k (tau + S (eps + 2^-14)), k samples per symbol. On the same samples the receivers in doubles and in exact arithmetic therefore differ at most in symbols whose correlation is below k S (eps + 2^-14). Consequences in double precision, for a whole number of half carrier periods per symbol (per chip for stations with keys): symbols of arbitrary strength and phase, stations on spaced carriers and stations with orthogonal keys of very different strength are all received as in exact arithmetic while the wanted amplitude exceeds 2 (tau + S (eps + 2^-14)); the modulators' output is within 2^-9 (BPSK) or 2^-7 (QPSK) of the exact waveform; and a message survives modulation in doubles, any disturbance of every sample by up to 0.48, and reception in doubles.",
"all recordings of finite doubles up to 2^32 samples, all real reference signals, tolerances tau, bounds S between 2^-900 and 2^900, all libraries of the stated accuracy, carriers, sample rates below 2^53, keys, messages, per-symbol strengths and phases, sets of stations, disturbances",
"a test compares one recording on one machine's library; the claim bounds the effect of rounding for every recording and every library of the stated accuracy, and names exactly the symbols on which rounding can matter",
["src/bpsk.rs: tx_bpsk_signal, rx_bpsk_signal","src/qpsk.rs: tx_qpsk_signal, rx_qpsk_signal","src/cdma.rs: tx_cdma_bpsk_signal, rx_cdma_bpsk_signal, tx_cdma_qpsk_signal, rx_cdma_qpsk_signal"])
p("C87","the Python reference modulators send the compiled library's samples",
"Whenever kom_py's tx_bpsk accepts its arguments (exactly: a positive symbol rate dividing the sample rate and a carrier of at most half the sample rate) it returns the very samples of the compiled tx_bpsk_signal, in exact arithmetic and bit for bit in double precision with any mathematical library both share; tx_bpsk_cdma returns those of tx_cdma_bpsk_signal with the same 16-chip key; the baseband modulators agree too, an odd QPSK message being completed by False in Python. The baseband receivers return the same bits on every list of symbols, and Python's own baseband links return the message (for an odd QPSK message: completed by False). The compiled receivers read what the Python modulators send (BPSK from two samples per symbol on).",
"all messages, sample rates, symbol rates, carriers, and (for the double-precision clause) all mathematical libraries, finite carriers and sample rates below 2^53",
"two independently written programs are compared on all inputs; a test compares them on a few",
["kom_py/psk.py: tx_bpsk, tx_baseband_bpsk, tx_baseband_qpsk","kom_py/cdma.py: tx_bpsk_cdma","src/bpsk.rs: tx_bpsk_signal, rx_bpsk_signal","src/cdma.rs: tx_cdma_bpsk_signal, rx_cdma_bpsk_signal"])
p("C88","the Python BPSK receiver: what it decides, and from how many samples per symbol it is right",
"kom_py's rx_bpsk answers every nonempty recording with (N + k - 2) / k bits, k samples per symbol; bit j is the sign of the correlation with the carrier over the k samples that start one sample after the symbol does, samples after the end counting as zero; an empty recording raises ValueError. With a whole number of half carrier periods and more than four samples per symbol it recovers every nonempty message from tx_bpsk and from the compiled tx_bpsk_signal; with four samples per symbol it need not.",
"all recordings, all nonempty messages, sample rates, symbol rates and carriers as stated, exact arithmetic",
"the one-sample delay is invisible at the test's 49 samples per symbol; the limit of four samples and the exact decision rule concern all recordings",
["kom_py/psk.py: tx_bpsk, rx_bpsk","src/bpsk.rs: tx_bpsk_signal"])
p("C89","the Python QPSK pair carries messages",
"A message sent by kom_py's tx_qpsk is returned by its rx_qpsk with the same parameters.",
"all messages, sample rates, symbol rates and carriers the functions accept, exact arithmetic",
"no test of this pair exists in the repository; the modulator leaves out a factor 2 in the carrier phase, which makes the claim false for every nonempty message at whole classes of parameters",
["kom_py/psk.py: tx_qpsk, rx_qpsk","src/qpsk.rs: tx_qpsk_signal"])
p("C90","the Python CDMA pair carries messages",
"A message sent by kom_py's tx_bpsk_cdma is returned by its rx_bpsk_cdma with the same parameters.",
"all messages, sample rates, symbol rates and carriers the functions accept, exact arithmetic",
"no test of this pair exists in the repository; the receiver never multiplies by the key, which makes the claim false for every nonempty message at whole classes of parameters",
["kom_py/cdma.py: tx_bpsk_cdma, rx_bpsk_cdma","src/cdma.rs: rx_cdma_bpsk_signal"])
p("C91","the Python helpers compute what they are named for",
"kom_py's next_power_of_2(x) is the least power of two that is at least x. floor_power_of_2(x) is the greatest power of two that is at most x whenever log(x, 2) is whole exactly for powers of two; if the floating-point logarithm of a power of two above 1 is not whole the answer is half of it. chunk cuts its input into pieces of exactly n items, which together are the input followed by fewer than n fill values. fftshift moves item i to place i + n/2 modulo n, as the compiled one does.",
"all natural numbers x, all possible outcomes of the floating-point logarithm test, all lists, all positive sizes, all fill values",
"extremality (least, greatest) and the dependence on the logarithm concern all inputs",
["kom_py/util.py: next_power_of_2, floor_power_of_2, chunk, fftshift","src/lib.rs: fftshift"])
p("C92","the Python chaotic hopping modulator loses nothing, and is bounded up to ten rows only",
"kom_py's tx_fh_dcsk(data, b) raises RuntimeError when there are fewer than b bits and otherwise returns a b by b matrix. Whatever permutations its generator draws, each column is a rearrangement of the samples of the b bits at that time; a receiver that knows the permutations and start values recovers every bit from the sign of a correlation. All samples are within ±1 for b up to 10; for every larger b some sample is outside. The generator chebyshev started at cos(t) yields -cos(2t), -cos(4t), -cos(8t) and so on, and raises AssertionError on a start outside [-1, 1]; the modulator does not go through that check.",
"all messages, all b, all families of column permutations, exact arithmetic",
"the permutations come from a generator; a test sees one seed and b = 8",
["kom_py/fh_ofdm_dcsk.py: tx_fh_dcsk, _chebyshev, chebyshev, _take"])
p("C93","the chaotic receivers on any recording, and how much disturbance DCSK survives",
"rx_baseband_dcsk answers every recording: one bit per two samples, true exactly when their product is positive, an odd last sample being ignored; a recording cut between two pairs gives the two answers one after the other. rx_baseband_csk answers with one bit per sample: whether it is nearer to the first chaotic sequence than to the second. If every recorded sample differs from the sample tx_baseband_dcsk sent by less than 0.0950625 (exact arithmetic) or by at most 0.089 (IEEE doubles, finite samples), rx_baseband_dcsk returns the message.",
"all recordings; all messages; all disturbances of the samples within the bound",
"disturbances form a continuum and the chaotic reference never repeats, so a test sees finitely many points of it",
["src/dcsk.rs: tx_baseband_dcsk, rx_baseband_dcsk","src/csk.rs: rx_baseband_csk","src/chaos/logistic_map.rs: LogisticMap"])
p("C94","messages and recordings can be processed in pieces",
"Take a first piece that fills whole symbols and whole periods of the carrier (of both tones for tx_fsk and tx_bfsk_signal; an even number of bits for QPSK). Then modulating first ++ second gives the samples of first followed by the samples of second, for tx_bpsk_signal, tx_qpsk_signal, tx_cdma_bpsk_signal, tx_cdma_qpsk_signal, tx_bfsk_signal, tx_fsk; and demodulating a recording cut there gives the two answers one after the other, for the receivers of BPSK, QPSK, CDMA/BPSK, CDMA/QPSK. rx_fsk may be cut after any symbol at any carrier. Baseband OFDM may be cut after any complete block, on both sides, in any arithmetic. With half a carrier period left over instead, BPSK sends, and reads, the second piece upside down.",
"all messages and recordings, all cuts satisfying the condition, all sample rates, symbol rates, carriers and keys",
"the relation links three runs at every possible cut; a test fixes one message and one cut",
["src/bpsk.rs: tx_bpsk_signal, rx_bpsk_signal","src/qpsk.rs: tx_qpsk_signal, rx_qpsk_signal","src/cdma.rs: tx_cdma_bpsk_signal, rx_cdma_bpsk_signal, tx_cdma_qpsk_signal, rx_cdma_qpsk_signal","src/fsk.rs: tx_bfsk_signal","src/fm.rs: tx_fsk, rx_fsk","src/ofdm.rs: tx_baseband_ofdm_signal, rx_baseband_ofdm_signal"])
p("C95", "The pure-Python spectral correlation and the compiled one compute the same thing up to the window",
  "For every signal of at least N + Np samples and even sizes with 0 < Np < N, ssca(s, N, Np, map_output=False) of kom_py/ssca.py and ssca of the compiled module both return, entry by entry, the textbook strip spectral correlation of the signal, the Python function with symmetric Hamming windows and the compiled one with periodic Hamming windows; with map_output=True and Np dividing N both put entry (q, k) into the same cell and leave the other cells zero. The Python function raises exactly when a size is zero or the signal is shorter than N + Np, although its last sample has no influence. (That the two return equal values is false: a single pulse gives 0.0064 in one and 0.08 in the other.)",
  "all real signals, all sizes (guards and shapes in any arithmetic and for any transform)",
  "A test compares the two on a few signals to a tolerance; it cannot separate a different window from rounding, nor show that the window is the only difference.",
  ["kom_py/ssca.py: ssca", "src/ssca.rs: ssca_base, ssca_mapped", "src/lib.rs: hamming_window, ssca_py"])
p("C96", "The detectors of the pure-Python code and the compiled detectors agree on a spectrum",
  "For every spectrum whose first row has no zero, the largest of the figures (one per column) that dcs of kom_py/ssca.py returns is what the compiled dcs_detector_sxf returns. For every spectrum without zeros, no figure (one per row) of max_cut of kom_py/ssca.py exceeds what max_cut_detector_sxf returns, and the largest equals it when all entries are positive reals. (That it is always equal is false: np.max orders complex numbers by real part, so the row -5, 1 gives 0 dB in place of 10 log10 25.)",
  "all finite real-valued spectra of any shape",
  "The claim ranges over all spectra; a test with positive entries passes although complex maxima are compared by real part only.",
  ["kom_py/ssca.py: max_cut, dcs", "src/lib.rs: max_cut_detector_sxf, dcs_detector_sxf"])
p("C97", "The pure-Python chirp and the compiled chirp sweep in the same way",
  "For every chirp rate, sample rate and pair of frequencies with at least two samples per chirp, chirpz of kom_py/chirp.py and linear_chirp return equally many samples of the same sweep, but at different instants: sample i of n is the sine at time i/((n-1) rate) in one and the cosine at i/(n rate) in the other, so the first samples are 0 and 1, and the last Python sample is already that of the end of the sweep. chirpCtr, which should centre a chirp on a frequency, returns no samples for every repetition rate below the sample rate and ignores its phase. (That the two chirps are equal is false for the default phase and also for the phase pi/2.)",
  "all real rates, frequencies and phases",
  "Chirps drawn side by side look alike; that the time grids differ, and that a convenience function never returns a sample, are statements about all arguments.",
  ["kom_py/chirp.py: chirpz, chirpCtr", "src/fh_css.rs: linear_chirp"])
p("C98", "A printed duration adds up to the duration",
  "For every duration below a year of 365.25 days, secs_to_str prints days, hours below 24, minutes below 60 and seconds below 60 that add up to the whole seconds of the duration, leaving out leading figures that are zero; different whole seconds print differently. (For longer durations this is false: the figures add up exactly when the number of years is a multiple of four; one year prints as 1Y:0d:6h:0m:0s. Zero seconds print as a word that is not a duration.)",
  "all non-negative durations, whole or fractional",
  "A test samples durations; whether the figures always add up is arithmetic over all of them, and the samples that fail are longer than a year.",
  ["kom_py/util.py: secs_to_str"])
p("C99", "Error rate and average energy of the pure-Python code are those of the compiled module",
  "ber of kom_py/ber.py and kom_py/ber_theory.py raises ZeroDivisionError exactly when a sequence is empty, where the compiled ber returns NaN, and otherwise both return the same number; likewise avg_energy of kom_py/willie.py and avg_energy of the compiled module. avg_energy_iq is half the mean squared magnitude, and scale by c multiplies the average energy by c squared.",
  "all pairs of bit sequences and all signals; the first two in any arithmetic",
  "Equality of two functions on all inputs; the exceptional inputs are the ones tests leave out.",
  ["kom_py/ber.py: ber", "kom_py/ber_theory.py: ber", "kom_py/willie.py: avg_energy, avg_energy_iq, scale", "src/lib.rs: ber, avg_energy"])
p("C100", "The printed Hadamard matrix determines the matrix",
  "Printing a HadamardMatrix gives one line per row, and on it T or F and a blank for every entry; two matrices print the same text only if they are equal, and the matrix of order n prints as n (2 n + 1) characters.",
  "all matrices of bits of any shape",
  "Injectivity of a rendering is a statement about all pairs of matrices.",
  ["src/hadamard.rs: HadamardMatrix, Display"])
p("C101","One bit per symbol in white Gaussian noise is a memoryless channel with the textbook error rate",
"Send a message with tx_bpsk_signal, tx_cdma_bpsk_signal or tx_fh_bpsk_signal, add noise with awgn at level sigma > 0 whose generator delivers independent standard normal variates, and receive it with the matching receiver. The received bits are wrong independently of each other, bit n with probability erfc(sqrt(E_n / (2 sigma^2))) / 2 where E_n > 0 is the energy of its transmitted symbol. Hence the mean of ber is the mean of these probabilities and, when they are equal, the number of errors is binomial. With whole half periods of the carrier per symbol and the noise level the bit-error tests compute from the recording, the probability is erfc(sqrt snr) / 2; and for longer and longer messages the measured ber converges to it almost surely.",
"all messages, keys, hop tables, sample and symbol rates and carriers the transmitters accept, noise levels and white Gaussian sequences; exact arithmetic",
"A simulation estimates one point of the curve to within its own random error and has nothing to say about independence or about the distribution.",
["src/bpsk.rs: tx_bpsk_signal, rx_bpsk_signal","src/cdma.rs: tx_cdma_bpsk_signal, rx_cdma_bpsk_signal","src/fh.rs: tx_fh_bpsk_signal, rx_fh_bpsk_signal","src/lib.rs: awgn, ber","tests/ber.rs: calculate_bers, ber_bpsk"])
p("C102","QPSK in white Gaussian noise has the bit error rate of BPSK, and the plotted formula is below it",
"With whole half periods of the carrier per symbol, a QPSK or CDMA-QPSK transmission of k samples per symbol through awgn with white Gaussian noise is received with every bit of both rails wrong independently with probability erfc(sqrt(k / (4 sigma^2))) / 2; a symbol is wrong with probability 2 q - q^2 where q is that probability. At the noise level the bit-error tests compute, q = erfc(sqrt snr) / 2, the value for BPSK (messages of even length; of others the last bit is not sent). The curve the tests and scripts draw for QPSK, erfc(x)/2 - erfc(x)^2/4 with x = sqrt snr, is strictly below both the bit error rate and half the symbol error rate at every snr.",
"all messages, keys, rates, carriers with whole half periods per symbol, noise levels and white Gaussian sequences; exact arithmetic",
"Independence of the two rails is a statement about a joint distribution; the difference between the two formulas vanishes into simulation noise at high snr.",
["src/qpsk.rs: tx_qpsk_signal, rx_qpsk_signal","src/cdma.rs: tx_cdma_qpsk_signal, rx_cdma_qpsk_signal","src/lib.rs: awgn, ber","tests/ber.rs: calculate_bers, ber_qpsk","kom_py/ber_theory.py: ber_qpsk"])
p("C103","Complex noise disturbs only the first bit of a baseband QPSK symbol",
"Through awgn_complex with white Gaussian noise of standard deviation sigma, baseband BPSK is received with every bit wrong independently with probability erfc(1 / (sqrt 2 sigma)) / 2. Baseband QPSK is received with the first bit of every symbol wrong independently with probability erfc(1 / sigma) / 2 and the second bit never wrong, because the noise is added to the real part only. At the noise level of the baseband bit-error tests the mean of ber is erfc(sqrt snr) / 2 for BPSK and half of that for QPSK.",
"all messages, noise levels and white Gaussian sequences; exact arithmetic",
"A test that plots the curve looks plausible; that one of two bits is immune to noise is a statement about every noise sequence.",
["src/bpsk.rs: tx_baseband_bpsk_signal, rx_baseband_bpsk_signal","src/qpsk.rs: tx_baseband_qpsk_signal, rx_baseband_qpsk_signal","src/lib.rs: awgn_complex, ber","tests/ber.rs: calculate_bers_baseband"])
p("C104", "The energy of a recording measures signal plus noise, and the energy detector is consistent",
  "The mean of avg_energy over the noise, for a signal sent through awgn with white Gaussian noise of standard deviation sigma, is avg_energy of the signal plus sigma^2. For a bounded signal whose running energy tends to E, avg_energy of longer and longer noisy recordings almost surely tends to E + sigma^2; for silence its square root tends to sigma. An energy detector whose threshold lies strictly between sigma and sqrt(E + sigma^2) is almost surely right on all sufficiently long recordings, both with and without the signal. A BPSK or CDMA-BPSK transmission with whole half periods per symbol has E = 1/2 whatever the message and the spreading key, so spreading does not hide it from this detector.",
  "all signals, messages, keys, rates, thresholds in range, noise levels and white Gaussian sequences; exact arithmetic",
  "Almost-sure convergence is a statement about infinitely long recordings; a test can look at one finite run of one noise sequence.",
  ["src/lib.rs: awgn, avg_energy", "src/willie.rs: energy_detector", "src/bpsk.rs: tx_bpsk_signal", "src/cdma.rs: tx_cdma_bpsk_signal", "tests/willie.rs: energy_detector"])
p("C105", "An odd number of channels displaces the spectral correlation",
  "For every signal that is long enough and every pair of sizes, each entry returned by ssca of the compiled module, and by ssca(s, N, Np, map_output=False) of kom_py/ssca.py, is the strip spectral correlation in which channel k - floor(Np/2) is demodulated with the frequency k - Np/2 (compiled) or k - ceil(Np/2) (Python) over Np. For even Np, whatever the parity of N, both are therefore the textbook analysis up to the window. For odd Np neither is: every strip of the textbook analysis appears N/(2 Np) rows (compiled, when 2 Np divides N) or N/Np rows (Python, when Np divides N) further on, cyclically, so the two disagree by half a channel of cycle frequency.",
  "all real signals, all sizes of either parity; exact arithmetic",
  "A test fixes the sizes, in this repository to powers of two, where the displacement is zero.",
  ["src/ssca.rs: ssca_base", "kom_py/ssca.py: ssca"])
p("C106", "Frequency shift keying in noise makes independent errors at the non-coherent textbook rate",
"A message sent with tx_fsk, passed through awgn with independent noise samples and received with rx_fsk on the same carrier, sample rate and symbol rate comes out at its own length, and the errors on different bits are independent of one another, whatever the carrier and the distribution of the noise. If the carrier is a whole multiple of twenty times the symbol rate, so that the two tones are orthogonal over a symbol, the symbol rate divides the sample rate, the upper tone is below half the sample rate, and the noise is white Gaussian of standard deviation sigma, then every bit is wrong with probability exp(-E/(4 sigma^2))/2, E being the energy of a symbol of the transmitted recording, which is half the number of samples per symbol. The mean of ber over the noise is that number, the measured ber of longer and longer messages converges to it almost surely, and with the noise level computed from a signal-to-noise ratio the way the bit-error tests do it is exp(-snr/2)/2. At equal energy and noise this is strictly more than the error rate of the coherent links and strictly less than one half.",
"all messages; all sample rates, symbol rates and carriers (orthogonal ones for the rate); all noise levels; all probability spaces carrying independent (for the rate: white Gaussian) noise",
"a simulation measures a rate on a finite sample of a pseudo-random generator; it can neither give the exact probability nor exclude dependence between the errors, and it cannot cover all carriers",
["src/fm.rs: tx_fsk, rx_fsk", "src/lib.rs: awgn, ber"])
p("C107", "How far a measured bit error rate can be from the true one",
"For every link shown to flip bits independently, whatever the flip probabilities: after sending N bits, the chance that the ratio returned by the bit error rate function differs from the mean flip probability by eps or more is at most 2 exp(-2 N eps^2). So N >= ln(2/delta)/(2 eps^2) bits measure the rate to within eps except with probability delta, and for messages of growing length the difference tends to zero almost surely.",
"every message, every independent-flip link (BPSK, QPSK, CDMA, hopping, FSK, CSK, DCSK in white Gaussian noise), every eps and delta",
"A simulated error rate is one draw; how many bits make it trustworthy is a statement about the distribution of all draws, which repeating the simulation cannot establish.",
["src/lib.rs: ber", "src/lib.rs: awgn", "src/fm.rs: rx_fsk"])
p("C108", "Bit errors of DCSK in white Gaussian noise",
"A message sent by the DCSK transmitter through the noise channel with standard deviation sigma is answered by the DCSK receiver with independently flipped bits: bit n is wrong with probability 2 q_n (1 - q_n), where q_n is the chance that Gaussian noise turns over the sign of value n of the logistic sequence x -> 3.9 x (1 - x) from 0.1. The amplitude stays within [0.0950625, 0.975], so every bit's probability lies between the two corresponding values and is below one half. For growing messages the measured rate follows the running mean of these probabilities almost surely.",
"every message, every sigma > 0, every independent Gaussian noise sequence",
"The error probability differs for every bit and depends on a chaotic sequence; a test measures one noisy average for one message.",
["src/dcsk.rs: tx_baseband_dcsk", "src/dcsk.rs: rx_baseband_dcsk", "src/lib.rs: awgn", "src/lib.rs: ber", "src/chaos/logistic_map.rs: LogisticMap"])
p("C109", "Bit errors of CSK in white Gaussian noise",
"A message sent by the CSK transmitter through the noise channel with standard deviation sigma is answered by the CSK receiver with independently flipped bits: bit n is wrong with the probability that Gaussian noise exceeds half the distance between values n of the two logistic sequences (from 0.1 and 0.15). The two values never coincide, so every bit's probability is strictly between zero and one half. For growing messages the measured rate follows the running mean of these probabilities almost surely.",
"every message, every sigma > 0, every independent Gaussian noise sequence",
"The distance between the two chaotic sequences changes at every bit and can be arbitrarily small; a test sees a few bits and one noise draw.",
["src/csk.rs: tx_baseband_csk", "src/csk.rs: rx_baseband_csk", "src/lib.rs: awgn", "src/lib.rs: ber", "src/chaos/logistic_map.rs: LogisticMap"])
p("C110", "The energy detector's alarm rate follows the error function curve",
  "Let awgn add white Gaussian noise of standard deviation sigma > 0 and let avg_energy (the mean square) be read from the recording. For silence of N samples, the probability that the energy exceeds sigma^2 (1 + x sqrt(2/N)) tends to erfc(x / sqrt 2) / 2 as N grows, and so does the false-alarm probability of the energy detector given the level sigma sqrt(1 + x sqrt(2/N)). For BPSK and spread BPSK of any message of N bits, with k samples per symbol and a whole number of half carrier periods per symbol, the probability that the energy exceeds 1/2 + sigma^2 + x sqrt((2 sigma^4 + 2 sigma^2) / (N k)) tends to the same value; for QPSK and spread QPSK of 2N bits the level is 1 + sigma^2 + x sqrt((2 sigma^4 + 4 sigma^2) / (N k)). So the detection curve of every message is the same error function, centred at signal power plus noise power. A threshold set for any fixed false-alarm rate detects every bounded signal whose mean energy has a positive limit, in all but finitely many record lengths, almost surely.",
  "all sigma > 0, all x, all white Gaussian noise processes on any probability space, all infinite bit sequences cut at any length, all rates satisfying the guards of the transmitter, all keys",
  "the statement is about limits of probabilities over all noise outcomes; tests/billiam.rs draws random noise and fits an error function to the measured curve, so it can neither fix the centre and the width nor show that they do not depend on the message",
  ["src/lib.rs: avg_energy, awgn", "src/willie.rs: energy_detector", "src/bpsk.rs: tx_bpsk_signal", "src/qpsk.rs: tx_qpsk_signal", "src/cdma.rs: tx_cdma_bpsk_signal, tx_cdma_qpsk_signal", "tests/billiam.rs"])
p("C111", "erf and erfc are accurate to 1.2e-7 at every argument",
  "For every real x, erfc(x) differs from the complementary error function (2/sqrt(pi) times the integral of exp(-t^2) from x to infinity) by at most 1.2e-7 times the value at |x|; so the relative error of erfc is at most 1.2e-7 everywhere, also far out in the tail, and the absolute error of erf and erfc is at most 1.2e-7. erf increases strictly on each side of zero (it is not monotone across zero, where it steps down by 6e-8). Hence the curve 0.5 * erfc(sqrt(snr)) is the error probability of antipodal signalling in white Gaussian noise up to 1.2e-7 of its value, at every signal-to-noise ratio.",
  "every real argument; every energy and standard deviation; exact arithmetic",
  "continuum of arguments with the relative error mattering where the value is below 1e-300; a test compares with another approximation at some points, and no test of the crate calls erf with a known value",
  ["src/lib.rs: erf, erfc", "tests/ber.rs: ber_bpsk"])
p("C112", "Bit errors of baseband OFDM in noise",
  "Baseband OFDM with BPSK or QPSK symbols, sent through awgn_complex and received again, on an even number n of carriers of which p (at least two) carry no data: every bit is wrong with probability 1/2 erfc(sqrt(E/(2 sigma^2))), E = 2/n for BPSK and E = 4/n for both bits of QPSK, whatever the message, the frame and the carrier. Because awgn_complex adds real noise only, the errors are independent on positions no two of which lie on carriers c and n - c of one frame, but on such mirrored carriers the noise is shared: with BPSK equal bits are always received alike (both wrong with the probability of one), and of different bits at most one is ever wrong; with QPSK the same holds for the first bits, and of equal second bits at most one is wrong. With the noise set from the energy per bit of the transmission (cyclic prefix included) the mean bit error rate is 1/2 erfc(sqrt(g)) with g = 2 snr / (n E_b) between snr and 2 snr.",
  "all messages, all even carrier counts, all pilot counts from two, all noise standard deviations, all signal to noise ratios, white Gaussian noise on any probability space (and, for the mirrored carriers, every noise stream), exact arithmetic",
  "a simulated curve estimates the rate at a few noise levels and cannot tell independent errors from errors that come in pairs",
  ["src/ofdm.rs: tx_baseband_ofdm_signal, rx_baseband_ofdm_signal", "src/lib.rs: awgn_complex, ber", "src/bpsk.rs: tx_baseband_bpsk_signal, rx_baseband_bpsk_signal", "src/qpsk.rs: tx_baseband_qpsk_signal, rx_baseband_qpsk_signal", "tests/ber.rs: baseband_ofdm_works"])
p("C113", "The textbook bit error curve is a floor",
  "With the noise level computed from the recorded signal as in the bit-error tests (sigma = sqrt(2 eb/snr)/2, eb the recorded energy per bit) and any carrier the transmitter accepts, BPSK, CDMA over BPSK and frequency hopping flip each bit independently with the probability that belongs to the energy of its own symbol; the mean of the measured bit error rate is never below erfc(sqrt(snr))/2, is below one half, and is on the curve exactly if all symbols have the same energy. A BPSK carrier with no whole number of half periods in k nor in 2k-1 samples (k samples per symbol) is strictly above the curve for every message of two or more bits at every signal-to-noise ratio.",
  "every non-empty message, all rates and carriers (two or more samples per symbol), every key, every generator of hops, every positive signal-to-noise ratio, in exact arithmetic and ideal Gaussian noise",
  "a measured rate is a random number; that its mean cannot fall below the curve for any carrier is a statement about integrals over all noises (Jensen's inequality for erfc(sqrt x))",
  ["src/bpsk.rs: tx_bpsk_signal, rx_bpsk_signal", "src/cdma.rs: tx_cdma_bpsk_signal, rx_cdma_bpsk_signal", "src/fh.rs: tx_fh_bpsk_signal, rx_fh_bpsk_signal", "src/lib.rs: awgn, ber", "tests/ber.rs"])
p("C114", "Which recordings the passband OFDM receiver accepts",
  "Given L samples at k samples per symbol, rx_ofdm_qpsk_signal (and rx_ofdm of the Python module) recovers R = floor((L + min(k, L) - 2)/k) baseband samples. If R is a whole number of frames of n + n/4 samples, it returns 2(n - p) bits for each of them; otherwise it panics. A recording of whole frames that lost d samples at its end (at least one symbol of its last frame being left) is accepted exactly if d <= k - 2.",
  "every list of samples and all valid parameters, in any number system including IEEE double precision, with any transform",
  "unbounded recordings; the panic depends on the length alone, which only a proof over all lengths shows",
  ["src/ofdm.rs: rx_ofdm_qpsk_signal, rx_baseband_ofdm_signal", "src/lib.rs: rx_ofdm", "src/iter/convolution.rs", "src/iter/take_every.rs"])
p("C115", "What the bit error script of the Python package measures",
  "calc_ber of kom_py/ber.py returns one rate per signal-to-noise ratio. For BPSK with any carrier the mean of the rate is at least erfc(sqrt(snr * symbol_rate^2 / sample_rate))/2 and less than one half, and equal to it exactly if all symbols have the same energy, in particular for a carrier with whole half periods per symbol; the script's rates satisfy symbol_rate^2 = sample_rate, and with either of its carriers (2121, 4000) the mean is strictly above erfc(sqrt(snr))/2. For QPSK with whole half periods the ratio is scaled by N/(N-1) if the number N of bits is odd. The OFDM rate of get_ber depends neither on the recording nor on the noise, and with the script's 9001 bits calc_ber panics. Without data calc_ber raises ZeroDivisionError. In double precision the noise level is finite for every ratio, so that calc_ber returns also for ratios that are zero, negative or NaN; at a ratio of zero the level is the largest double.",
  "every data, recording, list of positive signal-to-noise ratios, rates and carrier, in exact arithmetic and ideal Gaussian noise; the OFDM statements in any number system",
  "the script plots random numbers; that its calibration agrees with theory only if sample_rate = symbol_rate^2, and that one of its curves ignores the noise, does not show in a run",
  ["kom_py/ber.py: calc_ber, get_ber, ber", "src/lib.rs: awgn_py, tx_bpsk, rx_bpsk, tx_qpsk, rx_qpsk, rx_ofdm"])
p("C116", "The radiometer's operating curve",
  "In white Gaussian noise, the level reported by energy_detector exceeds any threshold more often for a recording with a signal than for silence of the same length and noise level (the operating curve lies strictly above the diagonal), and the chance that a signal reads higher than an independent stretch of silence exceeds one half. At a given length and chance of a false alarm, the chance of detection is decided by the energy of the signal over the noise variance alone, and grows strictly with it: the shape of the signal does not matter, so BPSK and CDMA over BPSK with the same rates and carrier are equally visible whatever their messages and key. The detector of src/willie.rs behaves likewise at every positive threshold. The experiment of kom_py/lambdas.py passes avg_energy/snr as the standard deviation, so that at the same snr the louder of two signals is the one detected less often.",
  "every signal of every length, every noise level, every threshold, all messages, keys, rates and carriers, in exact arithmetic and ideal Gaussian noise",
  "detection probabilities are integrals over all noises; a simulation can only estimate one point of one curve",
  ["src/lib.rs: energy_detector, awgn_py, pure_awgn, avg_energy", "src/willie.rs: energy_detector", "kom_py/lambdas.py: __run", "src/bpsk.rs: tx_bpsk_signal", "src/cdma.rs: tx_cdma_bpsk_signal"])
p("C117", "No receiver makes fewer bit errors",
  "In white Gaussian noise, the BPSK, CDMA and frequency-hopping receivers (and, with a whole number of half carrier periods per symbol, the QPSK and CDMA-QPSK receivers) are optimal bit by bit. Fix any message and any position n in it, and send the message with bit n set to one and with bit n set to zero. Averaged over the two, the receiver answers bit n wrongly with a probability that no measurable rule for reading the recording can undercut, not even a rule that knows the carrier, the key or the hops, the noise level and all the other bits. Behind it stands a bound for any two signals whatsoever of the same length: no rule tells their noisy recordings apart with an average error below erfc(d / (2 sqrt2 sigma)) / 2, d being their Euclidean distance.",
  "All messages, all bit positions, all sampling rates, symbol rates and carriers the transmitter accepts (two or more samples per symbol), all keys, all hop generators, all positive noise levels, and all measurable decision rules",
  "A test can compare the receiver with some other receivers; it cannot compare it with every possible one, nor measure a probability exactly.",
  ["src/bpsk.rs: tx_bpsk_signal, rx_bpsk_signal", "src/qpsk.rs: tx_qpsk_signal, rx_qpsk_signal", "src/cdma.rs: tx_cdma_bpsk_signal, rx_cdma_bpsk_signal, tx_cdma_qpsk_signal, rx_cdma_qpsk_signal", "src/fh.rs: tx_fh_bpsk_signal, rx_fh_bpsk_signal", "src/lib.rs: awgn"])
p("C118", "The Neyman-Pearson check of the Python scripts never reports a signal",
  "neyman_pearson(signal, n0) of kom_py/willie.py divides the likelihood of the recording under the noise alone by its likelihood under the normal distribution fitted to the recording itself. The fitted one is never smaller, so the ratio is at most 1, with equality exactly for recordings whose mean is 0 and whose standard deviation is n0; the ratio is compared with the normal quantile of 1 - alpha. Hence at the default level 0.05, and at every level up to erfc(1/sqrt2)/2 (about 0.159), the function returns False for every recording and every n0. At levels between that and 1/2 it is the wrong way round: it returns True for every recording with the mean and standard deviation of the noise, and False for every recording with enough energy. From 1/2 on it returns True for every recording that is not constant. The two normality tests also have opposite senses: at level 0.05, p_value of the scripts fires exactly when normal_detector of the library does not (p-value other than 0.05).",
  "every recording of any length (including empty and constant ones), every noise level (including zero and negative ones), every level below one, in exact arithmetic",
  "a test sees some recordings; that no recording at all can make the check fire follows only from an inequality between likelihoods",
  ["kom_py/willie.py: neyman_pearson, p_value", "src/willie.rs: normal_detector"])
p("C119", "FH-OFDM-DCSK in double precision never sends a finite sample",
  "In IEEE-754 double precision every complex sample produced by tx_baseband_fh_ofdm_dcsk_signal has an infinite or NaN part, and every sample produced by tx_fh_ofdm_dcsk_signal, tx_fh_ofdm_dcsk_signal_2 and the Python function tx_fh_ofdm_dcsk is infinite or NaN. The number of samples is as it should be: ten per frame (times the samples per symbol), one frame more than the whole sevens of bits. Consequently, adding noise at a standard deviation computed from the measured energy of such a transmission panics.",
  "every message, every sample rate, symbol rate, carrier or hop band the transmitters accept, every random generator, every mathematics library, every 8-point Fourier transform that does not turn a frame with an infinite or NaN entry into one with a finite output",
  "A test sees one message; and the one test of the round trip is switched off in the repository. That no message and no parameters ever give a finite sample needs the limit of the chaotic sequence (infinite from its eighth value on, for ever) and its spreading through the transform.",
  ["src/fh_ofdm_dcsk.rs: tx_baseband_fh_ofdm_dcsk_signal", "src/fh_ofdm_dcsk.rs: tx_fh_ofdm_dcsk_signal", "src/fh_ofdm_dcsk.rs: tx_fh_ofdm_dcsk_signal_2", "src/chaos/chebyshev.rs: chebyshev", "src/lib.rs: tx_fh_ofdm_dcsk", "src/lib.rs: awgn_py"])
p("C120", "The detection experiment of the Python scripts: size, pairing, and the ratio it really tests",
  "The experiment of lambdas.py takes the first message of 120, 130, 140, ... bits that gives at least 4160 samples, and runs for ever if there is none. For all eight modulations of the script 120 bits are enough. For every signal-to-noise ratio and attempt it compares a transmission in noise with the same number of samples of noise alone, both with standard deviation eb/snr, where eb is the average energy of one transmission; each detector gives one number per attempt for either case and none of them panics. Because eb/snr is used as a standard deviation and not as a variance, the ratio really tested is snr^2/eb: in decibels twice the nominal one less the energy of the transmission. In double precision the run for FH-OFDM-DCSK panics whenever there is a ratio and an attempt.",
  "every transmitter whose number of samples depends on the number of bits only (and the eight of the script), every random message and noise, every list of ratios, every number of attempts",
  "The script draws random data, takes hours, and has no tests. That the search for a size ends, that the two recordings always have the same length and that the detectors always accept it is a statement about all of its runs; the ratio on the horizontal axis cannot be checked against anything in the program.",
  ["kom_py/lambdas.py: __run", "kom_py/lambdas.py: harness", "kom_py/lambdas.py: ofdm_signal", "src/lib.rs: random_data", "src/lib.rs: awgn_py", "src/lib.rs: pure_awgn", "src/lib.rs: energy_detector", "src/lib.rs: max_cut_detector"])
p("C121", "Fading, phase errors, wrong keys and other stations, in noise",
  "What the receivers answer when the signal is weakened, turned in phase or mixed with other stations and white Gaussian noise is added (awgn). The bits are wrong independently of each other. With BPSK or CDMA over BPSK received at strength g_n with the carrier turned by t_n during symbol n, bit n is wrong with the textbook probability erfc(a sqrt(E/2s^2))/2 for the amplitude a = g_n cos t_n and E = half the number of samples per symbol: a phase error costs the factor cos^2 of the energy, a quarter turn makes a coin toss, more than that inverts. With QPSK one bit of each symbol loses and the other one gains the sine of the phase error. Stations on other carriers, spaced as in C84, do not change the error probability however strong they are. Nor do CDMA stations with orthogonal keys, over BPSK or QPSK. With any other keys of the same length, bit n is wrong with the probability for the amplitude sum of strength times bit times (agreements - disagreements)/length over all stations; this includes a receiver that holds a wrong key.",
  "all messages, all strengths and phases changing from symbol to symbol, all numbers of stations, all strengths, keys and carriers (a whole number of half carrier periods per symbol, or per chip), all positive noise levels; exact arithmetic and ideal Gaussian noise",
  "error probabilities are integrals over all noises and the claims range over all fading sequences and all sets of stations; a simulation estimates one number for one of them",
  ["src/bpsk.rs: rx_bpsk_signal, tx_bpsk_signal", "src/qpsk.rs: rx_qpsk_signal, tx_qpsk_signal", "src/cdma.rs: rx_cdma_bpsk_signal, rx_cdma_qpsk_signal, tx_cdma_bpsk_signal, tx_cdma_qpsk_signal", "src/lib.rs: awgn"])

p("C122", "The operating curves of the detection experiment measure the readings, not the regression",
  "The analysis step of kom_py/lambdas.py takes readings of a detector without and with a signal, shuffles them, fits a logistic regression to one half and evaluates the other. Whatever the shuffle and the regression (as long as its weight is not zero), in exact arithmetic: the split loses and repeats nothing; if the test readings are all different, the table lists them in ascending order (positive weight), each with the fractions of test readings with and without a signal that reach it; the plotted Youden index is the largest distance of these fractions at any threshold (the Kolmogorov-Smirnov distance) and does not depend on the regression, not even on its sign; the reported best threshold separates the test readings at least as well as any other threshold; the area under the curve is the chance that a reading with a signal exceeds one without (ties count half), or its complement if the weight is negative. Disagreement: repeated readings are not supported. With exactly one repetition the rates are entered one row too low and the reported threshold can be worthless although a perfect one exists; with more the script stops with ValueError.",
  "every pair of equally long lists of readings, every shuffle, every fitted weight and intercept, every threshold",
  "A test uses one set of readings; that nothing beats the reported threshold, and that the regression cancels out, are statements about all thresholds and all regressions.",
  ["kom_py/lambdas.py:__log_regress", "kom_py/lambdas.py:__auc", "kom_py/lambdas.py:__youden_j", "kom_py/lambdas.py:__best_threshold"])

p("C123", "What a NaN or infinite sample does",
  "IEEE double precision, any mathematical library, any recording. If samples of a recording become NaN, rx_bpsk_signal, rx_qpsk_signal, both CDMA receivers, the hopping receiver and rx_baseband_dcsk return the value false for every bit of a symbol that contains one of them, and exactly the bits they would have returned before for all other symbols; they never panic. rx_fsk and rx_baseband_csk do the same for infinite samples as well. awgn neither repairs nor spreads such samples. A single NaN makes avg_energy and energy NaN and silences the energy_detector of willie.rs at every threshold; an infinite sample (without NaN) makes it fire at every finite threshold.",
  "every recording, every set of spoilt samples, every set of parameters the guards accept, every mathematical library, every noise",
  "NaN and infinities enter from file formats and overflowing channels, at positions no test enumerates; whether the damage stays inside the symbol is a statement about all of them.",
  ["src/bpsk.rs:rx_bpsk_signal", "src/qpsk.rs:rx_qpsk_signal", "src/cdma.rs:rx_cdma_bpsk_signal", "src/fh.rs:rx_fh_bpsk_signal", "src/fm.rs:rx_fsk", "src/csk.rs:rx_baseband_csk", "src/dcsk.rs:rx_baseband_dcsk", "src/lib.rs:avg_energy", "src/willie.rs:energy_detector"])
# Where the text asks for whole half carrier periods, carriers with a vanishing quadrature are left out.
for x in P:
    if x["id"] in "C73 C79 C80 C81 C82 C83 C85 C88 C101 C102 C104 C110 C115 C117 C121".split():
        x["quantifier"] += " (where whole half carrier periods are required, carriers that are a multiple of half the sample rate are excepted)"
p("C124",
  "What the radiometer experiments report",
  "The energy read from a recording of n samples with avg_energy, after awgn with white Gaussian noise of standard deviation sigma, has variance (2 sigma^4 + 4 sigma^2 S)/n around its mean S + sigma^2, S being the energy per sample of the signal, whatever its shape. The experiments of tests/billiam.rs compare such readings with a threshold, and their function get_pds reports as probability of detection the number of readings at or below the threshold over a constant number of attempts: with the same bits and noise it is one minus what radiometer_pmd_cdma and radiometer_pmd_cdma_qpsk report as probability of missed detection by counting the readings above it. So on average the louder of two transmissions of the same length is reported less, and equal energies are reported alike whatever the modulation, the message and the key. With the thousand bits of radiometer_pd the curves of BPSK and CDMA over BPSK are within a thousandth of one, and that of CDMA over QPSK within a thousandth of zero, on the whole range of thresholds plotted. In radiometer_pd_new the threshold is the plotted ratio itself, and a run with ten times the constant number of attempts reports values near ten at ratios above the power of signal and noise. The readings of radiometer_pmd_cdma_qpsk have mean 2 and variance 1/4000, that of an error-function curve of steepness sqrt 2000, about 44.7; the steepness 22.2 within 0.5 that the test asserts belongs to almost four times that variance.",
  "all signals, transmitters of constant energy, messages and thresholds; any number of attempts; all seeds of the bits; white Gaussian noise; exact arithmetic",
  "the experiments are marked as ignored, mostly draw pictures, and their values are random; no run shows a variance or a mean over the noise, nor that what is counted is the opposite of what the axis says",
  ["tests/billiam.rs: get_pds", "tests/billiam.rs: radiometer_pd", "tests/billiam.rs: radiometer_pd_new", "tests/billiam.rs: radiometer_pmd_cdma", "tests/billiam.rs: radiometer_pmd_cdma_qpsk", "src/lib.rs: avg_energy", "src/lib.rs: awgn"])
p("C125", "Stations without keys on one channel outvote each other",
 "Any number of stations send messages of equal length at the same time with the same parameters, and the channel adds their signals, each times the strength (any real number) at which it is received. In exact arithmetic a BPSK receiver (any carrier, at least two samples per symbol) and a frequency-hopping BPSK receiver (any accepted range and at least two hop frequencies) return for every bit whether the strengths of the stations sending true exceed those of the stations sending false; a QPSK receiver (symbols of whole half carrier periods, carrier not a multiple of half the sample rate) returns whether they are at least as large. So a station stronger than all others together is read without error and all others are lost; two equally strong stations are read as the bitwise and of their messages (BPSK, hopping) or as the bitwise or (QPSK). Hopping separates nobody, because all stations hop together.",
 "all numbers of stations, all strengths, all messages of equal length, all accepted rates, carriers and hop ranges, every generator behind the hop table",
 "The number of stations, their strengths and messages are unbounded; a test shows one mix.",
 ["src/bpsk.rs: tx_bpsk_signal, rx_bpsk_signal", "src/qpsk.rs: tx_qpsk_signal, rx_qpsk_signal", "src/fh.rs: tx_fh_bpsk_signal, rx_fh_bpsk_signal, HopTable"])
p("C126", "Energy per bit for any carrier",
 "In exact arithmetic, for every non-empty message and every carrier that is not a multiple of half the sample rate, the sum of the squared samples divided by the number of bits is half the number k of samples per symbol, up to 1/(2 n |sin(2 pi f/fs)|) for the n bits of a BPSK or CDMA-BPSK transmission and up to 1/(2 |sin(2 pi f/fs)|) for QPSK and CDMA-QPSK (even number of bits) and for BFSK (the smaller sine of the two tones); key and message do not matter. avg_energy divided by the number of bits is that energy divided by the number of samples, so it is not an energy per bit: it falls with the length of the message. For the parameters of the energy check in the test suite and every message of an even positive number n of bits the check reads exactly 240 for the four phase-shift keyed signals, between 237.8 and 242.2 for BFSK and 1/(2n) for the mean energy over the number of bits.",
 "all messages, keys, accepted rates and carriers",
 "The check that prints these values is ignored in the test suite and asserts nothing; it draws one random message for one carrier.",
 ["tests/eb.rs: check_eb, check_ebs", "src/bpsk.rs: tx_bpsk_signal", "src/qpsk.rs: tx_qpsk_signal", "src/cdma.rs: tx_cdma_bpsk_signal, tx_cdma_qpsk_signal", "src/fsk.rs: tx_bfsk_signal", "src/lib.rs: avg_energy", "src/hadamard.rs: HadamardMatrix"])
p("C127","hopping and FSK receivers in double precision decide as exact ones, with an explicit margin",
"Take any recording of finite doubles, each within tau of a real number s_i, bounded by S, and a mathematical library whose sine and cosine are accurate to eps; k samples per bit. rx_fh_bpsk_signal answers one bit per k samples, and the bit equals the sign of the exact correlation of the s_i with the carrier of that bit (at the frequency the double-precision hop table names, between low and high, its phase starting with the bit) whenever the correlation exceeds k (tau + S (eps + 2^-14)). rx_fsk answers one bit per k samples, true exactly if the upper tone carries at least the energy of the lower one, whenever the two exact energies differ by more than 16 k^2 S (tau + S (eps + 2^-13)). On the same samples the FSK receiver in doubles and in exact arithmetic therefore differ at most in bits whose energies are closer than that. Consequences in double precision: FSK bits of arbitrary strength and phase with the carrier a multiple of 20 symbol rates below 20/41 of the sample rate are received while the square of the amplitude exceeds 64 S (tau + S (eps + 2^-13)); the FSK modulator's output is within 2^-11 and the hopping modulator's within 2^-9 of the exact waveform; an FSK message on such a carrier survives modulation in doubles, a disturbance of every sample by up to 0.24, and reception in doubles; a hopped message survives a disturbance of every sample by up to tau if every carrier in the band has an energy of more than k (tau + 1/200) over a bit.",
"all recordings of finite doubles, all real reference signals, tolerances tau, bounds S between 2^-900 (FSK 2^-400) and 2^900 (FSK 2^400), all libraries of the stated accuracy (eps at most 2^-10, 2^-12 for the FSK message link), carriers and bands up to half the sample rate, sample rates below 2^53, messages up to 2^30 samples (FSK; any length for hopping), per-bit strengths and phases, disturbances, random generators",
"a test compares one recording on one machine's library; the claim bounds the effect of rounding for every recording and every library of the stated accuracy, including the accumulated error of two squared correlations per FSK bit",
["src/fh.rs: tx_fh_bpsk_signal, rx_fh_bpsk_signal, HopTable","src/fm.rs: tx_fsk, rx_fsk"])
p("C128","FSK needs three carrier cycles per symbol",
  "The tones of `tx_fsk` lie 2.5 % below and above the carrier, so the number of carrier cycles per symbol decides whether `rx_fsk` can tell them apart. With `symb_rate` dividing `samp_rate` and a carrier of `c` times `symb_rate`: for `c` of three or more and at least five samples per carrier cycle `rx_fsk` returns every message unchanged, also when each symbol arrives with a strength (not zero) and phase of its own. For `c` one or two (and at least 32 samples per symbol) every message that begins with a false bit comes back beginning with a true bit. In the setting of the library's own tests (44100 samples per second, 900 symbols per second, carrier 1800 Hz) the result is known bit for bit: of every ten bits those in positions 0, 8 and 9 are read as true and those in positions 4, 5 and 6 as false whatever was sent, the others are read correctly. So 16^q of the 1024^q messages of 10 q bits come back; the unit test of src/fm.rs draws one of 4000 bits at random and asserts that it comes back, and the ten bits of tests/fm.rs come back with two of them wrong, so its assertion does not hold. In double precision, with any sufficiently accurate sine and cosine, the round trip holds from ten samples per carrier cycle on, and in the setting of the test a true bit in a position ending in 5 is read as false, so the assertion does not hold there either.",
  "All messages, all sampling rates and symbol rates with the second dividing the first, all numbers of carrier cycles per symbol, all strengths and phases per symbol; for double precision all sine and cosine functions accurate to 2^-16 (2^-18 for the setting of the test) and messages up to 2^30 samples.",
  "A test fixes one message and one setting; that the receiver works from three cycles on for all messages and phases, and which positions fail below, are statements about infinitely many inputs. The tests there are run in a setting that fails.",
  ["src/fm.rs: tx_fsk", "src/fm.rs: rx_fsk", "src/fm.rs: tests::fsk", "tests/fm.rs: fsk_graphs"])
p("C129","Many CDMA-BPSK users on a carrier that does not fit the chips",
  "When a chip is not a whole number of half carrier periods, orthogonal keys are not orthogonal on the carrier. For the sum of any number of signals of `tx_cdma_bpsk_signal` (same rates, carrier and key length, each user their own key and a message of the same length), the bit that `rx_cdma_bpsk_signal` returns for symbol n is the sign of the sum over the users of the user's bit (as +1 or -1) times the overlap of the user's key with the receiver's: the sum over the samples of the symbol of the squared carrier times the product of the two chip signs. So a user's message comes back whatever everybody sends if their own overlap exceeds the sum of the absolute overlaps with all others in every symbol, and only then: otherwise there are messages for which it does not. For orthogonal keys and symbols of whole half carrier periods, `(users - 1) * sin(2 pi fc c / fs)^2 < 2 * (c * sin(2 pi fc / fs))^2` (`c` samples per chip, `4 fc c` not a multiple of `fs`) is enough. And if for one user the overlaps with s others together outweigh the own, at most the fraction (1 - 1/2^(s+1))^N of all data sets of N bits per user give that user's message back. In the settings of the library's multi-user test (1000 symbols per second, carrier 2500 Hz, keys from `HadamardMatrix`): with 4 keys and 3 users and with 8 keys and 7 users at 80000 samples per second every data set comes back; with 16 keys and 15 users at 80000 samples per second at most (31/32)^N of them do, with 32 keys and 31 users and with 64 keys and 63 users at 256000 samples per second at most (15/16)^N. The test draws 1000 random bits for each user and asserts that all come back, so for the last three cases its assertion holds of at most one data set in 10^13. In double precision, with the samples added one user after the other, the statements for 4, 8 and 16 keys hold as well.",
  "All numbers of users, keys of equal length, messages of equal length, sampling rates and symbol rates accepted by the guards, and carriers; for the settings of the test all numbers of bits per user. For double precision up to 64 users, all sine and cosine functions accurate to 2^-16 and recordings up to 2^32 samples.",
  "The test draws one data set at random; which settings separate the users for every data set, and how many data sets a setting fails, are statements about all of them.",
  ["src/cdma.rs: tx_cdma_bpsk_signal", "src/cdma.rs: rx_cdma_bpsk_signal", "src/cdma.rs: tests::bpsk_cdma_multi_user", "src/hadamard.rs: HadamardMatrix"])
p("C130","A coded transmission that breaks off in its last byte",
  "bch_stream_decode reads missing bits of the last byte as false, so a coded stream that ends up to seven bits too early costs at most one byte of the last frame and still decodes to the data (padded to whole bytes); other bytes may be damaged besides, as long as at most two bytes of every 12-byte frame are wrong in all. If one whole byte or more is missing and the last frame still has five bytes, the result is always shorter than the data. The same holds of the radio: if the recording of tx_coded_cdma_bpsk_signal lacks at most seven symbols at its end, whole or in part, rx_coded_cdma_bpsk_signal returns the data, in exact arithmetic and in double precision, there also with every sample off by up to 0.48. The library's coded multi-user test relies on this: its channel is a vector of floor(1000 * samples per symbol * 12/7) samples, while 1000 data bits become 1720 coded bits, of which only 1714 fit. The test nevertheless passes for every data set, in all five cases.",
  "All messages, codecs that append five check bytes and correct two byte errors, keys and rates accepted by the guards, cuts, carriers (whole numbers of half periods per symbol for double precision), sine and cosine functions accurate to 2^-10; for the last statement all 2^1000 data sets and all keys of the size.",
  "Whether the end is recovered depends on the data: the missing bits are often false already, and a test draws one data set; it does not show that it passes only thanks to the code.",
  ["src/bch.rs: bch_stream_decode", "src/lib.rs: bools_to_u8s", "src/cdma.rs: tx_coded_cdma_bpsk_signal", "src/cdma.rs: rx_coded_cdma_bpsk_signal", "src/cdma.rs: tests::coded_bpsk_cdma_multi_user"])
p("C131","The stream adapters obey the laws of a signal chain",
  "Chains of the iterator adapters that a user would take for the same thing give the same items. For any items: inflate(a).inflate(b) is inflate(a*b); take_every(a).take_every(b) is take_every(a*b) for every source, endless ones too; inflate(k).take_every(k) and chunks(k) flattened give back the source. In exact arithmetic (any commutative semiring): a filter of k ones, skipping k-1 items and taking every k-th (the matched filter) gives the sum of every block of k items, which for whole blocks is integrate_and_dump(k), and an incomplete last block is summed up instead of dropped; integrate_and_dump(a).integrate_and_dump(b) is integrate_and_dump(a*b); integrate read off at the block ends is integrate of integrate_and_dump; inflate(k).integrate_and_dump(k) is scale(k); convolve commutes with scale, with the sum of two streams and with a delay (filter not longer than the signal). But filtering every block by itself and keeping the last item, as one of the QPSK tests does for its plot, gives the last item of the block times the last tap and not the sum.",
  "All finite sources (for take_every all sources), all positive factors, all filters, all scale factors, all delays, all commutative semirings.",
  "Each law relates two programs on all inputs; a test compares them on one. The laws are what justifies replacing one chain by another.",
  ["src/iter/chunks.rs: Chunks", "src/iter/convolution.rs: Convolver", "src/iter/inflate.rs: Inflate", "src/iter/integrate.rs: Integrate, IntegrateDump", "src/iter/scale.rs: Scale", "src/iter/take_every.rs: Take", "tests/qpsk.rs: qpsk_graphs"])
p("C132","What the unit tests of the library assert holds for every data set they can draw",
  "Each unit test of the crate draws one random data set (or starts one generator) and asserts something about it. With the sizes, rates and carriers written in the tests, the assertion holds for every data set: bools_to_u8s and back (33 bits), the Reed-Solomon byte code (100 bits), baseband and carrier BPSK and QPSK, DCSK, CSK (in double precision the two chaotic carriers differ in each of the first 9001 values, so every message up to that length comes back), frequency hopping and the hop table for every random generator, CDMA with the first Walsh key of every tested size (baseband, BPSK, QPSK, coded BPSK), baseband OFDM with 64 carriers, and OFDM on a carrier (exact arithmetic). The frequency scrambling of the test is undone for all data, chunk sizes and generators. The energy detector test fails with probability at most 1/4000 over its noise. Some tests do not test what they name: the Hadamard test takes the parity of the common ones, so it fails for sizes 2 and 4 and accepts identical rows; the energy test accepts the power divided by one sample too few; the sine handed to the normality test is silent; the ignored Chebyshev test passes because infinities count as NaN.",
  "All data sets of the tested sizes (for CSK all messages up to 9001 bits; for the hop table all tables from two frequencies on, rounds and generators; for the scrambling all data that fill their chunks), all Walsh sizes named in the tests, all sine and cosine functions accurate to 2^-10, all discrete Fourier transforms accurate to 1/512, all standard normal noise for the energy detector test.",
  "A run of the tests draws one of 2^9001 data sets; passing says nothing about the others, and a failure would be one in many runs.",
  ["src/lib.rs: tests::bitstream_conversions, tests::energy_test", "src/bch.rs: test::stream_bch_works", "src/bpsk.rs: tests::baseband, tests::full_bpsk", "src/qpsk.rs: tests::baseband_qpsk, tests::full_qpsk", "src/dcsk.rs: tests::baseband_dcsk", "src/csk.rs: tests::baseband_csk", "src/fh.rs: tests::hop_table, tests::fh_bpsk_works", "src/cdma.rs: tests::baseband_cdma, tests::bpsk_cdma_single_user, tests::qpsk_cdma_single_user, tests::coded_bpsk_cdma_single_user", "src/ofdm.rs: tests::test_baseband_qpsk_ofdm, tests::test_qpsk_ofdm", "src/fh_ofdm_dcsk.rs: tests::baseband, tests::frequency_scrambling", "src/hadamard.rs: tests::hadamard", "src/chaos/chebyshev.rs: tests::no_nans_test", "src/willie.rs: tests::energy_detector_test_awgn, tests::normtest_sine"])
p("C133","OFDM on a carrier in double precision",
  "In IEEE double precision, with sine and cosine accurate to eps and a Fourier transform accurate to delta, what the OFDM transmitter puts on the air differs from exact arithmetic by at most 6*delta + 5*(eps + 2^-15) per sample; and a receiver that gets those samples, each disturbed by any amount up to tau, returns every transmitted bit in order (followed only by padding up to a whole frame) as soon as carriers*(delta + eps + 2^-15 + tau) is at most 1/80. In particular the unaltered transmission is always recovered, and the 64-carrier unit test passes for every draw of its data.",
  "every message up to 2^32 samples, every even carrier count, every accepted pilot count, every rate pair with at least 16 samples per symbol, every carrier below half the sample rate with whole periods per symbol, every library and transform of the stated accuracy, every bounded disturbance",
  "Rounding errors of the transform, of the oscillator (whose phase error grows with the sample index) and of the running sums add up differently for every message and rate; the test draws one data set with one library.",
  ["src/ofdm.rs: tx_ofdm_qpsk_signal, rx_ofdm_qpsk_signal"])
p("C134", "The band-pass filter in double precision",
  "bandpass run on doubles differs from the same filter in exact arithmetic by at most n*B*(4d + 2^-52), where n is the block length, B a bound of the samples and d the accuracy of the library's transforms (each output within d*n*B of the exact transform). The comparisons of the computed bin frequencies with the band edges decide as exact ones would, unless a bin outside the band is within one rounding of an edge. Hence a recording within eta of a sum of tones at multiples of fs/n comes out as the sum of the tones inside the band, within n*(eta + B*(4d + 2^-52)); a band from 0 to fs/2 returns the signal; and filtering a second time changes nothing beyond rounding.",
  "all sample streams of whole blocks, block lengths up to 2^40, sample rates with (n/2)*fs <= 2^53, band edges, sets of tones with any amplitudes and phases, disturbances up to eta, and all transforms of accuracy d <= 1/8",
  "The one test of the filter has three tones, one band and one block length, and compares with a tolerance of 0.4; it says nothing about the size of the error for other inputs, or about bins next to the edges.",
  ["src/bpf.rs: bandpass"])
p("C135", "The band-pass filter between its bins",
  "For tones of any frequency, not only multiples of fs/n: when each tone is at least D bins (D > 1/2) inside the pass band or at least D bins outside it, the output of bandpass differs in every block from the sum of the inside tones by at most (sum of the amplitudes)/sqrt(D - 1/2), root mean square. A band that begins at 0 or ends at fs/2 has no edge there. For any signal at all, the energy of a block is the energy of the filtered block plus the energy of what was removed; the filter never adds energy.",
  "all lists of tones (frequency, amplitude, phase), sample rates, block lengths, bands and margins D, any number of blocks; for the energy statement all signals",
  "The test of the filter uses one set of three tones and allows an error of 0.4 per sample, with the remark that it should be far smaller; how the error depends on the distance of a tone from the edges of the band is not visible from any one run.",
  ["src/bpf.rs: bandpass"])
p("C136", "A band-pass filter in front of a receiver",
  "Let the block length of bandpass divide the samples of a symbol (of a chip, with a key), and let the carrier make a whole number of cycles in a block. If the carrier lies in the pass band, the receivers of BPSK, QPSK, CDMA over BPSK and over QPSK decide every recording of whole symbols, whatever it contains, exactly as without the filter; FSK likewise when both tones lie in the band. So the filter neither helps nor harms in white noise: BPSK behind it has the bit error rate it has without it. If the carrier lies outside the band, BPSK answers only 0 and QPSK only 1; FSK answers only 1 as soon as its lower tone lies outside. With frequency hopping the symbols sent on hops inside the band are decided as without the filter, and those on hops outside are decided 0.",
  "all recordings of whole symbols, all bands, sample and symbol rates, block lengths dividing the symbol, carriers on a bin, keys, hop tables and random generators, noise levels",
  "The statement compares two programs on every possible recording; a test can compare them on the recordings it has, and a filter that shifts the band by one bin or scales the output passes most of them.",
  ["src/bpf.rs: bandpass", "src/bpsk.rs: rx_bpsk_signal", "src/qpsk.rs: rx_qpsk_signal", "src/cdma.rs: rx_cdma_bpsk_signal, rx_cdma_qpsk_signal", "src/fm.rs: rx_fsk", "src/fh.rs: rx_fh_bpsk_signal"])
p("C137","How much noise passes the band-pass filter",
"In white Gaussian noise of standard deviation sigma, added by awgn, the mean of avg_energy measured behind bandpass is, for every nonempty recording of whole blocks, the avg_energy of the filtered signal without noise plus sigma^2 times B/n, where B is how many of the n bins of a block (of positive and of negative frequency) have a frequency in the band. For signals that repeat from block to block the measured energy converges almost surely to this value as the recording grows. Hence the energy detector behind the filter finds a tone on a bin of the band, and only the tone: with any threshold between sqrt(sigma^2 B/n) and sqrt(a^2/2 + sigma^2 B/n) it is almost surely right on all sufficiently long recordings with and without the tone of amplitude a, whatever tones of whatever amplitudes on bins outside of the band are present in both.",
"every nonempty signal of whole blocks, every signal of period n, every noise level, every block length, sample rate and pass band, every amplitude, phase and bin of the tone, every list of jamming tones on bins outside of the band, every threshold in the interval",
"a statement about expectations and almost sure limits; a test sees one noise realisation of one length, and cannot separate the noise of the band from that outside of it.",
["src/bpf.rs: bandpass","src/lib.rs: awgn, avg_energy","src/willie.rs: energy_detector"])
p("C138","The coded link in white noise fails with the cube of its bit error rate",
"The stream encoder of bch.rs cuts a message of n bits into ceil(n/56) frames. If a link flips the encoded bits independently of each other, each with probability at most q, then bch_stream_decode returns something else than the message filled up with zeros to whole bytes with probability at most 220 ceil(n/56) (1-(1-q)^8)^3, hence at most 112640 ceil(n/56) q^3. For tx_coded_cdma_bpsk_signal, awgn of deviation sigma and rx_coded_cdma_bpsk_signal this holds with q the bit error probability erfc(sqrt(E/(2 sigma^2)))/2 of the weakest symbol sent (energy at least E); with a carrier that has a whole number of half periods in a symbol of k samples the whole chain gives a wrong result with probability at most 14080 ceil(n/56) exp(-3 k/(4 sigma^2)), three times the exponent of the uncoded link.",
"Every message and length, every Reed-Solomon codec meeting its contract, every link with independent bit errors; for the CDMA chain every key, rates and carrier accepted by the guards, every sigma > 0 and every generator of white Gaussian noise.",
"The probability of a wrong result is a statement about all noise sequences; the crate's tests run the coded link without noise, and a simulated rate of failures below one in a million would need millions of runs per setting.",
["src/bch.rs: bch_stream_encode, bch_stream_decode", "src/cdma.rs: tx_coded_cdma_bpsk_signal, rx_coded_cdma_bpsk_signal", "src/lib.rs: awgn"])
p("C139","A mixer moves a signal to the sum and the difference of the frequencies",
"A signal of tx_bpsk_signal, tx_qpsk_signal or tx_cdma_bpsk_signal on carrier fc, multiplied sample by sample with a local oscillator cos(2 pi f t + phi), is received by the matching receiver tuned to fc - f and also by one tuned to fc + f, provided these two frequencies are told apart by a symbol (sum and difference multiples of the symbol rate and not of the sample rate) and the receiver's carrier has a whole number of half periods per symbol. BPSK, with or without a key, returns the message for every |phi| < pi/2; in general the two amplitudes of a symbol arrive turned by phi. With an oscillator above the carrier the receiver at f - fc returns a BPSK message unchanged and a QPSK message with the second bit of every symbol inverted. The band-pass filter of bpf.rs around either of the two images keeps the BPSK message there, and a receiver tuned to the other one hears nothing: it returns only zeros. For plain tones it selects the sum or the difference frequency at half the amplitude, which is what tests/fft.rs plots.",
"Every message, rate, carrier, oscillator frequency and phase satisfying the stated divisibility; every source and every pass band; exact arithmetic.",
"Trigonometric identities summed over symbols of arbitrary length for arbitrary frequencies; the crate's test plots one pair of tones and asserts nothing about them.",
["src/bpsk.rs: tx_bpsk_signal, rx_bpsk_signal", "src/qpsk.rs: tx_qpsk_signal, rx_qpsk_signal", "src/cdma.rs: tx_cdma_bpsk_signal, rx_cdma_bpsk_signal", "src/bpf.rs: bandpass", "tests/fft.rs: frequency_hopping_bandpass_filter"])
p("C140", "Passband OFDM in white noise",
  "Let a message pass through tx_ofdm_qpsk_signal, awgn and rx_ofdm_qpsk_signal with an even number n of subcarriers, a whole number of carrier periods and k >= 12 samples to a symbol, the carrier not a multiple of half the sample rate, and let the noise be white Gaussian of standard deviation sigma > 0. The chain never panics. Over the bits of all frames but the last it is a memoryless channel: the errors of distinct bits are independent (unlike at baseband, where mirrored carriers share their noise), and each bit is wrong with a probability between that of an antipodal signal of energy (k/sqrt 2 + 8)^2/(nk/2) and that of energy (k/sqrt 2 - 8)^2/(nk/2), so close to the textbook value for energy k/n. The same upper bound holds for every bit of the message, the last frame included, and a lower bound with nk/2 - 1 in place of nk/2. The probability that any bit of the message is wrong is at most the number of bits times the upper bound.",
  "all messages, all even numbers of subcarriers and all pilots below them, all sample rates below 2^64, symbol rates dividing them with at least 12 samples to a symbol, carriers with whole periods to a symbol, all noise powers, and all outcomes of the noise",
  "a test draws one noise sequence and counts; it cannot establish a probability, let alone independence of the errors of all bits, for every message, size and carrier",
  ["src/ofdm.rs: tx_ofdm_qpsk_signal, rx_ofdm_qpsk_signal, test_qpsk_ofdm", "src/lib.rs: awgn"])
p("C141", "A band-pass filter in front of a receiver, in double precision",
 "Let a recording of finite doubles, a whole number of symbols long and bounded by B, pass through `bandpass` in blocks of n samples that fit into a symbol, with the carrier on a bin inside the band and no bin within one rounding of a band edge, and then into `rx_bpsk_signal` or `rx_qpsk_signal`, everything in double precision with transforms accurate to delta and sine and cosine accurate to epsilon. Then nothing panics, one symbol is decided per symbol length, and each decision is the one that exact arithmetic takes on the same recording without any filter, whenever the mean correlation with the carrier exceeds n B (4 delta + 2^-52) + S (epsilon + 2^-14), S being a bound a little above n B. For the CDMA receivers, in blocks that fit into a chip, the decisions are the signs of the correlations of the unfiltered recording under the chips of the key. Consequently a modulated message (BPSK, QPSK, CDMA over either) comes back through disturbance, filter and receiver as long as the disturbance of each sample, the modulator's error and that margin stay below one half together: with blocks of eight samples and correctly rounded functions, any disturbance of up to 0.48 per sample for BPSK.",
 "every message, key, carrier, band, block length and sample rate in the stated ranges, every recording of finite doubles, every disturbance, every transform and sine/cosine within the stated accuracies",
 "A test runs one carrier and one band with one FFT library; the claim needs the accumulated rounding of forward transform, mask, inverse transform, mixing and summation to stay below the decision margin for every recording at once.",
 ["src/bpf.rs: bandpass", "src/bpsk.rs: rx_bpsk_signal, tx_bpsk_signal", "src/qpsk.rs: rx_qpsk_signal, tx_qpsk_signal", "src/cdma.rs: rx_cdma_bpsk_signal, rx_cdma_qpsk_signal, tx_cdma_bpsk_signal, tx_cdma_qpsk_signal"])
p("C142", "erf and erfc in double precision",
 "With an exponential that is good to eps (eps at most 2^-20) and gives about zero at minus infinity, erf of every finite double is a finite double within eps + 1.4e-7 of the error function, and erfc within eps + 1.5e-7 of the complementary error function, whatever the magnitude of the argument. The infinities give plus and minus one up to eps + 3e-9. NaN gives NaN, whatever the exponential. But the relative accuracy of the formula does not survive the subtraction from one: whatever the exponential, a finite answer of erfc is zero or at least 2^-53 in magnitude, so from the argument seven on it is wrong by at least the whole of the value it approximates.",
 "every double (finite, infinite, NaN) and every library exponential meeting the stated accuracy",
 "There are 2^64 arguments, the function is not tested in the repository, and the accuracy of the exponential depends on the platform.",
 ["src/lib.rs: erf, erfc"])
p("C143", "the error rate of a link that runs in double precision",
 "Let modulator, awgn and receiver all run in double precision, with any mathematical library accurate to eps, and let the generator behind awgn deliver doubles that follow independent standard Gaussian samples to within eta as long as these do not exceed Z (nothing is assumed about rarer samples). With k samples per symbol, a whole number of half carrier periods per symbol and loss = sigma eta + S (3 eps + 2^-12), S bounding signal and noise, each bit of BPSK, QPSK and both CDMA variants is not correctly received with probability at most the textbook probability for a signal whose amplitude is smaller by the factor 1 - 2 loss, plus the chance N k exp(-Z^2/2) that some sample of the recording exceeds Z; and it is wrongly received with probability at least the textbook probability for an amplitude larger by 1 + 2 loss, minus the same chance. So the textbook curve that the bit error tests compare with is what the program as compiled follows, not only the program in exact arithmetic.",
 "all messages, bit positions, sample rates below 2^53, symbol rates, carriers, keys, noise strengths, generators and libraries of the stated accuracy, recordings of up to 2^32 samples",
 "A test estimates the rate from one finite run of one generator on one machine; it cannot separate the effect of rounding from statistical fluctuation, let alone for every library and every parameter.",
 ["src/lib.rs: awgn", "src/bpsk.rs: tx_bpsk_signal, rx_bpsk_signal", "src/qpsk.rs: tx_qpsk_signal, rx_qpsk_signal", "src/cdma.rs: tx_cdma_bpsk_signal, rx_cdma_bpsk_signal, tx_cdma_qpsk_signal, rx_cdma_qpsk_signal", "tests/ber.rs: ber_bpsk"])
p("C144", "Error rate in double precision on any carrier, for hopping stations and for whole messages",
  "Modulator, awgn and receiver run in double precision and the generator's doubles follow white Gaussian samples to eta as far as Z. Then for BPSK, CDMA-BPSK and hopped BPSK every bit is wrong with the textbook probability Q(sqrt(E)/sigma) that belongs to the energy E of the carrier over the samples of that very bit, whether or not the carrier fits a symbol and whatever frequency the hop table picked: the probability that the bit is not returned right is at most that of the amplitude sqrt(E) (1 - D/E), the probability that it is returned wrong at least that of sqrt(E) (1 + D/E), where D is a small bound on rounding, up to the chance that some sample of the recording exceeds Z. The whole message comes back unchanged except with at most the sum of these probabilities over its bits.",
  "all messages, sample rates, symbol rates, carriers with enough energy per symbol, keys, hop ranges and hop tables, noise levels, noise generators within eta of Gaussian samples, libm functions within the stated accuracy",
  "a simulated error rate at finitely many settings shows neither the rate for other carriers nor what rounding does to it; the tests of hopping only look at noiseless or single noisy runs",
  ["src/bpsk.rs: tx_bpsk_signal, rx_bpsk_signal", "src/cdma.rs: tx_cdma_bpsk_signal, rx_cdma_bpsk_signal", "src/fh.rs: tx_fh_bpsk_signal, rx_fh_bpsk_signal", "src/lib.rs: awgn"])
p("C145", "Error rate of the baseband links in double precision",
  "Baseband symbols through awgn_complex, all in double precision, with a generator whose doubles follow white Gaussian samples to eta as far as Z: every bit of baseband BPSK is wrong with the probability of unit energy, and the first bit of every baseband QPSK symbol with that of energy two, up to a change of the amplitude by sigma eta plus a few units of rounding and the chance that a sample exceeds Z, from above and from below. The second bit of a QPSK symbol is right with certainty whatever the generator gives, NaN and infinities included, because awgn_complex disturbs only the real part. A whole message comes back unchanged except with at most the sum of the probabilities over its bits (BPSK) or its symbols (QPSK).",
  "all messages, noise levels, noise generators within eta of Gaussian samples; for the second bit all noise streams whatever",
  "the curves in tests/ber.rs are plotted, not checked, at finitely many noise levels and for one message",
  ["src/bpsk.rs: tx_baseband_bpsk_signal, rx_baseband_bpsk_signal", "src/qpsk.rs: tx_baseband_qpsk_signal, rx_baseband_qpsk_signal", "src/lib.rs: awgn_complex"])
p("C146", "Error rate of baseband OFDM in double precision",
"Baseband OFDM with BPSK or QPSK symbols through awgn_complex and back, all in double precision, on an even number n of carriers of which p (at least two) carry no data, with a Fourier transform accurate to delta relative to the total magnitude and a generator whose doubles follow white Gaussian samples to eta as far as Z: every bit of the message is wrong with the probability of energy 2/n (BPSK) or 4/n (both bits of QPSK), up to a stated change of the amplitude by the inaccuracies and the chance that one of the samples sent exceeds Z, from above and from below; a whole message comes back unchanged except with at most the sum of those probabilities over its bits. Whatever the generator gives, NaN and infinities included, neither side panics, and exactly as many bits come out as the message has when padded to whole frames.",
"all messages (even length for QPSK), even carrier counts to 2^40, pilot counts from two, finite positive noise levels within the stated range, Fourier transforms within delta, noise generators within eta of Gaussian samples; for the length all noise streams whatever",
"the curves in tests/ber.rs are plotted, not checked, at finitely many noise levels and for one message and one frame layout",
["src/ofdm.rs: tx_baseband_ofdm_signal, rx_baseband_ofdm_signal", "src/lib.rs: awgn_complex", "src/bpsk.rs: tx_baseband_bpsk_signal, rx_baseband_bpsk_signal", "src/qpsk.rs: tx_baseband_qpsk_signal, rx_baseband_qpsk_signal"])
p("C147", "Joint errors and the coded link in double precision",
"BPSK and CDMA-BPSK through awgn and back, all in double precision, are no worse than a memoryless channel: except with the probability that one of the noise samples exceeds Z, the link returns a message of the right length whose wrong bits are among those of a channel that flips bit n independently of the others with the error probability belonging to the energy of symbol n, reduced by the stated margin for rounding and generator. Hence the bits of any set of positions are all wrong with at most the product of those probabilities (plus that remainder), and the chain tx_coded_cdma_bpsk_signal, awgn, rx_coded_cdma_bpsk_signal returns something else than the message of n bits filled up with zeros to whole bytes with probability at most 220 ceil(n/56) (1-(1-q)^8)^3 plus the remainder, q being a bound on those probabilities; with a carrier that has a whole number of half periods in a symbol of k samples at most 14080 ceil(n/56) exp(-3 k (1-2 loss)^2/(4 sigma^2)) plus the remainder. The same holds for the code over any other link that is no worse than a memoryless channel.",
"all messages, keys, sample rates, symbol rates and carriers in the stated ranges, noise levels, generators within eta of white Gaussian samples as far as Z, sine and cosine within epsilon, and every Reed-Solomon codec meeting its contract",
"errors that occur together are rare and cannot be observed often enough in a simulation to bound their probability; no test runs the coded link with noise",
["src/cdma.rs: tx_coded_cdma_bpsk_signal, rx_coded_cdma_bpsk_signal, tx_cdma_bpsk_signal, rx_cdma_bpsk_signal", "src/bpsk.rs: tx_bpsk_signal, rx_bpsk_signal", "src/bch.rs: bch_stream_encode, bch_stream_decode", "src/lib.rs: awgn"])
p("C148", "Error rate of frequency shift keying in double precision",
"tx_fsk, awgn and rx_fsk, all in double precision, on a carrier of 20 c symbol rates (which makes the two tones orthogonal over a symbol), below the Nyquist limit: with k samples per symbol and noise of deviation sigma, each bit is wrong with probability at most exp((1-l)/l k q^2/sigma^2 - (1-l)/(2-l) k/(4 sigma^2))/(2-l) and at least exp(-(1+l)/l k q^2/sigma^2 - (1+l)/(2+l) k/(4 sigma^2))/(2+l), for every l between 0 and 1, up to the probability that one of the noise samples exceeds Z; q is the stated margin per sample for rounding, sine, cosine and generator. As q vanishes both bounds become the textbook rate exp(-k/(8 sigma^2))/2 of the exact link. The link returns something else than the message with at most the sum of the upper bounds over the bits. It is no worse than a memoryless channel with that error rate (in the sense of C147), so behind it bch_stream_decode fails with probability at most 220 ceil(n/56) (1-(1-p)^8)^3 plus the remainder, p being the upper bound.",
"all messages, sample rates below 2^53, symbol rates, carriers that are multiples of twenty symbol rates with 41 c sym < fs, at most 2^30 samples, noise levels, generators within eta of white Gaussian samples as far as Z, sine and cosine within epsilon up to 2^40, every l in (0,1), and every Reed-Solomon codec meeting its contract",
"the effect of rounding on a probability of one in a thousand is far below the scatter of any simulation, and only finitely many rates, carriers and messages can be simulated",
["src/fm.rs: tx_fsk, rx_fsk", "src/lib.rs: awgn", "src/bch.rs: bch_stream_encode, bch_stream_decode"])
p("C149", "Every signal function refuses exactly the parameters it checks, when it is called",
  "In double precision, with rates below 2^53 and finite frequencies, each modulator and demodulator either returns a stream or panics at the call, and which of the two is decided as follows. tx_bpsk_signal: returns iff the symbol rate is not zero and divides the sample rate and the whole part of the carrier is at most half the sample rate. tx_bfsk_signal, tx_mfsk_signal and tx_fsk_signal (with at least two tones): the same with the upper tone; the lower tone is never looked at. tx_fh_bpsk_signal, rx_fh_bpsk_signal, tx_fh_css_signal and tx_fh_ofdm_dcsk_signal: the same with the upper end of the band, whatever its lower end and the number of channels; tx_fh_bpsk_signal_old and tx_fh_ofdm_dcsk_signal_2: the same with the carrier. The six CDMA functions: iff the symbol rate is positive, the key is not empty, the chip rate divides the sample rate and is at most half of it, and the carrier is at most half of it. tx_ofdm_qpsk_signal and rx_ofdm_qpsk_signal: iff the symbol rate is not zero and divides the sample rate and there are between one pilot and as many as subcarriers; any carrier is accepted. rx_bpsk_signal, tx_qpsk_signal, rx_qpsk_signal, tx_fsk, rx_fsk and tx_fm: iff the symbol rate is not zero, for any arithmetic; a rate that does not divide is accepted. A carrier that is not a number, or minus infinity, passes the check; plus infinity does not.",
  "all messages and recordings (any iterators), all sample and symbol rates below 2^53, all finite frequencies, all keys, subcarrier and pilot counts, all random generators and mathematical libraries",
  "A test tries a handful of refused parameters; that everything else is accepted, and nothing else is refused, ranges over all rates and all doubles, including those where the quotient of the rates is rounded.",
  ["src/bpsk.rs: tx_bpsk_signal, rx_bpsk_signal", "src/qpsk.rs: tx_qpsk_signal, rx_qpsk_signal", "src/fsk.rs: tx_bfsk_signal, tx_mfsk_signal, tx_fsk_signal", "src/fm.rs: tx_fsk, rx_fsk, tx_fm", "src/cdma.rs: tx_cdma_bpsk_signal, rx_cdma_bpsk_signal, tx_cdma_qpsk_signal, rx_cdma_qpsk_signal, tx_coded_cdma_bpsk_signal, rx_coded_cdma_bpsk_signal", "src/fh.rs: tx_fh_bpsk_signal, rx_fh_bpsk_signal, tx_fh_bpsk_signal_old", "src/fh_css.rs: tx_fh_css_signal", "src/ofdm.rs: tx_ofdm_qpsk_signal, rx_ofdm_qpsk_signal", "src/fh_ofdm_dcsk.rs: tx_fh_ofdm_dcsk_signal, tx_fh_ofdm_dcsk_signal_2"])
p("C150", "The spectral correlation and its detector are right in double precision",
"In IEEE double precision, with sine and cosine right to eps and a transform right to delta (relative to the number of points and the size of the input), ssca_base on a recording of finite samples of size at most S with n + np - 1 samples or more (np < n, both even) returns an n by np array; both components of every entry are finite and within n*np*S^2*(110 delta + 276 eps + n/2^37) of the exact strip spectral correlation of the recorded samples. max_cut_detector on finite samples of size at most S panics exactly when there are fewer than 4159 of them; otherwise it is 10*log10 of a finite number that lies within an explicit bound of the largest squared magnitude of the exact 4096 by 64 strip spectral correlation. In particular no recording of finite samples of moderate size makes the comparison inside the detector panic.",
"All accuracies eps, delta up to 2^-12, all mathematical libraries and transforms with those accuracies and exp(0) = 1, all even n up to 2^30 and even np < n, all S between 2^-30 and 2^30, all recordings of finite doubles of size at most S.",
"The error bound must hold for every recording and every size; a test compares a few outputs with another implementation that rounds as well. The absence of NaN before partial_cmp().unwrap() is a claim about all inputs.",
["src/lib.rs: max_cut_detector", "src/ssca.rs: ssca_base"])
p("C151", "Error rate of the chaotic links in double precision",
"DCSK and CSK whose modulator, awgn and receiver all run in IEEE double precision, driven by a generator whose doubles follow white Gaussian samples to eta as far as Z. DCSK: bit n is wrong with the probability that exactly one of two noisy amplitudes changes sign, for the amplitude the doubles themselves compute for that bit (not the exact orbit, from which the double orbit departs), up to moving that amplitude by sigma*eta + S/2^47 and the chance exp(-Z^2/2) that a sample exceeds Z; both an upper and a lower bound hold, and the upper bounds add up to a bound for the whole message. CSK: bit n is wrong with the textbook probability for half the distance of the two computed carriers at that bit, moved by the same amount, whenever they are further apart than twice that amount. No underflow of the product and no overflow spoils a decision inside the margin.",
"All messages, all bit positions, all finite positive noise levels and generators with such accuracy whose margin stays below the amplitude, all sample paths.",
"The claim bounds probabilities over a continuous noise for every message length and noise level, for arithmetic in which the chaotic orbit is not the exact one; a simulation estimates a few of these probabilities.",
["src/dcsk.rs: tx_baseband_dcsk, rx_baseband_dcsk", "src/csk.rs: tx_baseband_csk, rx_baseband_csk", "src/lib.rs: awgn"])
p("C152","Energies and the energy detector in double precision",
"avg_energy of a non-empty recording of finite doubles is finite, not negative and within a relative error of (n+1)/2^51 of the exact mean square; it never falls when every sample grows in size, so the signs of the samples play no part. willie's energy_detector decides rightly whenever the exact RMS is further from the threshold than (n+2)/2^51 of itself, and never loses a detection when samples grow or the threshold falls. On an empty recording avg_energy is NaN and the detector never fires; power of a recording of at most one sample is never a finite number.",
"every recording of up to 2^40 finite doubles of size at most 2^400 (the empty ones and the single-sample ones separately), every finite threshold",
"unbounded length and a continuum of samples; the tests check one tone to a tolerance of 1e-6",
["src/lib.rs: avg_energy, power","src/willie.rs: energy_detector"])
p("C153","A carrier that does not fit the symbols never beats the textbook curve",
  "BPSK, spread BPSK and frequency hopping over white Gaussian noise whose level is computed from the average energy per bit of the recording, as the bit-error tests do: the mean of the measured bit error rate is at least erfc(sqrt(snr))/2, with equality exactly when all symbols of the recording have the same energy.",
  "every message, rate, carrier (fitting or not), key, hop table and generator, every positive snr",
  "a statement about the mean over all noise for a continuum of carriers; the tests compare one recording with the curve by eye, and the carriers used in the scripts (2121 Hz at 256 symbols per second) do not fit",
  ["src/bpsk.rs: tx_bpsk_signal, rx_bpsk_signal", "src/cdma.rs: tx_cdma_bpsk_signal, rx_cdma_bpsk_signal", "src/fh.rs: tx_fh_bpsk_signal, rx_fh_bpsk_signal", "src/lib.rs: awgn, ber", "tests/ber.rs: calculate_bers, ber_bpsk", "kom_py/ber_theory.py: ber_bpsk"])
p("C154", "Chirps and the frequency-hopped chirp transmitter as computed in double precision",
 "In double precision, a linear chirp at a whole number of chirps per second dividing the sample rate has exactly (samples per second)/(chirps per second) samples, all finite, each within the error of the cosine plus (largest frequency / chirps per second)/2^42 of the chirp sweeping from the first frequency to the second. With a band from low to high within half the sample rate and at least two hops, the hopped chirp transmitter never panics, emits exactly one symbol period of samples per bit, and every sample of bit i is within the error of the cosine plus (samples per symbol)/2^42 of a chirp over a band of width (high - low)/hops centred at the hop frequency drawn for bit i, upwards for a true bit and downwards for a false one.",
 "every message, every sample rate up to 2^30 and every symbol rate dividing it, every finite frequency in range, every number of hops from 2 to 2^50, every random generator and every cosine of known accuracy",
 "unbounded messages, a continuum of frequencies, and the number of samples rests on a truncated floating-point quotient",
 ["src/fh_css.rs: linear_chirp, tx_fh_css_signal", "src/fh.rs: HopTable"])
p("C155", "Frequency modulation and the tone transmitters as computed in double precision",
 "In double precision, the frequency modulator emits exactly one symbol period of finite samples per message value, each within the error of the cosine plus N*S*(N+512)/2^56 of the cosine of (carrier phase + 0.05 times the sum of the message so far), N being the number of samples and S a bound on the message. If the message consists of integers (for instance +1 and -1) the running sums are exact and the error is at most that of the cosine plus N*S/2^47, so it does not build up with the square of the length. The two-tone transmitter (and those with a number or a list of tones) never panics for tones within half the sample rate and a dividing symbol rate, and sample i is within the error of the cosine plus i/2^48 of the tone of its bit.",
 "every message (up to 2^24 samples of values up to 2^10, or up to 2^36 samples of +-1), every sample rate below 2^53, every carrier and tones up to half the sample rate, every cosine of known accuracy",
 "unbounded messages and a continuum of values; whether the integrated phase drifts is a statement about all lengths",
 ["src/fm.rs: tx_fm", "src/fsk.rs: tx_bfsk_signal, tx_mfsk_signal, tx_fsk_signal"])
p("C156","The integration tests that draw noise fail by chance, with a known rate",
"`bpsk_graphs` sends ten bits at 900 symbols per second, adds white Gaussian noise of standard deviation 2 and asserts that at most a fifth of the received bits differ; `cdma_graphs` sends five bits spread by a key of 32 chips with the same noise and asserts that none differs. With a perfect source of normal numbers and exact arithmetic neither test is deterministic: the first fails with probability exactly that of three or more successes in ten independent trials of probability erfc(7/4)/2, the second with probability exactly 1 - (1 - erfc(sqrt 8)/2)^5. Both probabilities are positive, the first at most 1/600 and the second at most 1/1000, and neither depends on the message (or key) that the test fixes.",
"Every message of ten bits for the first test, every message of five bits and every key of 32 chips for the second, every probability space carrying a standard white Gaussian sequence.",
"A run of the test shows one outcome; neither the possibility nor the rate of a spurious failure can be read off a bounded number of runs.",
["tests/bpsk.rs: bpsk_graphs","tests/cdma.rs: cdma_graphs","tests/util/mod.rs: error","src/lib.rs: awgn","src/bpsk.rs: tx_bpsk_signal, rx_bpsk_signal","src/cdma.rs: tx_cdma_bpsk_signal, rx_cdma_bpsk_signal"])
p("C157","The covertness example: where an undetected link exists, and the points it marks",
"In kom_py/pd_ber_snr_example.py the detection curve (logistic in the decibel value of the ratio, midpoint x0) lies strictly between 0 and 1, rises with the signal-to-noise ratio and is at most 0.95 exactly up to x0 + ln 19 dB; the error curve falls and is at most 0.05 exactly from one ratio on. So the ratios at which both limits hold form one interval in decibels. It is empty for the panel titled Uncovert (x0 = -15) and, for the panel titled Covert (x0 = 3), runs from within 1e-5 dB of the marked 1.31225 dB to within 5e-5 dB of the marked 5.9444 dB; the mark at -12.0556 dB is within 5e-5 dB of where the first detection curve reaches 0.95. For other midpoints the interval is empty below -1.633 dB and not empty above -1.632 dB. The helper find_idx_closest_to_point never returns on a non-empty list and raises IndexError on an empty one.",
"Every signal-to-noise ratio, every midpoint, every list and point; exact arithmetic with the complementary error function as an integral.",
"The script plots a hundred ratios; that no ratio at all satisfies both limits, where the curves cross the limits, and that a loop never ends are statements about all ratios and all running times.",
["kom_py/pd_ber_snr_example.py: logistic_curve, ber, find_idx_closest_to_point","kom_py/util.py: db"])
p("C158","Error rate of OFDM on a carrier in double precision",
"A message of an even number of bits sent by tx_ofdm_qpsk_signal, disturbed by awgn and read by rx_ofdm_qpsk_signal, everything in double precision: whatever the transform (accurate to delta), the mathematical library (accurate to epsilon) and the source of normal numbers (accurate to eta up to the size Z), bit b is wrong with a probability between those of two antipodal links whose energies differ from E(b) only by an explicit margin for rounding, plus the probability that a normal number exceeds Z. E(b) is k/n (k samples to a symbol, n carriers) up to the one-sample late window of the receiver: its square root of energy times noise energy, k/sqrt 2, is known up to 8. The message as a whole is lost with at most the sum of these probabilities.",
"Every even message, every even number of carriers, every number of pilots below it, every carrier below half the sample rate that completes whole cycles in a symbol of at least 16 samples, every noise level, every library, transform and generator with the stated accuracy, as long as the margin for rounding stays below the energy and there are at most 2^32 samples on the air.",
"A simulation runs one generator and one library on finitely many frames; the claim bounds the error probability of every bit for all libraries, all noise levels and all messages.",
["src/ofdm.rs: tx_ofdm_qpsk_signal, rx_ofdm_qpsk_signal","src/lib.rs: awgn"])
p("C159","The kurtosis of a recording gives the signal away at every noise level",
"The normality tests watch the kurtosis of what awgn delivers. For noise alone the excess kurtosis of longer and longer recordings goes to zero, almost surely. For tx_bpsk_signal with any message, and for tx_cdma_bpsk_signal with any message and any key, it goes to minus 3/8 divided by the square of (1/2 + the square of the noise level), or minus 1/4 divided by it for a carrier at a quarter of the sample rate. So spreading hides nothing from a kurtosis detector, a fixed threshold between the two limits is right on all sufficiently long recordings however loud the noise, and the difference it has to see falls with the fourth power of the noise level (above 1/55 at the level 2 of the normality test, below 4e-5 at its level 10). The volume, the polarity and a constant offset of a recording do not change its excess kurtosis.",
"Every unending message, every key, every positive noise level, every sample and symbol rate the transmitter accepts, every carrier strictly between zero and half the sample rate with whole cycles in a symbol (in a chip when spread), almost every noise.",
"The test prints three numbers for one random draw and asserts nothing; a limit over all messages, keys and noise levels is not visible in any finite number of draws.",
["tests/normtest.rs: NormTest, asdf","src/lib.rs: awgn","src/bpsk.rs: tx_bpsk_signal","src/cdma.rs: tx_cdma_bpsk_signal","src/willie.rs: normaltest"])
p("C160","The passband BPSK and QPSK functions are the baseband functions on a carrier",
"In exact arithmetic. tx_bpsk_signal returns, sample for sample, the symbols of tx_baseband_bpsk_signal for the same message, each held for one symbol and mixed up to the carrier (real part of symbol times exp(i·2π·f·n/fs)); tx_qpsk_signal returns the same of tx_baseband_qpsk_signal, divided by √2. On any recording whatever (noise, a truncated signal, another transmission), rx_qpsk_signal returns exactly what rx_baseband_qpsk_signal returns after mixing the recording down and summing over each complete symbol. rx_bpsk_signal does the same with rx_baseband_bpsk_signal, except that a symbol whose in-phase sum is exactly zero is read as 0 in passband and as 1 in baseband. With a whole number of half carrier cycles per symbol the down-converter undoes the up-converter on every list of complex symbols up to the factor (samples per symbol)/2, so that down-converting tx_qpsk_signal's output gives the baseband constellation of the same message, every point scaled by the same positive factor.",
"All messages, all recordings, all sample rates, symbol rates and carriers the functions accept; all lists of complex symbols for the round trip.",
"A test compares the two paths on one message at one carrier (the comparison left in tests/qpsk.rs is commented out); the equality is over all recordings, including ones no transmitter of the library makes, and the tie at exactly zero is never drawn by a random test.",
["src/bpsk.rs: tx_baseband_bpsk_signal, rx_baseband_bpsk_signal, tx_bpsk_signal, rx_bpsk_signal","src/qpsk.rs: tx_baseband_qpsk_signal, rx_baseband_qpsk_signal, tx_qpsk_signal, rx_qpsk_signal"])
p("C161","A spread transmission is a transmission of its chips, and its key can be read off the air",
"In exact arithmetic unless said otherwise. tx_cdma_bpsk_signal with a key of L bits sends, sample for sample, what tx_bpsk_signal sends at L times the symbol rate for the chips of the message (the key for every 1, the inverted key for every 0); tx_cdma_qpsk_signal likewise sends what tx_qpsk_signal sends for the pairs of chips. rx_bpsk_signal, which takes no key, therefore reads exactly the chips of a CDMA/BPSK transmission when set to the chip rate, for every carrier the transmitter accepts, and rx_qpsk_signal reads the pairs of chips of a CDMA/QPSK transmission when the carrier makes a whole number of half cycles per chip. The first L bits rx_bpsk_signal reads are a working key: rx_cdma_bpsk_signal with those bits as its key returns the message if the message begins with a 1 and the inverted message if it begins with a 0. The chips on the air are those tx_baseband_cdma makes of the inverted message (baseband exclusive-ors the bits with the key, passband multiplies the levels), so rx_baseband_cdma given those chips and the right key returns every bit inverted. Two CDMA/BPSK transmissions with keys of the same length are the same signal exactly if message and key are equal, or both are inverted. In white Gaussian noise added by awgn, with whole half carrier cycles per chip, the plain receiver reads the chips with independent errors at the textbook rate for the energy of one chip, so the first L bits are the key or its inverse with probability at least one minus L times that rate. In double precision the samples of tx_cdma_bpsk_signal and of tx_bpsk_signal for the chips agree bit for bit, with any mathematical library, and with one accurate to 2^-10 the plain receiver reads the chips exactly. The spreading key separates users; it does not keep a message secret from a listener who knows the rates and the carrier.",
"All messages, all non-empty keys, all sample rates, symbol rates and carriers that the CDMA transmitters accept (sample rate below 2^64); for the recovered key all non-empty messages.",
"The tests only exercise the CDMA receivers with the transmitter's own key; that a keyless receiver recovers the key is a statement about all keys and messages together.",
["src/cdma.rs: tx_cdma_bpsk_signal, rx_cdma_bpsk_signal, tx_cdma_qpsk_signal, tx_baseband_cdma, rx_baseband_cdma","src/lib.rs: awgn","src/bpsk.rs: tx_bpsk_signal, rx_bpsk_signal","src/qpsk.rs: tx_qpsk_signal, rx_qpsk_signal"])
out=os.path.join(os.path.dirname(os.path.abspath(__file__)),"..","properties.jsonl")
with open(out,"w") as f:
    for x in P: f.write(json.dumps(x)+"\n")
print(len(P))
