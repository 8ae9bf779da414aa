{"id": "C01", "title": "PRBS stream is the LFSR sequence at every length", "statement": "For each supported PRBS type, tx.prbs_gen(poly, seed, L) returns exactly L bits and bit t obeys the LFSR recurrence (parity of the tapped previous n bits, the seed supplying the bits before time 0), although internally only one period is computed and tiled.", "quantifier": "for all six PRBS types, all integer seeds of the right length, all output lengths L (including L beyond 2^n-1)", "why_tests_cant": "Output length is unbounded, and for PRBS31 the tiled region starts after 2^31-1 bits; tests check one seed per type and never reach the tiled part.", "anchors": ["CommDspy/tx/prbs_generator.py:prbs_generator", "CommDspy/auxiliary.py:get_polynomial"]}
{"id": "C02", "title": "PRBS generation is resumable", "statement": "Generating a PRBS in consecutive chunks, feeding each returned seed into the next call, yields the same bits as a single call, and the final returned seed is the same.", "quantifier": "for all supported types, all seeds, all lists of non-negative chunk lengths", "why_tests_cant": "The set of chunkings is infinite; short chunks (shorter than the register), empty chunks and chunks longer than a period take different code paths.", "anchors": ["CommDspy/tx/prbs_generator.py:prbs_generator"]}
{"id": "C03", "title": "PrbsIterator agrees with the block generator", "statement": "The k-th value drawn from tx.PrbsIterator equals bit k of tx.prbs_gen with the same polynomial and seed, for every k, and get_seed/get_prev_seed report the register contents after/before the last draw.", "quantifier": "for all polynomials and seeds of equal length, all k, all interleavings of draws", "why_tests_cant": "The iterator is an infinite stateful object; tests compare a finite prefix for a few seeds.", "anchors": ["CommDspy/tx/prbs_iterator.py:PrbsIterator", "CommDspy/tx/prbs_generator.py:prbs_generator"]}
{"id": "C04", "title": "PRBS sequences have maximal period", "statement": "For each supported PRBS type every non-zero seed produces a sequence whose least period is exactly 2^n-1; the all-zero seed produces only zeros.", "quantifier": "for all six types (including PRBS31) and all non-zero binary seeds", "why_tests_cant": "There are 2^31-1 seeds and a period of 2^31-1 bits for PRBS31; enumeration in a test is infeasible.", "anchors": ["CommDspy/tx/prbs_generator.py:prbs_generator", "CommDspy/auxiliary.py:get_polynomial"]}
{"id": "C05", "title": "PRBS sequences are balanced", "statement": "Any 2^n-1 consecutive bits of a supported PRBS contain exactly 2^(n-1) ones.", "quantifier": "for all six types, all non-zero seeds, all start positions", "why_tests_cant": "Needs a full 2^31-1 period for PRBS31 and all seeds.", "anchors": ["CommDspy/tx/prbs_generator.py:prbs_generator", "CommDspy/auxiliary.py:get_polynomial"]}
{"id": "C06", "title": "PRBS autocorrelation is two-valued", "statement": "Over one period, a supported PRBS and its copy delayed by any non-multiple of the period differ in exactly 2^(n-1) positions.", "quantifier": "for all six types, all non-zero seeds, all delays", "why_tests_cant": "Quadratic number of (seed, delay) pairs over astronomically long periods.", "anchors": ["CommDspy/tx/prbs_generator.py:prbs_generator", "CommDspy/auxiliary.py:get_polynomial"]}
{"id": "C07", "title": "PRBS checker reports exactly the mismatching bits", "statement": "With init_lock=True, rx.prbs_checker returns an error vector whose i-th entry is 1 exactly when data[i] differs from bit (i mod 2^n-1) of the reference, correct_bit_count + errors = len(data), and lost_lock is set exactly when the number of errors reaches the loss threshold.", "quantifier": "for all data vectors, all references, all thresholds", "why_tests_cant": "All data lengths (not multiples of the period) and error patterns must be covered.", "anchors": ["CommDspy/rx/checker.py:prbs_checker"]}
{"id": "C08", "title": "PRBS checker locks despite errors", "statement": "Starting unlocked, if the data is a PRBS of the given type at any phase with arbitrary bit errors, fewer than 2^(n-2) of them in the first period, rx.prbs_checker reports exactly the injected errors.", "quantifier": "for all supported types, phases, data lengths of at least one period, error patterns below the bound", "why_tests_cant": "The number of error patterns is exponential; tests try a handful of random ones.", "anchors": ["CommDspy/rx/checker.py:prbs_checker", "CommDspy/rx/lock_pattern.py:lock_pattern_to_signal_binary"]}
{"id": "C09", "title": "Economy PRBS checker on self-seeded data", "statement": "rx.prbs_checker_econ on an error-free PRBS segment of any phase reports zero errors and lock; with the first n bits clean, it reports exactly the errors that follow (if they stay below the threshold). Data that is not a PRBS must not be reported as locked.", "quantifier": "for all types, phases, lengths, error patterns outside the seed window", "why_tests_cant": "Infinite family of lengths and error patterns; the stuck-at-zero line is an untested history.", "anchors": ["CommDspy/rx/checker.py:prbs_checker_economy"]}
{"id": "C10", "title": "Binary pattern lock finds the phase", "statement": "rx.lock_pattern_to_signal_binary returns a rotation of the pattern of full length; if the signal is a window of the periodically repeated pattern at any phase, the returned rotation agrees with the signal on the window.", "quantifier": "for all binary patterns, all signals, all phases and signal lengths", "why_tests_cant": "All patterns and phases, including patterns with internal periodicity and partial-period signals.", "anchors": ["CommDspy/rx/lock_pattern.py:lock_pattern_to_signal_binary"]}
{"id": "C11", "title": "Multi-level pattern lock finds the phase", "statement": "rx.lock_pattern_to_signal returns a rotation of the pattern; when the signal (at least one period) is a positively scaled periodic repetition of the pattern at some phase, the returned rotation is the one in phase with the signal. The same should hold for signals shorter than a period.", "quantifier": "for all real patterns, phases, gains and lengths", "why_tests_cant": "Continuous-valued patterns and unbounded lengths.", "anchors": ["CommDspy/rx/lock_pattern.py:lock_pattern_to_signal"]}
{"id": "C12", "title": "Bit-to-symbol conversion round trip", "statement": "rx.symbol2bin applied to the result of tx.bin2symbol with the same flags returns the original bits, minus the trailing bits that do not fill a symbol.", "quantifier": "for all binary vectors, all symbol counts 2^b, all combinations of bit order, MSB, LSB and polarity inversion", "why_tests_cant": "All vector lengths times 16 flag combinations times all alphabet sizes; the single-symbol vector behaves differently from all others.", "anchors": ["CommDspy/tx/bin2symbol.py:bin2symbol", "CommDspy/rx/symbol2bin.py:symbol2bin"]}
{"id": "C13", "title": "Symbol-to-bit conversion round trip", "statement": "tx.bin2symbol applied to the result of rx.symbol2bin with the same flags returns the original symbols.", "quantifier": "for all symbol vectors with entries in [0, 2^b), all flags", "why_tests_cant": "Same as the forward direction; the tests never run this direction for every alphabet.", "anchors": ["CommDspy/tx/bin2symbol.py:bin2symbol", "CommDspy/rx/symbol2bin.py:symbol2bin"]}
{"id": "C14", "title": "bin2symbol output range, length and rejection", "statement": "tx.bin2symbol returns floor(len/b) symbols all in [0, 2^b); with no flags each is the little-endian value of its b bits; a symbol count that is not a power of two is rejected with ValueError.", "quantifier": "for all binary vectors, all symbol counts, all flags", "why_tests_cant": "Unbounded lengths and alphabets.", "anchors": ["CommDspy/tx/bin2symbol.py:bin2symbol"]}
{"id": "C15", "title": "Gray numbering: neighbours differ in one bit", "statement": "get_gray_level_vec(m) has m entries, adjacent entries differ in exactly one bit, entries are distinct, and if m is a power of two they are exactly 0..m-1 with the last and first also differing in one bit.", "quantifier": "for all level counts m >= 1", "why_tests_cant": "Unbounded alphabet size; induction over the reflect-and-prefix construction.", "anchors": ["CommDspy/auxiliary.py:get_gray_level_vec"]}
{"id": "C16", "title": "Gray coding round trip", "statement": "rx.decoding_gray inverts tx.coding_gray for every constellation, and the coded symbols are valid symbols of that constellation.", "quantifier": "for all constellations, all symbol vectors", "why_tests_cant": "All vectors; PAM3 (non power of two) is never tested.", "anchors": ["CommDspy/tx/coding.py:coding_gray", "CommDspy/rx/decoding.py:decoding_gray"]}
{"id": "C17", "title": "Mapping / demapping round trip", "statement": "rx.demapping inverts tx.mapping with the same constellation, full_scale and pn_inv, and mapping returns one level per symbol.", "quantifier": "for all constellations, flags, symbol vectors with valid symbols", "why_tests_cant": "All vectors; irrational full-scale levels.", "anchors": ["CommDspy/tx/mapping.py:mapping", "CommDspy/rx/demapping.py:demapping"]}
{"id": "C18", "title": "Demapping decides for the nearest level", "statement": "For samples closer to one constellation level than half the level spacing, rx.demapping returns that level's index; samples beyond the outermost decision regions must not be mapped to a far-away symbol, and the caller's signal is left unchanged.", "quantifier": "for all real samples, constellations and flags", "why_tests_cant": "Continuous inputs; side effects on the argument array are not observed by the tests.", "anchors": ["CommDspy/rx/demapping.py:demapping"]}
{"id": "C19", "title": "Constellation levels", "statement": "get_levels returns strictly increasing equally spaced levels; with full_scale the mean power is exactly one and the levels are a positive multiple of the unscaled ones.", "quantifier": "for all constellations", "why_tests_cant": "Statement about exact real numbers (square roots), floating point tests only approximate it.", "anchors": ["CommDspy/auxiliary.py:get_levels"]}
{"id": "C20", "title": "Slicer picks the nearest level", "statement": "rx.slicer returns for each sample a level at minimal distance, ties going to the first listed level; it is idempotent, order preserving for sorted levels, preserves shape of 1-D and 2-D arrays, and leaves samples that already are levels unchanged.", "quantifier": "for all real samples and all non-empty level lists", "why_tests_cant": "Continuous inputs and arbitrary level sets.", "anchors": ["CommDspy/rx/slicer.py:slicer"]}
{"id": "C21", "title": "Fixed-point quantizer", "statement": "rx.quantize maps every sample onto the documented fixed-point grid of the given total and fractional bits, with error at most half an LSB inside the range, saturation outside, monotone and idempotent.", "quantifier": "for all real samples, all total_bits >= 1, all frac_bits, all documented types and the default type", "why_tests_cant": "Continuous inputs, unbounded bit widths.", "anchors": ["CommDspy/rx/quantiztion.py:quantize"]}
{"id": "C22", "title": "Differential coding round trip", "statement": "rx.decoding_differential inverts tx.coding_differential and vice versa on symbol arrays, and coded symbols are valid.", "quantifier": "for all constellations, all symbol arrays of any length and any shape", "why_tests_cant": "Encoder is a recursive (unbounded memory) filter, so correctness is over all histories; tests use 1-D arrays.", "anchors": ["CommDspy/tx/coding.py:coding_differential", "CommDspy/rx/decoding.py:decoding_differential"]}
{"id": "C23", "title": "Differential coding resists rotation and limits error propagation", "statement": "Adding a constant (mod m) to every coded symbol changes only the first decoded symbol; changing a single coded symbol changes at most two decoded symbols, at that position and the next.", "quantifier": "for all constellations, vectors, constants, positions", "why_tests_cant": "All histories and positions.", "anchors": ["CommDspy/rx/decoding.py:decoding_differential"]}
{"id": "C24", "title": "Manchester code", "statement": "rx.decoding_manchester inverts tx.coding_manchester; the coded vector has twice the length, every cell contains one 0 and one 1 (DC balance, run length at most 2), and on any received binary vector the decoder outputs 0.5 exactly for the cells without a transition.", "quantifier": "for all binary vectors; for all received binary vectors of even length", "why_tests_cant": "All vectors and all error patterns.", "anchors": ["CommDspy/tx/coding.py:coding_manchester", "CommDspy/rx/decoding.py:decoding_manchester"]}
{"id": "C25", "title": "Bipolar (AMI) code", "statement": "rx.decoding_bipolar inverts tx.coding_bipolar; the code uses levels 0,1,2, marks alternate in sign starting with level 0, and the running digital sum stays within one level.", "quantifier": "for all binary vectors and all prefixes", "why_tests_cant": "Bounded running sum is an invariant over all histories.", "anchors": ["CommDspy/tx/coding.py:coding_bipolar", "CommDspy/rx/decoding.py:decoding_bipolar"]}
{"id": "C26", "title": "Bipolar error detection", "statement": "With error_detection=True, rx.decoding_bipolar returns the plain decoding on every valid coded vector, and on an arbitrary ternary vector it replaces exactly the marks adjacent (ignoring spaces) to a mark of the same sign by +0.5 for +1 marks and -0.5 for -1 marks.", "quantifier": "for all valid coded vectors; for all vectors over {0,1,2}", "why_tests_cant": "All error patterns; a stateful left-to-right loop whose initial state matters.", "anchors": ["CommDspy/rx/decoding.py:decoding_bipolar"]}
{"id": "C27", "title": "MLT-3 code", "statement": "rx.decoding_mlt3 inverts tx.coding_mlt3; levels follow the 0,1,2,1 cycle advancing exactly on ones, so consecutive levels never differ by more than one.", "quantifier": "for all non-empty binary vectors", "why_tests_cant": "Invariant over all histories.", "anchors": ["CommDspy/tx/coding.py:coding_mlt3", "CommDspy/rx/decoding.py:decoding_mlt3"]}
{"id": "C28", "title": "Differential Manchester code", "statement": "rx.decoding_differential_manchester inverts tx.coding_differential_manchester, also after inverting the polarity of the whole coded vector; there is a transition at every cell boundary, and a mid-cell transition exactly for zero bits.", "quantifier": "for all binary vectors", "why_tests_cant": "Invariant over all histories.", "anchors": ["CommDspy/tx/coding.py:coding_differential_manchester", "CommDspy/rx/decoding.py:decoding_differential_manchester"]}
{"id": "C29", "title": "Binary-input guard", "statement": "The coders/decoders that document binary input accept every binary vector and raise ValueError on every vector that contains a value other than 0 and 1.", "quantifier": "for all integer vectors", "why_tests_cant": "Infinite input space; tests never pass near-binary alphabets such as {0,5}.", "anchors": ["CommDspy/misc/help_functions.py:check_binary"]}
{"id": "C30", "title": "Block encoder is the linear map of G", "statement": "tx.coding_linear zero-pads the pattern to whole blocks and encodes each block to u*G over GF(2): output length is n*ceil(len/k), blocks are encoded independently and encoding is additive (XOR) on equal-length inputs.", "quantifier": "for all generator matrices and all binary patterns", "why_tests_cant": "All code dimensions and lengths.", "anchors": ["CommDspy/tx/coding.py:coding_linear"]}
{"id": "C31", "title": "Block decoder inverts the encoder", "statement": "If the rows of G are linearly independent over GF(2), rx.decoding_linear(tx.coding_linear(p, G), G) returns p followed by the padding zeros.", "quantifier": "for all injective generator matrices and all binary patterns", "why_tests_cant": "All code dimensions and lengths.", "anchors": ["CommDspy/rx/decoding.py:decoding_linear", "CommDspy/tx/coding.py:coding_linear", "CommDspy/misc/ml_decoding.py:ml_decoding"]}
{"id": "C32", "title": "Block decoder is maximum likelihood and corrects t errors", "statement": "rx.decoding_linear maps each complete received block to data whose codeword is at minimal Hamming distance; if any two codewords differ in at least 2t+1 positions, every block with at most t errors is decoded correctly.", "quantifier": "for all generator matrices, all received vectors, all error patterns of weight at most t per block", "why_tests_cant": "Exponentially many error patterns, all codes.", "anchors": ["CommDspy/rx/decoding.py:decoding_linear", "CommDspy/misc/ml_decoding.py:ml_decoding"]}
{"id": "C33", "title": "Block decoder error-probability mode", "statement": "error_prob=True returns the same decoded bits as error_prob=False, reports 0 for blocks that are codewords and 1/(number of nearest codewords) otherwise, and does not modify the caller's pattern.", "quantifier": "for all codes and received vectors", "why_tests_cant": "In-place side effects and ties need all inputs.", "anchors": ["CommDspy/misc/ml_decoding.py:ml_decoding", "CommDspy/rx/decoding.py:decoding_linear"]}
{"id": "C34", "title": "Convolutional encoder is a GF(2) convolution", "statement": "Without feedback, bit jj at time t of tx.coding_conv is the XOR over inputs ii and delays d of G[ii][jj][d] AND input ii at time t-d; output length is n_out*ceil(len/n_in), encoding is causal and additive.", "quantifier": "for all generator dictionaries, all binary patterns, all times", "why_tests_cant": "Unbounded stream length and memory.", "anchors": ["CommDspy/tx/coding.py:coding_conv"]}
{"id": "C35", "title": "Recursive convolutional encoder is a GF(2) feedback register", "statement": "With feedback polynomials, the coded bits equal those of the GF(2) shift register with feedback described in the documentation, for patterns of any length.", "quantifier": "for all generator/feedback dictionaries that pass validation, all pattern lengths", "why_tests_cant": "Real-valued recursive filtering is used internally, whose values grow without bound with the pattern length.", "anchors": ["CommDspy/tx/coding.py:coding_conv"]}
{"id": "C36", "title": "Trellis describes the encoder", "statement": "Walking the Trellis object from the zero state with the input chunks produces exactly the output of tx.coding_conv for the same G, feedback and use_feedback.", "quantifier": "for all valid code descriptions and all inputs", "why_tests_cant": "Refinement between two independent implementations over all histories.", "anchors": ["CommDspy/misc/ml_decoding.py:Trellis", "CommDspy/misc/ml_decoding.py:create_trellis_bin", "CommDspy/tx/coding.py:coding_conv"]}
{"id": "C37", "title": "ML convolutional decoder is maximum likelihood", "statement": "rx.decoding_conv_ml returns for every complete block of tb_len bits an input sequence whose trellis output from some start state is at minimal Hamming distance from the block; hence error-free blocks are decoded exactly when the block output determines the input.", "quantifier": "for all codes, block lengths and received vectors", "why_tests_cant": "Exponential number of received words, all codes.", "anchors": ["CommDspy/rx/decoding.py:decoding_conv_ml"]}
{"id": "C38", "title": "Viterbi decoder recovers error-free blocks", "statement": "rx.decoding_conv_viterbi returns the transmitted bits for every error-free block of a code whose trellis transitions are identified by their output and end state and whose block output determines the input.", "quantifier": "for all such codes, block lengths, inputs and start states", "why_tests_cant": "All codes and histories.", "anchors": ["CommDspy/rx/decoding.py:decoding_conv_viterbi", "CommDspy/misc/ml_decoding.py:Trellis"]}
{"id": "C39", "title": "Viterbi decoder is maximum likelihood", "statement": "rx.decoding_conv_viterbi returns, for every received block, binary data whose trellis path has minimal Hamming distance to the block.", "quantifier": "for all codes and all received binary vectors", "why_tests_cant": "Exponential number of received words.", "anchors": ["CommDspy/rx/decoding.py:decoding_conv_viterbi"]}
{"id": "C40", "title": "Binary enumeration and Hamming helper", "statement": "get_bin_perm(k) lists each of the 2^k binary vectors of length k exactly once in numeric (MSB first) order; hamming returns the matrix of Hamming distances for binary arguments and the first index of the minimum.", "quantifier": "for all k, all pattern blocks and codebooks", "why_tests_cant": "Unbounded k.", "anchors": ["CommDspy/auxiliary.py:get_bin_perm", "CommDspy/auxiliary.py:hamming"]}
{"id": "C41", "title": "bin2uint / uint2bin", "statement": "uint2bin(bin2uint(v), n) = v for binary v of length n, and bin2uint(uint2bin(x, n)) = x mod 2^n.", "quantifier": "for all n, all vectors and integers", "why_tests_cant": "Unbounded widths.", "anchors": ["CommDspy/auxiliary.py:bin2uint", "CommDspy/auxiliary.py:uint2bin"]}
{"id": "C42", "title": "buffer frames the signal without loss", "statement": "buffer(signal, length, overlap, delay) returns frames where frame r, column c is sample r*(length-overlap)+c-delay of the signal (zero outside it); frames cover every sample for 0<=overlap<length; clip=True removes exactly the incomplete frame.", "quantifier": "for all signals, lengths, overlaps (also negative), delays", "why_tests_cant": "Four unbounded parameters.", "anchors": ["CommDspy/auxiliary.py:buffer"]}
{"id": "C43", "title": "upsample and zoh", "statement": "upsample(x, r)[i*r+j] is x[i] for j=0 and 0 otherwise; zoh(x, h)[i*h+j] = x[i]; lengths scale by the factor; taking every r-th sample inverts both; both distribute over concatenation.", "quantifier": "for all signals and rates >= 1", "why_tests_cant": "Unbounded lengths and rates.", "anchors": ["CommDspy/auxiliary.py:upsample", "CommDspy/auxiliary.py:zoh"]}
{"id": "C44", "title": "Noise-free channel streams", "statement": "channel.awgn_channel without SNR satisfies the difference equation of (b, a), is linear, and filtering a signal in chunks with the returned state equals filtering it at once; a zi of wrong length is rejected.", "quantifier": "for all coefficients with a[0]!=0, all signals and all chunkings", "why_tests_cant": "All histories of an unbounded-memory filter.", "anchors": ["CommDspy/channel/additive_noise_functions.py:awgn_channel"]}
{"id": "C45", "title": "Filter classes implement the difference equation", "statement": "misc Filter and FilterTII produce the same outputs, both equal to a[0]y[n] = sum b[i]x[n-i] - sum_{j>=1} a[j]y[n-j], across any sequence of calls; the output does not depend on how the data is split over calls.", "quantifier": "for all coefficient vectors with a[0]!=0, all call sequences", "why_tests_cant": "Two stateful implementations over all histories.", "anchors": ["CommDspy/misc/help_classes.py:Filter", "CommDspy/misc/help_classes.py:FilterTII"]}
{"id": "C46", "title": "FFE is a convolution and streams", "statement": "rx.ffe_dfe without DFE taps returns y[n]=sum_i ffe[i]x[n-i] with the stored history before the first sample; processing in chunks with the returned memory equals processing at once.", "quantifier": "for all taps, signals, chunkings", "why_tests_cant": "All chunk sizes, in particular chunks shorter than the filter.", "anchors": ["CommDspy/rx/ffe_dfe_model.py:ffe_dfe"]}
{"id": "C47", "title": "FFE+DFE recursion and streaming", "statement": "rx.ffe_dfe with DFE taps returns slicer inputs s[n] = sum_i ffe[i]x[n-i] - sum_j dfe[j] d[n-1-j] with d the sliced past values; processing in chunks with the returned memories equals processing at once.", "quantifier": "for all taps, level sets, signals, chunkings (osr=1 and osr>1)", "why_tests_cant": "Decision feedback is a non-linear recursion over all histories.", "anchors": ["CommDspy/rx/ffe_dfe_model.py:ffe_dfe"]}
{"id": "C48", "title": "DFE cancels post-cursor ISI", "statement": "If the channel is h=[1,h1,...,hk] and dfe_taps=[h1..hk], then for any symbol sequence and any noise smaller than half the minimal level distance the decisions equal the transmitted symbols and the slicer input equals symbol plus noise.", "quantifier": "for all level sets, channels, symbol sequences and bounded noise sequences", "why_tests_cant": "Induction over time: no error propagation for every sequence.", "anchors": ["CommDspy/rx/ffe_dfe_model.py:ffe_dfe", "CommDspy/rx/slicer.py:slicer"]}
{"id": "C49", "title": "FfeDfeFilterTII equals ffe_dfe", "statement": "The class FfeDfeFilterTII(ffe, [1]+dfe, levels) produces the same outputs as rx.ffe_dfe(signal, ffe, dfe, levels) from zero memory.", "quantifier": "for all taps, levels, signals", "why_tests_cant": "Refinement between a transposed-form and a direct-form recursion.", "anchors": ["CommDspy/misc/help_classes.py:FfeDfeFilterTII", "CommDspy/rx/ffe_dfe_model.py:ffe_dfe"]}
{"id": "C50", "title": "Pulse shaping streams and rect is a hold", "statement": "channel.pulse_shape returns len(signal)*osr samples, chunked calls with the returned state equal a single call, and the 'rect' pulse is a zero-order hold delayed by span*osr - floor(osr/2) samples; every documented pulse name is usable.", "quantifier": "for all signals, osr, span, chunkings, pulse names", "why_tests_cant": "All histories and parameters.", "anchors": ["CommDspy/channel/pulse_shaping.py:pulse_shape", "CommDspy/channel/pulse_shaping.py:rect_pulse"]}
{"id": "C51", "title": "Nyquist pulses have zero ISI", "statement": "With 'sinc' and 'rcos' pulses (any roll-off), the shaped signal sampled at the symbol instants equals the symbols: sample (i+span)*osr is symbol i.", "quantifier": "for all symbol sequences, osr, span, roll-off in (0,1]", "why_tests_cant": "Exact real-number statement incl. the removable singularities of the raised cosine.", "anchors": ["CommDspy/channel/pulse_shaping.py:sinc_pulse", "CommDspy/channel/pulse_shaping.py:rcos_pulse"]}
{"id": "C52", "title": "Lagrange delay coefficients", "statement": "dig_delay_lagrange_coeffs(n, alpha) sums to one, is a unit impulse when alpha is an integer tap position, and reproduces all polynomials of degree <= n at alpha.", "quantifier": "for all orders n>=1, all real alpha, both parities", "why_tests_cant": "Unbounded order and continuous delay.", "anchors": ["CommDspy/digital_delay.py:dig_delay_lagrange_coeffs"]}
{"id": "C53", "title": "Digital oversampling keeps samples and is exact on polynomials", "statement": "digital_oversample(x, osr, order) returns (len-order)*osr samples, sample r*osr is x[order//2+r], and with Lagrange interpolation a polynomial signal of degree <= order is interpolated exactly at r+k/osr.", "quantifier": "for all signals, osr, orders", "why_tests_cant": "Unbounded sizes, exact arithmetic.", "anchors": ["CommDspy/digital_delay.py:digital_oversample"]}
{"id": "C54", "title": "DD-LMS gradients", "statement": "rx.ddlms_grad returns gradients proportional (factor 1/4) to the partial derivatives of the mean squared slicer error with respect to each FFE/DFE tap over the samples for which the tap sees data; with zero error all gradients vanish.", "quantifier": "for all signals, references and tap index sets", "why_tests_cant": "Continuous inputs; calculus statement.", "anchors": ["CommDspy/rx/least_mean_squares.py:ddlms_grad"]}
{"id": "C55", "title": "Mueller-Muller step", "statement": "rx.mueller_muller_step returns -1, 0 or 1: 0 iff the timing error magnitude is below the tolerance, otherwise its sign; swapping early/late (time reversal of signal and reference) negates the result.", "quantifier": "for all signals, references, tolerances", "why_tests_cant": "Continuous inputs.", "anchors": ["CommDspy/rx/clock_data_recovery.py:mueller_muller_step"]}
{"id": "C56", "title": "CTLE DC gain and stability", "statement": "get_ctle_filter returns a discrete filter with DC gain 10^(dc_gain/20) whose poles lie strictly inside the unit circle.", "quantifier": "for all non-zero zeros/poles, sampling rates and gains", "why_tests_cant": "Continuous parameters, any number of zeros and poles.", "anchors": ["CommDspy/rx/ctle_model.py:get_ctle_filter"]}
{"id": "C57", "title": "Eye diagram conserves samples", "statement": "Each column of the eye diagram counts every in-range sample of its phase exactly once, column sums equal the number of unit intervals when the signal is within full scale, and the second half repeats the first.", "quantifier": "for all signals and bin numbers", "why_tests_cant": "Histogram edge cases (values on bin edges) need all inputs.", "anchors": ["CommDspy/eye_diagram.py:eye_diagram"]}
{"id": "C58", "title": "Equalizer estimation uses the same tap convention as the equalizer", "statement": "The linear system solved by equalization_estimation has residual r equal to reference minus the output of rx.ffe_dfe's equation with the returned taps and ideal decisions, for every row.", "quantifier": "for all signals, references, tap counts", "why_tests_cant": "Index alignment for all sizes; last rows for dfe_taps>=2 are never inspected.", "anchors": ["CommDspy/equalization_estimation.py:equalization_estimation"]}
{"id": "C59", "title": "AWGN noise scaling", "statement": "channel.awgn scales unit-variance noise so that estimated signal power divided by noise variance equals 10^(snr/10), where the estimate is the unbiased variance plus squared mean.", "quantifier": "for all signals of length >= 2 and all SNR", "why_tests_cant": "Random; only the deterministic scaling can be stated for all inputs.", "anchors": ["CommDspy/channel/additive_noise_functions.py:awgn"]}
{"id": "C60", "title": "Ridge / OLS manual solvers are optimal", "statement": "ols_manual and ridge_regression_manual return the minimiser of ||Ax-b||^2 (+lambda||x||^2).", "quantifier": "for all matrices A, vectors b, lambda>0 (ridge) / full column rank (OLS)", "why_tests_cant": "Continuous inputs of any dimension.", "anchors": ["CommDspy/misc/least_squares.py:ols_manual", "CommDspy/misc/least_squares.py:ridge_regression_manual"]}
{"id": "C61", "title": "Example link: decoder inverts encoder", "statement": "In example_simulation, the receiver's Decoder with the same settings inverts the transmitter's Encoder on every symbol stream.", "quantifier": "for all flag combinations and streams", "why_tests_cant": "All flag combinations; only the default configuration is exercised.", "anchors": ["example_simulation/simulation_parts/transmitter.py", "example_simulation/simulation_parts/receiver.py"]}
{"id": "C62", "title": "Example link: convergence terminates", "statement": "In example_simulation the convergence loop of the receiver can reach its end state once the LMS error has settled.", "quantifier": "for all histories of MSE values", "why_tests_cant": "A liveness statement over all histories.", "anchors": ["example_simulation/simulation_parts/receiver.py", "example_simulation/simulation_parts/simulation.py"]}
{"id": "C63", "title": "Raised-cosine pulses at their singular times", "statement": "rcos_pulse and rrc_pulse return samples of the one continuous function that satisfies the raised-cosine (root-raised-cosine) equation, also at the times 0, +-1/(2 beta), +-1/(4 beta) where the formula is 0/0.", "quantifier": "for all roll-offs and all times", "why_tests_cant": "Removable singularities of real functions; only special grids hit them.", "anchors": ["CommDspy/channel/pulse_shaping.py:rcos_pulse", "CommDspy/channel/pulse_shaping.py:rrc_pulse"]}
{"id": "C64", "title": "Sinc and raised-cosine delay filters", "statement": "dig_delay_sinc_coeffs and dig_delay_rcos_coeffs return the sinc / raised cosine sampled at the tap positions minus alpha; for a delay at a tap position they are the unit impulse.", "quantifier": "for all orders, delays, directions and roll-offs", "why_tests_cant": "Real-valued parameters with removable singularities.", "anchors": ["CommDspy/digital_delay.py:dig_delay_sinc_coeffs", "CommDspy/digital_delay.py:dig_delay_rcos_coeffs"]}
{"id": "C65", "title": "Soft decision-directed gradients", "statement": "soft_ddlms_grad returns the mean negative log-likelihood of the Gaussian mixture and, for every tap seen by the block, its partial derivative times len(levels)*sqrt(2*pi*sigma^2)/2.", "quantifier": "for all signals, levels, sigma != 0, tap sets and taps", "why_tests_cant": "The derivative of a logarithm of a sum of exponentials over real parameters cannot be checked by sampling.", "anchors": ["CommDspy/rx/least_mean_squares.py:soft_ddlms_grad", "CommDspy/rx/least_mean_squares.py:_compute_derivatives"]}
{"id": "C66", "title": "Manual lasso descends to the minimiser", "statement": "lasso_regression_manual iterates w - mu*grad from the initial vector, stops at the first step that moves every coefficient by less than tol or after max_steps columns, reports whether the tolerance was reached, and its stationary points minimise the documented objective ||Aw-b||^2 + lambda*||w||_1.", "quantifier": "for all matrices, vectors, penalties, step sizes and tolerances", "why_tests_cant": "The objective is only reached in the limit; a wrong normalisation gives plausible numbers.", "anchors": ["CommDspy/misc/least_squares.py:lasso_regression_manual"]}
{"id": "C67", "title": "Power and RMS", "statement": "power returns the mean squared magnitude, rms its square root; both scale with |c|^2 and |c|.", "quantifier": "for all non-empty complex signals", "why_tests_cant": "Continuous inputs of any length.", "anchors": ["CommDspy/auxiliary.py:power", "CommDspy/auxiliary.py:rms"]}
{"id": "C68", "title": "channel_estimation_prbs returns the least squares channel at the phase of best correlation, and the true channel up to scale without noise", "statement": "For a capture of at least one PRBS period the returned taps minimise the squared distance between the FIR output for the locked, mapped PRBS and the period-averaged capture divided by its variance; if the capture is the periodic PRBS through an FIR channel with dominating main tap, at any starting phase, the estimate is exactly the channel divided by the variance of the received period, and with normalize the channel divided by its main tap. PAM3 raises ValueError, more postcursors than the period IndexError.", "quantifier": "all supported PRBS types, OOK/NRZ/PAM4, all flag combinations, all channels with dominating main tap and at most one period of taps, all phases, all capture lengths of at least the reference, all least squares solvers", "why_tests_cant": "A simulation estimates a few channels at a few phases; the claim needs the two-valued autocorrelation, shift-and-add and decimation structure of every PRBS for uniqueness of the lock and of the solution.", "anchors": ["CommDspy/channel_estimation.py:11-89", "CommDspy/rx/lock_pattern.py:25-44"]}
{"id": "C69", "title": "equalization_estimation_prbs fits the equalizer to the locked symbols", "statement": "The function calls equalization_estimation with the period average of the capture and the mapped PRBS locked at a phase of best correlation and advanced by max(postcursors, DFE taps). With no more DFE taps than FFE postcursors and a least squares solver the returned taps minimise the squared error of the documented equalizer at the fitted symbol times; if the capture is noiseless through a channel with dominating main tap and some equalizer of that size inverts the channel, the returned taps reproduce the symbols.", "quantifier": "all supported PRBS types, OOK/NRZ/PAM4, all flags, all captures of at least one period (short captures separately), all tap counts up to the period, all solvers", "why_tests_cant": "The alignment of FFE window, DFE history and reference involves three index shifts which agree by accident for symmetric tap counts; tests with default tap counts do not exercise dfe_taps > ffe_postcursor.", "anchors": ["CommDspy/equalization_estimation.py:11-93"]}
{"id": "C70", "title": "psa: accepted signals, modes and calibration of the power spectrum", "statement": "psa(signal, fs, rbw, mode, ...) returns exactly when the signal has at least int(1.9*ceil(fs/rbw)) samples (ValueError otherwise); every mode is the unnormalised spectrum times one explicit power factor (dBm, dBm/Hz, dBuv, dBuv/sqrt(Hz), dBc, dBFs, dB), so dBm = rbw times dBm/Hz and dBc does not depend on the amplitude; a complex tone with a whole number of periods per window shows exactly |A|^2 in its own bin; values are never negative and frequencies run in steps fs/nfft with nfft the power of two in [osr*window, 2*osr*window). The documentation's default bandwidth and modes work for every signal (violated: with the default bandwidth every signal shorter than 1900 samples raises, 'dBc/Hz ' raises, a constant component is never shown).", "quantifier": "for all signals, windows, sampling rates, bandwidths, oversampling factors, overlaps in [0,1), modes and amplitudes", "why_tests_cant": "tests run a few long signals with default parameters; that all short signals raise, and that the calibration holds for every window and bin, are universally quantified statements", "anchors": ["CommDspy/psa.py:6-98"]}
{"id": "C71", "title": "Example simulation: level scaling and symbol decisions", "statement": "Slicing a noise-free (or slightly disturbed: less than half a level distance) received signal with the receiver levels derived from MappingData and demapping the decisions returns the transmitted symbols, for any amplitude and receiver factor. (Violated: the demapper expects the unscaled levels, so PAM4 with a factor below 2, including the shipped 0.75, can only ever return symbols 1 and 2.)", "quantifier": "all constellations, amplitudes, receiver factors, symbol sequences and disturbances below half a level distance", "why_tests_cant": "the shipped run prints error ratios of a chain that fails for other reasons too; that no input at all can produce symbols 0 and 3 is a universally quantified statement", "anchors": ["example_simulation/simulation_parts/data_objects.py:48-56", "example_simulation/simulation_parts/receiver.py:108-180", "example_simulation/constants.py:8-27"]}
{"id": "C72", "title": "Example simulation: Channel object", "statement": "Called on successive chunks, Channel returns the pulse-shaped symbols filtered by the given channel response (plus noise of the requested ratio) as if called once on the whole signal. (Violated when an IIR response is given: its coefficients are replaced by the FIR ones, so the response cancels; a missing FIR response raises TypeError, a zero first FIR tap ValueError, and an unknown channel type returns None.)", "quantifier": "all pulses, spans, oversampling factors, roll-offs, FIR/IIR responses, memories, chunk splits, noise ratios", "why_tests_cant": "no test instantiates the example classes; the cancellation makes the channel look ideal", "anchors": ["example_simulation/simulation_parts/channel.py:1-54", "example_simulation/simulation_parts/data_objects.py:58-70"]}
{"id": "C73", "title": "Example simulation: pattern generator and bit error checker", "statement": "PrbsGen yields consecutive chunks of the LFSR stream of its seed. Checker.check_ber returns, for every chunk, the ratio of wrong bits with respect to the transmitted pattern, and accumulates errors and bits. (Partly violated: each chunk is locked on its own, so the smallest number of differences over all phases is returned: lost, repeated or reordered bits between chunks are never seen, chunks shorter than the register always give 0, and no chunk of at most a period gives more than 2^(n-1)/(2^n-1); for a chunk of at least a period with few errors the ratio is exact.)", "quantifier": "all PRBS types, seeds, chunk lengths, numbers of chunks, received bits", "why_tests_cant": "every short chunk reports a plausible ratio; only a statement over all chunks and phases shows which ratios are meaningful", "anchors": ["example_simulation/simulation_parts/transmitter.py:1-30", "example_simulation/analyzer/analyzer_classes.py:39-54"]}
{"id": "C74", "title": "Example simulation: analog to digital converter", "statement": "Adc samples every osr//sample_rate-th input at the sampling phase, rounds to the nearest code of the converter range (saturating outside) and scales by 2^-frac_bits; chunk by chunk sampling gives the samples of the whole signal; the clock recovery keeps the phase in [0, osr). (Violated for phases of a sampling step or more, which the default phase is for sample_rate 2: samples are lost in every chunk; sample_rate 0 or above osr raises ZeroDivisionError.)", "quantifier": "all word lengths, number formats, oversampling factors, sample rates, phases, chunk lengths and signals", "why_tests_cant": "the shipped configuration uses sample_rate 1, for which the phase is always below the step", "anchors": ["example_simulation/simulation_parts/receiver.py:23-35", "example_simulation/simulation_parts/data_objects.py:81-88", "example_simulation/simulation_parts/receiver.py:220-232"]}
{"id": "C75", "title": "Example simulation: FFE/DFE object", "statement": "FfeDfe is constructed exactly for consistent vector lengths with levels present when there are feedback taps; called on successive chunks it gives the slicer inputs of one equalizer running over the whole signal (feed-forward sum minus feedback of the nearest-level decisions); with default taps it delays by the number of precursors. (Violated without feedback taps for chunks shorter than the filter: the next call raises TypeError.)", "quantifier": "all tap counts, taps, levels, memories, chunk splits and signals", "why_tests_cant": "memory hand-over errors show up only for particular combinations of chunk length and tap count", "anchors": ["example_simulation/simulation_parts/receiver.py:37-83", "example_simulation/simulation_parts/data_objects.py:90-132"]}
{"id": "C76", "title": "PRBS shift-and-add, window counts and superposition", "statement": "For every supported PRBS and non-zero seed: the sum modulo two of the sequence and a copy advanced by a delay that is no multiple of the period is the sequence advanced by exactly one other delay; every binary word of length k <= n occurs 2^(n-k) times per period (one less for the all-zero word), hence every non-zero n-bit word exactly once and runs have the m-sequence distribution. For every polynomial the sequence of the cellwise sum of two seeds is the sum modulo two of the two sequences.", "quantifier": "for all PRBS types, seeds, delays, words, start positions, lengths", "why_tests_cant": "PRBS31 has 2^31-1 positions and 2^31 seeds; words and delays cannot be enumerated.", "anchors": ["CommDspy/tx/prbs_generator.py:prbs_generator", "CommDspy/auxiliary.py:get_polynomial"]}
{"id": "C77", "title": "pulse_shape random jitter", "statement": "channel.pulse_shape with rj_sigma: a deviation close to 0 changes nothing; otherwise the number of samples and the returned memory are those without jitter, all osr samples of a symbol are taken at the same time offset, offsets of whole samples select the shifted samples (whole symbols slip the decision instants of Nyquist pulses), every sample is the not-a-knot cubic spline through the unjittered samples at the shifted time, the result is linear in the signal for fixed draws, waveforms that are cubic in time are evaluated exactly at the shifted times, and fewer than four samples raise ValueError.", "quantifier": "for all signals, oversampling, spans, pulses, memories, drawn jitter values, for the not-a-knot cubic spline and, where it suffices, all interpolations that pass through the nodes and reproduce cubics", "why_tests_cant": "Random draws and real-valued waveforms; the shift structure must hold for every draw.", "anchors": ["CommDspy/channel/pulse_shaping.py:pulse_shape"]}
{"id": "C78", "title": "Example simulation: the whole link carries the PRBS without errors", "statement": "example_simulation's link (PRBS generator, encoder, mapping, channel, CTLE object, converter, FFE/DFE object, slicer, demapping, decoder, error checker), called chunk by chunk: the CTLE object on successive chunks equals one CTLE over the joined signal; whenever the sampled CTLE output is within a tolerance of the transmitted levels the receiver returns the transmitted symbols delayed by the number of precursors; over a channel that disturbs the pulse-shaped signal by no more than the decision margin (bounded noise, short echoes) the demapped symbols are the encoded symbols delayed by span plus precursors, and without codes the decoded bits are the PRBS stream with the corresponding delay, so that the checker counts zero errors on every chunk after the delay.", "quantifier": "for all numbers of calls, chunk sizes of whole symbols (at least the equalizer length), seeds, PRBS types, constellations, bit orders and inversions, spans, oversampling factors, sinc and raised-cosine pulses, amplitudes and converter formats within the stated margin", "why_tests_cant": "The end-to-end claim ranges over unboundedly many calls and all configurations; a simulation run shows one configuration and one seed.", "anchors": ["example_simulation/simulation_parts/full_link.py:FullLink", "example_simulation/simulation_parts/transmitter.py:Transmitter", "example_simulation/simulation_parts/receiver.py:Receiver", "example_simulation/simulation_parts/receiver.py:Ctle"]}
{"id": "C79", "title": "Gray coded links lose one bit per neighbouring symbol error", "statement": "With Gray coding the number of wrong bits equals the number of wrong symbols whenever every received symbol is the transmitted one or one of its two neighbours; over the whole chain bits, symbols, Gray code, levels, noise, slicer, demapping, Gray decoding, bits, noise below three halves of the level distance makes at most one bit error per sample whose noise reaches half the level distance. Without the Gray code a single neighbouring error (PAM4, 1 to 2) costs two bits.", "quantifier": "for all binary vectors of whole symbols, constellations other than PAM3, bit-order and inversion flags, full-scale settings, received symbols and noise vectors within the stated bounds", "why_tests_cant": "The bound ranges over every data vector and every noise vector of any length; a bit-error-rate run samples a few.", "anchors": ["CommDspy/tx/coding.py:coding_gray", "CommDspy/rx/decoding.py:decoding_gray", "CommDspy/tx/mapping.py:mapping", "CommDspy/rx/slicer.py:slicer", "CommDspy/rx/demapping.py:demapping", "CommDspy/tx/bin2symbol.py:bin2symbol", "CommDspy/rx/symbol2bin.py:symbol2bin"]}
{"id": "C80", "title": "Line decoders confine and report single errors", "statement": "One wrong element of a coded vector has a bounded effect: in a Manchester vector it turns exactly its own bit into the error mark one half; in a differential Manchester vector it inverts exactly its own bit; in an MLT-3 vector it affects at most its own bit and the next; in a bipolar vector decoded without detection it affects at most its own bit. The bipolar decoder with detection reports every single wrong level that has a mark before and after it; the last mark of a vector can be lost unnoticed.", "quantifier": "for all binary vectors, error positions and wrong values", "why_tests_cant": "Quantifies over every data vector of any length and every error position; tests try a handful.", "anchors": ["CommDspy/rx/decoding.py:decoding_manchester", "CommDspy/rx/decoding.py:decoding_differential_manchester", "CommDspy/rx/decoding.py:decoding_mlt3", "CommDspy/rx/decoding.py:decoding_bipolar"]}
{"id": "C81", "title": "Pattern lock in noise", "statement": "lock_pattern_to_signal finds the phase of a signal that is a period or more of the pattern with positive gain, any offset and bounded noise: if different pattern levels are at least d apart, noise of magnitude E below half the received level distance (g d / 2) never moves the lock, and correlations computed with absolute error delta do no harm while 2 delta < d (g d - 2 E). The bound on the noise is the best possible.", "quantifier": "for all patterns, phases, gains, offsets, noise vectors and correlation routines within the stated errors", "why_tests_cant": "Ranges over all patterns of any length and every noise vector and rounding; a test draws some random noise.", "anchors": ["CommDspy/rx/lock_pattern.py:lock_pattern_to_signal"]}
{"id": "C82", "title": "The decision feedback equalizer decides in double precision as in exact arithmetic", "statement": "ffe_dfe with feedback taps evaluated in p-bit binary floating point (round to nearest even, scalar products summed in any order, with or without fused multiply-add) makes the same decisions and returns the same memories as in exact arithmetic, with slicer inputs within a computable bound, whenever the exact slicer inputs keep a stated distance from the decision thresholds. In double precision it is enough that they are within 7/16 of the level distance D of a level and (taps+1)(X sum|ffe| + L sum|dfe|) <= 2^47 D; in particular feedback taps matching the postcursors return the transmitted symbols, also when the channel itself computes its convolution in rounded arithmetic.", "quantifier": "for all signals, taps, levels, memories, oversampling factors, phases and summation orders, without overflow or underflow", "why_tests_cant": "Rounding behaviour depends on the summation order of the BLAS in use and on the data; tests run one machine on a few signals.", "anchors": ["CommDspy/rx/ffe_dfe_model.py:ffe_dfe", "CommDspy/rx/slicer.py:slicer"]}
{"id": "C83", "title": "The project's convolutional code tests succeed for every draw", "statement": "coding_conv_basic_test, decoding_conv_basic_test, coding_conv_feedback_test and decoding_conv_feedback_test of test/test_pattern_coding.py draw random patterns, generators, feedback polynomials and flags, skip draws that do not pass a filter on the trellis, and assert that the encoder agrees with a reference implementation and that both decoders return the pattern. The assertions hold for every draw that reaches them.", "quantifier": "for every pattern of 100 bits, every generator, feedback list and flag matrix the tests can draw", "why_tests_cant": "The tests sample a few of an astronomic number of draws, so passing runs say little about the next run.", "anchors": ["test/test_pattern_coding.py:coding_conv_basic_test", "test/test_pattern_coding.py:decoding_conv_basic_test", "test/test_pattern_coding.py:coding_conv_feedback_test", "test/test_pattern_coding.py:decoding_conv_feedback_test", "CommDspy/tx/coding.py:coding_conv", "CommDspy/rx/decoding.py:decoding_conv_ml", "CommDspy/rx/decoding.py:decoding_conv_viterbi"]}
{"id": "C84", "title": "Line and symbol codes on two-dimensional arrays", "statement": "The coders and decoders for Gray, differential, Manchester, differential Manchester, bipolar and MLT-3 codes accept two-dimensional arrays: the coder codes the flattened bits and keeps (or, for the Manchester codes, doubles the width of) the shape, and the decoder, fed with the coded array, returns the original array.", "quantifier": "for every number of rows and columns and every content", "why_tests_cant": "Tests use one shape (100 by 3) and only in the coding direction; decoding of arrays is never tested.", "anchors": ["CommDspy/tx/coding.py:coding_manchester", "CommDspy/tx/coding.py:coding_differential_manchester", "CommDspy/tx/coding.py:coding_bipolar", "CommDspy/tx/coding.py:coding_mlt3", "CommDspy/tx/coding.py:coding_gray", "CommDspy/tx/coding.py:coding_differential", "CommDspy/rx/decoding.py:decoding_manchester", "CommDspy/rx/decoding.py:decoding_differential_manchester", "CommDspy/rx/decoding.py:decoding_bipolar", "CommDspy/rx/decoding.py:decoding_mlt3", "CommDspy/rx/decoding.py:decoding_gray", "CommDspy/rx/decoding.py:decoding_differential"]}
{"id": "C85", "title": "The project's symbol, line and block code tests succeed for every draw", "statement": "The fourteen tests of Gray, differential, Manchester, bipolar, MLT-3, differential Manchester and linear block codes in test/test_pattern_coding.py compare the coders with separate reference loops and the decoders with the drawn pattern. Their assertions hold for every pattern they can draw, so a failing run always means changed code.", "quantifier": "for every pattern the tests can draw, every constellation and every block length k >= 1", "why_tests_cant": "The tests draw one random pattern per run; no number of passing runs shows that the next draw passes.", "anchors": ["test/test_pattern_coding.py:coding_gray_test", "test/test_pattern_coding.py:decoding_gray_test", "test/test_pattern_coding.py:coding_differential_test", "test/test_pattern_coding.py:decoding_differential_test", "test/test_pattern_coding.py:coding_manchester_test", "test/test_pattern_coding.py:decoding_manchester_test", "test/test_pattern_coding.py:coding_bipolar_test", "test/test_pattern_coding.py:decoding_bipolar_test", "test/test_pattern_coding.py:coding_mlt3_test", "test/test_pattern_coding.py:decoding_mlt3_test", "test/test_pattern_coding.py:coding_differential_manchester_test", "test/test_pattern_coding.py:decoding_differential_manchester_test", "test/test_pattern_coding.py:coding_linear_block_test", "test/test_pattern_coding.py:decoding_linear_block_test"]}
{"id": "C86", "title": "The project's PRBS reference data and PRBS tests", "statement": "The five reference files in test/test_data contain exactly one period of the PRBS of their name from the all-ones seed. prbs_gen_test succeeds for every type with a reference file and every length. prbs_analysis_test (a random rotation of the reference with random bit errors, checked by prbs_checker) succeeds for every rotation, loss threshold and error pattern it can draw.", "quantifier": "for every PRBS type with a reference file, every length, every rotation, every loss threshold and every error pattern", "why_tests_cant": "The files have up to 32767 bits and each test run draws one rotation and one error pattern; agreement of the files with the recurrence is never checked independently of the generator.", "anchors": ["test/test_prbs_generator.py:prbs_gen_test", "test/test_prbs_analysis.py:prbs_analysis_test", "test/test_data", "CommDspy/tx/prbs_generator.py:prbs_generator", "CommDspy/rx/checker.py:prbs_checker"]}
{"id": "C87", "title": "The project's bit-to-symbol tests", "statement": "bin2symbol_test and symbol2bin_test succeed for every draw of bits, alphabet size and option flags they can make.", "quantifier": "for every bit vector, every alphabet size the tests can draw for it, and all option flags", "why_tests_cant": "Each run draws one bit vector of at most 100 bits and one combination of options.", "anchors": ["test/test_bin_to_symbol.py:bin2symbol_test", "test/test_bin_to_symbol.py:symbol2bin_test", "CommDspy/tx/bin2symbol.py:bin2symbol", "CommDspy/rx/symbol2bin.py:symbol2bin"]}
{"id": "C88", "title": "The project's pattern lock tests", "statement": "The six tests of the pattern lock (two periods, one period and part of a period, for both lock functions) succeed for every PRBS type, every rotation and every error pattern they can draw.", "quantifier": "for every PRBS type, every rotation, every window length and every error pattern", "why_tests_cant": "Each run draws one rotation, one window and one error pattern with error rate 1e-4; the failing rotation has probability below one percent.", "anchors": ["test/test_pattern_lock.py:lock_pattern_to_signal_test", "test/test_pattern_lock.py:lock_pattern_to_signal_binary_test", "test/test_main.py:test_lock_pattern_to_signal_1", "test/test_main.py:test_lock_pattern_to_signal_2", "test/test_main.py:test_lock_pattern_to_signal_3", "test/test_main.py:test_lock_pattern_to_signal_binary_1", "test/test_main.py:test_lock_pattern_to_signal_binary_2", "test/test_main.py:test_lock_pattern_to_signal_binary_3", "CommDspy/rx/lock_pattern.py"]}
{"id": "C89", "title": "Mapping, demapping, slicer and quantizer in floating-point arithmetic", "statement": "Computed in binary floating point, get_levels is accurate to a few units in the last place, mapping and demapping round-trip every symbol sequence, demapping keeps the noise margin of exact arithmetic up to rounding, and slicer and quantize still return the nearest level, saturating outside the range.", "quantifier": "for every precision p >= 8 (53 is double precision), constellation, option flags, symbol sequence, real-valued sample vector, level list and fixed-point format", "why_tests_cant": "Rounding errors show only for samples within a few units in the last place of a threshold, or for very large samples; random tests practically never draw them.", "anchors": ["CommDspy/auxiliary.py:get_levels", "CommDspy/tx/mapping.py:mapping", "CommDspy/rx/demapping.py:demapping", "CommDspy/rx/slicer.py:slicer", "CommDspy/rx/quantiztion.py:quantize"]}
{"id": "C90", "title": "The channel filter in floating-point arithmetic", "statement": "Computed in binary floating point, the output of awgn_channel without noise satisfies the difference equation of the filter up to a residual of a few units in the last place of its terms; without feedback it is that close to the exact output, and with feedback it stays close to the exact output as long as the absolute sum of the impulse response of 1/A times the rounding unit is small.", "quantifier": "for every precision p, all coefficient lists with a[0] != 0, every non-empty signal, every memory and every order of summation of the convolution", "why_tests_cant": "Tests compare single runs with a tolerance; the growth of rounding errors through feedback depends on the filter and on the length of the signal.", "anchors": ["CommDspy/channel/additive_noise_functions.py:awgn_channel"]}
{"id": "C91", "title": "The channel estimation test of the project succeeds for every draw", "statement": "channel_estimation_prbs_test, with exact arithmetic and a correct least-squares solver, passes both assertions whatever constellation, numbers and values of precursors and postcursors, repetitions and cutoff it draws.", "quantifier": "for every PRBS type with a reference file, every constellation, up to 8 precursors and 32 postcursors with real values in [-1/2, 1/2], 2 to 5 (or more) repetitions and every cutoff from 1 to half a period", "why_tests_cant": "The test draws one channel out of a 40-dimensional cube per run; the draws for which pattern lock takes a wrong phase have a very small probability and would show up only as an unexplained flaky failure.", "anchors": ["test/test_channel_estimation.py:channel_estimation_prbs_test", "test/test_main.py:test_channel_estimation_prbs", "CommDspy/channel_estimation.py:channel_estimation_prbs", "CommDspy/rx/lock_pattern.py:lock_pattern_to_signal"]}
{"id": "C92", "title": "The noise test of the project measures what its documentation says", "statement": "The estimator of awgn_test is unbiased with the documented variance 2 sigma^4/(N-1); its verdict depends only on the sample variance of the standard normal draws and not on the SNR; it fails with a probability of at most 1/8 for every PRBS, constellation and SNR, and it does fail for constant draws.", "quantifier": "for every PRBS type with a reference file, every constellation except PAM3, every real SNR and every vector of draws (outcome), and for independent standard normal draws (probability)", "why_tests_cant": "Runs of a randomised test cannot bound its failure probability, and the power of one period of a PRBS is not the power of the levels that the test compares with, so the thresholds have to be worked out.", "anchors": ["test/test_noise.py:awgn_test", "test/test_main.py:test_noise_awgn", "CommDspy/channel/additive_noise_functions.py:awgn"]}
{"id": "C93", "title": "lasso_regression returns a solution of the lasso problem", "statement": "The coefficients returned by lasso_regression minimise the lasso objective and are characterised by the optimality conditions: residuals of mean zero, no column correlated with them by more than the factor, equality with the right sign for columns in use. They vanish exactly from the largest correlation upwards, shrink with growing factor, and for one column are the soft-thresholded slope. The documented objective ||y-Xw||^2 + lambda ||w||_1 is minimised for these coefficients, and the second result is the sum of squared residuals of the fit.", "quantifier": "for all matrices and right-hand sides over an ordered field (existence over the reals), all factors, and every solver that reaches the minimum within a given tolerance", "why_tests_cant": "Which objective is minimised only shows in the relation of the factor to the number of rows and in the removed means; no finite set of data distinguishes it from a rescaled one, and uniqueness or shrinkage are statements about all minimisers.", "anchors": ["CommDspy/misc/least_squares.py:lasso_regression", "CommDspy/misc/least_squares.py:least_squares"]}
{"id": "C94", "title": "Symbol error probability after awgn is that of the nearest-level decision", "statement": "Symbols that are mapped, passed through awgn and decided are wrong with probability Q(d/2 sigma) at the ends of the constellation and 2 Q(d/2 sigma) elsewhere, independently; equally frequent symbols give the rate 2(1-1/M)Q(d/2 sigma), where sigma follows from the requested ratio and the estimated power. This holds for the slicer, for slicer plus demapping, and for demapping of the noisy signal.", "quantifier": "for every constellation, scaling, list of at least two symbols (not all of level zero), real SNR; probability over independent standard normal draws", "why_tests_cant": "A simulated error rate is an estimate at one ratio for one pattern; probabilities of rare events such as the wrapping of an index are not visible in samples at all.", "anchors": ["CommDspy/channel/additive_noise_functions.py:awgn", "CommDspy/rx/slicer.py:slicer", "CommDspy/rx/demapping.py:demapping", "CommDspy/tx/mapping.py:mapping"]}
{"id": "C95", "title": "Training with the gradients of ddlms_grad converges to the least mean squared error", "statement": "Subtracting the gradients of ddlms_grad times a learning rate mu from the equalizer taps never raises the returned mean squared error if mu times the summed powers seen by the taps is at most 2; after K passes the error exceeds that of any other taps by at most 2 |initial - other|^2 / (mu K), and if the minimum is unique the taps converge to it geometrically.", "quantifier": "for every finite record with any FFE and DFE taps trained on known symbols, every initial setting, every number of passes; the loop of the tests for every number of FFE taps", "why_tests_cant": "A test follows one trajectory for one channel and one learning rate and stops at a tolerance; a statement about all rates below a bound, all records and all numbers of passes cannot be sampled.", "anchors": ["CommDspy/rx/least_mean_squares.py:ddlms_grad", "test/test_equalization_estimation.py:equalization_lms_ffe_test", "test/test_equalization_estimation.py:equalization_lms_dfe_test"]}
{"id": "C96", "title": "What equalization_prbs_test decides, and that it succeeds for every open channel", "statement": "For every draw of poles, constellation, repetitions and cutoff that leaves one period, equalization_prbs_test does not raise, its second assertion holds, its verdict is whether the least squares taps at the phase of largest correlation are within 5e-3 of the polynomial of the drawn poles - and it succeeds.", "quantifier": "for every PRBS type, constellation, number of drawn poles and every drawn value of the poles, initial state and number of repetitions", "why_tests_cant": "The test draws its poles at random; a run covers one draw, and a draw that makes it fail occurs with a probability too small to be seen in a few runs.", "anchors": ["test/test_equalization_estimation.py:equalization_prbs_test", "test/auxiliary.py:generate_pattern", "test/auxiliary.py:generate_and_pass_channel_ar", "CommDspy/equalization_estimation.py:equalization_estimation_prbs"]}
{"id": "C97", "title": "Convolutional decoders on received bits with errors: the path the Viterbi decoder keeps, the errors it corrects and the reported error probabilities", "statement": "For every received pattern the Viterbi decoder returns in each block the data of the run nearest to the block among the runs that survive its selection, with the end state of that run and, with error_prob, 1 over the number of end states with minimal distance (0 if there is one). It corrects E errors per block if the branches and separated runs of the code differ in more than 2E bits. The exhaustive decoder with error_prob returns the same data, writes a nearest codeword over every block of the caller's array and reports 1 over the number of nearest codewords, 0 for blocks that are codewords.", "quantifier": "for every code, feedback, block length and every received binary pattern", "why_tests_cant": "The number of received blocks is exponential in the block length, and the tests decode only patterns without errors and never pass error_prob.", "anchors": ["CommDspy/rx/decoding.py:decoding_conv_viterbi", "CommDspy/rx/decoding.py:decoding_conv_ml", "CommDspy/misc/ml_decoding.py:ml_decoding", "CommDspy/misc/ml_decoding.py:Trellis"]}
{"id": "C98", "title": "Bit error rate of the link from bits to bits in Gaussian noise, with and without Gray coding", "statement": "bin2symbol, coding_gray (or not), mapping, awgn, slicer, demapping, decoding_gray and symbol2bin never raise, and with independent normal draws every bit of NRZ and OOK is wrong with probability Q(d/2 sigma). For PAM4 the expected number of wrong bits of an outer and of an inner symbol is Q(t)+Q(3t)-Q(5t) and 2Q(t)+Q(3t) with Gray code, Q(t)+Q(5t) and 3Q(t)-Q(3t) without. With equally frequent symbols the bit error rate is (3Q(t)+2Q(3t)-Q(5t))/4 with and (4Q(t)-Q(3t)+Q(5t))/4 without Gray code, t^2 = SNR (n-1)/(5n). The Gray code lowers the rate for t >= 3/4 and raises it for t <= 1/5.", "quantifier": "for every bit pattern (of at least two symbols), all options of bin2symbol, full scale or not, and every SNR", "why_tests_cant": "A probability is only estimated by simulation; at useful SNR errors are too rare to be counted, and the crossover at low SNR is not expected by anyone.", "anchors": ["CommDspy/tx/bin2symbol.py:bin2symbol", "CommDspy/tx/coding.py:coding_gray", "CommDspy/tx/mapping.py:mapping", "CommDspy/channel/additive_noise_functions.py:awgn", "CommDspy/rx/slicer.py:slicer", "CommDspy/rx/demapping.py:demapping", "CommDspy/rx/decoding.py:decoding_gray", "CommDspy/rx/symbol2bin.py:symbol2bin"]}
{"id": "C99", "title": "The shipped example program runs its convergence loop to the end", "statement": "simulation_main.py with the shipped constants builds all objects, sends one chunk, sets the convergence bits and then repeats chunks until the receiver reports convergence. Every chunk of 64 bits gives 64 demapped symbols and 64 decoded bits without an exception, and the loop ends. (Violated: the second chunk always raises AttributeError, in every configuration the loop never ends regularly, and all demapped symbols are 1 or 2.)", "quantifier": "for every channel response in the channel file, every noise, every rounding of the encoder, and every number of chunks; the negative result for every configuration", "why_tests_cant": "The program is a script without any test; it draws noise and reads a file, and the fault only appears after all objects have been built and one chunk has passed.", "anchors": ["example_simulation/simulation_main.py:main", "example_simulation/config_file.py", "example_simulation/constants.py", "example_simulation/simulation_parts/simulation.py:Simulation", "example_simulation/simulation_parts/full_link.py:FullLink", "example_simulation/simulation_parts/receiver.py:Receiver"]}
{"id": "C100", "title": "Gain control and clock recovery of the example receiver", "statement": "With the LMS bit off, every call of the shipped link succeeds for ever; the phase always is one of the 64 of the converter and moves by at most one step per chunk in the direction of the Mueller-Muller error of the delayed converter samples; the loops end together after the first chunk with an error below 1/1000, and the program loop stops there. The gain moves by 25/256 times the difference between the power of the levels (5/16) and the power at the slicer. It stays positive and settles geometrically at the gain that makes both equal if the power of the signal stays in a band that fits the step, and never runs away otherwise. (The last part is violated: a quiet signal followed by a loud one drives the gain to minus infinity.)", "quantifier": "for every channel response, noise and number of chunks; the gain theorems for every signal whose power stays between P1 and P2 with 25/128 P2 M <= 1 and M >= the right gain for P1", "why_tests_cant": "The loops act over thousands of chunks and depend on noise; stability is a statement about all signals, and the run-away needs more than two hundred quiet chunks first.", "anchors": ["example_simulation/simulation_parts/receiver.py:Receiver.digital_stage", "example_simulation/simulation_parts/simulation.py:Simulation.perform_convergence", "CommDspy/rx/clock_data_recovery.py:mueller_muller_step"]}
{"id": "C101", "title": "The Mueller-Muller detector estimates the two cursors next to the main tap", "statement": "On a PRBS sent through an FIR channel the difference formed by mueller_muller_step is the first postcursor minus the first precursor, times the variance of the levels and 2^n/(2^n-1), exactly over whole periods; otherwise up to the share of the remaining symbols times the intersymbol interference and up to the errors of the samples. Hence the step is 0 if the cursors are equal up to the documented tolerance, -1 if the precursor is larger and +1 if the postcursor is larger. (The tolerance part is violated: it applies after scaling with the variance of the levels. For PAM4 a channel that reaches the echo of the symbols aliases: half a period without Gray coding, with Gray coding at a distance that depends on the polynomial, only 3 symbols for PRBS7.)", "quantifier": "for every supported PRBS, NRZ, OOK and PAM4 with all inversions, bit orders, scalings, with and without Gray coding, every FIR channel shorter than the period (for PAM4 than the distance of the echo), every phase, every record of at least one period, every bounded error of the samples", "why_tests_cant": "The claim is about all channels and all record lengths; the test only looks at the phase a loop ends in for random channels.", "anchors": ["CommDspy/rx/clock_data_recovery.py:mueller_muller_step"]}
{"id": "C102", "title": "The clock recovery loop of the test locks to the symbol centre", "statement": "The loop of mueller_muller_step_test (pulse shaping, dropping the start-up, one row per symbol, pattern lock and Mueller-Muller step at one phase, next phase) on PRBS symbols shaped with a sinc or a raised cosine: from every initial phase it leaves by itself, never getting farther from the symbol centre, at a phase whose timing error is below the tolerance; with a tolerance of at most K/(2 osr), K the variance of the levels times 2^n/(2^n-1), (K/(5 osr) for roll-offs above 1/2) it ends exactly at the centre, in particular with the constants of the test for all PRBS types and constellations.", "quantifier": "for every supported PRBS, NRZ, OOK and PAM4 with all inversions, bit orders, scalings, with and without Gray coding, every roll-off from 0 to 1, every number of phases, every span of at least 2 and below half the distance of the echo of the symbols (a quarter of the period without Gray coding), every number of whole periods, every initial phase and tolerance", "why_tests_cant": "The repository's loop is run for a few random channels, with one number of phases and one tolerance, and only a rough symmetry of the channel estimate is asserted; ending for every phase and every pulse is a statement about an analytic pulse family.", "anchors": ["test/test_cdr.py:mueller_muller_step_test", "CommDspy/rx/clock_data_recovery.py:mueller_muller_step", "CommDspy/channel/pulse_shaping.py:pulse_shape", "CommDspy/rx/lock_pattern.py:lock_pattern_to_signal"]}
{"id": "C103", "title": "Block error probability of the linear code over the noisy two-level link", "statement": "On the NRZ or OOK link with AWGN the wrong bits are independent, each with probability Q(d/2s). A block coded with coding_linear and decoded with decoding_linear is returned exactly with the probability that the decoder corrects a word whose bits are inverted independently; for a code of minimum distance 2t+1 this is at least the probability of at most t inversions, with equality for perfect codes ([7,4] Hamming: (1-p)^6 (1+6p), more than the (1-p)^4 of uncoded bits for every p below 1/2). Averaged over the data it is the sum over received words of p^d (1-p)^(n-d), d the distance from the code, which no other decoder exceeds; the parity code of the project's tests gains nothing over sending the bits uncoded.", "quantifier": "for every binary generator matrix, every binary data sequence, every SNR, both two-level constellations with and without Gray coding, full scale and all bit-to-symbol options, every set of positions, every crossover probability and every competing decoder", "why_tests_cant": "A probability is not observable in a test: a simulation returns a count of errors for one seed, one code and one SNR. Optimality quantifies over all decoders.", "anchors": ["CommDspy/tx/coding.py:coding_linear", "CommDspy/rx/decoding.py:decoding_linear", "CommDspy/channel/additive_noise_functions.py:awgn", "CommDspy/rx/slicer.py:slicer", "CommDspy/tx/mapping.py:mapping"]}
{"id": "C104", "title": "What the tests with literal data verify", "statement": "The tests with literal data pass on the library: test_dig_delay_fir_coeffs, test_buffer, test_coding_gray_plus_mapping and test_demapping_plus_decoding_gray. A symbolwise mapping passes its test exactly if it has the documented levels, with and without inversion. The demapping test checks the inversion (pn_inv) of every constellation, and the delay test tells the Lagrange coefficients from the others.", "quantifier": "for every function in place of the one under test (symbolwise mapping or demapping functions; for the negative results arbitrary pairs of functions) and every OOK signal within one and a half level distances of zero", "why_tests_cant": "The tests are the object: a test cannot say which wrong programs it lets pass.", "anchors": ["test/test_main.py:test_dig_delay_fir_coeffs", "test/test_main.py:test_buffer", "test/test_main.py:test_coding_gray_plus_mapping", "test/test_main.py:test_demapping_plus_decoding_gray", "CommDspy/rx/demapping.py:demapping"]}
{"id": "C105", "title": "Every second bit of a PRBS, and a four-level receiver on a two-level link", "statement": "Every second bit of the output of prbs_gen is the same PRBS again, shifted by a constant number of bits, and so is the sum of two successive bits (the Gray code of a pair). The two bits of a PAM4 symbol are therefore two samples of the two-level sequence at fixed distances, the PAM4 reference of the estimators has a two-valued autocorrelation apart from one echo, half a period away without Gray coding, and no equalizer of few taps turns a capture of the two-level PRBS into the PAM4 reference: the equalization reported by equalization_estimation_prbs has a residual error bounded from below, and the PAM4 decisions contain errors without any noise. The example script example_runs.py transmits NRZ and receives PAM4 in this way.", "quantifier": "for every supported polynomial, nonzero seed, option of mapping, bit order, inversion and Gray coding, FIR channel, FFE and DFE of any length below the distance of the echo, sampling phase and least squares solver", "why_tests_cant": "The statement is about all equalizers at once and all polynomials; PRBS31 has a period of 2^31-1 and no test runs it.", "anchors": ["CommDspy/tx/prbs_generator.py:prbs_generator", "CommDspy/equalization_estimation.py:equalization_estimation_prbs", "test/example_scripts/example_runs.py:tx_example", "test/example_scripts/example_runs.py:rx_example2"]}
{"id": "C106", "title": "The tests that train an equalizer with the LMS gradients", "statement": "equalization_lms_dfe_test and equalization_lms_ffe_test of test_equalization_estimation.py train a DFE or an FFE on a PRBS sent through a random channel: per pass they equalize the record, align the pattern with lock_pattern_to_signal, compute ddlms_grad and subtract the gradients times the learning rate, until the loss stops to change, is below 1e-6 or 100000 passes are made. For all draws of channel, repetitions and cut the tests pass with hard decisions: no pass raises an exception, the loop ends and the trained taps are within 1e-2 of those of the channel.", "quantifier": "for every PRBS with a reference file, every accepted set of zeros or poles, repetitions and cutoff that the tests can draw", "why_tests_cant": "The tests draw one channel per run; that the training ends close to the channel within the pass limit for every draw is a statement about a loop of up to 100000 steps for a continuum of channels.", "anchors": ["test/test_equalization_estimation.py:equalization_lms_dfe_test", "test/test_equalization_estimation.py:equalization_lms_ffe_test", "CommDspy/rx/least_mean_squares.py:ddlms_grad", "CommDspy/rx/lock_pattern.py:lock_pattern_to_signal"]}
{"id": "C107", "title": "What the randomized tests verify", "statement": "The randomized tests of test_pattern_coding.py, test_prbs_generator.py, test_prbs_analysis.py, test_bin_to_symbol.py and test_pattern_lock.py are functions of the draw and of the implementation they call. For every implementation and every draw, such a test succeeds exactly if the implementation returns the specified result for that draw: the reflected Gray code, the differential recurrence, the Manchester, bipolar, MLT-3, differential Manchester and parity codes, the shift-register bits and state, the exact error report, the symbol values under the four flags, the rotated pattern and the position of the first correlation maximum, the convolutional code. In particular a wrong implementation fails on every draw on which it is wrong, and decoders that do not detect or correct errors fail.", "quantifier": "for all implementations (functions of the right type, which may raise exceptions) and all draws", "why_tests_cant": "Running a test exercises one implementation on one draw; which implementations pass, over all draws, is a statement about all functions.", "anchors": ["test/test_pattern_coding.py", "test/test_prbs_generator.py:prbs_gen_test", "test/test_prbs_analysis.py:prbs_analysis_test", "test/test_bin_to_symbol.py:bin2symbol_test", "test/test_bin_to_symbol.py:symbol2bin_test", "test/test_pattern_lock.py:lock_pattern_to_signal_test", "test/test_pattern_lock.py:lock_pattern_to_signal_binary_test"]}
{"id": "C108", "title": "Oversampled equalization of example_runs.py", "statement": "Filters and equalizers whose coefficients are upsampled by osr act on each sampling phase like the symbol-spaced ones: sampling the output of awgn_channel or of ffe_dfe at a phase gives the output for the samples of that phase, also for recursive channels and with decision feedback. Hence the two ways rx_example equalizes, and the slicer inputs plotted and returned by rx_example2, agree; the channel with upsampled taps behind pulse_shape is the shaped output of the symbol-rate channel and, for sinc and raised cosine pulses, has its values at the symbol instants. The search over the phases ends with the first phase of smallest error, and the genie checker reports exactly the differing bits and no error for an open eye.", "quantifier": "for all signals, coefficients, oversampling factors, phases, pulses and decision levels; for all received samples and PRBS phases", "why_tests_cant": "A script runs one signal with one channel and one oversampling factor and shows the result as an eye diagram; the identities hold between different rates for all signals.", "anchors": ["test/example_scripts/example_runs.py:rx_example", "test/example_scripts/example_runs.py:rx_example2", "test/example_scripts/example_runs.py:rx_genie_checker", "CommDspy/rx/ffe_dfe_model.py:ffe_dfe", "CommDspy/channel/additive_noise_functions.py:awgn_channel", "CommDspy/auxiliary.py:upsample"]}
{"id": "C109", "title": "A PRBS as the test signal of a channel", "statement": "If the decisions on one period of a PRBS of degree n, sent over a noise-free channel of m taps, are right and m times the number of bits per symbol is less than n (for NRZ: at most n), then the decisions on all data are right. For NRZ the smallest sample in the direction of the symbol and the largest magnitude over one period equal the peak distortion bounds h_d - sum of the other magnitudes and sum of all magnitudes, which hold for all data; for four levels the eye conditions 3 sum < 2 - h_d and 3 sum < 3 h_d - 2 are decided by one period. With one tap more this is false: there is a channel with n + 1 taps on which every decision on the PRBS is right and every decision on constant data is wrong.", "quantifier": "for all constellations with two or four levels, all flags, PRBS degrees, seeds, channels and data of any length", "why_tests_cant": "The scripts run one PRBS over one channel; that the observed eye is the worst case over all data needs that all words occur in the PRBS, and the failure for one tap more occurs for data no test of the repository sends.", "anchors": ["CommDspy/tx/prbs_generator.py:prbs_generator", "CommDspy/channel/additive_noise_functions.py:awgn_channel", "CommDspy/rx/slicer.py:slicer", "CommDspy/tx/mapping.py:mapping", "test/example_scripts/example_runs.py:rx_example"]}
{"id": "C110", "title": "Array shapes in the channel scripts", "statement": "channel_reconstruction.py compares a channel with its interpolations from the samples at the symbols: all arrays it subtracts and plots fit together, the interpolations agree with the channel at the symbols and, for Lagrange interpolation of a polynomial of degree at most 16, everywhere. channel_example plots shaped pulses and eye diagrams over axes of the same sizes.", "quantifier": "for all channel data of the sizes in question, all oversampling ratios, all patterns and signals", "why_tests_cant": "The scripts are not part of the test suite and end in plots; whether the shapes fit for data of other sizes, and that they never fit for the data format shipped, is a statement about all values.", "anchors": ["test/example_scripts/channel_reconstruction.py:channel_reconstruction", "test/example_scripts/example_runs.py:channel_example", "CommDspy/digital_delay.py:digital_oversample", "CommDspy/eye_diagram.py:eye_diagram", "CommDspy/channel/pulse_shaping.py:pulse_shape"]}
{"id": "C111", "title": "The state of the example simulation: tap history, configured taps and seeds", "statement": "Every simulation starts with the taps configured in its data object. The history filled by gather_memory holds the tap vectors the equalizer had when they were gathered, whatever happens later. set_ffe and set_dfe accept exactly arrays of the configured numbers of taps, at any time. PrbsGen.get_seed is the seed that continues the stream and get_prev_seed the one of the previous chunk.", "quantifier": "for all sequences of operations (creating simulations, gathering, resetting, training with any gradients, setting taps), all data objects, all PRBS types and chunk sizes", "why_tests_cant": "Whether two objects share an array shows only in certain sequences of operations; tests of single operations on fresh objects cannot see it. The simulation has no tests.", "anchors": ["example_simulation/simulation_parts/simulation.py:Simulation.gather_memory", "example_simulation/analyzer/analyzer_classes.py:Memory.reset", "example_simulation/simulation_parts/receiver.py:FfeDfe.set_ffe", "example_simulation/simulation_parts/receiver.py:FfeDfe.set_dfe", "example_simulation/simulation_parts/data_objects.py:FfeDfeData", "example_simulation/simulation_parts/transmitter.py:PrbsGen.get_prev_seed"]}
{"id": "C112", "title": "Block error probability of convolutional and block codes: union bound, and the price of the Viterbi selection", "statement": "Data coded with coding_conv and sent over the two-level noisy link (bin2symbol, coding_gray, mapping, awgn, slicer, demapping, decoding_gray, symbol2bin) are returned by decoding_conv_ml and decoding_conv_viterbi block by block with the probability these decoders have on a channel that inverts each code bit independently with probability q = Q(d/2 sigma). With the exhaustive decoder (and decoding_linear) a block is lost at most with the sum of (2 sqrt(q(1-q)))^d over the words of other data, d being the distance from the word sent. Both convolutional decoders correct the errors that the distance of the code allows.", "quantifier": "for all codes (feedback included) accepted by the library, all data, block lengths, SNR values, NRZ and OOK with all options", "why_tests_cant": "Error probabilities are defined by an integral over all noise values and a sum over exponentially many words; the small probabilities of interest cannot be measured by tests, and the tests of the decoders have no noise at all.", "anchors": ["CommDspy/tx/coding.py:coding_conv", "CommDspy/rx/decoding.py:decoding_conv_ml", "CommDspy/rx/decoding.py:decoding_conv_viterbi", "CommDspy/misc/ml_decoding.py:ml_decoding", "CommDspy/rx/decoding.py:decoding_linear", "CommDspy/channel/additive_noise_functions.py:awgn"]}
{"id": "C113", "title": "Feed-forward equalizer on a noisy record: law of the output, error probability, matched-filter bound, LMS in noise", "statement": "Behind awgn the output of the feed-forward equalizer is normally distributed with the equalized noise-free record as mean and the noise variance times the sum of the squared taps as variance, so the slicer errs with exactly the tail probabilities of the distances to its thresholds. Taps a/g undo an all-pole channel g/a at the price of that noise enhancement, and no taps that remove the interference of a channel h beat the matched-filter bound of its energy. In the mean over the noise one pass of LMS training lowers each tap by mu s^2/2 times itself in addition to the noise-free pass, repeated passes on fresh noise approach the taps of least mean squared error in noise geometrically, and those taps are what ridge_regression_manual returns on the noise-free record with the noise power times the number of samples as regularization.", "quantifier": "for all records, channels, tap vectors, SNR values, constellations with all options, symbol positions, learning rates and numbers of passes", "why_tests_cant": "Laws and means are integrals over all noise values; a test sees one draw of the noise and cannot tell a leak of the size of the noise power or a tail probability from chance. The matched-filter bound is about all tap vectors.", "anchors": ["CommDspy/rx/ffe_dfe_model.py:ffe_dfe", "CommDspy/rx/least_mean_squares.py:ddlms_grad", "CommDspy/channel/additive_noise_functions.py:awgn", "CommDspy/rx/slicer.py:slicer", "CommDspy/misc/least_squares.py:ridge_regression_manual", "test/test_equalization_estimation.py:equalization_lms_ffe_test"]}
{"id": "C114", "title": "Decision feedback equalizer in noise: error probability and error propagation", "statement": "Symbols through awgn_channel with the response g, h1, .., hL, awgn, then ffe_dfe with the FFE tap 1/g and the feedback taps h/g: as long as no decision is wrong there is no interference and no noise enhancement but the division by g, so the first n decisions are all right with the product of the single-symbol probabilities of the ideal channel, and the first wrong decision has the corresponding geometric law. After a wrong decision the feedback adds interference; with p1 the largest error probability over all states of the feedback register the expected number of wrong decisions is at most the number without error propagation over (1-p1)^L, and at most 2^L times it for two levels and feedback taps of total weight at most g/2. The growth is real: NRZ, the response 1, 1 and alternating symbols, decisions are right up to symbol n and wrong from there to the end with probability Q(1-Q)^(N-1), Q the probability of one wrong decision.", "quantifier": "for all constellations, full_scale options, symbol streams, main taps g > 0, feedback tap vectors, SNR values and record lengths", "why_tests_cant": "Error propagation couples all decisions of the record, and its bound is an expectation over all noise values; a run with few errors never enters the states in which it shows.", "anchors": ["CommDspy/rx/ffe_dfe_model.py:ffe_dfe", "CommDspy/channel/additive_noise_functions.py:awgn", "CommDspy/channel/additive_noise_functions.py:awgn_channel", "CommDspy/rx/slicer.py:slicer", "CommDspy/tx/mapping.py:mapping"]}
{"id": "C115", "title": "Timing estimate and pattern lock in Gaussian noise", "statement": "Behind awgn the timing error of mueller_muller_step is normally distributed about its noise-free value, and the steps 1, -1 and 0 have exactly the probabilities of the tails beyond the tolerance; a step against the timing error has at most the probability Q((tol+|e|)(N-1)/(2 A s sqrt(N))) for symbols of magnitude up to A, and on a PRBS through a channel e is 2^n/(2^n-1) times the level variance times the difference of first postcursor and precursor. lock_pattern_to_signal on a period or more of the pattern with gain, offset and noise is wrong with at least the probability Q(g sqrt(D)/(2 s)) of every other phase at squared distance D and at most their sum; for a PRBS of degree n with two levels d apart this is between Q(g d sqrt(2^(n-1))/(2 s)) and 2^n - 2 times it.", "quantifier": "for all records, symbols, weights, tolerances, SNR values, patterns, phases, gains and offsets; all supported PRBS types, seeds and two-level constellations", "why_tests_cant": "The probability of a wrong step or lock is an integral over all noise values; tests draw one noise realization at one phase, and probabilities like Q(8/s) are out of reach of simulation.", "anchors": ["CommDspy/rx/clock_data_recovery.py:mueller_muller_step", "CommDspy/rx/lock_pattern.py:lock_pattern_to_signal", "CommDspy/channel/additive_noise_functions.py:awgn", "CommDspy/tx/prbs_generator.py:prbs_generator"]}
{"id": "C116", "title": "Least squares and ridge regression on noisy observations", "statement": "With independent normal noise of standard deviation s on the right-hand side, every linear functional of the coefficients of ols_manual is normally distributed about its true value with variance s^2 w'(A'A)^-1 w, and the returned sum of squared residuals has mean s^2 (m - n); no linear unbiased estimator of the functional has a smaller variance. ridge_regression_manual with lambda > 0 is normally distributed about the noise-free ridge solution with a smaller variance, is biased whenever the true coefficients are not zero, and has the smaller mean squared error if lambda |x|^2 <= 2 s^2.", "quantifier": "for all matrices of full column rank, true coefficients, functionals, noise levels and regularization weights", "why_tests_cant": "The law of an estimator is an integral over all noise values; the tests fit noise-free data, and a test could only sample a few noise realizations of one system.", "anchors": ["CommDspy/misc/least_squares.py:ols_manual", "CommDspy/misc/least_squares.py:ridge_regression_manual", "CommDspy/channel/additive_noise_functions.py:awgn"]}
{"id": "C117", "title": "Channel estimation from a PRBS in Gaussian noise", "statement": "A capture of two or more periods of an NRZ PRBS through an FIR channel of W taps, with noise of standard deviation s from awgn: whenever the noisy record locks at the right phase, the taps of channel_estimation_prbs times the variance of the averaged record are the channel taps plus normally distributed errors of mean zero and variance s^2 (N+2-W)/(reps (N+1)(N+1-W)). With a main tap ahead of the other taps, and of zero, by d, the lock is wrong with at most the probability (N-1) Q(sqrt(N+1) d / s), and some tap misses by eps or more with at most this plus 2 W Q(eps/sigma).", "quantifier": "for all supported PRBS types and modifiers, channels, phases, lengths of the record, SNR values, least squares solvers and tolerances", "why_tests_cant": "The lock, the average and the least squares fit are random through all noise samples of the record; a test draws one realization of one channel.", "anchors": ["CommDspy/channel_estimation.py:channel_estimation_prbs", "CommDspy/rx/lock_pattern.py:lock_pattern_to_signal", "CommDspy/channel/additive_noise_functions.py:awgn"]}
{"id": "C118", "title": "Lock, timing detector and feed-forward equalizer in floating-point arithmetic", "statement": "In p-bit floating-point arithmetic with any order of summation: lock_pattern_to_signal returns the pattern at the right phase whenever the rounding errors ((1+u)^n - 1) n Lambda S stay below the margin given by the level distance, the gain and the disturbance; for a two-level PRBS of order n the margin grows with the period, and in double precision 2^n Lambda S <= 2^49 d (g d - 2 E) suffices. mueller_muller_step decides as in exact arithmetic unless the exact timing error is within ((1+u)^(N+2) - 1) times the mean magnitude of the products of the tolerance. ffe_dfe without feedback differs from the exact output by at most ((1+u)^L - 1) times the sum of the magnitudes of the terms. An FIR channel followed by a feed-forward equalizer and the slicer returns the symbols sent if residual interference and rounding together stay below half the level distance.", "quantifier": "for all precisions, orders of summation, patterns, records, taps, weights, tolerances, channels and symbol sequences", "why_tests_cant": "The rounding errors depend on the order in which the library and the hardware add up; a test sees one order on one machine for one record.", "anchors": ["CommDspy/rx/lock_pattern.py:lock_pattern_to_signal", "CommDspy/rx/clock_data_recovery.py:mueller_muller_step", "CommDspy/rx/ffe_dfe_model.py:ffe_dfe", "CommDspy/rx/slicer.py:slicer", "CommDspy/channel/additive_noise_functions.py:awgn_channel"]}
{"id": "C119", "title": "Arrays of any rank", "statement": "bin2uint of an array of any rank removes the last axis and reads it most significant bit first at every multi-index, uint2bin adds such an axis; from integers to n bits and back every entry is reduced modulo 2^n and the shape is kept, an array of binary digits comes back unchanged. slicer and quantize return an array of the same shape whose entries are the nearest levels. mapping, demapping, coding_gray and decoding_gray keep the shape of the array, work entry by entry, and decoding inverts coding.", "quantifier": "for all ranks, shapes, entries, numbers of bits, level vectors, fixed point formats and constellations", "why_tests_cant": "A test fixes one rank and one shape; the slicer behaves as documented for one and two axes only, which tests with vectors and matrices cannot show.", "anchors": ["CommDspy/auxiliary.py:bin2uint", "CommDspy/auxiliary.py:uint2bin", "CommDspy/rx/slicer.py:slicer", "CommDspy/rx/quantiztion.py:quantize", "CommDspy/tx/mapping.py:mapping", "CommDspy/rx/demapping.py:demapping", "CommDspy/tx/coding.py:coding_gray", "CommDspy/rx/decoding.py:decoding_gray"]}
{"id": "C120", "title": "The example link with a dispersive channel, a CTLE and equalizer taps", "statement": "Every accepted CTLE is the convolution with one impulse response. If pulse, FIR channel, CTLE and the taps of the equalizer leave an open eye at the slicer (interference, bounded noise, quantisation and gain mismatch together below half a level distance, converter not saturated), then any number of successive calls of the example simulation's link succeeds and the demapped symbols are the encoded symbols delayed by the main cursor, from the first symbol on; without codes the received bits are the delayed PRBS and the error checker counts no errors. With feedback taps the same holds when the eye that remains after right feedback is open: from any point on where the symbols within reach of the feedback were right, and from the start if the margin covers the decisions taken before the first symbol arrived. If the noise samples are independent standard normal and the eye is open for noise of up to Z standard deviations, all symbols of k calls are right with probability at least (1 - 2Q(Z)) to the number of noise samples.", "quantifier": "for all pulses, spans, oversampling factors, FIR channel responses, zeros, poles and gains of the CTLE, sampling phases, converter formats, two or more feed-forward taps or any feed-forward taps together with feedback taps, constellations, seeds, noise samples within the bound, numbers and lengths of calls", "why_tests_cant": "A simulation run shows one channel, one set of taps and one noise record; the error-free claim is about every run, and error propagation through the feedback needs an argument over unbounded time.", "anchors": ["example_simulation/simulation_parts/full_link.py:FullLink", "example_simulation/simulation_parts/receiver.py:Receiver", "CommDspy/rx/ctle_model.py:ctle", "CommDspy/rx/ffe_dfe_model.py:ffe_dfe", "CommDspy/channel/additive_noise_functions.py:awgn_channel"]}
{"id": "C121", "title": "How often the randomized PRBS and lock tests raise a false alarm", "statement": "With independent draws as the suite makes them (bit errors with probability 1/100 or 1/10000, uniform rotation, uniform length), prbs_analysis_test accepts the library except with probability (4/25)^(2^(n-2)), the binary lock tests on two periods and on one period except with probability (1/625)^(2^(n-2)) and (16/625)^(2^(n-3)), and on part of a period except with the probability of as many errors as half the smallest distance between the phases. The tests of the general lock function reject one more draw out of 2^n - 1, the rotation 0. Over one run of the suite the three binary lock tests accept with probability at least 0.98, the three general ones with probability between 0.95 and 0.97.", "quantifier": "for all PRBS types with reference data, loss thresholds and lengths of the partial period; over all error patterns and rotations", "why_tests_cant": "A false-alarm rate of a few percent or of 1e-26 is a statement about the whole distribution of draws; single runs either pass or fail.", "anchors": ["test/test_main.py:test_lock_pattern_to_signal_1", "test/test_main.py:test_lock_pattern_to_signal_3", "test/test_pattern_lock.py:lock_pattern_to_signal_test", "test/test_prbs_analysis.py:prbs_analysis_test"]}
{"id": "C122", "title": "The power spectrum analyser in white noise: noise level and signal power readings", "statement": "For white noise on a real signal the expected spectrum is the spectrum without noise plus the noise variance times the share of the window (sum of squares over square of the sum, less what removing the mean takes away), twice that at inner frequencies, times the factor of the mode. Modes 'dBm/Hz' (noise level measurement) and 'dBm' (signal power spectrum) are meant to read the power density of white noise and the power of a tone. Disagreement: with the default window the expected 'dBm/Hz' reading is at most 4.01/n of the density (n the window length), and 'dBm' shows a tone times rbw over the spread bandwidth.", "quantifier": "for all signals, noise variances, windows, bandwidths, overlaps, sampling frequencies and frequencies; expectation over all noise realisations", "why_tests_cant": "An expected value over Gaussian noise for every window and bandwidth cannot be observed in runs; single spectra fluctuate around it and a low reading looks like a low noise level.", "anchors": ["CommDspy/psa.py:psa"]}
{"id": "C123", "title": "The economy checker with bit errors in the bits it seeds itself from", "statement": "The economy checker computes the erred bits and their location. It takes the first n received bits as seed and retries with the next start when it loses lock, n starts in all. On data of at least K periods with e errors, threshold th > e and th + e at most K 2^(n-1): it uses the first error-free window, keeps lock and flags exactly the errors from there on; without such a window it reports lost lock. Disagreement: one single wrong bit at position n-1 of an otherwise perfect PRBS loses lock, since all windows contain that bit (prbs_checker reports the one error), so that with bit error probability q lock is lost with probability q up to second order; and errors in front of the used window are counted as correct bits.", "quantifier": "for all supported PRBS types, seeds, phases, lengths, thresholds and error patterns in the stated range; probability over independent bit errors", "why_tests_cant": "Which windows are dirty depends on every error pattern, and that a dirty seed is wrong in exactly half of the places is a property of the full period; the suite has no test of the economy checker.", "anchors": ["CommDspy/rx/checker.py:prbs_checker_economy", "CommDspy/rx/checker.py:prbs_checker"]}
{"id": "C124", "title": "Statistics and spectra of the line codes on random data", "statement": "On independent, equally likely bits: Manchester chips have mean zero, opposite halves of a cell and no other correlation, expected periodogram N sin^2(w/2); bipolar elements have power 1/2, correlation -1/4 between neighbours and 0 beyond, expected periodogram N/2 - (N-1)/2 cos w, bounded at frequency zero; differential Manchester chips are opposite across cell boundaries and otherwise uncorrelated, with the same periodogram as bipolar; MLT-3 elements have correlation 1/2 (sqrt(2)/2)^k cos(k pi/4) at lag k; differential coding of independent equally likely symbols gives such symbols again.", "quantifier": "for all lengths, positions, lags and frequencies; mean over all bit vectors (symbol vectors) of the length", "why_tests_cant": "The means run over all 2^N inputs for every N; tests look at single coded vectors.", "anchors": ["CommDspy/tx/coding.py:coding_manchester", "CommDspy/tx/coding.py:coding_bipolar", "CommDspy/tx/coding.py:coding_differential_manchester", "CommDspy/tx/coding.py:coding_mlt3", "CommDspy/tx/coding.py:coding_differential"]}
{"id": "C125", "title": "Quantization noise of the fixed-point quantizer", "statement": "For an input uniformly distributed over the full range of quantize (half a step beyond the outer codes included) the error is uniformly distributed over one step 2^-frac_bits, the output code is uniform over the code range, and error and code are independent; hence mean error 0, error power q^2/12, error uncorrelated with the output, and a signal-to-noise ratio of 4^total_bits for the unsigned and two's complement types and (2^total_bits - 1)^2 for the symmetric type.", "quantifier": "for all total_bits >= 1, frac_bits >= 0, the three documented types; means are integrals over the real interval", "why_tests_cant": "The law is an integral over a continuum of inputs, for every word length; tests quantize a handful of samples.", "anchors": ["CommDspy/rx/quantiztion.py:quantize"]}
{"id": "C126", "title": "Line codes on arrays of any rank", "statement": "Each line code (differential, Manchester, bipolar, MLT-3, differential Manchester) applied to an array of any rank gives, entry by entry, the code of the array read in C order, with the shape kept or the last axis doubled, and the matching decoder returns the original array.", "quantifier": "for all shapes (0-d arrays and zero-length axes included), all entries in range, all constellations", "why_tests_cant": "The shapes and entries are unbounded; tests only pass one-dimensional patterns of one length.", "anchors": ["CommDspy/tx/coding.py:coding_differential", "CommDspy/tx/coding.py:coding_manchester", "CommDspy/tx/coding.py:coding_bipolar", "CommDspy/tx/coding.py:coding_mlt3", "CommDspy/tx/coding.py:coding_differential_manchester", "CommDspy/rx/decoding.py:decoding_differential", "CommDspy/rx/decoding.py:decoding_manchester", "CommDspy/rx/decoding.py:decoding_bipolar", "CommDspy/rx/decoding.py:decoding_mlt3", "CommDspy/rx/decoding.py:decoding_differential_manchester"]}
{"id": "C127", "title": "Accuracy of the delay filters on signals that are not polynomials", "statement": "The Lagrange delay filter of order n applied to the samples of a function with n+1 continuous derivatives misses its value by at most the bound of the last derivative, divided by (n+1)!, times the product of the distances to the taps; digital_oversample of a sinusoid of amplitude A and omega radians per sample is within A (omega/2)^(order+1) and, up to the Nyquist frequency, within A omega (order+1)/2 |sin(omega/2)|^order of the sinusoid at every output sample (twice that for an even order), so the error tends to 0 with the order for all sinusoids below the Nyquist frequency; all interpolation methods keep constant signals.", "quantifier": "for all orders, oversampling rates, signal lengths, amplitudes, phases, smooth functions, delays; all frequencies below the Nyquist frequency for the convergence", "why_tests_cant": "The bound is over all smooth signals and all frequencies and orders; a test interpolates one record.", "anchors": ["CommDspy/digital_delay.py:dig_delay_lagrange_coeffs", "CommDspy/digital_delay.py:dig_delay_sinc_coeffs", "CommDspy/digital_delay.py:digital_oversample"]}
{"id": "C128", "title": "Digital oversampling in floating-point arithmetic", "statement": "In floating-point arithmetic with p significant bits every Lagrange delay coefficient of order n is the exact one up to 2n+3 rounding errors, every sample of digital_oversample is the exact filter for the rounded delay up to 4*order+6 rounding errors, input samples are returned unchanged at their times, the coefficients amplify input errors at most by order//2+3, and in double precision the rounding adds at most (|omega|+4096)*2^-53 to the relative error of an oversampled sinusoid, for every admissible order.", "quantifier": "for all precisions, orders, oversampling rates up to 2^p, signals, frequencies, orders of multiplication and summation", "why_tests_cant": "The bound is over all inputs and all orders in which NumPy may multiply and add; a test sees one build of NumPy and one signal.", "anchors": ["CommDspy/digital_delay.py:dig_delay_lagrange_coeffs", "CommDspy/digital_delay.py:digital_oversample"]}
{"id": "C129", "title": "Powers, noise levels and gradients in floating-point arithmetic", "statement": "In floating-point arithmetic with p significant bits and no overflow or underflow, whatever the order of summation: power and rms of n real samples are the exact values up to n+1 and n+2 rounding errors; the signal power that awgn estimates is exact up to 4n+4 rounding errors for every mean of the signal, and the noise level in double precision is the requested one within a relative error of (4n+22)*2^-52; ddlms_grad returns the exact MSE up to n+3 rounding errors and every gradient within n+3 rounding errors of the largest product of error and input.", "quantifier": "for all precisions, signals, lengths, orders of summation, tap indices (feedback taps not negative), references", "why_tests_cant": "The bound is over all inputs and all orders in which NumPy may add; a test sees one build of NumPy and one signal.", "anchors": ["CommDspy/auxiliary.py:power", "CommDspy/auxiliary.py:rms", "CommDspy/channel/additive_noise_functions.py:awgn", "CommDspy/rx/least_mean_squares.py:ddlms_grad"]}
{"id": "C130", "title": "Training an equalizer with the LMS gradients in floating-point arithmetic", "statement": "One pass of the FFE training loop of the tests (ffe_dfe, ddlms_grad with known symbols, update of the taps) computed with p significant bits and no overflow or underflow, whatever the order of summation, succeeds and returns the loss and every tap within a stated number of rounding errors of the pass in exact arithmetic. On a record at rest before its first sample, with the learning rate bound of exact arithmetic and a mean squared error that grows at least quadratically away from its minimum, rounding errors do not accumulate: after any number of passes the taps are as close to the optimum as in exact arithmetic plus the rounding errors of 2 + 4/(lam mu) passes, and every accuracy is reached and kept with enough bits and passes.", "quantifier": "for all precisions, received records, symbols, initial taps, learning rates within the bound, numbers of passes, orders of summation and convolution", "why_tests_cant": "Errors that build up over tens of thousands of passes depend on the record and on the order of additions; a test runs one build on one record and stops at a tolerance.", "anchors": ["CommDspy/rx/least_mean_squares.py:ddlms_grad", "CommDspy/rx/ffe_dfe_model.py:ffe_dfe", "test/test_equalization_estimation.py:equalization_lms_ffe_test"]}
{"id": "C131", "title": "What the stopping rules of the FFE training test guarantee", "statement": "The FFE training loop of the tests stops when the last loss is at most 1e-6, when the loss of a pass differs from the one before by less than 2e-9, or after 100000 passes, and then asserts that every tap is within 1e-2 of the reference. On a whole record with known symbols and a learning rate within the bound, where the mean squared error grows at least like lam times the squared distance from the reference taps, the loop raises no exception and each way of stopping bounds the excess of the loss (by the first threshold, by 2 tolStep/(lam mu), by (1 - lam mu/2)^n times the initial excess) and with it the distance of the taps. The loop stops by one of its thresholds within n + 2 passes if (1 - lam mu/2)^n times the initial excess is below the threshold on the change of the loss. With the constants of the test its assertion holds whenever lam is at least 1/4 and the initial loss at most 1. Without a lower bound on lam it can fail: on a record of amplitude 1/100 the loop stops after two passes, far from taps that equalize without error.", "quantifier": "for all records, symbols, initial taps, thresholds, learning rates within the bound and limits on the number of passes", "why_tests_cant": "A test runs the loop on a few random channels; it cannot tell whether the thresholds imply the asserted accuracy for the channels it did not draw.", "anchors": ["test/test_equalization_estimation.py:equalization_lms_ffe_test", "CommDspy/rx/least_mean_squares.py:ddlms_grad", "CommDspy/rx/ffe_dfe_model.py:ffe_dfe"]}
