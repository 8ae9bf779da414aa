{
 "claims": [
  {
   "property": "C01",
   "status": "proved",
   "theorems": [
    "Verif.C01_any_poly_one_period",
    "Verif.C01_negative_nonprimitive",
    "Verif.C01_prbs_stream",
    "Verif.C01_rejects",
    "Verif.C01_stream_unique"
   ],
   "note": "All supported PRBS types, all lengths, all seeds; plus uniqueness of the stream, the guard branches, and a witness that unsupported (non-primitive) polynomials go wrong beyond one nominal period."
  },
  {
   "property": "C02",
   "status": "proved",
   "theorems": [
    "Verif.C02_prbs_resumable"
   ],
   "note": "Any list of chunk lengths, bits and final seed."
  },
  {
   "property": "C03",
   "status": "proved",
   "theorems": [
    "Verif.C03_iterator",
    "Verif.C03_iterator_eq_generator"
   ],
   "note": "Any polynomial/seed of equal length; agreement with the generator for supported types."
  },
  {
   "property": "C04",
   "status": "proved",
   "theorems": [
    "Verif.C04_maximal_period",
    "Verif.C04_zero_seed"
   ],
   "note": "All six types including PRBS31 (kernel-evaluated matrix powers and primality of 2^31-1)."
  },
  {
   "property": "C05",
   "status": "proved",
   "theorems": [
    "Verif.C05_balanced"
   ],
   "note": "Any window of one period."
  },
  {
   "property": "C06",
   "status": "proved",
   "theorems": [
    "Verif.C06_autocorrelation"
   ],
   "note": "Any delay that is not a multiple of the period, any window."
  },
  {
   "property": "C07",
   "status": "proved",
   "theorems": [
    "Verif.C07_checker_exact",
    "Verif.C07_checker_exact_default"
   ],
   "note": "Any data, any one-period reference, any threshold; also the default (all-ones seed) reference."
  },
  {
   "property": "C08",
   "status": "proved",
   "theorems": [
    "Verif.C08_checker_locks"
   ],
   "note": "Any non-zero seed, phase, data length >= one period, any error pattern with fewer than 2^(n-2) errors in the first period."
  },
  {
   "property": "C09",
   "status": "partial",
   "theorems": [
    "Verif.C09_economy_exact_partial",
    "Verif.C09_economy_sound",
    "Verif.C09_negative_dead_line",
    "Verif.C09_negative_short"
   ],
   "note": "Exact report (clean seed window) and soundness proved; the last sentence is violated by the code: an all-zero line and data no longer than n bits are reported as locked (C09_negative_*)."
  },
  {
   "property": "C10",
   "status": "proved",
   "theorems": [
    "Verif.C10_lock_finds_phase",
    "Verif.C10_lock_minimises",
    "Verif.C10_lock_rotation"
   ],
   "note": "Rotation with fewest mismatches for all binary inputs; exact phase for windows of any length."
  },
  {
   "property": "C100",
   "status": "partial",
   "theorems": [
    "Verif.C100_gain",
    "Verif.C100_gain_settles",
    "Verif.C100_negative_runaway",
    "Verif.C100_run"
   ],
   "note": "C100_run covers the whole link with the LMS bit off, for every noise; C100_gain and C100_gain_settles give stability for powers in a band. False for all signals: C100_negative_runaway. Exact arithmetic. The run-away is proved for the digital stage fed with converter samples, not traced back to a channel and noise that produce them."
  },
  {
   "property": "C101",
   "status": "partial",
   "theorems": [
    "Verif.C101_direction",
    "Verif.C101_estimate",
    "Verif.C101_exact",
    "Verif.C101_negative_echo",
    "Verif.C101_negative_tolerance",
    "Verif.C101_negative_weights",
    "Verif.C101_weights"
   ],
   "note": "Proved: the timing error over any record (C101_estimate), the exact decision over whole periods (C101_exact), the direction on any record (C101_direction), unequal weights (C101_weights). Violated as documented: the tolerance is not one of the amplitudes (C101_negative_tolerance); the restriction to channels shorter than the distance of the echo is sharp for PAM4 (C101_negative_echo); with Gray coding this distance is a discrete logarithm, only 3 symbols for PRBS7 and 7 for PRBS15; with unequal weights the mean of the levels adds a bias, and on undistorted OOK the detector always steps in one direction (C101_negative_weights). Exact arithmetic."
  },
  {
   "property": "C102",
   "status": "partial",
   "theorems": [
    "Verif.C102_assertion",
    "Verif.C102_assertion_iff",
    "Verif.C102_centre",
    "Verif.C102_last_signal",
    "Verif.C102_lock",
    "Verif.C102_negative_grid",
    "Verif.C102_negative_weak",
    "Verif.C102_passes",
    "Verif.C102_resolution",
    "Verif.C102_short",
    "Verif.C102_test"
   ],
   "note": "Proved: C102_lock (every run ends, monotonically, at a phase whose timing error is below the tolerance and not before), C102_resolution, C102_centre, C102_test, C102_passes (the whole test including its last assertion passes without distortion), C102_assertion (a lock implies the assertion for every FIR channel of the estimated length whose output is strong enough), C102_assertion_iff (what the assertion says). Violated as claims: C102_negative_grid (a finer grid of phases gives no finer lock), C102_negative_weak (a weak signal locks and fails the assertion, which is not normalized). Not covered: the autoregressive channel and the quantizer of the test between shaping and loop, incomplete periods, Gray coded PAM4 of PRBS7 and PRBS15 with the default bit order, whose echo is closer than the span of the pulse. Exact arithmetic."
  },
  {
   "property": "C103",
   "status": "proved",
   "theorems": [
    "Verif.C103_average",
    "Verif.C103_bound",
    "Verif.C103_channel",
    "Verif.C103_hamming",
    "Verif.C103_link",
    "Verif.C103_optimal",
    "Verif.C103_parity",
    "Verif.C103_perfect"
   ],
   "note": "C103_channel, C103_link, C103_bound, C103_perfect, C103_average, C103_optimal, C103_parity, C103_hamming. Exact arithmetic; the draws of np.random.randn are independent standard normal variables. The averages over the data are stated for a fixed crossover probability, since awgn measures the power of the particular record."
  },
  {
   "property": "C104",
   "status": "partial",
   "theorems": [
    "Verif.C104_buffer",
    "Verif.C104_delay",
    "Verif.C104_demapping_complete",
    "Verif.C104_mapping_complete",
    "Verif.C104_negative_delay",
    "Verif.C104_negative_ook",
    "Verif.C104_ook_polarity",
    "Verif.C104_pass"
   ],
   "note": "Proved: the tests pass (C104_pass), the mapping test is complete for symbolwise functions (C104_mapping_complete), what exactly the demapping test checks (C104_demapping_complete), the buffering test for an arbitrary function checks the right frames of its four calls and nothing else (C104_buffer), and the assertions of the delay test for arbitrary coefficients (C104_delay). Violated: the demapping test hands the inversion of OOK over as full_scale (test_main.py 331-332), so no behaviour for OOK with pn_inv=True can fail it (C104_negative_ook); it goes unnoticed because negative indices wrap and the polarity of OOK does not matter (C104_ook_polarity); the sinc coefficients pass the Lagrange test (C104_negative_delay). Exact arithmetic."
  },
  {
   "property": "C105",
   "status": "partial",
   "theorems": [
    "Verif.C105_autocorrelation",
    "Verif.C105_decimation",
    "Verif.C105_errors",
    "Verif.C105_estimated",
    "Verif.C105_four_levels",
    "Verif.C105_mismatch",
    "Verif.C105_mismatch_attained",
    "Verif.C105_sum"
   ],
   "note": "Proved: C105_decimation, C105_sum, C105_four_levels, C105_autocorrelation, C105_mismatch (attained: C105_mismatch_attained), C105_errors, C105_estimated. The example script violates its purpose: example_runs.py transmits NRZ (lines 13, 19) and estimates, slices and checks as PAM4 (lines 115, 222, 346). Not covered: the jitter, noise, CTLE and converter of the script between transmitter and estimator (the channel is an FIR filter), decisions fed back by the DFE instead of the true symbols. Exact arithmetic."
  },
  {
   "property": "C106",
   "status": "partial",
   "theorems": [
    "Verif.C106_dfe_partial",
    "Verif.C106_negative_ffe"
   ],
   "note": "Proved for the DFE test with hard decisions (C106_dfe_partial): up to eight zeros, if the period is at least 29 taps^2 symbols and the squared postcursors add up to less than 1/(8 taps), which opens the eye of the untrained receiver. False for the FFE test (C106_negative_ffe): with PRBS7 and three poles 3/10, which the test accepts, the loop runs into its limit of 100000 passes before the taps are within 1e-2. Missing: DFE channels with larger postcursors, FFE channels for which the test does pass, soft decisions, floating-point rounding (exact arithmetic)."
  },
  {
   "property": "C107",
   "status": "partial",
   "theorems": [
    "Verif.C107_bipolar",
    "Verif.C107_blind_bipolar",
    "Verif.C107_blind_conv",
    "Verif.C107_blind_linear",
    "Verif.C107_blind_manchester",
    "Verif.C107_conv_basic",
    "Verif.C107_conv_decoding",
    "Verif.C107_conv_feedback_partial",
    "Verif.C107_diff_manchester",
    "Verif.C107_differential",
    "Verif.C107_gray",
    "Verif.C107_line_decoding",
    "Verif.C107_linear",
    "Verif.C107_lock",
    "Verif.C107_lock_binary",
    "Verif.C107_manchester",
    "Verif.C107_mlt3",
    "Verif.C107_negative_lock_zero",
    "Verif.C107_prbs_analysis",
    "Verif.C107_prbs_gen",
    "Verif.C107_symbols"
   ],
   "note": "Proved, as equivalences for arbitrary implementations and single draws: C107_gray, C107_differential, C107_manchester, C107_bipolar, C107_mlt3, C107_diff_manchester, C107_line_decoding, C107_linear, C107_prbs_gen, C107_prbs_analysis, C107_symbols, C107_lock, C107_lock_binary, C107_conv_basic, C107_conv_feedback_partial, C107_conv_decoding. The tests violate the property in two ways: lock_pattern_to_signal_test with shift 0 cannot be passed by any function that returns one correlation value per position (C107_negative_lock_zero), and the tests of the decoders only see error-free codewords, so that decoders without error detection or correction, or convolutional decoders that return nothing, pass on every draw (C107_blind_manchester, C107_blind_bipolar, C107_blind_linear, C107_blind_conv). Arrays are compared as lists of equal length; the broadcasting of length-1 arrays by NumPy is not modelled. The economy variant of the checker test is not covered."
  },
  {
   "property": "C108",
   "status": "partial",
   "theorems": [
    "Verif.C108_decision_feedback",
    "Verif.C108_feed_forward",
    "Verif.C108_filter",
    "Verif.C108_genie",
    "Verif.C108_genie_error_free",
    "Verif.C108_interpolation",
    "Verif.C108_nyquist",
    "Verif.C108_phase_search",
    "Verif.C108_rx_example",
    "Verif.C108_rx_example2",
    "Verif.C108_symbol_spaced_taps_at_sample_rate"
   ],
   "note": "Proved: C108_filter, C108_feed_forward, C108_decision_feedback, C108_rx_example, C108_rx_example2, C108_phase_search, C108_interpolation, C108_nyquist, C108_genie, C108_genie_error_free. The script violates the property in rx_example, which filters the oversampled signal with symbol-spaced taps without upsampling them (C108_symbol_spaced_taps_at_sample_rate). Not covered: jitter, plots, the CTLE between channel and equalizer (C56), and that rx_example2 plots the equalized converter input but returns the equalized converter output."
  },
  {
   "property": "C109",
   "status": "proved",
   "theorems": [
    "Verif.C109_eye",
    "Verif.C109_one_tap_more",
    "Verif.C109_pam4_eye",
    "Verif.C109_peak_distortion",
    "Verif.C109_sufficient",
    "Verif.C109_sufficient_nrz"
   ],
   "note": "C109_sufficient (two and four levels), C109_sufficient_nrz (as many taps as cells), C109_peak_distortion, C109_eye, C109_pam4_eye; sharpness: C109_one_tap_more. Exact arithmetic, without noise; decisions after the first m - 1 symbols (the channel starts from zeros)."
  },
  {
   "property": "C11",
   "status": "partial",
   "theorems": [
    "Verif.C11_lock_finds_phase_partial",
    "Verif.C11_lock_rotation",
    "Verif.C11_negative_short"
   ],
   "note": "Proved over any ordered field for signals of at least one period, positive gain and arbitrary offset; the short-signal sentence is violated (C11_negative_short). Rounding of the correlation: C81; noise: C115."
  },
  {
   "property": "C110",
   "status": "partial",
   "theorems": [
    "Verif.C110_eye_plot",
    "Verif.C110_negative_pulse_show",
    "Verif.C110_negative_reconstruction",
    "Verif.C110_rcos_finite",
    "Verif.C110_reconstruction_completes",
    "Verif.C110_reconstruction_partial"
   ],
   "note": "The scripts violate the property: channel_reconstruction.py raises ValueError for all data of the form it loads, since the segment of the channel has one sample more than the interpolations (C110_negative_reconstruction; it completes exactly for a channel one sample shorter, C110_reconstruction_completes), and channel_example(pulse_show=True) raises ValueError for every pattern, since it plots the pair of signal and memory returned by pulse_shape (C110_negative_pulse_show). Proved: the plots before the comparison fit (part of C110_reconstruction_completes), agreement at the symbols and for polynomials without the surplus sample (C110_reconstruction_partial, sinc and Lagrange), finite raised cosine coefficients (C110_rcos_finite), eye diagrams fit their axes (C110_eye_plot). What Matplotlib draws is not modelled."
  },
  {
   "property": "C111",
   "status": "partial",
   "theorems": [
    "Verif.C111_history_partial",
    "Verif.C111_negative_history",
    "Verif.C111_negative_prev_seed",
    "Verif.C111_negative_shared",
    "Verif.C111_seed",
    "Verif.C111_set"
   ],
   "note": "The code violates the property: the equalizer keeps the arrays of its data object and its update works in place, so a second simulation made from the same data starts with trained taps and shares them (C111_negative_shared); set_ffe with an entry of the history lets later updates change the history (C111_negative_history); get_prev_seed always raises AttributeError (C111_negative_prev_seed). Proved: the history is exact for all programs that hand no history array to an equalizer (C111_history_partial); set_ffe/set_dfe accept exactly the configured lengths at any time (C111_set); get_seed continues the stream (C111_seed). Arrays are modelled as cells of a store; views are not. In the shipped program the update is behind the call of a missing function (C99), the gradients are therefore inputs."
  },
  {
   "property": "C112",
   "status": "partial",
   "theorems": [
    "Verif.C112_linear_union",
    "Verif.C112_ml_ball",
    "Verif.C112_ml_link",
    "Verif.C112_ml_union",
    "Verif.C112_negative_viterbi",
    "Verif.C112_viterbi_ball_partial",
    "Verif.C112_viterbi_link_partial"
   ],
   "note": "The code violates the property for the Viterbi decoder: for a rate 1/3 code whose words differ in three positions the exhaustive decoder loses a block of n steps with at most (3n-1)^2 p^2, decoding_conv_viterbi with at least (n-1) p (1-p)^(3n-1), for every block sent (C112_negative_viterbi). Proved: the link for both decoders (C112_ml_link; C112_viterbi_link_partial for codes whose transitions are identified by output and end state, see C97), union bound of the exhaustive decoder (C112_ml_union) and of decoding_linear by weights (C112_linear_union), correction up to half the distance (C112_ml_ball), Viterbi up to half the distance of merging transitions (C112_viterbi_ball_partial)."
  },
  {
   "property": "C113",
   "status": "proved",
   "theorems": [
    "Verif.C113_ar",
    "Verif.C113_decision",
    "Verif.C113_eye",
    "Verif.C113_law",
    "Verif.C113_matched",
    "Verif.C113_mean_training",
    "Verif.C113_pass",
    "Verif.C113_ridge"
   ],
   "note": "Law of the equalizer output (C113_law), exact error probability of the decisions and bound by the residual interference (C113_decision, C113_eye), all-pole channels (C113_ar), zero forcing and matched-filter bound (C113_matched), one LMS pass in noise (C113_pass), mean of the training on fresh noise (C113_mean_training), ridge regression (C113_ridge). Idealized: exact real arithmetic, the samples behind numpy.random.normal are independent standard normal. The mean training is for passes that drop no samples, ridge for passes that drop at least the first len(taps)-1 samples (as the test does)."
  },
  {
   "property": "C114",
   "status": "proved",
   "theorems": [
    "Verif.C114_binary",
    "Verif.C114_catastrophe",
    "Verif.C114_errors",
    "Verif.C114_first"
   ],
   "note": "Expected number of wrong decisions (C114_errors, C114_binary), law of the first wrong decision (C114_first), endless error propagation on alternating symbols (C114_catastrophe). Idealized: exact real arithmetic, the samples behind numpy.random.normal are independent standard normal; symbol rate, no initial conditions, the FFE tap and the feedback taps undo the response exactly."
  },
  {
   "property": "C115",
   "status": "proved",
   "theorems": [
    "Verif.C115_lock",
    "Verif.C115_lock_prbs",
    "Verif.C115_timing",
    "Verif.C115_timing_prbs",
    "Verif.C115_wrong_way"
   ],
   "note": "Law of the timing error and probabilities of the steps (C115_timing, C115_wrong_way, C115_timing_prbs), probability of a wrong lock (C115_lock, C115_lock_prbs). Idealized: exact real arithmetic, the samples behind numpy.random.normal are independent standard normal."
  },
  {
   "property": "C116",
   "status": "proved",
   "theorems": [
    "Verif.C116_best",
    "Verif.C116_ols",
    "Verif.C116_ridge"
   ],
   "note": "Laws of the coefficients and the mean residual (C116_ols), Gauss-Markov (C116_best), ridge regression (C116_ridge). Idealized: exact real arithmetic, the samples behind numpy.random.normal are independent standard normal."
  },
  {
   "property": "C117",
   "status": "proved",
   "theorems": [
    "Verif.C117_estimate",
    "Verif.C117_phase",
    "Verif.C117_taps"
   ],
   "note": "Law of the tap errors (C117_taps), probability of a wrong lock (C117_phase) and of a tap error (C117_estimate); the documented factor of C68 (taps divided by the variance of the averaged record) is kept in the statement. Idealized: exact real arithmetic, the samples behind numpy.random.normal are independent standard normal; NRZ, channel no longer than the estimated window."
  },
  {
   "property": "C118",
   "status": "proved",
   "theorems": [
    "Verif.C118_ffe",
    "Verif.C118_link",
    "Verif.C118_lock",
    "Verif.C118_lock_double",
    "Verif.C118_lock_prbs",
    "Verif.C118_lock_prbs_double",
    "Verif.C118_single_tap",
    "Verif.C118_timing",
    "Verif.C118_timing_double",
    "Verif.C118_timing_prbs"
   ],
   "note": "Lock (C118_lock, C118_lock_double, C118_lock_prbs, C118_lock_prbs_double), timing detector (C118_timing, C118_timing_double, C118_timing_prbs), equalizer (C118_ffe, C118_single_tap) and link (C118_link). Idealized: unbounded exponent; correlations and convolutions by direct summation in any order (SciPy may choose an FFT for long inputs, for which C81 takes the error bound as a hypothesis)."
  },
  {
   "property": "C119",
   "status": "partial",
   "theorems": [
    "Verif.C119_bin2uint",
    "Verif.C119_bits_roundtrip",
    "Verif.C119_demapping_partial",
    "Verif.C119_gray_partial",
    "Verif.C119_index",
    "Verif.C119_int_roundtrip",
    "Verif.C119_mapping",
    "Verif.C119_negative_slicer",
    "Verif.C119_quantize_partial",
    "Verif.C119_slicer_agrees",
    "Verif.C119_slicer_errors",
    "Verif.C119_slicer_partial",
    "Verif.C119_uint2bin"
   ],
   "note": "Bits and integers: proved. Mapping: proved. Demapping and Gray coding: with the restrictions of C18 and C16. The claim is false for slicer and quantize with three or more axes and for matrices without rows, which come back as vectors (C119_negative_slicer); proved for vectors and matrices with rows. Not modelled: strides, integer overflow beyond 64 bits."
  },
  {
   "property": "C12",
   "status": "partial",
   "theorems": [
    "Verif.C12_bits_roundtrip_partial",
    "Verif.C12_negative_single_symbol"
   ],
   "note": "Proved for all bit vectors, alphabets 2^b and flags except a single multi-bit symbol with a bit-order/MSB/LSB option, where the code raises (C12_negative_single_symbol)."
  },
  {
   "property": "C120",
   "status": "proved",
   "theorems": [
    "Verif.C120_ctle",
    "Verif.C120_error_free",
    "Verif.C120_feedback",
    "Verif.C120_feedback_bits",
    "Verif.C120_gaussian",
    "Verif.C120_gaussian_feedback",
    "Verif.C120_symbols"
   ],
   "note": "CTLE (C120_ctle), feed-forward equalizer (C120_symbols, C120_error_free), decision feedback (C120_feedback, C120_feedback_bits); Gaussian noise (C120_gaussian, C120_gaussian_feedback). FIR channels (with an IIR response the channel object cancels or raises, C72); in the other theorems the noise samples are arguments within a bound; exact arithmetic. The taps are given; their convergence is treated in C99 and C100."
  },
  {
   "property": "C121",
   "status": "proved",
   "theorems": [
    "Verif.C121_analysis",
    "Verif.C121_one_period",
    "Verif.C121_part_period",
    "Verif.C121_suite",
    "Verif.C121_two_periods"
   ],
   "note": "C121_analysis, C121_two_periods, C121_one_period, C121_part_period, C121_suite. Idealized: numpy.random.random and random.randint draw independently and uniformly; rotation, errors and lengths are independent."
  },
  {
   "property": "C122",
   "status": "partial",
   "theorems": [
    "Verif.C122_mean",
    "Verif.C122_mean_complex",
    "Verif.C122_mean_default",
    "Verif.C122_negative_noise_level",
    "Verif.C122_negative_tone",
    "Verif.C122_window"
   ],
   "note": "C122_mean gives the exact expectation for real signals and C122_mean_complex for complex signals in circular noise (two-sided spectrum), in every mode but dBc. The documented meaning of the modes fails: C122_negative_noise_level (default window, both sidebands) and C122_negative_tone. welch and get_window as in SciPy, exact arithmetic. C122_window bounds the default window for every length, so C122_mean_default needs no condition on the window."
  },
  {
   "property": "C123",
   "status": "partial",
   "theorems": [
    "Verif.C123_loss_probability",
    "Verif.C123_negative_one_error",
    "Verif.C123_retry"
   ],
   "note": "C123_retry (which window is used and what is reported, both cases), C123_loss_probability (two-sided). The documented report fails: C123_negative_one_error, and the over-counted correct bits in C123_retry. Thresholds beyond th + e <= K 2^(n-1), where a wrong seed can be accepted, are covered only by C09_economy_sound."
  },
  {
   "property": "C124",
   "status": "proved",
   "theorems": [
    "Verif.C124_bipolar",
    "Verif.C124_diff_manchester",
    "Verif.C124_differential",
    "Verif.C124_manchester",
    "Verif.C124_mlt3"
   ],
   "note": "C124_manchester, C124_bipolar, C124_diff_manchester, C124_mlt3, C124_differential. The starting conditions of the coders show in the means of the first elements, which are stated. One-dimensional input."
  },
  {
   "property": "C125",
   "status": "proved",
   "theorems": [
    "Verif.C125_error_law",
    "Verif.C125_power",
    "Verif.C125_snr"
   ],
   "note": "Real arithmetic. C125_error_law gives the joint law of code and error (all functions of the code, all continuous functions of the error); C125_power and C125_snr are read off from it. frac_bits >= 0 (negative values are not scaled by the code, see C21)."
  },
  {
   "property": "C126",
   "status": "partial",
   "theorems": [
    "Verif.C126_bipolar",
    "Verif.C126_bipolar_detect_partial",
    "Verif.C126_diff_manchester",
    "Verif.C126_diff_manchester_received",
    "Verif.C126_differential_code",
    "Verif.C126_differential_partial",
    "Verif.C126_differential_single",
    "Verif.C126_manchester",
    "Verif.C126_manchester_odd",
    "Verif.C126_manchester_received",
    "Verif.C126_mlt3_code",
    "Verif.C126_mlt3_partial",
    "Verif.C126_negative_detect",
    "Verif.C126_negative_differential",
    "Verif.C126_negative_mlt3",
    "Verif.C126_rejects"
   ],
   "note": "Proved for the coders on every shape and for the decoders of both Manchester codes and of the bipolar code without error detection. Missing because the code violates it: decoding_differential runs along the last axis while coding runs through the whole array (C126_negative_differential: fails for every shape with two or more rows; C126_differential_partial says exactly which entries change), decoding_mlt3 and bipolar error detection raise unless all axes but the first have length 1, and 0-d arrays raise (C126_rejects)."
  },
  {
   "property": "C127",
   "status": "partial",
   "theorems": [
    "Verif.C127_below_nyquist_partial",
    "Verif.C127_coefficients_partial",
    "Verif.C127_converges",
    "Verif.C127_negative_nyquist",
    "Verif.C127_negative_sinc",
    "Verif.C127_oversample_partial",
    "Verif.C127_response_partial",
    "Verif.C127_sinusoid_partial"
   ],
   "note": "Error bounds proved; convergence proved for every frequency below the Nyquist frequency (C127_converges), false at it (C127_negative_nyquist). Missing because the code violates it: with int64 denominators only orders up to 20 (C52_negative_overflow), and sinc interpolation changes constant signals for every order (C127_negative_sinc)."
  },
  {
   "property": "C128",
   "status": "partial",
   "theorems": [
    "Verif.C128_coefficients",
    "Verif.C128_double_partial",
    "Verif.C128_gain_partial",
    "Verif.C128_oversample_partial",
    "Verif.C128_samples"
   ],
   "note": "Proved for all precisions with unbounded exponent (no overflow, no underflow). With int64 denominators the comparison with the signal holds only for orders up to 20 (C52_negative_overflow); the comparison with the exact filter (C128_coefficients, C128_samples) holds for every order."
  },
  {
   "property": "C129",
   "status": "proved",
   "theorems": [
    "Verif.C129_awgn",
    "Verif.C129_double",
    "Verif.C129_lms",
    "Verif.C129_noise_level",
    "Verif.C129_power",
    "Verif.C129_rms",
    "Verif.C129_signal_power"
   ],
   "note": "p-bit arithmetic with unbounded exponent. The powers x**2 of a scalar and 10**(snr/10) are parameters with an error bound (C129_noise_level, C129_awgn, C129_double); the distances in the slicer are exact."
  },
  {
   "property": "C13",
   "status": "partial",
   "theorems": [
    "Verif.C13_negative_single_symbol",
    "Verif.C13_symbols_roundtrip_partial"
   ],
   "note": "Same as C12 for the other direction."
  },
  {
   "property": "C130",
   "status": "proved",
   "theorems": [
    "Verif.C130_pass",
    "Verif.C130_precision",
    "Verif.C130_train"
   ],
   "note": "p-bit arithmetic with unbounded exponent. C130_pass covers a pass with any number of dropped samples, as in the tests; C130_train and C130_precision are for whole records (as C95_ffe). The reference symbols are parameters, taps have delays 0 and up."
  },
  {
   "property": "C131",
   "status": "proved",
   "theorems": [
    "Verif.C131_loop",
    "Verif.C131_pass",
    "Verif.C131_stops",
    "Verif.C131_test_passes",
    "Verif.C131_weak_signal_fails"
   ],
   "note": "Exact arithmetic, whole records (no samples dropped; the test drops as many samples as taps), reference symbols as a parameter (the test aligns them by lock_pattern_to_signal, C11), taps with delays 0 and up. C131_weak_signal_fails shows that the lower bound on lam is needed."
  },
  {
   "property": "C14",
   "status": "partial",
   "theorems": [
    "Verif.C14_negative_tolerance",
    "Verif.C14_real_arithmetic",
    "Verif.C14_rejects_partial",
    "Verif.C14_symbol_range",
    "Verif.C14_symbol_value",
    "Verif.C14_tolerance"
   ],
   "note": "Length, range, values and rejection proved, and the real-arithmetic function with np.isclose is proved equal to the exact one for every count up to 16384 and every power of two. Beyond 16384 the rejection claim is false: 16385 is accepted (C14_negative_tolerance). Rounding of np.log2 itself is not modelled."
  },
  {
   "property": "C15",
   "status": "proved",
   "theorems": [
    "Verif.C15_gray_formula",
    "Verif.C15_gray_vector",
    "Verif.C15_gray_zero"
   ],
   "note": "All level counts, plus closed form i xor i/2."
  },
  {
   "property": "C16",
   "status": "partial",
   "theorems": [
    "Verif.C16_adjacent_one_bit",
    "Verif.C16_gray_roundtrip_partial",
    "Verif.C16_negative_pam3"
   ],
   "note": "NRZ, OOK, PAM4 proved; PAM3 is violated (C16_negative_pam3). Also: adjacent PAM4 levels differ in one bit."
  },
  {
   "property": "C17",
   "status": "proved",
   "theorems": [
    "Verif.C17_mapping_levels",
    "Verif.C17_mapping_roundtrip"
   ],
   "note": "All constellations, flags, valid symbol vectors (exact real arithmetic), plus explicit levels and guard branches."
  },
  {
   "property": "C18",
   "status": "partial",
   "theorems": [
    "Verif.C18_demapping_nearest_partial",
    "Verif.C18_levels_pam4",
    "Verif.C18_negative_above",
    "Verif.C18_negative_mutates",
    "Verif.C18_negative_wrap",
    "Verif.C18_total"
   ],
   "note": "Nearest decision proved inside the decision regions; C18_total gives the decision of every sample, ties included; violated outside the decision regions (index wraps or IndexError) and with pn_inv (caller array negated in place): C18_negative_*."
  },
  {
   "property": "C19",
   "status": "proved",
   "theorems": [
    "Verif.C19_levels",
    "Verif.C19_levels_documented"
   ],
   "note": "All constellations; exact real arithmetic."
  },
  {
   "property": "C20",
   "status": "proved",
   "theorems": [
    "Verif.C20_slicer_default",
    "Verif.C20_slicer_errors",
    "Verif.C20_slicer_idempotent",
    "Verif.C20_slicer_mat",
    "Verif.C20_slicer_monotone",
    "Verif.C20_slicer_vec"
   ],
   "note": "1-D and 2-D arrays over any ordered field, any non-empty level list. 3-D inputs (flattened by the code) not modelled; 1-D Python lists raise (C20_slicer_errors)."
  },
  {
   "property": "C21",
   "status": "partial",
   "theorems": [
    "Verif.C21_negative_default",
    "Verif.C21_negative_negfrac",
    "Verif.C21_negative_negfrac_witness",
    "Verif.C21_quantize_mono_idem_partial",
    "Verif.C21_quantize_partial"
   ],
   "note": "Proved for u/s/ss with frac_bits >= 0; violated for the default type (always ValueError) and negative frac_bits (ignored): C21_negative_*."
  },
  {
   "property": "C22",
   "status": "partial",
   "theorems": [
    "Verif.C22_code_decode_partial",
    "Verif.C22_code_valid",
    "Verif.C22_decode_code_partial",
    "Verif.C22_negative_2d"
   ],
   "note": "1-D arrays of any length proved in both directions; 2-D arrays violate the property (C22_negative_2d): the coder flattens, the decoder works per row."
  },
  {
   "property": "C23",
   "status": "proved",
   "theorems": [
    "Verif.C23_error_propagation",
    "Verif.C23_rotation"
   ],
   "note": "All constellations, non-empty vectors, constants, positions and replacement values."
  },
  {
   "property": "C24",
   "status": "proved",
   "theorems": [
    "Verif.C24_cells",
    "Verif.C24_odd_rejected",
    "Verif.C24_received",
    "Verif.C24_roundtrip",
    "Verif.C24_run_length"
   ],
   "note": "1-D arrays; 2-D arrays: C84."
  },
  {
   "property": "C25",
   "status": "proved",
   "theorems": [
    "Verif.C25_alternation",
    "Verif.C25_roundtrip",
    "Verif.C25_running_sum"
   ],
   "note": "1-D arrays; 2-D arrays: C84."
  },
  {
   "property": "C26",
   "status": "partial",
   "theorems": [
    "Verif.C26_detection_partial",
    "Verif.C26_negative_leading",
    "Verif.C26_valid_clean"
   ],
   "note": "Valid vectors and exact positions proved, signs proved from the first +1 mark on; the sign of leading -1 marks is violated (C26_negative_leading)."
  },
  {
   "property": "C27",
   "status": "proved",
   "theorems": [
    "Verif.C27_cycle",
    "Verif.C27_empty",
    "Verif.C27_negative_initial_level",
    "Verif.C27_roundtrip",
    "Verif.C27_steps"
   ],
   "note": "All non-empty binary vectors; docstring disagreement on the initial level recorded (C27_negative_initial_level)."
  },
  {
   "property": "C28",
   "status": "proved",
   "theorems": [
    "Verif.C28_doc_example_inverted",
    "Verif.C28_polarity",
    "Verif.C28_roundtrip",
    "Verif.C28_transitions"
   ],
   "note": "All binary vectors, both polarities."
  },
  {
   "property": "C29",
   "status": "partial",
   "theorems": [
    "Verif.C29_accepts",
    "Verif.C29_coders_reject",
    "Verif.C29_negative",
    "Verif.C29_rejects_partial"
   ],
   "note": "Exact acceptance condition proved; rejection of every non-binary vector is violated (C29_negative)."
  },
  {
   "property": "C30",
   "status": "proved",
   "theorems": [
    "Verif.C30_additive",
    "Verif.C30_concat",
    "Verif.C30_encoder",
    "Verif.C30_no_rows"
   ],
   "note": "Arithmetic of G and data modelled over exact integers."
  },
  {
   "property": "C31",
   "status": "proved",
   "theorems": [
    "Verif.C31_roundtrip"
   ],
   "note": ""
  },
  {
   "property": "C32",
   "status": "proved",
   "theorems": [
    "Verif.C32_corrects_errors",
    "Verif.C32_maximum_likelihood"
   ],
   "note": ""
  },
  {
   "property": "C33",
   "status": "partial",
   "theorems": [
    "Verif.C33_error_prob_partial",
    "Verif.C33_negative_mutates"
   ],
   "note": "Same bits and reported values proved; the sentence that the caller array is untouched is false: the corrected codewords are written into the caller pattern (C33_negative_mutates)."
  },
  {
   "property": "C34",
   "status": "proved",
   "theorems": [
    "Verif.C34_additive",
    "Verif.C34_causal",
    "Verif.C34_double",
    "Verif.C34_double_rounding",
    "Verif.C34_encoder"
   ],
   "note": "Arithmetic of lfilter is modelled with an arbitrary rounding function that is exact on integers up to 2^53; IEEE rounding of integers is one instance (C34_double_rounding)."
  },
  {
   "property": "C35",
   "status": "partial",
   "theorems": [
    "Verif.C35_float_short_partial",
    "Verif.C35_negative_float",
    "Verif.C35_negative_length_one",
    "Verif.C35_register_partial",
    "Verif.C35_register_unique"
   ],
   "note": "Proved for exact arithmetic and for double precision while the recursion stays below 2^53; false for longer patterns (C35_negative_float) and for transfer functions with a single coefficient (C35_negative_length_one)."
  },
  {
   "property": "C36",
   "status": "partial",
   "theorems": [
    "Verif.C36_negative_mixed",
    "Verif.C36_no_feedback",
    "Verif.C36_trellis_encoder_partial"
   ],
   "note": "Proved for codes without feedback and for codes whose feedback polynomials have the length of the transfer functions; false for codes mixing inputs with and without feedback (C36_negative_mixed)."
  },
  {
   "property": "C37",
   "status": "proved",
   "theorems": [
    "Verif.C37_corrects_errors",
    "Verif.C37_error_free",
    "Verif.C37_maximum_likelihood"
   ],
   "note": "The encoder side of the round trip uses exact arithmetic (see C34/C35 for double precision); codes restricted to those the trellis construction supports (C36)."
  },
  {
   "property": "C38",
   "status": "partial",
   "theorems": [
    "Verif.C38_error_free_partial",
    "Verif.C38_negative_parallel",
    "Verif.C38_stream_partial"
   ],
   "note": "Proved for codes in which every input has memory; false with parallel transitions (C38_negative_parallel)."
  },
  {
   "property": "C39",
   "status": "partial",
   "theorems": [
    "Verif.C39_negative_greedy",
    "Verif.C39_no_block",
    "Verif.C39_single_step_partial"
   ],
   "note": "False: survivors are selected by the last step only (C39_negative_greedy). Proved for blocks of one step; error-free blocks of any length are C38; what the decoder does for every received block is C97."
  },
  {
   "property": "C40",
   "status": "proved",
   "theorems": [
    "Verif.C40_bin_perm",
    "Verif.C40_hamming"
   ],
   "note": ""
  },
  {
   "property": "C41",
   "status": "proved",
   "theorems": [
    "Verif.C41_bits_roundtrip",
    "Verif.C41_int_roundtrip",
    "Verif.C41_msb_first"
   ],
   "note": "Unbounded integers instead of int64."
  },
  {
   "property": "C42",
   "status": "partial",
   "theorems": [
    "Verif.C42_clip_keeps",
    "Verif.C42_clip_partial",
    "Verif.C42_cover_partial",
    "Verif.C42_degenerate",
    "Verif.C42_frames",
    "Verif.C42_negative_clip_keeps",
    "Verif.C42_negative_clip_removes",
    "Verif.C42_negative_cover"
   ],
   "note": "Frame contents, number of frames and errors proved for every signal, length, overlap and delay. Coverage fails for signals not longer than the overlap (C42_negative_cover); clip does not remove exactly the incomplete frame (C42_clip_keeps, C42_negative_clip_keeps, C42_negative_clip_removes)."
  },
  {
   "property": "C43",
   "status": "proved",
   "theorems": [
    "Verif.C43_append",
    "Verif.C43_decimate",
    "Verif.C43_upsample",
    "Verif.C43_zero_rate",
    "Verif.C43_zoh"
   ],
   "note": ""
  },
  {
   "property": "C44",
   "status": "proved",
   "theorems": [
    "Verif.C44_chunks",
    "Verif.C44_difference_equation",
    "Verif.C44_linear",
    "Verif.C44_only_solution",
    "Verif.C44_rejects"
   ],
   "note": "Exact field arithmetic; scipy.signal.lfilter is modelled by its documented recursion. Empty signals with a single denominator coefficient raise in SciPy and are excluded."
  },
  {
   "property": "C45",
   "status": "partial",
   "theorems": [
    "Verif.C45_filter",
    "Verif.C45_filter_init",
    "Verif.C45_negative_gain",
    "Verif.C45_negative_integer",
    "Verif.C45_same",
    "Verif.C45_split_filter",
    "Verif.C45_split_tii",
    "Verif.C45_tii",
    "Verif.C45_tii_rejects"
   ],
   "note": "Difference equation, equality of both classes and independence of the splitting proved for all coefficients with at least one memory cell and float chunks. A pure gain makes FilterTII raise IndexError (C45_negative_gain); integer chunks truncate the outputs (C45_negative_integer). Exact field arithmetic."
  },
  {
   "property": "C46",
   "status": "partial",
   "theorems": [
    "Verif.C46_chunks_partial",
    "Verif.C46_convolution",
    "Verif.C46_negative_short_chunk",
    "Verif.C46_rejects",
    "Verif.C46_single_tap"
   ],
   "note": "Convolution proved for all taps, signals and memories; streaming proved for chunks at least as long as the filter. A shorter chunk returns a memory the next call rejects with TypeError (C46_negative_short_chunk). Exact field arithmetic."
  },
  {
   "property": "C47",
   "status": "partial",
   "theorems": [
    "Verif.C47_chunks_partial",
    "Verif.C47_negative_late_phase",
    "Verif.C47_recursion",
    "Verif.C47_recursion_symbol_rate",
    "Verif.C47_rejects"
   ],
   "note": "Recursion proved for every osr, phase and memory. Streaming proved for osr=1 (all non-empty chunks) and for osr>1 with phase+osr/2 < osr and chunks of whole symbols; for later phases the last decision of a chunk is lost (C47_negative_late_phase). Exact field arithmetic."
  },
  {
   "property": "C48",
   "status": "proved",
   "theorems": [
    "Verif.C48_equalized",
    "Verif.C48_link"
   ],
   "note": "Also proved for any FFE and symbols before the first one. Exact field arithmetic."
  },
  {
   "property": "C49",
   "status": "partial",
   "theorems": [
    "Verif.C49_negative_integer",
    "Verif.C49_same"
   ],
   "note": "Proved for every split into float chunks; integer chunks truncate the outputs of the class (C49_negative_integer)."
  },
  {
   "property": "C50",
   "status": "partial",
   "theorems": [
    "Verif.C50_chunks",
    "Verif.C50_negative_imp",
    "Verif.C50_negative_zero_rolloff",
    "Verif.C50_rect",
    "Verif.C50_rejects",
    "Verif.C50_superposition"
   ],
   "note": "Length, superposition, rect as delayed hold and streaming proved over the reals for rect, sinc, rcos, rrc. The documented name imp always raises ValueError (C50_negative_imp), and rcos/rrc with roll-off 0 raise ZeroDivisionError (C50_negative_zero_rolloff). Random jitter: see C77."
  },
  {
   "property": "C51",
   "status": "proved",
   "theorems": [
    "Verif.C51_nyquist"
   ],
   "note": "Real arithmetic."
  },
  {
   "property": "C52",
   "status": "partial",
   "theorems": [
    "Verif.C52_impulse_partial",
    "Verif.C52_negative_overflow",
    "Verif.C52_order_zero",
    "Verif.C52_reproduces_partial",
    "Verif.C52_sum_partial"
   ],
   "note": "Proved for every order with unbounded integer denominators and for orders up to 20 with the int64 denominators of the code; from order 21 on they overflow (C52_negative_overflow). Exact field arithmetic."
  },
  {
   "property": "C53",
   "status": "partial",
   "theorems": [
    "Verif.C53_negative_overflow",
    "Verif.C53_polynomial_partial",
    "Verif.C53_rejects",
    "Verif.C53_samples"
   ],
   "note": "Sample count, kept samples and FIR form proved for every method and order; exactness on polynomials for every order with unbounded denominators, up to 20 with int64 (C53_negative_overflow)."
  },
  {
   "property": "C54",
   "status": "proved",
   "theorems": [
    "Verif.C54_gradients",
    "Verif.C54_rejects",
    "Verif.C54_shape",
    "Verif.C54_unseen_tap",
    "Verif.C54_zero_error"
   ],
   "note": "Real arithmetic; blocks with equal input and output lengths, DFE delays not negative; the taps a block cannot see give NaN (C54_unseen_tap)."
  },
  {
   "property": "C55",
   "status": "proved",
   "theorems": [
    "Verif.C55_early_late",
    "Verif.C55_rejects",
    "Verif.C55_reverse",
    "Verif.C55_scale",
    "Verif.C55_sign"
   ],
   "note": "Exact arithmetic in any ordered field; a single symbol has no defined result."
  },
  {
   "property": "C56",
   "status": "partial",
   "theorems": [
    "Verif.C56_chunks",
    "Verif.C56_ctle",
    "Verif.C56_dc_gain_partial",
    "Verif.C56_negative_improper",
    "Verif.C56_negative_trim",
    "Verif.C56_rejects",
    "Verif.C56_stable_partial",
    "Verif.C56_tustin_partial",
    "Verif.C56_zero_frequency"
   ],
   "note": "Real arithmetic. Tustin transform and DC gain proved unless SciPy drops a leading numerator coefficient of magnitude at most 1e-14 (C56_negative_trim); stability proved for at least as many poles as zeros, refuted for every filter with more zeros than poles (C56_negative_improper)."
  },
  {
   "property": "C57",
   "status": "proved",
   "theorems": [
    "Verif.C57_axis",
    "Verif.C57_column_sum",
    "Verif.C57_counts",
    "Verif.C57_histogram",
    "Verif.C57_interpolated",
    "Verif.C57_negative_axis",
    "Verif.C57_negative_decimation",
    "Verif.C57_rejects"
   ],
   "note": "Real arithmetic for the whole function; the histogram itself also for rounded indices and edges (C57_histogram). Diagrams of lower oversampling than the signal are not decimated (C57_negative_decimation); with interpolation the first column is half a unit interval late (C57_interpolated); the returned amplitude axis is not the centres of the bins (C57_negative_axis)."
  },
  {
   "property": "C58",
   "status": "partial",
   "theorems": [
    "Verif.C58_energy",
    "Verif.C58_equalizer",
    "Verif.C58_exact_partial",
    "Verif.C58_negative_overflow",
    "Verif.C58_negative_window",
    "Verif.C58_normalize",
    "Verif.C58_optimal_mirrored",
    "Verif.C58_optimal_partial",
    "Verif.C58_recovers_partial",
    "Verif.C58_regularization",
    "Verif.C58_solver",
    "Verif.C58_system"
   ],
   "note": "Proved for every row when min(postcursors, DFE taps) <= 1. For more, the last rows use mirrored decisions (C58_negative_overflow; C58_optimal_mirrored states what is solved then). The window of the equalizer output is not the one a synchronised reference needs (C58_negative_window). The least squares solver is assumed to return a minimiser."
  },
  {
   "property": "C59",
   "status": "proved",
   "theorems": [
    "Verif.C59_channel",
    "Verif.C59_estimate",
    "Verif.C59_expected",
    "Verif.C59_measured",
    "Verif.C59_negative_short",
    "Verif.C59_ratio",
    "Verif.C59_single"
   ],
   "note": "Real arithmetic; the standard normal samples are an arbitrary list. The estimate exceeds the actual mean power by (power-mean^2)/(N-1) (C59_estimate, C59_negative_short)."
  },
  {
   "property": "C60",
   "status": "proved",
   "theorems": [
    "Verif.C60_dispatch",
    "Verif.C60_exists",
    "Verif.C60_intercept",
    "Verif.C60_negative_sklearn",
    "Verif.C60_ols",
    "Verif.C60_pinv",
    "Verif.C60_ridge",
    "Verif.C60_ridge_singular",
    "Verif.C60_ridge_zero"
   ],
   "note": "Exact arithmetic in any ordered field; numpy pinv is assumed to be the Moore-Penrose inverse. The sklearn-based ridge_regression differs from the manual variant (C60_negative_sklearn)."
  },
  {
   "property": "C61",
   "status": "partial",
   "theorems": [
    "Verif.C61_both_flags_two_level_partial",
    "Verif.C61_conv_partial",
    "Verif.C61_linear_partial",
    "Verif.C61_negative_both_flags_pam4",
    "Verif.C61_negative_differential_pam4",
    "Verif.C61_negative_differential_two_level",
    "Verif.C61_negative_gray_pam4",
    "Verif.C61_negative_gray_two_level",
    "Verif.C61_negative_pam3",
    "Verif.C61_negative_shipped",
    "Verif.C61_negative_two_stages",
    "Verif.C61_single_stage_partial"
   ],
   "note": "The claim is false for the code: the Gray and differential flags are exchanged in the decoder and the binary decoders run in encoder order. Proved: the decoder inverts the encoder with the outer codes off and one line code, linear code or convolutional code on, and with both outer flags on two levels. The negative theorems give the exact extent of the failure for two levels and PAM4, for two line codes, for three levels and for the shipped configuration."
  },
  {
   "property": "C62",
   "status": "partial",
   "theorems": [
    "Verif.C62_cdr_only_partial",
    "Verif.C62_clock_recovery",
    "Verif.C62_negative_attribute_error",
    "Verif.C62_negative_never_done"
   ],
   "note": "The claim is false for the code: for all histories the loop never reaches its end state (and as shipped the first chunk raises AttributeError because cdsp.rx.lms_grad does not exist). Proved: the loop with clock recovery alone ends exactly at the first zero phase step, and the phase follows the steps until then also while the LMS adaptation is on (C62_clock_recovery)."
  },
  {
   "property": "C63",
   "status": "proved",
   "theorems": [
    "Verif.C63_rcos",
    "Verif.C63_rrc"
   ],
   "note": "Real arithmetic; rrc for times that are exactly singular or farther than 1e-8 (the tolerance of np.isclose) from the singular times."
  },
  {
   "property": "C64",
   "status": "partial",
   "theorems": [
    "Verif.C64_negative_default",
    "Verif.C64_negative_half",
    "Verif.C64_rcos_partial",
    "Verif.C64_sinc"
   ],
   "note": "sinc proved; rcos proved unless a tap meets a singular time, where the code divides by zero, e.g. for the default roll-off 0.5 with zero delay (C64_negative_default)."
  },
  {
   "property": "C65",
   "status": "proved",
   "theorems": [
    "Verif.C65_gradients",
    "Verif.C65_negative_doc"
   ],
   "note": "Real arithmetic. The documented formula without the factor is refuted by C65_negative_doc."
  },
  {
   "property": "C66",
   "status": "partial",
   "theorems": [
    "Verif.C66_gradient",
    "Verif.C66_negative_flag",
    "Verif.C66_negative_objective",
    "Verif.C66_path",
    "Verif.C66_rejects",
    "Verif.C66_stationary"
   ],
   "note": "Path, stopping rule, gradient and stationary points proved for the objective ||Aw-b||^2/(2n)+lambda||w||_1 with n the number of columns; the documented objective is another one (C66_negative_objective), and reached_tol is wrong in the last step (C66_negative_flag)."
  },
  {
   "property": "C67",
   "status": "proved",
   "theorems": [
    "Verif.C67_empty",
    "Verif.C67_power",
    "Verif.C67_scale"
   ],
   "note": "Real and complex arithmetic."
  },
  {
   "property": "C68",
   "status": "proved",
   "theorems": [
    "Verif.C68_branches",
    "Verif.C68_gain",
    "Verif.C68_negative_postcoding",
    "Verif.C68_negative_scale",
    "Verif.C68_optimal",
    "Verif.C68_recovers",
    "Verif.C68_recovers_phase"
   ],
   "note": "Real arithmetic, any exact least squares solver. The documentation promises the FIR of the channel: without normalize it is scaled by the inverse variance of the capture, so that a gain of two is reported below one (C68_gain, C68_negative_scale). The argument pn_inv_postcoding is ignored by the code: an inverted capture gives a wrong channel (C68_negative_postcoding). For OOK/NRZ exact recovery is proved for captures of at least two periods, the length of the reference pattern."
  },
  {
   "property": "C69",
   "status": "partial",
   "theorems": [
    "Verif.C69_negative_window",
    "Verif.C69_optimal_partial",
    "Verif.C69_recovers_partial",
    "Verif.C69_short",
    "Verif.C69_system"
   ],
   "note": "Proved for dfe_taps <= ffe_postcursor and dfe_taps <= 1 (C69_optimal_partial, C69_recovers_partial); the reduction to equalization_estimation for all tap counts (C69_system, C69_short). For dfe_taps > ffe_postcursor the equalizer is fitted to a later symbol (C69_negative_window); for more DFE taps see C58_negative_overflow."
  },
  {
   "property": "C70",
   "status": "partial",
   "theorems": [
    "Verif.C70_accepts_iff",
    "Verif.C70_dBc_scale_invariant",
    "Verif.C70_default_rbw",
    "Verif.C70_mode_factors",
    "Verif.C70_negative_default_rbw_short",
    "Verif.C70_negative_modes",
    "Verif.C70_negative_no_dc",
    "Verif.C70_onesided",
    "Verif.C70_spectrum",
    "Verif.C70_tone"
   ],
   "note": "Proved: exact acceptance condition, closed-form power factor of every mode, amplitude independence of dBc, calibration for complex tones, non-negativity and frequency grid. The documented usability of the default bandwidth and of mode 'dBc/Hz ' is false (negative theorems), and a constant component is never shown. scipy's welch is modelled in exact arithmetic from its documentation; the plot is not modelled."
  },
  {
   "property": "C71",
   "status": "partial",
   "theorems": [
    "Verif.C71_default_levels",
    "Verif.C71_negative_pam4",
    "Verif.C71_recovered_partial"
   ],
   "note": "Proved when the receiver factor equals the largest unscaled level (1 for two levels, 3 for PAM4 and so on). For PAM4 with a factor below 2, as shipped, the claim is false: only symbols 1 and 2 can be returned (negative theorem). Exact arithmetic."
  },
  {
   "property": "C72",
   "status": "partial",
   "theorems": [
    "Verif.C72_chunks",
    "Verif.C72_default",
    "Verif.C72_negative_iir",
    "Verif.C72_negative_iir_error",
    "Verif.C72_negative_unknown_type",
    "Verif.C72_noise",
    "Verif.C72_response_partial"
   ],
   "note": "Proved for FIR responses: response (with given coefficients and, C72_default, without), chunked operation and noise scaling. With an IIR response the claim is false (negative theorems: the channel cancels, or raises); an unknown channel type returns None. Random samples are arguments of the model; exact arithmetic."
  },
  {
   "property": "C73",
   "status": "partial",
   "theorems": [
    "Verif.C73_at_most_half",
    "Verif.C73_empty",
    "Verif.C73_full_period",
    "Verif.C73_generator",
    "Verif.C73_least_errors_partial",
    "Verif.C73_negative_short",
    "Verif.C73_negative_slips"
   ],
   "note": "Generator proved in full. check_ber is proved to report the minimum over all phases for chunks of at most a period and the exact ratio for longer chunks with fewer than 2^(n-2) errors in the first period; the negative theorems show that slips and short chunks are never reported."
  },
  {
   "property": "C74",
   "status": "partial",
   "theorems": [
    "Verif.C74_chunks",
    "Verif.C74_conversion_partial",
    "Verif.C74_negative_phase",
    "Verif.C74_phase",
    "Verif.C74_rejects"
   ],
   "note": "Proved for documented number formats and non-negative phases; chunked sampling proved for phases below the sampling step, with a negative theorem for larger ones. Exact arithmetic."
  },
  {
   "property": "C75",
   "status": "partial",
   "theorems": [
    "Verif.C75_accepts",
    "Verif.C75_decision_feedback",
    "Verif.C75_default_delay_partial",
    "Verif.C75_feed_forward_partial",
    "Verif.C75_negative_short_chunk"
   ],
   "note": "Proved: acceptance, feedback equalizer on arbitrary non-empty chunks, feed-forward equalizer on chunks at least as long as the filter, default delay. Negative theorem for shorter chunks without feedback. Exact arithmetic."
  },
  {
   "property": "C76",
   "status": "proved",
   "theorems": [
    "Verif.C76_runs",
    "Verif.C76_shift_and_add",
    "Verif.C76_superposition",
    "Verif.C76_window_count"
   ],
   "note": ""
  },
  {
   "property": "C77",
   "status": "proved",
   "theorems": [
    "Verif.C77_cubic",
    "Verif.C77_linear",
    "Verif.C77_memory",
    "Verif.C77_no_jitter",
    "Verif.C77_spline_contract",
    "Verif.C77_spline_model",
    "Verif.C77_spline_unique",
    "Verif.C77_spline_value",
    "Verif.C77_symbol_slip",
    "Verif.C77_whole_sample"
   ],
   "note": "Exact arithmetic; SciPy interp1d of kind cubic is read from its documentation as the not-a-knot cubic spline, whose existence and uniqueness are proved."
  },
  {
   "property": "C78",
   "status": "partial",
   "theorems": [
    "Verif.C78_ctle_object",
    "Verif.C78_error_free_partial",
    "Verif.C78_receiver_partial",
    "Verif.C78_symbols_partial"
   ],
   "note": "Proved for default equalizer taps and a transparent CTLE in the end-to-end theorems; C120 removes these two restrictions. The channel may add noise of bounded multiples of its standard deviation and an FIR response near the identity, within the decision margin (C120: any FIR response that leaves an open eye). Not covered: taps changed by convergence between the calls. The bit stream is proved without codes; with codes the shipped decoder does not invert the encoder (C61). Exact arithmetic."
  },
  {
   "property": "C79",
   "status": "proved",
   "theorems": [
    "Verif.C79_bit_errors",
    "Verif.C79_noise",
    "Verif.C79_uncoded_two_bits"
   ],
   "note": "Exact arithmetic. PAM3 is excluded: its conversion between bits and symbols has no fixed number of bits."
  },
  {
   "property": "C80",
   "status": "proved",
   "theorems": [
    "Verif.C80_bipolar",
    "Verif.C80_bipolar_detects",
    "Verif.C80_bipolar_last_mark",
    "Verif.C80_diff_manchester",
    "Verif.C80_manchester",
    "Verif.C80_mlt3"
   ],
   "note": ""
  },
  {
   "property": "C81",
   "status": "proved",
   "theorems": [
    "Verif.C81_lock",
    "Verif.C81_lock_noise",
    "Verif.C81_noise_sharp"
   ],
   "note": ""
  },
  {
   "property": "C82",
   "status": "proved",
   "theorems": [
    "Verif.C82_decisions",
    "Verif.C82_double",
    "Verif.C82_link",
    "Verif.C82_symbols"
   ],
   "note": "Overflow and results below the normal range are excluded by the unbounded exponent of the number format."
  },
  {
   "property": "C83",
   "status": "partial",
   "theorems": [
    "Verif.C83_basic_coding",
    "Verif.C83_basic_decoding",
    "Verif.C83_feedback_coding_partial",
    "Verif.C83_feedback_decoding_partial",
    "Verif.C83_filter_basic",
    "Verif.C83_filter_feedback",
    "Verif.C83_mixed_never_tested",
    "Verif.C83_negative_double",
    "Verif.C83_negative_memoryless"
   ],
   "note": "Both basic tests succeed for every draw in double precision. The feedback tests succeed in exact arithmetic, and in double precision with two or three inputs. Missing because the assertions fail: one-input feedback draws in double precision (C83_negative_double) and draws in which an input with memory has no polynomial (C83_negative_memoryless). C83_filter_basic and C83_filter_feedback say exactly which draws the filters of the decoding tests pass."
  },
  {
   "property": "C84",
   "status": "partial",
   "theorems": [
    "Verif.C84_bipolar",
    "Verif.C84_diff_manchester",
    "Verif.C84_differential_partial",
    "Verif.C84_gray_partial",
    "Verif.C84_manchester",
    "Verif.C84_mlt3",
    "Verif.C84_negative_bipolar_detect",
    "Verif.C84_negative_mlt3",
    "Verif.C84_single_column"
   ],
   "note": "Proved for both Manchester codes, bipolar without error detection and Gray except PAM3. Missing because the code violates it with two or more columns: decoding_mlt3 raises ValueError, decoding_bipolar with error detection raises IndexError, and decoding_differential returns wrong first elements of every row but the first (C84_differential_partial says exactly what it returns)."
  },
  {
   "property": "C85",
   "status": "proved",
   "theorems": [
    "Verif.C85_bipolar_coding",
    "Verif.C85_bipolar_decoding",
    "Verif.C85_diff_manchester_coding",
    "Verif.C85_diff_manchester_decoding",
    "Verif.C85_differential_coding",
    "Verif.C85_differential_decoding",
    "Verif.C85_gray_coding",
    "Verif.C85_gray_decoding",
    "Verif.C85_linear_coding",
    "Verif.C85_linear_decoding",
    "Verif.C85_manchester_coding",
    "Verif.C85_manchester_decoding",
    "Verif.C85_mlt3_coding",
    "Verif.C85_mlt3_decoding",
    "Verif.C85_pam3_blind"
   ],
   "note": ""
  },
  {
   "property": "C86",
   "status": "partial",
   "theorems": [
    "Verif.C86_analysis_test",
    "Verif.C86_data",
    "Verif.C86_gen_test",
    "Verif.C86_negative_analysis"
   ],
   "note": "The data (C86_data) and prbs_gen_test (C86_gen_test) are right for every case. prbs_analysis_test succeeds for every rotation and threshold with fewer than 2^(n-2) errors (C86_analysis_test); it does not for every error pattern: 2^(n-1) errors can turn the sequence into its next phase (C86_negative_analysis), after which the assertion on the position of the errors raises TypeError. Observation: the variant econ=True, which the suite has commented out, can only raise TypeError because prbs_checker_economy does not accept the keywords init_lock and lock_th."
  },
  {
   "property": "C87",
   "status": "partial",
   "theorems": [
    "Verif.C87_bin2symbol_test",
    "Verif.C87_blind_single_symbol",
    "Verif.C87_negative_one_bit",
    "Verif.C87_symbol2bin_test"
   ],
   "note": "Both tests succeed for every draw of two bits or more (C87_bin2symbol_test, C87_symbol2bin_test). bin2symbol_test can also draw one bit, and then raises ValueError by itself (C87_negative_one_bit). The draws never contain the single multi-bit symbol on which symbol2bin raises (C87_blind_single_symbol)."
  },
  {
   "property": "C88",
   "status": "partial",
   "theorems": [
    "Verif.C88_negative_errors",
    "Verif.C88_negative_shift_zero",
    "Verif.C88_one_period",
    "Verif.C88_part_period",
    "Verif.C88_two_periods"
   ],
   "note": "Success for every type, rotation and window with a bounded number of errors (C88_two_periods, C88_one_period, C88_part_period; the bound for a window is a table evaluated by the kernel over all phases). False in full: the non-binary test fails for rotation 0 whatever the code does (C88_negative_shift_zero), and enough errors hide the alignment (C88_negative_errors). In the one-period and part-period runs the errors are injected into the pattern as well because the array is not copied, so that these tests never compare a clean pattern with a noisy signal; the window theorem covers all six types except PRBS31, whose windows the suite does not use."
  },
  {
   "property": "C89",
   "status": "partial",
   "theorems": [
    "Verif.C89_demapping_agrees",
    "Verif.C89_demapping_margin",
    "Verif.C89_levels",
    "Verif.C89_mapping_roundtrip",
    "Verif.C89_negative_saturation",
    "Verif.C89_negative_tie",
    "Verif.C89_quantize",
    "Verif.C89_quantize_grid",
    "Verif.C89_slicer",
    "Verif.C89_slicer_grid"
   ],
   "note": "Levels, round trip, margin, slicer and quantizer in p-bit arithmetic with unbounded exponent (C89_levels, C89_mapping_roundtrip, C89_demapping_agrees, C89_demapping_margin, C89_slicer, C89_slicer_grid, C89_quantize, C89_quantize_grid). \"Nearest\" and \"saturating\" are false in floating point: a sample far above the range is sent to the lowest code (C89_negative_saturation) and a sample very close to a tie to the farther level (C89_negative_tie); what holds for every sample is a distance within (1+u)/(1-u) of the smallest. Not covered: overflow, underflow, NaN; constellations are those of the package."
  },
  {
   "property": "C90",
   "status": "proved",
   "theorems": [
    "Verif.C90_chunks",
    "Verif.C90_fir",
    "Verif.C90_fir_double",
    "Verif.C90_fir_memory",
    "Verif.C90_memory",
    "Verif.C90_residual",
    "Verif.C90_stable"
   ],
   "note": "Residual bound for every filter (C90_residual), forward error without feedback (C90_fir, C90_fir_double) and with feedback (C90_stable); the returned memory and filtering in chunks (C90_memory, C90_fir_memory, C90_chunks). The arithmetic is p-bit with unbounded exponent, so overflow and underflow are outside; the IIR recursion rounds every operation as SciPy's transposed direct form does, the convolution of the FIR path may sum in any order with or without fused multiply-add (IsConvolve)."
  },
  {
   "property": "C91",
   "status": "partial",
   "theorems": [
    "Verif.C91_negative",
    "Verif.C91_success_partial",
    "Verif.C91_two_periods_partial"
   ],
   "note": "True for every draw with four levels and for two levels with at least three repetitions (C91_success_partial), and with two repetitions when the interference is small against the period (C91_two_periods_partial). False in general: C91_negative is a draw (PRBS7, NRZ, two repetitions, cutoff 24, 40 taps of magnitude 1/2) for which the lock takes a wrong phase and the assertion fails. Exact arithmetic and an abstract least-squares solver; random.randint and numpy.random.random are represented by the values they may return."
  },
  {
   "property": "C92",
   "status": "proved",
   "theorems": [
    "Verif.C92_estimator",
    "Verif.C92_negative",
    "Verif.C92_outcome",
    "Verif.C92_probability"
   ],
   "note": "Exact arithmetic. The probability statements take the samples behind numpy.random.normal as independent standard normal variables (normalDraws); C92_outcome needs no such reading. The bound 1/8 is from the second moment; C92_negative shows that the assertion can fail."
  },
  {
   "property": "C93",
   "status": "partial",
   "theorems": [
    "Verif.C93_accuracy",
    "Verif.C93_documented",
    "Verif.C93_exists",
    "Verif.C93_kkt",
    "Verif.C93_negative",
    "Verif.C93_result",
    "Verif.C93_shrinks",
    "Verif.C93_single",
    "Verif.C93_zero"
   ],
   "note": "scikit-learn's solver is a parameter with its documented contract up to a tolerance (IsLassoFit; C93_exists shows that it can be met). Proved: result and errors (C93_result), optimality conditions (C93_kkt), effect of the tolerance (C93_accuracy), vanishing and shrinking (C93_zero, C93_shrinks), one column (C93_single). The documented objective is the one minimised only for centred data and the factor 2 m lambda (C93_documented); for the data as given this and the returned sum of squares are false (C93_negative)."
  },
  {
   "property": "C94",
   "status": "partial",
   "theorems": [
    "Verif.C94_bound",
    "Verif.C94_demapping_partial",
    "Verif.C94_negative",
    "Verif.C94_rate",
    "Verif.C94_recover",
    "Verif.C94_silent",
    "Verif.C94_slicer"
   ],
   "note": "Proved for the slicer (C94_slicer, C94_rate, C94_bound, C94_silent for the pattern without power) and for slicer plus demapping (C94_recover). False for demapping of the noisy signal: indices beyond the constellation wrap or raise; C94_demapping_partial gives the exact probabilities of a right result and of IndexError, C94_negative shows that the latter is positive at every ratio and that two-level demapping is strictly worse than the slicer. Exact arithmetic; the samples behind numpy.random.normal are taken as independent standard normal variables."
  },
  {
   "property": "C95",
   "status": "partial",
   "theorems": [
    "Verif.C95_descent",
    "Verif.C95_ffe",
    "Verif.C95_negative",
    "Verif.C95_pass",
    "Verif.C95_rate",
    "Verif.C95_taps"
   ],
   "note": "Proved for records at rest outside of the block, with known symbols as reference, for FFE and DFE taps together (C95_descent, C95_rate, C95_taps) and for the FFE loop of the tests through ffe_dfe and ddlms_grad (C95_ffe); the step of a pass with the first samples dropped, as in the tests, is C95_pass. False for a block out of the middle of a stream, as the tests pass it: the gradient leaves out samples that count in the loss, and a step can raise the loss for every learning rate (C95_negative). Exact arithmetic; for the stopping rules of the tests see C106."
  },
  {
   "property": "C96",
   "status": "partial",
   "theorems": [
    "Verif.C96_negative",
    "Verif.C96_poly",
    "Verif.C96_success_partial",
    "Verif.C96_verdict"
   ],
   "note": "What the test decides is proved for every draw (C96_poly: the drawn polynomial; C96_verdict: the lock, the least squares problem, no exception, second assertion never fails). Success is proved for draws whose poles leave the eye open (C96_success_partial: the product of 1/(1-|r|) below 2 for NRZ, 3/2 for OOK, 4/3 for PAM4; OOK from three repetitions). False for all draws: C96_negative exhibits accepted poles (four at 1/2, two at -1/2, PRBS7, NRZ) for which the lock takes the wrong phase and the test fails. Exact arithmetic; the least squares solver is a parameter with its contract."
  },
  {
   "property": "C97",
   "status": "partial",
   "theorems": [
    "Verif.C97_corrects_partial",
    "Verif.C97_ml_error_prob_partial",
    "Verif.C97_negative_bits",
    "Verif.C97_negative_count",
    "Verif.C97_one_survivor_per_state",
    "Verif.C97_stream_partial",
    "Verif.C97_survivors_partial"
   ],
   "note": "Proved for codes with memory whose transitions can be told apart by end state and output: C97_survivors_partial (the exact result for every received pattern), C97_one_survivor_per_state, C97_corrects_partial and C97_stream_partial (errors that are corrected, up to the whole encoded stream). Without these conditions the decoder can return -1 as a bit (C97_negative_bits). The exhaustive decoder is covered by C97_ml_error_prob_partial for every code; its reported value counts pairs of register contents and data, not codewords (C97_negative_count)."
  },
  {
   "property": "C98",
   "status": "proved",
   "theorems": [
    "Verif.C98_gray_gain",
    "Verif.C98_pam4",
    "Verif.C98_rate",
    "Verif.C98_two"
   ],
   "note": "Exact arithmetic; the draws of numpy.random.normal are independent standard normal (normalDraws). PAM3 carries no whole number of bits and is excluded; an OOK pattern without any mark gets no noise (C94_silent)."
  },
  {
   "property": "C99",
   "status": "partial",
   "theorems": [
    "Verif.C99_calls_partial",
    "Verif.C99_negative_attribute_error",
    "Verif.C99_negative_never_finishes",
    "Verif.C99_negative_no_history"
   ],
   "note": "Violated, for every channel file and noise (C99_negative_attribute_error: the second chunk raises AttributeError, cdsp.rx has no lms_grad) and for every configuration (C99_negative_never_finishes; no call of the link succeeds once the convergence bits are set, so that gather_memory is never reached: C99_negative_no_history). What holds: all objects are built and every chunk passes as long as the convergence bits are not set, with 64 symbols, all of them 1 or 2, and 64 bits (C99_calls_partial). Exact arithmetic; the noise samples are arbitrary."
  }
 ]
}