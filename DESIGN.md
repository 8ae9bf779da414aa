# Formal model of CommDspy

Everything below is checked by Lean 4.33.0 in `/verif/lean` (`lake build`). The Python code was read, never run.

## Layout

* `properties.jsonl` – the properties, stated on the API of the code, independent of the model.
* `lean/Verif/Model/*.lean` – model of the Python code, function by function, each definition citing file and lines in /repo. Executable except where real functions (square root, sine, ...) are involved.
* `lean/Verif/Spec/*.lean` – small independent specifications used in the statements.
* `lean/Verif/Lemmas/*.lean` – helper lemmas (nothing here is a claim).
* `lean/Verif/Props/*.lean` – property theorems `Cxx_...`, each followed by an `example` that meets its hypotheses.
* `MANIFEST.json` – property -> theorems, status.
* `seeded/LOG.jsonl` – mutation experiments: edits of the model as a bug would make them, and which theorems noticed.

Naming: `Cxx_..._partial` proves part of property Cxx, the comment and the note in the manifest say what is missing. `Cxx_negative_...` proves that the code violates (a sentence of) the property, for all inputs of the described kind or for a concrete one. Other `Cxx_...` theorems are full statements of a part of the property that is listed in the property text.

## Modelling conventions

* NumPy 1-D arrays are `List`; 2-D arrays are `List (List _)`; where the shape matters (C20, C22, C57) a record with shape and data is used.
* Python exceptions are values: `Py α = Except PyErr α`. Guards of the code are modelled as guards. Where a NumPy/SciPy call raises on a corner case the exception is modelled too; the comment says when the exact class of the exception is not certain.
* Integers are `Int`/`Nat` (unbounded), except where the property is about int64 overflow (C52, C53).
* float64 is modelled by an arbitrary ordered field or by the reals (exact arithmetic). Exceptions: C34/C35 (rounding of integers to 53 bits, and any rounding that is exact below 2^53), C45/C49 (integer output arrays truncate), C57 (rounded histogram indices), C14/C63 (tolerances of `np.isclose`).
* Random samples (`np.random`) are an extra argument of the model; nothing is assumed about them, except where a theorem speaks of a
  probability or an expectation (C59_expected, C92): there the samples behind `np.random.normal` are independent and standard normal
  (`normalDraws`, a product measure).
* Arrays modified in place are returned as an extra result (C18, C33).
* Objects are records; methods return the new record; "successive calls" are folds.

## Properties

### C01 PRBS stream is the LFSR sequence at every length

*Model/proof.* Model the loop, the tiling and the seed return of prbs_generator over integer lists; spec = LFSR recurrence on a function Nat->Int. Needs: register returns after 2^n-1 steps (C04 machinery).
*Status.* proved; `Props/Prbs.lean`: `C01_any_poly_one_period`, `C01_negative_nonprimitive`, `C01_prbs_stream`, `C01_rejects`, `C01_stream_unique`.
*Scope.* All supported PRBS types, all lengths, all seeds; plus uniqueness of the stream, the guard branches, and a witness that unsupported (non-primitive) polynomials go wrong beyond one nominal period.

### C02 PRBS generation is resumable

*Model/proof.* State after L steps = returned seed; induction over the chunk list.
*Status.* proved; `Props/Prbs.lean`: `C02_prbs_resumable`.
*Scope.* Any list of chunk lengths, bits and final seed.

### C03 PrbsIterator agrees with the block generator

*Model/proof.* Iterator as state machine; induction on the number of draws.
*Status.* proved; `Props/Prbs.lean`: `C03_iterator`, `C03_iterator_eq_generator`.
*Scope.* Any polynomial/seed of equal length; agreement with the generator for supported types.

### C04 PRBS sequences have maximal period

*Model/proof.* Registers coded as naturals, step is GF(2)-linear; kernel-evaluated matrix powers (repeated squaring) certify the order of one seed (2^n-1 and no maximal proper divisor), then a counting argument gives every non-zero seed.
*Status.* proved; `Props/Prbs.lean`: `C04_maximal_period`, `C04_zero_seed`.
*Scope.* All six types including PRBS31 (kernel-evaluated matrix powers and primality of 2^31-1).

### C05 PRBS sequences are balanced

*Model/proof.* Orbit = all non-zero registers; count those with lowest bit 1.
*Status.* proved; `Props/Prbs.lean`: `C05_balanced`.
*Scope.* Any window of one period.

### C06 PRBS autocorrelation is two-valued

*Model/proof.* Shift-and-add: XOR of two phases is again a non-zero register orbit, hence balanced.
*Status.* proved; `Props/Prbs.lean`: `C06_autocorrelation`.
*Scope.* Any delay that is not a multiple of the period, any window.

### C07 PRBS checker reports exactly the mismatching bits

*Model/proof.* Direct model of prbs_checker; pointwise characterisation.
*Status.* proved; `Props/Checker.lean`: `C07_checker_exact`, `C07_checker_exact_default`.
*Scope.* Any data, any one-period reference, any threshold; also the default (all-ones seed) reference.

### C08 PRBS checker locks despite errors

*Model/proof.* Lock = first argmax of correlation; agreement count at true phase vs. others bounded using C06.
*Status.* proved; `Props/Checker.lean`: `C08_checker_locks`.
*Scope.* Any non-zero seed, phase, data length >= one period, any error pattern with fewer than 2^(n-2) errors in the first period.

### C09 Economy PRBS checker on self-seeded data

*Model/proof.* Model of the seed_start loop; clean seed window => generated = data; negation witness: all-zero data is reported as locked.
*Status.* partial; `Props/Checker.lean`: `C09_economy_exact_partial`, `C09_economy_sound`, `C09_negative_dead_line`, `C09_negative_short`.
*Scope.* Exact report (clean seed window) and soundness proved; the last sentence is violated by the code: an all-zero line and data no longer than n bits are reported as locked (C09_negative_*).

### C10 Binary pattern lock finds the phase

*Model/proof.* First argmax of the agreement count; periodicity of the correlation shows argmax < period.
*Status.* proved; `Props/Checker.lean`: `C10_lock_finds_phase`, `C10_lock_minimises`, `C10_lock_rotation`.
*Scope.* Rotation with fewest mismatches for all binary inputs; exact phase for windows of any length.

### C11 Multi-level pattern lock finds the phase

*Model/proof.* Cauchy-Schwarz over an ordered field for a full period; negation witness for a short multi-level signal.
*Status.* partial; `Props/Checker.lean`: `C11_lock_finds_phase_partial`, `C11_lock_rotation`, `C11_negative_short`.
*Scope.* Proved over any ordered field for signals of at least one period, positive gain and arbitrary offset; the short-signal sentence is violated (C11_negative_short). Rounding of the correlation: C81; noise: C115.

### C12 Bit-to-symbol conversion round trip

*Model/proof.* Model both functions incl. np.squeeze corner case; little-endian digits lemma. Negation witness: one symbol with inversion flags raises.
*Status.* partial; `Props/Symbol.lean`: `C12_bits_roundtrip_partial`, `C12_negative_single_symbol`.
*Scope.* Proved for all bit vectors, alphabets 2^b and flags except a single multi-bit symbol with a bit-order/MSB/LSB option, where the code raises (C12_negative_single_symbol).

### C13 Symbol-to-bit conversion round trip

*Model/proof.* As C12 in the other direction.
*Status.* partial; `Props/Symbol.lean`: `C13_negative_single_symbol`, `C13_symbols_roundtrip_partial`.
*Scope.* Same as C12 for the other direction.

### C14 bin2symbol output range, length and rejection

*Model/proof.* Range by digit bounds; ValueError branch.
*Status.* partial; `Props/Symbol.lean, Props/SymbolReal.lean`: `C14_negative_tolerance`, `C14_real_arithmetic`, `C14_rejects_partial`, `C14_symbol_range`, `C14_symbol_value`, `C14_tolerance`.
*Scope.* Length, range, values and rejection proved, and the real-arithmetic function with np.isclose is proved equal to the exact one for every count up to 16384 and every power of two. Beyond 16384 the rejection claim is false: 16385 is accepted (C14_negative_tolerance). Rounding of np.log2 itself is not modelled.

### C15 Gray numbering: neighbours differ in one bit

*Model/proof.* Induction on the reflect-and-prefix construction; closed form i xor i/2.
*Status.* proved; `Props/Symbol.lean`: `C15_gray_formula`, `C15_gray_vector`, `C15_gray_zero`.
*Scope.* All level counts, plus closed form i xor i/2.

### C16 Gray coding round trip

*Model/proof.* Finite tables, lifted to vectors; negation witness for PAM3.
*Status.* partial; `Props/Symbol.lean`: `C16_adjacent_one_bit`, `C16_gray_roundtrip_partial`, `C16_negative_pam3`.
*Scope.* NRZ, OOK, PAM4 proved; PAM3 is violated (C16_negative_pam3). Also: adjacent PAM4 levels differ in one bit.

### C17 Mapping / demapping round trip

*Model/proof.* Levels as reals; index recovery by exact division by the spacing.
*Status.* proved; `Props/Mapping.lean`: `C17_mapping_levels`, `C17_mapping_roundtrip`.
*Scope.* All constellations, flags, valid symbol vectors (exact real arithmetic), plus explicit levels and guard branches.

### C18 Demapping decides for the nearest level

*Model/proof.* np.round half-to-even over reals; wrap-around of negative indices and the in-place negation are modelled; negation witnesses.
*Status.* partial; `Props/Mapping.lean, Props/Total.lean`: `C18_demapping_nearest_partial`, `C18_levels_pam4`, `C18_negative_above`, `C18_negative_mutates`, `C18_negative_wrap`, `C18_total`.
*Scope.* Nearest decision proved inside the decision regions; C18_total gives the decision of every sample, ties included; violated outside the decision regions (index wraps or IndexError) and with pn_inv (caller array negated in place): C18_negative_*.

### C19 Constellation levels

*Model/proof.* Over the reals with Real.sqrt.
*Status.* proved; `Props/Mapping.lean`: `C19_levels`, `C19_levels_documented`.
*Scope.* All constellations; exact real arithmetic.

### C20 Slicer picks the nearest level

*Model/proof.* First argmin over an ordered field.
*Status.* proved; `Props/Slicer.lean`: `C20_slicer_default`, `C20_slicer_errors`, `C20_slicer_idempotent`, `C20_slicer_mat`, `C20_slicer_monotone`, `C20_slicer_vec`.
*Scope.* 1-D and 2-D arrays over any ordered field, any non-empty level list. 3-D inputs (flattened by the code) not modelled; 1-D Python lists raise (C20_slicer_errors).

### C21 Fixed-point quantizer

*Model/proof.* Grid as list; nearest point; saturation. Negation witnesses: default type raises, negative frac_bits ignored.
*Status.* partial; `Props/Slicer.lean`: `C21_negative_default`, `C21_negative_negfrac`, `C21_negative_negfrac_witness`, `C21_quantize_mono_idem_partial`, `C21_quantize_partial`.
*Scope.* Proved for u/s/ss with frac_bits >= 0; violated for the default type (always ValueError) and negative frac_bits (ignored): C21_negative_*.

### C22 Differential coding round trip

*Model/proof.* lfilter specialised to accumulator/difference; shapes modelled as (shape,data). Negation witness for 2-D.
*Status.* partial; `Props/Coding.lean`: `C22_code_decode_partial`, `C22_code_valid`, `C22_decode_code_partial`, `C22_negative_2d`.
*Scope.* 1-D arrays of any length proved in both directions; 2-D arrays violate the property (C22_negative_2d): the coder flattens, the decoder works per row.

### C23 Differential coding resists rotation and limits error propagation

*Model/proof.* Pointwise formula of the decoder.
*Status.* proved; `Props/Coding.lean`: `C23_error_propagation`, `C23_rotation`.
*Scope.* All constellations, non-empty vectors, constants, positions and replacement values.

### C24 Manchester code

*Model/proof.* Lists of pairs; induction.
*Status.* proved; `Props/Coding.lean`: `C24_cells`, `C24_odd_rejected`, `C24_received`, `C24_roundtrip`, `C24_run_length`.
*Scope.* 1-D arrays; 2-D arrays: C84.

### C25 Bipolar (AMI) code

*Model/proof.* Accumulator parity; induction with running sum invariant.
*Status.* proved; `Props/Coding.lean`: `C25_alternation`, `C25_roundtrip`, `C25_running_sum`.
*Scope.* 1-D arrays; 2-D arrays: C84.

### C26 Bipolar error detection

*Model/proof.* Loop over marks; characterisation; negation witness for a leading run of -1 marks.
*Status.* partial; `Props/Coding.lean`: `C26_detection_partial`, `C26_negative_leading`, `C26_valid_clean`.
*Scope.* Valid vectors and exact positions proved, signs proved from the first +1 mark on; the sign of leading -1 marks is violated (C26_negative_leading).

### C27 MLT-3 code

*Model/proof.* Accumulator mod 4; induction.
*Status.* proved; `Props/Coding.lean`: `C27_cycle`, `C27_empty`, `C27_negative_initial_level`, `C27_roundtrip`, `C27_steps`.
*Scope.* All non-empty binary vectors; docstring disagreement on the initial level recorded (C27_negative_initial_level).

### C28 Differential Manchester code

*Model/proof.* Index parity invariant; induction.
*Status.* proved; `Props/Coding.lean`: `C28_doc_example_inverted`, `C28_polarity`, `C28_roundtrip`, `C28_transitions`.
*Scope.* All binary vectors, both polarities.

### C29 Binary-input guard

*Model/proof.* Exact characterisation of check_binary; negation witness {0,5}.
*Status.* partial; `Props/Coding.lean`: `C29_accepts`, `C29_coders_reject`, `C29_negative`, `C29_rejects_partial`.
*Scope.* Exact acceptance condition proved; rejection of every non-binary vector is violated (C29_negative).

### C30 Block encoder is the linear map of G

*Model/proof.* GF(2) row combinations over lists; chunking lemmas.
*Status.* proved; `Props/Linear.lean`: `C30_additive`, `C30_concat`, `C30_encoder`, `C30_no_rows`.
*Scope.* Arithmetic of G and data modelled over exact integers.

### C31 Block decoder inverts the encoder

*Model/proof.* Codebook row index recovered since distance 0 is attained only once.
*Status.* proved; `Props/Linear.lean`: `C31_roundtrip`.

### C32 Block decoder is maximum likelihood and corrects t errors

*Model/proof.* argmin minimality plus triangle inequality.
*Status.* proved; `Props/Linear.lean`: `C32_corrects_errors`, `C32_maximum_likelihood`.

### C33 Block decoder error-probability mode

*Model/proof.* Model ml_decoding including the write into pattern_block (returned as new buffer); negation witness for mutation.
*Status.* partial; `Props/Linear.lean`: `C33_error_prob_partial`, `C33_negative_mutates`.
*Scope.* Same bits and reported values proved; the sentence that the caller array is untouched is false: the corrected codewords are written into the caller pattern (C33_negative_mutates).

### C34 Convolutional encoder is a GF(2) convolution

*Model/proof.* lfilter FIR over Int, mod 2.
*Status.* proved; `Props/Conv.lean, Props/Total.lean`: `C34_additive`, `C34_causal`, `C34_double`, `C34_double_rounding`, `C34_encoder`.
*Scope.* Arithmetic of lfilter is modelled with an arbitrary rounding function that is exact on integers up to 2^53; IEEE rounding of integers is one instance (C34_double_rounding).

### C35 Recursive convolutional encoder is a GF(2) feedback register

*Model/proof.* Exact integer arithmetic: parity of the recursive filter = GF(2) register. Negation in IEEE double arithmetic via a rounding model (53 bit mantissa) with a concrete pattern.
*Status.* partial; `Props/Conv.lean`: `C35_float_short_partial`, `C35_negative_float`, `C35_negative_length_one`, `C35_register_partial`, `C35_register_unique`.
*Scope.* Proved for exact arithmetic and for double precision while the recursion stays below 2^53; false for longer patterns (C35_negative_float) and for transfer functions with a single coefficient (C35_negative_length_one).

### C36 Trellis describes the encoder

*Model/proof.* State invariant: trellis state = last register contents; negation witness for mixed feedback/non-feedback inputs.
*Status.* partial; `Props/Conv.lean`: `C36_negative_mixed`, `C36_no_feedback`, `C36_trellis_encoder_partial`.
*Scope.* Proved for codes without feedback and for codes whose feedback polynomials have the length of the transfer functions; false for codes mixing inputs with and without feedback (C36_negative_mixed).

### C37 ML convolutional decoder is maximum likelihood

*Model/proof.* argmin minimality over the codebook.
*Status.* proved; `Props/ConvDec.lean`: `C37_corrects_errors`, `C37_error_free`, `C37_maximum_likelihood`.
*Scope.* The encoder side of the round trip uses exact arithmetic (see C34/C35 for double precision); codes restricted to those the trellis construction supports (C36).

### C38 Viterbi decoder recovers error-free blocks

*Model/proof.* Invariant of the forward pass on error-free blocks.
*Status.* partial; `Props/ConvDec.lean`: `C38_error_free_partial`, `C38_negative_parallel`, `C38_stream_partial`.
*Scope.* Proved for codes in which every input has memory; false with parallel transitions (C38_negative_parallel).

### C39 Viterbi decoder is maximum likelihood

*Model/proof.* Negation witnesses: sub-optimal path, invalid transition, parallel transitions; partial = C38.
*Status.* partial; `Props/ConvDec.lean`: `C39_negative_greedy`, `C39_no_block`, `C39_single_step_partial`.
*Scope.* False: survivors are selected by the last step only (C39_negative_greedy). Proved for blocks of one step; error-free blocks of any length are C38; what the decoder does for every received block is C97.

### C40 Binary enumeration and Hamming helper

*Model/proof.* Numeric order via MSB-first digits; argmin.
*Status.* proved; `Props/Linear.lean`: `C40_bin_perm`, `C40_hamming`.

### C41 bin2uint / uint2bin

*Model/proof.* Digits lemma.
*Status.* proved; `Props/Linear.lean`: `C41_bits_roundtrip`, `C41_int_roundtrip`, `C41_msb_first`.
*Scope.* Unbounded integers instead of int64.

### C42 buffer frames the signal without loss

*Model/proof.* Hankel indexing; row count; negation witness for clip.
*Status.* partial; `Props/Framing.lean`: `C42_clip_keeps`, `C42_clip_partial`, `C42_cover_partial`, `C42_degenerate`, `C42_frames`, `C42_negative_clip_keeps`, `C42_negative_clip_removes`, `C42_negative_cover`.
*Scope.* Frame contents, number of frames and errors proved for every signal, length, overlap and delay. Coverage fails for signals not longer than the overlap (C42_negative_cover); clip does not remove exactly the incomplete frame (C42_clip_keeps, C42_negative_clip_keeps, C42_negative_clip_removes).

### C43 upsample and zoh

*Model/proof.* List induction.
*Status.* proved; `Props/Framing.lean`: `C43_append`, `C43_decimate`, `C43_upsample`, `C43_zero_rate`, `C43_zoh`.

### C44 Noise-free channel streams

*Model/proof.* lfilter as transposed direct form II fold; state invariant gives the difference equation.
*Status.* proved; `Props/Filter.lean`: `C44_chunks`, `C44_difference_equation`, `C44_linear`, `C44_only_solution`, `C44_rejects`.
*Scope.* Exact field arithmetic; scipy.signal.lfilter is modelled by its documented recursion. Empty signals with a single denominator coefficient raise in SciPy and are excluded.

### C45 Filter classes implement the difference equation

*Model/proof.* Both classes as state machines, simulation relation.
*Status.* partial; `Props/Filter.lean`: `C45_filter`, `C45_filter_init`, `C45_negative_gain`, `C45_negative_integer`, `C45_same`, `C45_split_filter`, `C45_split_tii`, `C45_tii`, `C45_tii_rejects`.
*Scope.* Difference equation, equality of both classes and independence of the splitting proved for all coefficients with at least one memory cell and float chunks. A pure gain makes FilterTII raise IndexError (C45_negative_gain); integer chunks truncate the outputs (C45_negative_integer). Exact field arithmetic.

### C46 FFE is a convolution and streams

*Model/proof.* Valid convolution of history ++ signal; negation witness for short chunks.
*Status.* partial; `Props/Ffe.lean`: `C46_chunks_partial`, `C46_convolution`, `C46_negative_short_chunk`, `C46_rejects`, `C46_single_tap`.
*Scope.* Convolution proved for all taps, signals and memories; streaming proved for chunks at least as long as the filter. A shorter chunk returns a memory the next call rejects with TypeError (C46_negative_short_chunk). Exact field arithmetic.

### C47 FFE+DFE recursion and streaming

*Model/proof.* Loop as fold; osr=1 streaming; negation witness for osr>1.
*Status.* partial; `Props/Ffe.lean`: `C47_chunks_partial`, `C47_negative_late_phase`, `C47_recursion`, `C47_recursion_symbol_rate`, `C47_rejects`.
*Scope.* Recursion proved for every osr, phase and memory. Streaming proved for osr=1 (all non-empty chunks) and for osr>1 with phase+osr/2 < osr and chunks of whole symbols; for later phases the last decision of a chunk is lost (C47_negative_late_phase). Exact field arithmetic.

### C48 DFE cancels post-cursor ISI

*Model/proof.* Induction on time with slicer correctness.
*Status.* proved; `Props/Ffe.lean`: `C48_equalized`, `C48_link`.
*Scope.* Also proved for any FFE and symbols before the first one. Exact field arithmetic.

### C49 FfeDfeFilterTII equals ffe_dfe

*Model/proof.* Simulation relation between transposed state and (history, decisions).
*Status.* partial; `Props/Ffe.lean`: `C49_negative_integer`, `C49_same`.
*Scope.* Proved for every split into float chunks; integer chunks truncate the outputs of the class (C49_negative_integer).

### C50 Pulse shaping streams and rect is a hold

*Model/proof.* upsample ++ lfilter chunk lemma; rect tap count; 'imp' raises.
*Status.* partial; `Props/Pulse.lean`: `C50_chunks`, `C50_negative_imp`, `C50_negative_zero_rolloff`, `C50_rect`, `C50_rejects`, `C50_superposition`.
*Scope.* Length, superposition, rect as delayed hold and streaming proved over the reals for rect, sinc, rcos, rrc. The documented name imp always raises ValueError (C50_negative_imp), and rcos/rrc with roll-off 0 raise ZeroDivisionError (C50_negative_zero_rolloff). Random jitter: see C77.

### C51 Nyquist pulses have zero ISI

*Model/proof.* Real.sin at integer multiples of pi.
*Status.* proved; `Props/Pulse.lean`: `C51_nyquist`.
*Scope.* Real arithmetic.

### C52 Lagrange delay coefficients

*Model/proof.* Mathlib Lagrange interpolation; int64 overflow of the integer denominators from order 21 as separate negation.
*Status.* partial; `Props/Delay.lean`: `C52_impulse_partial`, `C52_negative_overflow`, `C52_order_zero`, `C52_reproduces_partial`, `C52_sum_partial`.
*Scope.* Proved for every order with unbounded integer denominators and for orders up to 20 with the int64 denominators of the code; from order 21 on they overflow (C52_negative_overflow). Exact field arithmetic.

### C53 Digital oversampling keeps samples and is exact on polynomials

*Model/proof.* Index algebra plus C51.
*Status.* partial; `Props/Delay.lean`: `C53_negative_overflow`, `C53_polynomial_partial`, `C53_rejects`, `C53_samples`.
*Scope.* Sample count, kept samples and FIR form proved for every method and order; exactness on polynomials for every order with unbounded denominators, up to 20 with int64 (C53_negative_overflow).

### C54 DD-LMS gradients

*Model/proof.* HasDerivAt of the mean squared error in each tap.
*Status.* proved; `Props/Lms.lean`: `C54_gradients`, `C54_rejects`, `C54_shape`, `C54_unseen_tap`, `C54_zero_error`.
*Scope.* Real arithmetic; blocks with equal input and output lengths, DFE delays not negative; the taps a block cannot see give NaN (C54_unseen_tap).

### C55 Mueller-Muller step

*Model/proof.* Sign logic and list reversal.
*Status.* proved; `Props/Lms.lean`: `C55_early_late`, `C55_rejects`, `C55_reverse`, `C55_scale`, `C55_sign`.
*Scope.* Exact arithmetic in any ordered field; a single symbol has no defined result.

### C56 CTLE DC gain and stability

*Model/proof.* Polynomials over reals, bilinear substitution.
*Status.* partial; `Props/Ctle.lean`: `C56_chunks`, `C56_ctle`, `C56_dc_gain_partial`, `C56_negative_improper`, `C56_negative_trim`, `C56_rejects`, `C56_stable_partial`, `C56_tustin_partial`, `C56_zero_frequency`.
*Scope.* Real arithmetic. Tustin transform and DC gain proved unless SciPy drops a leading numerator coefficient of magnitude at most 1e-14 (C56_negative_trim); stability proved for at least as many poles as zeros, refuted for every filter with more zeros than poles (C56_negative_improper).

### C57 Eye diagram conserves samples

*Model/proof.* Histogram by floor; counting.
*Status.* proved; `Props/Eye.lean, Props/Observed.lean`: `C57_axis`, `C57_column_sum`, `C57_counts`, `C57_histogram`, `C57_interpolated`, `C57_negative_axis`, `C57_negative_decimation`, `C57_rejects`.
*Scope.* Real arithmetic for the whole function; the histogram itself also for rounded indices and edges (C57_histogram). Diagrams of lower oversampling than the signal are not decimated (C57_negative_decimation); with interpolation the first column is half a unit interval late (C57_interpolated); the returned amplitude axis is not the centres of the bins (C57_negative_axis).

### C58 Equalizer estimation uses the same tap convention as the equalizer

*Model/proof.* Hankel indexing over integers with NumPy's negative indices; completion of squares from C60; negation witness for the last rows.
*Status.* partial; `Props/Decimate.lean, Props/Estim.lean`: `C58_energy`, `C58_equalizer`, `C58_exact_partial`, `C58_negative_overflow`, `C58_negative_window`, `C58_normalize`, `C58_optimal_mirrored`, `C58_optimal_partial`, `C58_recovers_partial`, `C58_regularization`, `C58_solver`, `C58_system`.
*Scope.* Proved for every row when min(postcursors, DFE taps) <= 1. For more, the last rows use mirrored decisions (C58_negative_overflow; C58_optimal_mirrored states what is solved then). The window of the equalizer output is not the one a synchronised reference needs (C58_negative_window). The least squares solver is assumed to return a minimiser.

### C59 AWGN noise scaling

*Model/proof.* Noise vector as parameter; algebra of the scale factor.
*Status.* proved; `Props/Noise.lean, Props/NoiseTest.lean`: `C59_channel`, `C59_estimate`, `C59_expected`, `C59_measured`, `C59_negative_short`, `C59_ratio`, `C59_single`.
*Scope.* Real arithmetic; the standard normal samples are an arbitrary list. The estimate exceeds the actual mean power by (power-mean^2)/(N-1) (C59_estimate, C59_negative_short).

### C60 Ridge / OLS manual solvers are optimal

*Model/proof.* Completion of squares with lists of rows over an ordered field; the pseudo-inverse by its Penrose equations.
*Status.* proved; `Props/LeastSq.lean`: `C60_dispatch`, `C60_exists`, `C60_intercept`, `C60_negative_sklearn`, `C60_ols`, `C60_pinv`, `C60_ridge`, `C60_ridge_singular`, `C60_ridge_zero`.
*Scope.* Exact arithmetic in any ordered field; numpy pinv is assumed to be the Moore-Penrose inverse. The sklearn-based ridge_regression differs from the manual variant (C60_negative_sklearn).

### C61 Example link: decoder inverts encoder

*Model/proof.* Composition of the modelled coders; case analysis of the flags; negation for every two-level and PAM4 stream (flags swapped, stages not reversed).
*Status.* partial; `Props/Sim.lean`: `C61_both_flags_two_level_partial`, `C61_conv_partial`, `C61_linear_partial`, `C61_negative_both_flags_pam4`, `C61_negative_differential_pam4`, `C61_negative_differential_two_level`, `C61_negative_gray_pam4`, `C61_negative_gray_two_level`, `C61_negative_pam3`, `C61_negative_shipped`, `C61_negative_two_stages`, `C61_single_stage_partial`.
*Scope.* The claim is false for the code: the Gray and differential flags are exchanged in the decoder and the binary decoders run in encoder order. Proved: the decoder inverts the encoder with the outer codes off and one line code, linear code or convolutional code on, and with both outer flags on two levels. The negative theorems give the exact extent of the failure for two levels and PAM4, for two line codes, for three levels and for the shipped configuration.

### C62 Example link: convergence terminates

*Model/proof.* Transition system of the control bits; invariant: converge_lms never clears, so converge_done is unreachable.
*Status.* partial; `Props/Sim.lean`: `C62_cdr_only_partial`, `C62_clock_recovery`, `C62_negative_attribute_error`, `C62_negative_never_done`.
*Scope.* The claim is false for the code: for all histories the loop never reaches its end state (and as shipped the first chunk raises AttributeError because cdsp.rx.lms_grad does not exist). Proved: the loop with clock recovery alone ends exactly at the first zero phase step, and the phase follows the steps until then also while the LMS adaptation is on (C62_clock_recovery).

### C63 Raised-cosine pulses at their singular times

*Model/proof.* Limits of the closed forms by Mathlib derivatives of sine and cosine; np.isclose as an explicit tolerance.
*Status.* proved; `Props/Pulse.lean`: `C63_rcos`, `C63_rrc`.
*Scope.* Real arithmetic; rrc for times that are exactly singular or farther than 1e-8 (the tolerance of np.isclose) from the singular times.

### C64 Sinc and raised-cosine delay filters

*Model/proof.* Samples of the continuous pulse at shifted times.
*Status.* partial; `Props/Delay.lean`: `C64_negative_default`, `C64_negative_half`, `C64_rcos_partial`, `C64_sinc`.
*Scope.* sinc proved; rcos proved unless a tap meets a singular time, where the code divides by zero, e.g. for the default roll-off 0.5 with zero delay (C64_negative_default).

### C65 Soft decision-directed gradients

*Model/proof.* Derivative of the smooth part of the loss, weights held fixed as in the code.
*Status.* proved; `Props/Lms.lean`: `C65_gradients`, `C65_negative_doc`.
*Scope.* Real arithmetic. The documented formula without the factor is refuted by C65_negative_doc.

### C66 Manual lasso descends to the minimiser

*Model/proof.* The iteration as a function on vectors; gradient of the quadratic part; fixed points of the update.
*Status.* partial; `Props/LeastSq.lean`: `C66_gradient`, `C66_negative_flag`, `C66_negative_objective`, `C66_path`, `C66_rejects`, `C66_stationary`.
*Scope.* Path, stopping rule, gradient and stationary points proved for the objective ||Aw-b||^2/(2n)+lambda||w||_1 with n the number of columns; the documented objective is another one (C66_negative_objective), and reached_tol is wrong in the last step (C66_negative_flag).

### C67 Power and RMS

*Model/proof.* Algebra of means; complex modulus.
*Status.* proved; `Props/Noise.lean`: `C67_empty`, `C67_power`, `C67_scale`.
*Scope.* Real and complex arithmetic.

### C68 channel_estimation_prbs returns the least squares channel at the phase of best correlation, and the true channel up to scale without noise

*Model/proof.* Correlation lock (C11), period averaging, then the Hankel system; full rank from the PRBS autocorrelation (C06) gives uniqueness and exact recovery.
*Status.* proved; `Props/ChanTests.lean, Props/EstimPrbs.lean, Props/Observed.lean`: `C68_branches`, `C68_gain`, `C68_negative_postcoding`, `C68_negative_scale`, `C68_optimal`, `C68_recovers`, `C68_recovers_phase`.
*Scope.* Real arithmetic, any exact least squares solver. The documentation promises the FIR of the channel: without normalize it is scaled by the inverse variance of the capture, so that a gain of two is reported below one (C68_gain, C68_negative_scale). The argument pn_inv_postcoding is ignored by the code: an inverted capture gives a wrong channel (C68_negative_postcoding). For OOK/NRZ exact recovery is proved for captures of at least two periods, the length of the reference pattern.

### C69 equalization_estimation_prbs fits the equalizer to the locked symbols

*Model/proof.* Reduction to equalization_estimation (C58) with an explicit index shift.
*Status.* partial; `Props/EstimPrbs.lean`: `C69_negative_window`, `C69_optimal_partial`, `C69_recovers_partial`, `C69_short`, `C69_system`.
*Scope.* Proved for dfe_taps <= ffe_postcursor and dfe_taps <= 1 (C69_optimal_partial, C69_recovers_partial); the reduction to equalization_estimation for all tap counts (C69_system, C69_short). For dfe_taps > ffe_postcursor the equalizer is fitted to a later symbol (C69_negative_window); for more DFE taps see C58_negative_overflow.

### C70 psa: accepted signals, modes and calibration of the power spectrum

*Model/proof.* scipy.signal.welch from its documentation (segments, constant detrending, window, density scaling) over complex numbers; tone response by orthogonality.
*Status.* partial; `Props/Psa.lean`: `C70_accepts_iff`, `C70_dBc_scale_invariant`, `C70_default_rbw`, `C70_mode_factors`, `C70_negative_default_rbw_short`, `C70_negative_modes`, `C70_negative_no_dc`, `C70_onesided`, `C70_spectrum`, `C70_tone`.
*Scope.* Proved: exact acceptance condition, closed-form power factor of every mode, amplitude independence of dBc, calibration for complex tones, non-negativity and frequency grid. The documented usability of the default bandwidth and of mode 'dBc/Hz ' is false (negative theorems), and a constant component is never shown. scipy's welch is modelled in exact arithmetic from its documentation; the plot is not modelled.

### C71 Example simulation: level scaling and symbol decisions

*Model/proof.* Composition of mapping (C17), slicer (C20) and demapper (C18); for PAM4 every level of the receiver is shown to lie in the two inner decision regions.
*Status.* partial; `Props/SimLink.lean`: `C71_default_levels`, `C71_negative_pam4`, `C71_recovered_partial`.
*Scope.* Proved when the receiver factor equals the largest unscaled level (1 for two levels, 3 for PAM4 and so on). For PAM4 with a factor below 2, as shipped, the claim is false: only symbols 1 and 2 can be returned (negative theorem). Exact arithmetic.

### C72 Example simulation: Channel object

*Model/proof.* Composition of pulse_shape (C50) and awgn_channel (C44, C59); a filter with equal numerator and denominator is the identity.
*Status.* partial; `Props/SimChannel.lean, Props/SimChannelDefault.lean`: `C72_chunks`, `C72_default`, `C72_negative_iir`, `C72_negative_iir_error`, `C72_negative_unknown_type`, `C72_noise`, `C72_response_partial`.
*Scope.* Proved for FIR responses: response (with given coefficients and, C72_default, without), chunked operation and noise scaling. With an IIR response the claim is false (negative theorems: the channel cancels, or raises); an unknown channel type returns None. Random samples are arguments of the model; exact arithmetic.

### C73 Example simulation: pattern generator and bit error checker

*Model/proof.* Generator by C02. Checker: the lock minimises differences over all phases (C10), every non-zero register content occurs in the stream (C04), averaging over phases (C05) bounds the ratio.
*Status.* partial; `Props/SimBer.lean`: `C73_at_most_half`, `C73_empty`, `C73_full_period`, `C73_generator`, `C73_least_errors_partial`, `C73_negative_short`, `C73_negative_slips`.
*Scope.* Generator proved in full. check_ber is proved to report the minimum over all phases for chunks of at most a period and the exact ratio for longer chunks with fewer than 2^(n-2) errors in the first period; the negative theorems show that slips and short chunks are never reported.

### C74 Example simulation: analog to digital converter

*Model/proof.* Index arithmetic of strided slices; quantizer from C21.
*Status.* partial; `Props/SimAdc.lean`: `C74_chunks`, `C74_conversion_partial`, `C74_negative_phase`, `C74_phase`, `C74_rejects`.
*Scope.* Proved for documented number formats and non-negative phases; chunked sampling proved for phases below the sampling step, with a negative theorem for larger ones. Exact arithmetic.

### C75 Example simulation: FFE/DFE object

*Model/proof.* Simulation relation between the object and ffe_dfe with threaded memories (C46, C47).
*Status.* partial; `Props/SimEq.lean`: `C75_accepts`, `C75_decision_feedback`, `C75_default_delay_partial`, `C75_feed_forward_partial`, `C75_negative_short_chunk`.
*Scope.* Proved: acceptance, feedback equalizer on arbitrary non-empty chunks, feed-forward equalizer on chunks at least as long as the filter, default delay. Negative theorem for shorter chunks without feedback. Exact arithmetic.

### C76 PRBS shift-and-add, window counts and superposition

*Model/proof.* Existing generator model. Specification: delays, words and counts over positions of a period. Proof: orbit of the register code under the linear step is all of 1..2^n-1; residues counted; superposition by uniqueness of the recurrence.
*Status.* proved; `Props/PrbsShift.lean`: `C76_runs`, `C76_shift_and_add`, `C76_superposition`, `C76_window_count`.

### C77 pulse_shape random jitter

*Model/proof.* Model the jitter branch with the random numbers and the interpolation as parameters (`Model/Jitter`), contract in `Spec/Jitter`; the spline itself in `Spec/Spline` (existence by truncated powers, uniqueness by diagonal dominance of the second derivatives), contract also shown satisfiable by polynomial interpolation.
*Status.* proved; `Props/Jitter.lean, Props/Spline.lean`: `C77_cubic`, `C77_linear`, `C77_memory`, `C77_no_jitter`, `C77_spline_contract`, `C77_spline_model`, `C77_spline_unique`, `C77_spline_value`, `C77_symbol_slip`, `C77_whole_sample`.
*Scope.* Exact arithmetic; SciPy interp1d of kind cubic is read from its documentation as the not-a-knot cubic spline, whose existence and uniqueness are proved.

### C78 Example simulation: the whole link carries the PRBS without errors

*Model/proof.* Compose the models of the blocks as the classes do (`Model/SimFull`), memories threaded through the calls. Proof: each block on successive chunks equals one run over the joined signal; decision margin from levels, quantisation step and gain.
*Status.* partial; `Props/SimFull.lean`: `C78_ctle_object`, `C78_error_free_partial`, `C78_receiver_partial`, `C78_symbols_partial`.
*Scope.* Proved for default equalizer taps and a transparent CTLE in the end-to-end theorems; C120 removes these two restrictions. The channel may add noise of bounded multiples of its standard deviation and an FIR response near the identity, within the decision margin (C120: any FIR response that leaves an open eye). Not covered: taps changed by convergence between the calls. The bit stream is proved without codes; with codes the shipped decoder does not invert the encoder (C61). Exact arithmetic.

### C79 Gray coded links lose one bit per neighbouring symbol error

*Model/proof.* Existing models of the symbol conversion, Gray code, mapping, slicer and demapping; errors counted by `Spec` mismatches over positions. Proof: neighbouring Gray words differ in one bit (whole table), conversion is blockwise, decisions within three halves of the level distance are at most one level off.
*Status.* proved; `Props/BitErrors.lean`: `C79_bit_errors`, `C79_noise`, `C79_uncoded_two_bits`.
*Scope.* Exact arithmetic. PAM3 is excluded: its conversion between bits and symbols has no fixed number of bits.

### C80 Line decoders confine and report single errors

*Model/proof.* Existing line code models. Specification: position by position comparison of the decoded vectors with and without one changed element; detection of a single error of the bipolar code through `SameNeighbour`.
*Status.* proved; `Props/LineErrors.lean`: `C80_bipolar`, `C80_bipolar_detects`, `C80_bipolar_last_mark`, `C80_diff_manchester`, `C80_manchester`, `C80_mlt3`.

### C81 Pattern lock in noise

*Model/proof.* Model the lock with the correlation routine as a parameter (`Model/LockWith`); inexact correlation in `Spec/LockNoise`. Proof: energy of the difference of two phases against its magnitude sum.
*Status.* proved; `Props/LockNoise.lean`: `C81_lock`, `C81_lock_noise`, `C81_noise_sharp`.

### C82 The decision feedback equalizer decides in double precision as in exact arithmetic

*Model/proof.* Model the equalizer with its arithmetic as a parameter (`Model/Rounded`), floating-point rounding and rounded scalar products in `Spec/Float`. Proof: standard rounding model, forward error of scalar products, induction over the samples because feedback consists of decisions only.
*Status.* proved; `Props/Float.lean`: `C82_decisions`, `C82_double`, `C82_link`, `C82_symbols`.
*Scope.* Overflow and results below the normal range are excluded by the unbounded exponent of the number format.

### C83 The project's convolutional code tests succeed for every draw

*Model/proof.* Model the four test functions as functions of their draws (`Model/ConvTests`): reference encoder, filter on the trellis, assertions. Describe the draws in `Spec/ConvTests`. Proof: the reference encoder is the trellis walk; by linearity the filter's last condition makes block outputs determine the inputs and identify the transitions, so C36-C38 apply; rounding by C34/C35. Failing draws are evaluated by the kernel.
*Status.* partial; `Props/ConvFilter.lean, Props/ConvTests.lean`: `C83_basic_coding`, `C83_basic_decoding`, `C83_feedback_coding_partial`, `C83_feedback_decoding_partial`, `C83_filter_basic`, `C83_filter_feedback`, `C83_mixed_never_tested`, `C83_negative_double`, `C83_negative_memoryless`.
*Scope.* Both basic tests succeed for every draw in double precision. The feedback tests succeed in exact arithmetic, and in double precision with two or three inputs. Missing because the assertions fail: one-input feedback draws in double precision (C83_negative_double) and draws in which an input with memory has no polynomial (C83_negative_memoryless). C83_filter_basic and C83_filter_feedback say exactly which draws the filters of the decoding tests pass.

### C84 Line and symbol codes on two-dimensional arrays

*Model/proof.* Model the functions on a list of rows together with its width (`Model/Coding2`), shape and entries in `Spec/Matrix2`. Proof: the coders act on the flattened array, so the one-dimensional theorems apply; decoders that split by rows are followed entry by entry.
*Status.* partial; `Props/Coding2.lean`: `C84_bipolar`, `C84_diff_manchester`, `C84_differential_partial`, `C84_gray_partial`, `C84_manchester`, `C84_mlt3`, `C84_negative_bipolar_detect`, `C84_negative_mlt3`, `C84_single_column`.
*Scope.* Proved for both Manchester codes, bipolar without error detection and Gray except PAM3. Missing because the code violates it with two or more columns: decoding_mlt3 raises ValueError, decoding_bipolar with error detection raises IndexError, and decoding_differential returns wrong first elements of every row but the first (C84_differential_partial says exactly what it returns).

### C85 The project's symbol, line and block code tests succeed for every draw

*Model/proof.* Model each test as a function of its draw, with its reference loop (`Model/CodingTests`). Proof: induction over the reference loops; the parity code of the block code tests is a binary matrix with independent rows, so C30, C31 and C33 apply.
*Status.* proved; `Props/CodingTests.lean`: `C85_bipolar_coding`, `C85_bipolar_decoding`, `C85_diff_manchester_coding`, `C85_diff_manchester_decoding`, `C85_differential_coding`, `C85_differential_decoding`, `C85_gray_coding`, `C85_gray_decoding`, `C85_linear_coding`, `C85_linear_decoding`, `C85_manchester_coding`, `C85_manchester_decoding`, `C85_mlt3_coding`, `C85_mlt3_decoding`, `C85_pam3_blind`.

### C86 The project's PRBS reference data and PRBS tests

*Model/proof.* The five CSV files are embedded as binary numbers (`Model/PrbsData`). That a number obeys the recurrence of its polynomial is one identity of shifted numbers, evaluated by the kernel on the whole file (`Lemmas/PrbsData.recurrence_sound` turns it into the statement for every position). The two tests are functions of their draws (`Model/PrbsTests`); success follows from C01, C04, C06 to C08.
*Status.* partial; `Props/PrbsTests.lean`: `C86_analysis_test`, `C86_data`, `C86_gen_test`, `C86_negative_analysis`.
*Scope.* The data (C86_data) and prbs_gen_test (C86_gen_test) are right for every case. prbs_analysis_test succeeds for every rotation and threshold with fewer than 2^(n-2) errors (C86_analysis_test); it does not for every error pattern: 2^(n-1) errors can turn the sequence into its next phase (C86_negative_analysis), after which the assertion on the position of the errors raises TypeError. Observation: the variant econ=True, which the suite has commented out, can only raise TypeError because prbs_checker_economy does not accept the keywords init_lock and lock_th.

### C87 The project's bit-to-symbol tests

*Model/proof.* Both tests as functions of bits, exponent and flags (`Model/SymbolTests`), the reference as a formula per bit. The row operations of the code are evaluated per bit (`txRow_getD`); the round trip is C12, whose excluded case the draws cannot reach because 2b <= 2^b <= length.
*Status.* partial; `Props/SymbolTests.lean`: `C87_bin2symbol_test`, `C87_blind_single_symbol`, `C87_negative_one_bit`, `C87_symbol2bin_test`.
*Scope.* Both tests succeed for every draw of two bits or more (C87_bin2symbol_test, C87_symbol2bin_test). bin2symbol_test can also draw one bit, and then raises ValueError by itself (C87_negative_one_bit). The draws never contain the single multi-bit symbol on which symbol2bin raises (C87_blind_single_symbol).

### C88 The project's pattern lock tests

*Model/proof.* The tests as functions of sequence, error mask and rotation (`Model/LockTests`). The lock succeeds iff phase 0 is strictly best (`lock_argmax`). Over a period every other phase misses exactly 2^(n-2) ones (C05, C06); over a quarter of a period a lower bound for all phases at once is computed by one walk over the file as a binary number (`segWalk`, sound by induction, evaluated by the kernel).
*Status.* partial; `Props/LockTests.lean`: `C88_negative_errors`, `C88_negative_shift_zero`, `C88_one_period`, `C88_part_period`, `C88_two_periods`.
*Scope.* Success for every type, rotation and window with a bounded number of errors (C88_two_periods, C88_one_period, C88_part_period; the bound for a window is a table evaluated by the kernel over all phases). False in full: the non-binary test fails for rotation 0 whatever the code does (C88_negative_shift_zero), and enough errors hide the alignment (C88_negative_errors). In the one-period and part-period runs the errors are injected into the pattern as well because the array is not copied, so that these tests never compare a clean pattern with a noisy signal; the window theorem covers all six types except PRBS31, whose windows the suite does not use.

### C89 Mapping, demapping, slicer and quantizer in floating-point arithmetic

*Model/proof.* The functions with a rounding function `r` after every arithmetic operation (`Model/RoundedLevels`); `r = fl p`, of relative error `2^-p` (`Lemmas/Float.fl_error`). Error analysis of the square root and the division for the levels; the rounded demapping index is the exact one away from the thresholds (`demapIdxR_near`); the slicer compares rounded distances.
*Status.* partial; `Props/RoundedLevels.lean`: `C89_demapping_agrees`, `C89_demapping_margin`, `C89_levels`, `C89_mapping_roundtrip`, `C89_negative_saturation`, `C89_negative_tie`, `C89_quantize`, `C89_quantize_grid`, `C89_slicer`, `C89_slicer_grid`.
*Scope.* Levels, round trip, margin, slicer and quantizer in p-bit arithmetic with unbounded exponent (C89_levels, C89_mapping_roundtrip, C89_demapping_agrees, C89_demapping_margin, C89_slicer, C89_slicer_grid, C89_quantize, C89_quantize_grid). "Nearest" and "saturating" are false in floating point: a sample far above the range is sent to the lowest code (C89_negative_saturation) and a sample very close to a tie to the farther level (C89_negative_tie); what holds for every sample is a distance within (1+u)/(1-u) of the smallest. Not covered: overflow, underflow, NaN; constellations are those of the package.

### C90 The channel filter in floating-point arithmetic

*Model/proof.* `scipy.signal.lfilter` with rounding (`Model/RoundedFilter`): unrolling the delay line writes every output as a rounded dot product of the terms of the difference equation (`lfRun_dots`), whose error is `roundedDot_error`. The error signal obeys the recursion driven by the residual; it is the convolution of the residual with the impulse response of 1/A (`recursion_conv`), and induction over time closes the bound.
*Status.* proved; `Props/RoundedFilter.lean, Props/RoundedMemory.lean`: `C90_chunks`, `C90_fir`, `C90_fir_double`, `C90_fir_memory`, `C90_memory`, `C90_residual`, `C90_stable`.
*Scope.* Residual bound for every filter (C90_residual), forward error without feedback (C90_fir, C90_fir_double) and with feedback (C90_stable); the returned memory and filtering in chunks (C90_memory, C90_fir_memory, C90_chunks). The arithmetic is p-bit with unbounded exponent, so overflow and underflow are outside; the IIR recursion rounds every operation as SciPy's transposed direct form does, the convolution of the FIR path may sum in any order with or without fused multiply-add (IsConvolve).

### C91 The channel estimation test of the project succeeds for every draw

*Model/proof.* The test as a function of its draws (`Model/ChanTests`). The cut and filtered pattern is a piece of the periodic channel output (`filtered_pattern`); C68 in the form "any capture whose best phase is unique" (`C68_recovers_phase`) gives exact recovery. Uniqueness of the best phase: over complete periods by the autocorrelation of the PRBS (for PAM4 because a short channel has no second tap half a period away), over one and a part period by comparing the gain of the full period with the loss on the rest. The negation evaluates all 127 correlations of one draw in integers and uses the normal equations at the wrong phase (`ls_difference`).
*Status.* partial; `Props/ChanTests.lean, Props/ChanTestsNeg.lean`: `C91_negative`, `C91_success_partial`, `C91_two_periods_partial`.
*Scope.* True for every draw with four levels and for two levels with at least three repetitions (C91_success_partial), and with two repetitions when the interference is small against the period (C91_two_periods_partial). False in general: C91_negative is a draw (PRBS7, NRZ, two repetitions, cutoff 24, 40 taps of magnitude 1/2) for which the lock takes a wrong phase and the assertion fails. Exact arithmetic and an abstract least-squares solver; random.randint and numpy.random.random are represented by the values they may return.

### C92 The noise test of the project measures what its documentation says

*Model/proof.* The test as a function of the normal draws (`Model/NoiseTest`). Fourth moments of a product of Gaussian measures (`Lemmas/GaussMoments`) give mean and variance of the sample variance; C05 and C13 give the power of a period of each constellation, C59 the gain of the noise, so that the verdict is a condition on the sample variance alone; Markov on the squared error bounds the failure probability.
*Status.* proved; `Props/NoiseTest.lean`: `C92_estimator`, `C92_negative`, `C92_outcome`, `C92_probability`.
*Scope.* Exact arithmetic. The probability statements take the samples behind numpy.random.normal as independent standard normal variables (normalDraws); C92_outcome needs no such reading. The bound 1/8 is from the second moment; C92_negative shows that the assertion can fail.

### C93 lasso_regression returns a solution of the lasso problem

*Model/proof.* The solver of scikit-learn as a parameter with its documented contract (`Spec/Lasso`). The objective differs from its value at a point by a square, a linear and an absolute-value part (`lasso_expand`); small steps in one coordinate give the optimality conditions, the expansion gives their sufficiency and the effect of the tolerance. Existence by compactness; the intercept is eliminated by centring.
*Status.* partial; `Props/Lasso.lean`: `C93_accuracy`, `C93_documented`, `C93_exists`, `C93_kkt`, `C93_negative`, `C93_result`, `C93_shrinks`, `C93_single`, `C93_zero`.
*Scope.* scikit-learn's solver is a parameter with its documented contract up to a tolerance (IsLassoFit; C93_exists shows that it can be met). Proved: result and errors (C93_result), optimality conditions (C93_kkt), effect of the tolerance (C93_accuracy), vanishing and shrinking (C93_zero, C93_shrinks), one column (C93_single). The documented objective is the one minimised only for centred data and the factor 2 m lambda (C93_documented); for the data as given this and the returned sum of squares are false (C93_negative).

### C94 Symbol error probability after awgn is that of the nearest-level decision

*Model/proof.* Every decision depends on one draw. The set of draws for which the slicer (the rounded grid position) is right is an interval up to its end points, which have probability zero (`Lemmas/GaussTail`, `Lemmas/ErrorRate`); the product measure turns intervals into products. The exponential bound is the moment generating function.
*Status.* partial; `Props/ErrorRate.lean`: `C94_bound`, `C94_demapping_partial`, `C94_negative`, `C94_rate`, `C94_recover`, `C94_silent`, `C94_slicer`.
*Scope.* Proved for the slicer (C94_slicer, C94_rate, C94_bound, C94_silent for the pattern without power) and for slicer plus demapping (C94_recover). False for demapping of the noisy signal: indices beyond the constellation wrap or raise; C94_demapping_partial gives the exact probabilities of a right result and of IndexError, C94_negative shows that the latter is positive at every ratio and that two-level demapping is strictly worse than the slicer. Exact arithmetic; the samples behind numpy.random.normal are taken as independent standard normal variables.

### C95 Training with the gradients of ddlms_grad converges to the least mean squared error

*Model/proof.* The update of the training loops (`Model/LmsTrain`). On a record that is at rest outside of the block each returned gradient is a positive multiple of the partial derivative of the mean squared error over the whole block. Weighted gradient steps on a sum of squares: Cauchy-Schwarz gives the descent, the weighted distance to any comparison gives the rate (`Lemmas/LmsTrain`).
*Status.* partial; `Props/LmsTrain.lean`: `C95_descent`, `C95_ffe`, `C95_negative`, `C95_pass`, `C95_rate`, `C95_taps`.
*Scope.* Proved for records at rest outside of the block, with known symbols as reference, for FFE and DFE taps together (C95_descent, C95_rate, C95_taps) and for the FFE loop of the tests through ffe_dfe and ddlms_grad (C95_ffe); the step of a pass with the first samples dropped, as in the tests, is C95_pass. False for a block out of the middle of a stream, as the tests pass it: the gradient leaves out samples that count in the loss, and a step can raise the loss for every learning rate (C95_negative). Exact arithmetic; for the stopping rules of the tests see C106.

### C96 What equalization_prbs_test decides, and that it succeeds for every open channel

*Model/proof.* The test as a function of its draws (`Model/EqTests`). The channel output satisfies the recursion of the all-pole filter; the equalizer with zero DFE tap is the same FIR filter. Success: poles are undone one by one, which bounds the intersymbol interference by the gain of the poles; an open eye makes the true phase the strict maximum, there the reference is an exact linear function of the windows, and the windows have full rank (diagonal dominance of the autocorrelation of long sequences, exact elimination over the rationals for PRBS7). Failure: kernel evaluation of the whole run for one draw.
*Status.* partial; `Props/EqTests.lean, Props/EqTestsNeg.lean`: `C96_negative`, `C96_poly`, `C96_success_partial`, `C96_verdict`.
*Scope.* What the test decides is proved for every draw (C96_poly: the drawn polynomial; C96_verdict: the lock, the least squares problem, no exception, second assertion never fails). Success is proved for draws whose poles leave the eye open (C96_success_partial: the product of 1/(1-|r|) below 2 for NRZ, 3/2 for OOK, 4/3 for PAM4; OOK from three repetitions). False for all draws: C96_negative exhibits accepted poles (four at 1/2, two at -1/2, PRBS7, NRZ) for which the lock takes the wrong phase and the test fails. Exact arithmetic; the least squares solver is a parameter with its contract.

### C97 Convolutional decoders on received bits with errors: the path the Viterbi decoder keeps, the errors it corrects and the reported error probabilities

*Model/proof.* The decoders with `error_prob=True` (`Model/ConvErr`). The specification (`Spec/Survivor`) speaks of runs of the shift register: a run survives if every one of its transitions is nearest to the received bits among all transitions into the same register contents. The forward pass of the decoder is shown to keep exactly one such run per state, with its distance; the rest is counting. Errors: by induction the sent run survives, and every other survivor loses, if the distances of the code exceed twice the errors. The distances of a concrete code are checked by evaluation of a finite table. The exhaustive decoder follows from the theorem about `ml_decoding` with the set of pairs as code book.
*Status.* partial; `Props/Survivor.lean`: `C97_corrects_partial`, `C97_ml_error_prob_partial`, `C97_negative_bits`, `C97_negative_count`, `C97_one_survivor_per_state`, `C97_stream_partial`, `C97_survivors_partial`.
*Scope.* Proved for codes with memory whose transitions can be told apart by end state and output: C97_survivors_partial (the exact result for every received pattern), C97_one_survivor_per_state, C97_corrects_partial and C97_stream_partial (errors that are corrected, up to the whole encoded stream). Without these conditions the decoder can return -1 as a bit (C97_negative_bits). The exhaustive decoder is covered by C97_ml_error_prob_partial for every code; its reported value counts pairs of register contents and data, not codewords (C97_negative_count).

### C98 Bit error rate of the link from bits to bits in Gaussian noise, with and without Gray coding

*Model/proof.* The set of draws for which the slicer decides for level j when level k was sent is an interval up to its end points (`slice_cell`), hence a difference of two tails. The chain after the slicer works symbol by symbol, so that a bit is wrong exactly if the decided level carries another label at that place; summing over the bits of a symbol gives the Hamming distance of the labels, read off a complete table over all options. The comparison of the two rates bounds differences of tails by the density at the ends of the interval.
*Status.* proved; `Props/BitErrorRate.lean`: `C98_gray_gain`, `C98_pam4`, `C98_rate`, `C98_two`.
*Scope.* Exact arithmetic; the draws of numpy.random.normal are independent standard normal (normalDraws). PAM3 carries no whole number of bits and is excluded; an OOK pattern without any mark gets no noise (C94_silent).

### C99 The shipped example program runs its convergence loop to the end

*Model/proof.* The program is modelled as a whole: configuration, construction, one call, loop with fuel. One call of the shipped link is analysed once (`ship_step`) from any state whose memories have the right sizes: transmitter, channel, CTLE, converter and the delaying equalizer succeed, whatever the noise, and the result of the call is that of the convergence stage. The LMS branch of this stage raises AttributeError. That no configuration ends regularly follows since no call with both bits set succeeds.
*Status.* partial; `Props/SimMain.lean`: `C99_calls_partial`, `C99_negative_attribute_error`, `C99_negative_never_finishes`, `C99_negative_no_history`.
*Scope.* Violated, for every channel file and noise (C99_negative_attribute_error: the second chunk raises AttributeError, cdsp.rx has no lms_grad) and for every configuration (C99_negative_never_finishes; no call of the link succeeds once the convergence bits are set, so that gather_memory is never reached: C99_negative_no_history). What holds: all objects are built and every chunk passes as long as the convergence bits are not set, with 64 symbols, all of them 1 or 2, and 64 bits (C99_calls_partial). Exact arithmetic; the noise samples are arbitrary.

### C100 Gain control and clock recovery of the example receiver

*Model/proof.* The convergence stage without LMS is a total function of chunk and state; `LoopStep` in `Spec/GainLoop` says what it does in terms of powers and the timing error. Runs are built from `ship_step` by iteration. Stability: g + c(L - g^2 P) is increasing in g below 1/(2cP) and decreasing in P, so the distances to the two extreme fixed points shrink geometrically. Run-away: an explicit signal, quiet until the gain first exceeds 8, then loud; the timing error is computed exactly and never small.
*Status.* partial; `Props/SimMain.lean`: `C100_gain`, `C100_gain_settles`, `C100_negative_runaway`, `C100_run`.
*Scope.* C100_run covers the whole link with the LMS bit off, for every noise; C100_gain and C100_gain_settles give stability for powers in a band. False for all signals: C100_negative_runaway. Exact arithmetic. The run-away is proved for the digital stage fed with converter samples, not traced back to a channel and noise that produce them.

### C101 The Mueller-Muller detector estimates the two cursors next to the main tap

*Model/proof.* The symbols as a function on the residues modulo the period. Summed over a period, the product of symbols and samples is a sum over the taps of the autocorrelation at two neighbouring lags; the PRBS has a two-valued autocorrelation (C06), PAM4 symbols are two samples of the same sequence, so theirs is flat except at lag 0 and the distance of these two. A Gray coded bit is the sum of two successive bits, which is the sequence again at the discrete logarithm of 1+alpha, checked by powers of the step matrix. The main tap cancels in every single summand, so the rest of an incomplete period is bounded by the other taps.
*Status.* partial; `Props/Timing.lean, Props/TimingWeights.lean`: `C101_direction`, `C101_estimate`, `C101_exact`, `C101_negative_echo`, `C101_negative_tolerance`, `C101_negative_weights`, `C101_weights`.
*Scope.* Proved: the timing error over any record (C101_estimate), the exact decision over whole periods (C101_exact), the direction on any record (C101_direction), unequal weights (C101_weights). Violated as documented: the tolerance is not one of the amplitudes (C101_negative_tolerance); the restriction to channels shorter than the distance of the echo is sharp for PAM4 (C101_negative_echo); with Gray coding this distance is a discrete logarithm, only 3 symbols for PRBS7 and 7 for PRBS15; with unequal weights the mean of the levels adds a bias, and on undistorted OOK the detector always steps in one direction (C101_negative_weights). Exact arithmetic.

### C102 The clock recovery loop of the test locks to the symbol centre

*Model/proof.* At one phase the samples are the symbols through an FIR filter with the pulse sampled at that offset as taps. The pattern lock finds the largest tap, since the correlation is the tap times the contrast; the step is then the one of C101 for the two neighbours of this tap, whose difference is the S-curve g(1-s) - g(1+s). That the S-curve is positive and between two linear functions on (0, 1/2] comes from an integral representation of the raised cosine with a nonnegative window. The last assertion of the test compares the estimated taps 18 and 20. By C68 these are the taps of the channel divided by the variance of the signal, by C101 their difference is what the detector measures; without distortion both are 0, since the raised cosine vanishes at the other symbol centres.
*Status.* partial; `Props/CdrAssert.lean, Props/CdrTest.lean`: `C102_assertion`, `C102_assertion_iff`, `C102_centre`, `C102_last_signal`, `C102_lock`, `C102_negative_grid`, `C102_negative_weak`, `C102_passes`, `C102_resolution`, `C102_short`, `C102_test`.
*Scope.* Proved: C102_lock (every run ends, monotonically, at a phase whose timing error is below the tolerance and not before), C102_resolution, C102_centre, C102_test, C102_passes (the whole test including its last assertion passes without distortion), C102_assertion (a lock implies the assertion for every FIR channel of the estimated length whose output is strong enough), C102_assertion_iff (what the assertion says). Violated as claims: C102_negative_grid (a finer grid of phases gives no finer lock), C102_negative_weak (a weak signal locks and fails the assertion, which is not normalized). Not covered: the autoregressive channel and the quantizer of the test between shaping and loop, incomplete periods, Gray coded PAM4 of PRBS7 and PRBS15 with the default bit order, whose echo is closer than the span of the pulse. Exact arithmetic.

### C103 Block error probability of the linear code over the noisy two-level link

*Model/proof.* Each bit of the two-level link depends on its own draw, through a measurable region of probability Q(t) (from C98); the product measure gives the law of the set of wrong bits, and from it the law of every event about one block (`part_law`). The decoder of the stream works block by block and returns a nearest codeword (C32). The rest is counting in the specification `Spec/BlockRate`: inverting all subsets of positions of a codeword reaches every word once. For the parity code the distance from the code is the parity of the word.
*Status.* proved; `Props/BlockRate.lean`: `C103_average`, `C103_bound`, `C103_channel`, `C103_hamming`, `C103_link`, `C103_optimal`, `C103_parity`, `C103_perfect`.
*Scope.* C103_channel, C103_link, C103_bound, C103_perfect, C103_average, C103_optimal, C103_parity, C103_hamming. Exact arithmetic; the draws of np.random.randn are independent standard normal variables. The averages over the data are stated for a fixed crossover probability, since awgn measures the power of the particular record.

### C104 What the tests with literal data verify

*Model/proof.* The four tests become propositions about an arbitrary function in the place of the one under test. That the library passes is evaluation (Lagrange, buffer) and the round trip C17; completeness reads the finitely many equations off the literal arrays; the negative results exhibit what the assertions do not mention.
*Status.* partial; `Props/MainTests.lean`: `C104_buffer`, `C104_delay`, `C104_demapping_complete`, `C104_mapping_complete`, `C104_negative_delay`, `C104_negative_ook`, `C104_ook_polarity`, `C104_pass`.
*Scope.* Proved: the tests pass (C104_pass), the mapping test is complete for symbolwise functions (C104_mapping_complete), what exactly the demapping test checks (C104_demapping_complete), the buffering test for an arbitrary function checks the right frames of its four calls and nothing else (C104_buffer), and the assertions of the delay test for arbitrary coefficients (C104_delay). Violated: the demapping test hands the inversion of OOK over as full_scale (test_main.py 331-332), so no behaviour for OOK with pn_inv=True can fail it (C104_negative_ook); it goes unnoticed because negative indices wrap and the polarity of OOK does not matter (C104_ook_polarity); the sinc coefficients pass the Lagrange test (C104_negative_delay). Exact arithmetic.

### C105 Every second bit of a PRBS, and a four-level receiver on a two-level link

*Model/proof.* Squaring is additive modulo 2, so the sequence b(2t) obeys the recursion of b(t); a nonzero sequence of the recursion is a shift of b since b visits all states (C04). With Gray coding one bit is the sum of two successive bits, again the sequence at the discrete logarithm of 1+alpha, a constant per polynomial checked by powers of the step matrix. A PAM4 symbol is then twice one sample plus another of the two-level sequence, at a fixed distance, half a period without Gray coding; for an equalizer with fewer taps at most one of the two samples is in reach, and the autocorrelation (C06) makes the others orthogonal up to 1/N. The energy not in reach bounds the squared error; counting the symbols whose sign of the far sample is against the decision bounds the errors.
*Status.* partial; `Props/Decimate.lean`: `C105_autocorrelation`, `C105_decimation`, `C105_errors`, `C105_estimated`, `C105_four_levels`, `C105_mismatch`, `C105_mismatch_attained`, `C105_sum`.
*Scope.* Proved: C105_decimation, C105_sum, C105_four_levels, C105_autocorrelation, C105_mismatch (attained: C105_mismatch_attained), C105_errors, C105_estimated. The example script violates its purpose: example_runs.py transmits NRZ (lines 13, 19) and estimates, slices and checks as PAM4 (lines 115, 222, 346). Not covered: the jitter, noise, CTLE and converter of the script between transmitter and estimator (the channel is an FIR filter), decisions fed back by the DFE instead of the true symbols. Exact arithmetic.

### C106 The tests that train an equalizer with the LMS gradients

*Model/proof.* The test becomes a function of its draws. While the eye is open all decisions of the DFE are right and the lock finds the alignment, so that loss and gradients are a quadratic form in the tap errors and its gradient up to the few samples that the gradient leaves out. The autocorrelation of the PRBS (C06) bounds the form from below by the squared tap errors, which gives a contraction per pass and, when the loss stops to change or is below 1e-6, small tap errors; the contraction takes care of the pass limit. For the FFE test a counterexample: the samples behind three poles 3/10 are computed exactly, the gradient is a matrix known to 1e-12, and in the approximate eigenvectors of this matrix every pass shrinks the components of the tap error by known factors; the tap errors stay in a box in which the kernel evaluates the correlations of all 127 phases, and the slowest component is still too large after 100000 passes.
*Status.* partial; `Props/LmsTests.lean, Props/LmsTestsNeg.lean`: `C106_dfe_partial`, `C106_negative_ffe`.
*Scope.* Proved for the DFE test with hard decisions (C106_dfe_partial): up to eight zeros, if the period is at least 29 taps^2 symbols and the squared postcursors add up to less than 1/(8 taps), which opens the eye of the untrained receiver. False for the FFE test (C106_negative_ffe): with PRBS7 and three poles 3/10, which the test accepts, the loop runs into its limit of 100000 passes before the taps are within 1e-2. Missing: DFE channels with larger postcursors, FFE channels for which the test does pass, soft decisions, floating-point rounding (exact arithmetic).

### C107 What the randomized tests verify

*Model/proof.* The models of the tests take the functions under test as arguments; the tests of the library are instances. Each reference computation of a test is shown to have the closed form of the specification (`Spec/TestPower`), which determines its result uniquely; a test is then an equation for the value returned by the implementation. Blind spots are exhibited as concrete wrong decoders that pass on every draw.
*Status.* partial; `Props/TestPower.lean, Props/TestPower2.lean`: `C107_bipolar`, `C107_blind_bipolar`, `C107_blind_conv`, `C107_blind_linear`, `C107_blind_manchester`, `C107_conv_basic`, `C107_conv_decoding`, `C107_conv_feedback_partial`, `C107_diff_manchester`, `C107_differential`, `C107_gray`, `C107_line_decoding`, `C107_linear`, `C107_lock`, `C107_lock_binary`, `C107_manchester`, `C107_mlt3`, `C107_negative_lock_zero`, `C107_prbs_analysis`, `C107_prbs_gen`, `C107_symbols`.
*Scope.* Proved, as equivalences for arbitrary implementations and single draws: C107_gray, C107_differential, C107_manchester, C107_bipolar, C107_mlt3, C107_diff_manchester, C107_line_decoding, C107_linear, C107_prbs_gen, C107_prbs_analysis, C107_symbols, C107_lock, C107_lock_binary, C107_conv_basic, C107_conv_feedback_partial, C107_conv_decoding. The tests violate the property in two ways: lock_pattern_to_signal_test with shift 0 cannot be passed by any function that returns one correlation value per position (C107_negative_lock_zero), and the tests of the decoders only see error-free codewords, so that decoders without error detection or correction, or convolutional decoders that return nothing, pass on every draw (C107_blind_manchester, C107_blind_bipolar, C107_blind_linear, C107_blind_conv). Arrays are compared as lists of equal length; the broadcasting of length-1 arrays by NumPy is not modelled. The economy variant of the checker test is not covered.

### C108 Oversampled equalization of example_runs.py

*Model/proof.* Noble identities: the sum over upsampled coefficients has one term in osr, so that the difference equation at phase phi is the one of the samples; solutions are unique (C44). With decision feedback the oversampled decision register, delayed by half a symbol, holds at the sampling instants the decisions of the symbol-rate equalizer; uniqueness of the recursion (C47). Pulse shaping commutes with the upsampled channel since both are convolutions from rest; Nyquist pulses by C51. Phase search by induction over the phases; genie checker from C20, C18, C13 and C08.
*Status.* partial; `Props/GenieChecker.lean, Props/Polyphase.lean`: `C108_decision_feedback`, `C108_feed_forward`, `C108_filter`, `C108_genie`, `C108_genie_error_free`, `C108_interpolation`, `C108_nyquist`, `C108_phase_search`, `C108_rx_example`, `C108_rx_example2`, `C108_symbol_spaced_taps_at_sample_rate`.
*Scope.* Proved: C108_filter, C108_feed_forward, C108_decision_feedback, C108_rx_example, C108_rx_example2, C108_phase_search, C108_interpolation, C108_nyquist, C108_genie, C108_genie_error_free. The script violates the property in rx_example, which filters the oversampled signal with symbol-spaced taps without upsampling them (C108_symbol_spaced_taps_at_sample_rate). Not covered: jitter, plots, the CTLE between channel and equalizer (C56), and that rx_example2 plots the equalized converter input but returns the equalized converter output.

### C109 A PRBS as the test signal of a channel

*Model/proof.* By the window counts of C76 every word of up to n bits except zeros occurs once per period; a sample behind an FIR channel depends on m symbols only, so each sample for arbitrary data also occurs in the PRBS (for the word of zeros, which does not occur, its complement is used with NRZ). The extreme samples belong to the sign pattern of the taps. Sharpness: no run in a PRBS is longer than n, so that n equal echoes of weight 1/(n-1) never add up against the symbol except for constant data.
*Status.* proved; `Props/TestSignal.lean`: `C109_eye`, `C109_one_tap_more`, `C109_pam4_eye`, `C109_peak_distortion`, `C109_sufficient`, `C109_sufficient_nrz`.
*Scope.* C109_sufficient (two and four levels), C109_sufficient_nrz (as many taps as cells), C109_peak_distortion, C109_eye, C109_pam4_eye; sharpness: C109_one_tap_more. Exact arithmetic, without noise; decisions after the first m - 1 symbols (the channel starts from zeros).

### C110 Array shapes in the channel scripts

*Model/proof.* The scripts as functions of their data, with plots as checks of the shapes; lengths of slices and of digital_oversample (C53), pulse_shape (C50), eye_diagram (C57) by arithmetic; exactness for polynomials from C53.
*Status.* partial; `Props/ChannelScripts.lean`: `C110_eye_plot`, `C110_negative_pulse_show`, `C110_negative_reconstruction`, `C110_rcos_finite`, `C110_reconstruction_completes`, `C110_reconstruction_partial`.
*Scope.* The scripts violate the property: channel_reconstruction.py raises ValueError for all data of the form it loads, since the segment of the channel has one sample more than the interpolations (C110_negative_reconstruction; it completes exactly for a channel one sample shorter, C110_reconstruction_completes), and channel_example(pulse_show=True) raises ValueError for every pattern, since it plots the pair of signal and memory returned by pulse_shape (C110_negative_pulse_show). Proved: the plots before the comparison fit (part of C110_reconstruction_completes), agreement at the symbols and for polynomials without the surplus sample (C110_reconstruction_partial, sinc and Lagrange), finite raised cosine coefficients (C110_rcos_finite), eye diagrams fit their axes (C110_eye_plot). What Matplotlib draws is not modelled.

### C111 The state of the example simulation: tap history, configured taps and seeds

*Model/proof.* A store of arrays with references; data object, equalizer, history and the operations on them as functions on the store; the recorded tap vectors are defined by replaying the operations. Invariant: equalizers and histories use different arrays. Negations: concrete sharing for all data objects and gradients.
*Status.* partial; `Props/SimState.lean`: `C111_history_partial`, `C111_negative_history`, `C111_negative_prev_seed`, `C111_negative_shared`, `C111_seed`, `C111_set`.
*Scope.* The code violates the property: the equalizer keeps the arrays of its data object and its update works in place, so a second simulation made from the same data starts with trained taps and shares them (C111_negative_shared); set_ffe with an entry of the history lets later updates change the history (C111_negative_history); get_prev_seed always raises AttributeError (C111_negative_prev_seed). Proved: the history is exact for all programs that hand no history array to an equalizer (C111_history_partial); set_ffe/set_dfe accept exactly the configured lengths at any time (C111_set); get_seed continues the stream (C111_seed). Arrays are modelled as cells of a store; views are not. In the shipped program the update is behind the call of a missing function (C99), the gradients are therefore inputs.

### C112 Block error probability of convolutional and block codes: union bound, and the price of the Viterbi selection

*Model/proof.* The decoders are shown to work block by block with a function of one block; the law of the wrong bits is the one of C103. A rival word at least as near as the one sent needs half of the differing positions inverted, which is bounded by the product formula for sums over subsets with square roots as weights (Bhattacharyya), then the union over the rivals. Linear code: distances from a codeword are weights (symmetric differences of data words). Viterbi: survivors of C97; negation for a rate 1/3 code with distance 3 for which every single error in the third bit of a step misleads the selection.
*Status.* partial; `Props/CodedRate.lean`: `C112_linear_union`, `C112_ml_ball`, `C112_ml_link`, `C112_ml_union`, `C112_negative_viterbi`, `C112_viterbi_ball_partial`, `C112_viterbi_link_partial`.
*Scope.* The code violates the property for the Viterbi decoder: for a rate 1/3 code whose words differ in three positions the exhaustive decoder loses a block of n steps with at most (3n-1)^2 p^2, decoding_conv_viterbi with at least (n-1) p (1-p)^(3n-1), for every block sent (C112_negative_viterbi). Proved: the link for both decoders (C112_ml_link; C112_viterbi_link_partial for codes whose transitions are identified by output and end state, see C97), union bound of the exhaustive decoder (C112_ml_union) and of decoding_linear by weights (C112_linear_union), correction up to half the distance (C112_ml_ball), Viterbi up to half the distance of merging transitions (C112_viterbi_ball_partial).

### C113 Feed-forward equalizer on a noisy record: law of the output, error probability, matched-filter bound, LMS in noise

*Model/proof.* The equalizer output is a linear combination of the draws plus a constant (C46), whose law is Gaussian by induction over the draws (characteristic functions); the slicer regions of C94 shifted by the residual interference give the error probability. All-pole channels by the difference equation (C44); matched-filter bound by Cauchy-Schwarz on the zero-forcing condition. LMS pass (C95) with second moments of the draws; passes on independent records by Fubini, the mean taps obey a leaky gradient step whose contraction is the one of C95 for the system augmented by the noise rows. Ridge: the mean loss is the ridge cost of C60.
*Status.* proved; `Props/EqNoise.lean, Props/EqNoiseLms.lean, Props/EqNoiseTrain.lean`: `C113_ar`, `C113_decision`, `C113_eye`, `C113_law`, `C113_matched`, `C113_mean_training`, `C113_pass`, `C113_ridge`.
*Scope.* Law of the equalizer output (C113_law), exact error probability of the decisions and bound by the residual interference (C113_decision, C113_eye), all-pole channels (C113_ar), zero forcing and matched-filter bound (C113_matched), one LMS pass in noise (C113_pass), mean of the training on fresh noise (C113_mean_training), ridge regression (C113_ridge). Idealized: exact real arithmetic, the samples behind numpy.random.normal are independent standard normal. The mean training is for passes that drop no samples, ridge for passes that drop at least the first len(taps)-1 samples (as the test does).

### C114 Decision feedback equalizer in noise: error probability and error propagation

*Model/proof.* The recursion of C47 with the difference equation of C44: the equalizer output is the symbol, the scaled noise and what wrong decisions of the past leave. First wrong decision: the prefix without errors depends on each draw alone, product measure. Error propagation: a potential in the number of right decisions just before the symbol decreases in the mean by at least the error indicator minus the ideal error probability, integrating out one draw at a time (marginals of the product measure). The catastrophic case by induction over the symbols.
*Status.* proved; `Props/DfeNoise.lean`: `C114_binary`, `C114_catastrophe`, `C114_errors`, `C114_first`.
*Scope.* Expected number of wrong decisions (C114_errors, C114_binary), law of the first wrong decision (C114_first), endless error propagation on alternating symbols (C114_catastrophe). Idealized: exact real arithmetic, the samples behind numpy.random.normal are independent standard normal; symbol rate, no initial conditions, the FFE tap and the feedback taps undo the response exactly.

### C115 Timing estimate and pattern lock in Gaussian noise

*Model/proof.* Timing error and differences of correlations are linear in the draws, so their laws are Gaussian (lemma of C113) and the events are half lines or the gap between two. The lock errs if some other phase correlates better: lower bound by one phase, upper bound by the union; the distance of two phases of a PRBS is the count of C06. Mean of the timing error on a PRBS: C101.
*Status.* proved; `Props/RxNoise.lean`: `C115_lock`, `C115_lock_prbs`, `C115_timing`, `C115_timing_prbs`, `C115_wrong_way`.
*Scope.* Law of the timing error and probabilities of the steps (C115_timing, C115_wrong_way, C115_timing_prbs), probability of a wrong lock (C115_lock, C115_lock_prbs). Idealized: exact real arithmetic, the samples behind numpy.random.normal are independent standard normal.

### C116 Least squares and ridge regression on noisy observations

*Model/proof.* The normal equations of C60 make the coefficients the true ones plus a linear map of the draws (pseudo inverse); laws of linear functionals by the lemma of C113, second moments of the draws for the residual (trace of the projection). Gauss-Markov by splitting an unbiased weight into the pseudo inverse row and an orthogonal rest. Ridge: the same with the regularized inverse; the comparison of the mean squared errors by Theobald's identity.
*Status.* proved; `Props/LeastSqNoise.lean`: `C116_best`, `C116_ols`, `C116_ridge`.
*Scope.* Laws of the coefficients and the mean residual (C116_ols), Gauss-Markov (C116_best), ridge regression (C116_ridge). Idealized: exact real arithmetic, the samples behind numpy.random.normal are independent standard normal.

### C117 Channel estimation from a PRBS in Gaussian noise

*Model/proof.* The columns of the system are shifts of the PRBS with two-valued correlations (C06), so the least squares weights are explicit and their squares sum to (N+2-W)/((N+1)(N+1-W)); the period average spreads them over the record. Wrong lock: difference of two correlations against the tap gap, union bound; the averaged record is constant with probability zero only.
*Status.* proved; `Props/ChanNoise.lean`: `C117_estimate`, `C117_phase`, `C117_taps`.
*Scope.* Law of the tap errors (C117_taps), probability of a wrong lock (C117_phase) and of a tap error (C117_estimate); the documented factor of C68 (taps divided by the variance of the averaged record) is kept in the statement. Idealized: exact real arithmetic, the samples behind numpy.random.normal are independent standard normal; NRZ, channel no longer than the estimated window.

### C118 Lock, timing detector and feed-forward equalizer in floating-point arithmetic

*Model/proof.* Scalar products in any order with or without fused multiply-adds have the error bound of C82; the lock with inexact correlations is C81, for a PRBS the distance between the phases is the count of C06. Timing detector: the errors of the scalar products, the division, the weights and the difference multiply up. Equalizer: error of one scalar product per output; the link by writing channel and equalizer as one filter, with the errors of the channel (C90) passed through the equalizer.
*Status.* proved; `Props/RoundedRx.lean, Props/RoundedRxPrbs.lean`: `C118_ffe`, `C118_link`, `C118_lock`, `C118_lock_double`, `C118_lock_prbs`, `C118_lock_prbs_double`, `C118_single_tap`, `C118_timing`, `C118_timing_double`, `C118_timing_prbs`.
*Scope.* Lock (C118_lock, C118_lock_double, C118_lock_prbs, C118_lock_prbs_double), timing detector (C118_timing, C118_timing_double, C118_timing_prbs), equalizer (C118_ffe, C118_single_tap) and link (C118_link). Idealized: unbounded exponent; correlations and convolutions by direct summation in any order (SciPy may choose an FFT for long inputs, for which C81 takes the error bound as a hypothesis).

### C119 Arrays of any rank

*Model/proof.* An array is its shape and its entries in C order (`Model/Tensor.lean`). Multi-indices correspond one to one to positions (induction over the axes), and appending an index multiplies the position by the last dimension, so functions along the last axis act on rows of a matrix (C41) and elementwise functions on the entries (C16, C17, C18, C20). The slicer for three or more axes: case distinction on the shape as in the code.
*Status.* partial; `Props/Tensor.lean`: `C119_bin2uint`, `C119_bits_roundtrip`, `C119_demapping_partial`, `C119_gray_partial`, `C119_index`, `C119_int_roundtrip`, `C119_mapping`, `C119_negative_slicer`, `C119_quantize_partial`, `C119_slicer_agrees`, `C119_slicer_errors`, `C119_slicer_partial`, `C119_uint2bin`.
*Scope.* Bits and integers: proved. Mapping: proved. Demapping and Gray coding: with the restrictions of C18 and C16. The claim is false for slicer and quantize with three or more axes and for matrices without rows, which come back as vectors (C119_negative_slicer); proved for vectors and matrices with rows. Not modelled: strides, integer overflow beyond 64 bits.

### C120 The example link with a dispersive channel, a CTLE and equalizer taps

*Model/proof.* A recursive filter from rest is the convolution with its impulse response (induction over the signal), which is unique. Channel, CTLE and feed-forward taps are then convolutions of the sampled pulse; swapping the sums gives one response per symbol. The converter and the noise add bounded errors, so the slicer input is within half a level distance of the symbol of the main cursor. Feedback: strong induction over the symbols; the decisions of the equalizer are those of the receiver divided by the gain (uniqueness of the nearest level). The example link (rectangular pulse, echo of a quarter, peaking CTLE, noise of five standard deviations) meets all hypotheses. With Gaussian noise the bound on all samples holds with the probability of a box.
*Status.* proved; `Props/SimEqualized.lean, Props/SimFeedback.lean, Props/SimLinkNoise.lean`: `C120_ctle`, `C120_error_free`, `C120_feedback`, `C120_feedback_bits`, `C120_gaussian`, `C120_gaussian_feedback`, `C120_symbols`.
*Scope.* CTLE (C120_ctle), feed-forward equalizer (C120_symbols, C120_error_free), decision feedback (C120_feedback, C120_feedback_bits); Gaussian noise (C120_gaussian, C120_gaussian_feedback). FIR channels (with an IIR response the channel object cancels or raises, C72); in the other theorems the noise samples are arguments within a bound; exact arithmetic. The taps are given; their convergence is treated in C99 and C100.

### C121 How often the randomized PRBS and lock tests raise a false alarm

*Model/proof.* Finite sums over error patterns. The probability that a given set of positions is hit is a power of p (product expansion), at least k errors by the union bound over k-subsets; C86 and C88 say which patterns the tests accept, C88_negative_shift_zero which rotation they reject. The suite: products of the bounds.
*Status.* proved; `Props/FalseAlarm.lean`: `C121_analysis`, `C121_one_period`, `C121_part_period`, `C121_suite`, `C121_two_periods`.
*Scope.* C121_analysis, C121_two_periods, C121_one_period, C121_part_period, C121_suite. Idealized: numpy.random.random and random.randint draw independently and uniformly; rotation, errors and lengths are independent.

### C122 The power spectrum analyser in white noise: noise level and signal power readings

*Model/proof.* A bin of one segment after removal of the mean is a linear functional of the samples; its squared magnitude is a sum of two squared affine functions of the noise, whose means are known (C116). Sum of squared weights: sum of squared window samples less the window transform over n. All segments have the same expectation. Default window: sums of cosines over whole periods vanish, so the sums of the window and of its squares are exact from 7 samples on. Tone: C70_tone and the factor of the mode.
*Status.* partial; `Props/PsaNoise.lean, Props/PsaNoiseC.lean, Props/PsaWindow.lean`: `C122_mean`, `C122_mean_complex`, `C122_mean_default`, `C122_negative_noise_level`, `C122_negative_tone`, `C122_window`.
*Scope.* C122_mean gives the exact expectation for real signals and C122_mean_complex for complex signals in circular noise (two-sided spectrum), in every mode but dBc. The documented meaning of the modes fails: C122_negative_noise_level (default window, both sidebands) and C122_negative_tone. welch and get_window as in SciPy, exact arithmetic. C122_window bounds the default window for every length, so C122_mean_default needs no condition on the window.

### C123 The economy checker with bit errors in the bits it seeds itself from

*Model/proof.* The difference of the true stream and the one continued from a dirty window is the stream of the difference of the seeds (linearity), non-zero, with 2^(n-1) ones per period. Triangle inequality of mismatches; induction over the retry loop. Probabilities as finite sums over error patterns: single position, pairs among the first 2n-1 bits, th errors by the union bound.
*Status.* partial; `Props/EconSeed.lean`: `C123_loss_probability`, `C123_negative_one_error`, `C123_retry`.
*Scope.* C123_retry (which window is used and what is reported, both cases), C123_loss_probability (two-sided). The documented report fails: C123_negative_one_error, and the over-counted correct bits in C123_retry. Thresholds beyond th + e <= K 2^(n-1), where a wrong seed can be accepted, are covered only by C09_economy_sound.

### C124 Statistics and spectra of the line codes on random data

*Model/proof.* Each coded element is a sign times a product of functions of single bits (complex rotations for MLT-3), so the product of two elements is again such a product; the mean of a product over independent bits is the product of the means (product expansion over the finite space). The periodogram is a double sum over correlations, by induction over the length. Differential coding is injective by C22, hence a bijection on the finite set of vectors.
*Status.* proved; `Props/LineSpectrum.lean`: `C124_bipolar`, `C124_diff_manchester`, `C124_differential`, `C124_manchester`, `C124_mlt3`.
*Scope.* C124_manchester, C124_bipolar, C124_diff_manchester, C124_mlt3, C124_differential. The starting conditions of the coders show in the means of the first elements, which are stated. One-dimensional input.

### C125 Quantization noise of the fixed-point quantizer

*Model/proof.* Integral over the quantizer range split into the cells of the codes (adjacent intervals); inside each open cell the slicer of the model returns the code times q, so the integral factors. Moments by integrating powers.
*Status.* proved; `Props/QuantNoise.lean`: `C125_error_law`, `C125_power`, `C125_snr`.
*Scope.* Real arithmetic. C125_error_law gives the joint law of code and error (all functions of the code, all continuous functions of the error); C125_power and C125_snr are read off from it. frac_bits >= 0 (negative values are not scaled by the code, see C21).

### C126 Line codes on arrays of any rank

*Model/proof.* Model the line codes on a shape with entries in C order (`Model/TensorCode`), with entries addressed by multi-indices (`Spec/Tensor`). Proof: the coders act on the flattened array, so the one-dimensional theorems apply at the flat index; the differential decoder is the two-dimensional one on the rows along the last axis.
*Status.* partial; `Props/TensorCode.lean`: `C126_bipolar`, `C126_bipolar_detect_partial`, `C126_diff_manchester`, `C126_diff_manchester_received`, `C126_differential_code`, `C126_differential_partial`, `C126_differential_single`, `C126_manchester`, `C126_manchester_odd`, `C126_manchester_received`, `C126_mlt3_code`, `C126_mlt3_partial`, `C126_negative_detect`, `C126_negative_differential`, `C126_negative_mlt3`, `C126_rejects`.
*Scope.* Proved for the coders on every shape and for the decoders of both Manchester codes and of the bipolar code without error detection. Missing because the code violates it: decoding_differential runs along the last axis while coding runs through the whole array (C126_negative_differential: fails for every shape with two or more rows; C126_differential_partial says exactly which entries change), decoding_mlt3 and bipolar error detection raise unless all axes but the first have length 1, and 0-d arrays raise (C126_rejects).

### C127 Accuracy of the delay filters on signals that are not polynomials

*Model/proof.* No new model: the coefficients and `digital_oversample` of C52, C53, C64. Proof: the filter output is the interpolating polynomial at the delay (C52), the error of interpolation follows from Rolle's theorem applied n+1 times, the product of the distances to consecutive integers is bounded by pairing taps; up to the Nyquist frequency the derivative of the frequency response is a binomial sum, bounded with the mean value inequality; sinc taps at half a sample are rational multiples of 1/pi, which is irrational.
*Status.* partial; `Props/DelayError.lean`: `C127_below_nyquist_partial`, `C127_coefficients_partial`, `C127_converges`, `C127_negative_nyquist`, `C127_negative_sinc`, `C127_oversample_partial`, `C127_response_partial`, `C127_sinusoid_partial`.
*Scope.* Error bounds proved; convergence proved for every frequency below the Nyquist frequency (C127_converges), false at it (C127_negative_nyquist). Missing because the code violates it: with int64 denominators only orders up to 20 (C52_negative_overflow), and sinc interpolation changes constant signals for every order (C127_negative_sinc).

### C128 Digital oversampling in floating-point arithmetic

*Model/proof.* Model/RoundedDelay: `lagrangeCoeffsR`, `digitalOversampleR` with a rounding after every float operation; products in any order (`Spec.RoundedProd`), convolution in any order (`IsConvolve`, C90). Proof: relative errors multiply; the rounded delay is treated as the delay of an exact filter (C127) and the signal changes little between the two; the sum of the absolute coefficients is bounded by pairing taps.
*Status.* partial; `Props/RoundedDelay.lean`: `C128_coefficients`, `C128_double_partial`, `C128_gain_partial`, `C128_oversample_partial`, `C128_samples`.
*Scope.* Proved for all precisions with unbounded exponent (no overflow, no underflow). With int64 denominators the comparison with the signal holds only for orders up to 20 (C52_negative_overflow); the comparison with the exact filter (C128_coefficients, C128_samples) holds for every order.

### C129 Powers, noise levels and gradients in floating-point arithmetic

*Model/proof.* Model/RoundedStats: `powerR`, `rmsR`, `sigPowerHatR`, `awgnStdR`, `awgnR`, `ddlmsGradR` with a rounding after every float operation; sums in any order (`Spec.RoundedSum`). Proof: sums of non-negative terms keep the relative error; the variance about the rounded mean differs from the exact one by the square of the error of the mean, and the square of the mean of the absolute values is at most the power; square roots and quotients of relative errors.
*Status.* proved; `Props/RoundedStats.lean`: `C129_awgn`, `C129_double`, `C129_lms`, `C129_noise_level`, `C129_power`, `C129_rms`, `C129_signal_power`.
*Scope.* p-bit arithmetic with unbounded exponent. The powers x**2 of a scalar and 10**(snr/10) are parameters with an error bound (C129_noise_level, C129_awgn, C129_double); the distances in the slicer are exact.

### C130 Training an equalizer with the LMS gradients in floating-point arithmetic

*Model/proof.* Model/RoundedTrain: `lmsFfePassR`, `lmsFfeTrainR` from `ffeR` (C118) and `ddlmsGradR` (C129). Proof: the gradient is linear in the errors, so the rounding errors of the outputs and of the gradient add up to one bound per tap (`Spec.passError`); an exact pass contracts the distance from the optimum weighted by the inverse step of each tap by 1/sqrt(1 + lam mu/2); the perturbed contraction stays in a ball, in which the bound of the taps holds.
*Status.* proved; `Props/RoundedTrain.lean`: `C130_pass`, `C130_precision`, `C130_train`.
*Scope.* p-bit arithmetic with unbounded exponent. C130_pass covers a pass with any number of dropped samples, as in the tests; C130_train and C130_precision are for whole records (as C95_ffe). The reference symbols are parameters, taps have delays 0 and up.

### C131 What the stopping rules of the FFE training test guarantee

*Model/proof.* Model/LmsStop: `lmsFfeLoop` (the loop with its stopping rules), `lmsFfeStopTest` (constants and assertion). Proof: at the minimum the error is orthogonal to the inputs, so the excess of the loss is the inner product of the tap error and the correlations; Cauchy-Schwarz and the descent of a pass give progress of at least lam mu/2 times the excess per pass, from which the three exits follow by induction over the passes.
*Status.* proved; `Props/LmsStop.lean`: `C131_loop`, `C131_pass`, `C131_stops`, `C131_test_passes`, `C131_weak_signal_fails`.
*Scope.* Exact arithmetic, whole records (no samples dropped; the test drops as many samples as taps), reference symbols as a parameter (the test aligns them by lock_pattern_to_signal, C11), taps with delays 0 and up. C131_weak_signal_fails shows that the lower bound on lam is needed.

## Disagreements between code and documentation (all proved, unless marked as an observation)

| Property | What the code does | Theorem |
|---|---|---|
| C01 | prbs_generator tiles one nominal period: polynomials that are not primitive go wrong beyond it | `C01_*` witness |
| C09 | prbs_checker_economy reports a dead (all-zero) line as locked | `C09_negative_*` |
| C11 | lock_pattern_to_signal may lock wrongly on signals shorter than a period | `C11_negative_short` |
| C12, C13 | a single multi-bit symbol with an inversion flag raises (np.squeeze) | `C12_negative_single_symbol` |
| C14 | np.isclose accepts alphabets such as 16385 as a power of two | `C14_negative_tolerance` |
| C16 | Gray coding of PAM3 is not invertible / raises | `C16_negative_pam3` |
| C18 | demapping outside the decision regions wraps or raises; with pn_inv the caller's array is negated | `C18_negative_*` |
| C21 | the default number format always raises; negative frac_bits are ignored | `C21_negative_*` |
| C22 | 2-D arrays: coder flattens, decoder works per row | `C22_negative_2d` |
| C26 | leading -1 marks are reported with the wrong sign | `C26_negative_leading` |
| C27 | documentation and code differ in the initial level of MLT-3 | `C27_negative_initial_level` |
| C28 | documentation and code differ in the polarity of differential Manchester | `C28_doc_example_inverted` |
| C29 | check_binary accepts non-binary vectors such as {0,5}-like sets | `C29_negative` |
| C33 | decoding writes the corrected codewords into the caller's array | `C33_negative_mutates` |
| C35 | recursive convolutional encoding loses integer precision for long patterns; single-coefficient polynomials | `C35_negative_*` |
| C36 | the trellis of codes mixing inputs with and without feedback differs from the encoder | `C36_negative_mixed` |
| C38, C39 | parallel transitions are decoded wrongly; the Viterbi survivor is chosen by the last branch only, so the result is not maximum likelihood | `C38_negative_parallel`, `C39_negative_greedy` |
| C42 | buffer does not cover signals not longer than the overlap; clip does not remove exactly the incomplete frame | `C42_negative_*` |
| C45, C49 | a pure gain raises IndexError in FilterTII; integer chunks truncate outputs | `C45_negative_*`, `C49_negative_integer` |
| C46 | a chunk shorter than the filter returns a memory that the next call rejects with TypeError (formatting the message of the intended ValueError fails) | `C46_negative_short_chunk`, `C47_rejects` |
| C47 | oversampled DFE loses the last decision of a chunk for late phases | `C47_negative_late_phase` |
| C50 | pulse 'imp' always raises; roll-off 0 divides by zero | `C50_negative_*` |
| C52, C53 | int64 overflow of the Lagrange denominators from order 21 on | `C52_negative_overflow`, `C53_negative_overflow` |
| C56 | more zeros than poles: unstable; tiny leading coefficients are trimmed; empty lists raise | `C56_negative_*`, `C56_rejects` |
| C57 | no decimation for lower diagram oversampling; first column half a unit interval late; amplitude axis is not the bin centres | `C57_negative_decimation`, `C57_interpolated`, `C57_negative_axis` |
| C58, C69 | last rows of the system use mirrored decisions; the output window ignores the postcursors; normalize without DFE raises TypeError | `C58_negative_*`, `C58_normalize`, `C69_negative_window` |
| C59 | noise power exceeds the requested one for short signals; one sample gives NaN | `C59_negative_short` |
| C60, C66 | sklearn ridge fits an intercept, the manual variant does not; the documented lasso objective and the reached_tol flag are wrong | `C60_negative_sklearn`, `C66_negative_*` |
| C61 | decoder of the example simulation: Gray and differential flags exchanged, stages not reversed, three levels always raise, shipped configuration wrong | `C61_negative_*` |
| C62 | the convergence loop never ends; `cdsp.rx.lms_grad` does not exist | `C62_*` |
| C64 | rcos delay filters divide by zero at singular taps, e.g. default roll-off and zero delay | `C64_negative_default` |
| C65 | the documented soft gradient lacks a factor | `C65_negative_doc` |
| C68 | the estimated channel is scaled by the inverse variance of the capture; pn_inv_postcoding is ignored, an inverted capture gives a wrong channel | `C68_negative_scale`, `C68_negative_postcoding` |
| C70 | the default resolution bandwidth raises below 1900 samples; 'dBc/Hz ' unsupported; a constant component is never shown | `C70_negative_*` |
| C71 | PAM4 slicer levels below the demapper's thresholds: only symbols 1 and 2 can come out | `C71_negative_pam4` |
| C72 | ChannelData replaces the IIR coefficients by the FIR ones; unknown types return None | `C72_negative_*` |
| C73 | check_ber re-locks every chunk: slips invisible, short chunks always error free | `C73_negative_*` |
| C74 | sampling phases of a step or more lose samples in every chunk | `C74_negative_phase` |
| C75 | feed-forward only equalizer object rejects the chunk after a short one | `C75_negative_short_chunk` |
| C83 | coding_conv_feedback_test and decoding_conv_feedback_test fail for valid one-input draws because lfilter leaves the exact integers | `C83_negative_double` |
| C83 | coding_conv_feedback_test compares with a reference that ignores the memory of inputs without polynomial | `C83_negative_memoryless` |
| C84 | two-dimensional arrays with two or more columns: decoding_mlt3 raises ValueError, decoding_bipolar with error detection raises IndexError | `C84_negative_mlt3`, `C84_negative_bipolar_detect` |
| C85 | the Gray code tests of PAM3 never draw symbol 2, the one that fails | `C85_pam3_blind` |
| C86 | prbs_analysis_test raises TypeError for error patterns that turn the sequence into another phase (probability negligible at the error rate used) | `C86_negative_analysis` |
| C87 | bin2symbol_test raises ValueError for the drawn length 1 | `C87_negative_one_bit` |
| C88 | lock_pattern_to_signal_test fails for the drawn shift 0 whatever the code does; the errors of the one-period and part-period tests are injected into the pattern as well | `C88_negative_shift_zero`, `lockRun2`, `lockRun3` |
| C89 | In floating point quantize sends samples beyond about 2^(53+total_bits+1) to the lowest code instead of saturating at the highest, because all distances round to the same number | C89_negative_saturation |
| C89 | In floating point slicer sends a sample extremely close to the middle of two levels to the farther one | C89_negative_tie |
| C91 | channel_estimation_prbs_test draws two repetitions minus a cutoff for a binary pattern, so that lock_pattern_to_signal correlates over one and a part period; for some channels within the drawn range a wrong phase correlates best and the test fails | `C91_negative` |
| C93 | lasso_regression documents `||y-Xw||^2 + lambda ||w||_1`; what is minimised has the factor 1/(2m) and an intercept, and the returned sum of squares leaves the intercept out | `C93_negative`, `C93_documented` |
| C94 | demapping of a noisy signal (documented for signals, as used without a slicer) raises IndexError with positive probability at every SNR and does not reach the error rate of the nearest level | `C94_negative`, `C94_demapping_partial` |
| C95 | for a block out of a stream ddlms_grad divides and sums over other samples than the documented 1/(2N) sum, so that a step along the returned gradient can raise the returned loss for every learning rate | `C95_negative` |
| C96 | equalization_prbs_test fails for some accepted poles: after several poles near 1/2 and -1/2 another phase correlates best with the channel output, although the channel can be equalized exactly | `C96_negative` |
| C97 | the Viterbi decoder returns -1 as a data bit for a code whose register has a cell no output depends on: missing transitions are -1 in the tables and take part in the search | `C97_negative_bits` |
| C97 | decoding_conv_ml with error_prob reports 1 over the number of nearest pairs of register contents and data; documented is the number of nearest codewords | `C97_negative_count` |
| C99 | the shipped example program raises AttributeError in its second chunk, and no configuration lets its loop end; before that all demapped symbols are 1 or 2 | `C99_negative_attribute_error`, `C99_negative_never_finishes`, `C99_negative_no_history` |
| C100 | the gain control of the example receiver runs away to minus infinity when a loud signal follows a quiet one | `C100_negative_runaway` |
| C101 | the tolerance of mueller_muller_step is documented as one of the amplitudes of the cursors; it is one of the amplitudes times the variance of the levels (5 for PAM4, 1/4 for OOK without full scale) | `C101_negative_tolerance` |
| C101 | for PAM4 a tap one symbol before the echo distance of the symbols is taken for a precursor: half a period without Gray coding, but with the default Gray coding and bit order only 3 symbols for PRBS7 (the channel 1 + z^-2/10 steps backwards) and 7 for PRBS15 | `C101_negative_echo` |
| C101 | the weights of mueller_muller_step are documented as those of precursor and postcursor; with unequal weights the squared mean of the levels adds to the comparison, so that on undistorted OOK the detector always steps in one direction | `C101_negative_weights` |
| C102 | the tolerance of the recovery loop is absolute: with 2000 phases per symbol and OOK the loop of the test started two phases away stops at once | `C102_negative_grid` |
| C102 | the last assertion of the clock recovery test compares taps divided by the variance of the signal: with a main tap of 1/100 and a postcursor of 1/2000 the loop locks and the assertion fails | `C102_negative_weak` |
| C104 | test_demapping_plus_decoding_gray passes the inversion of OOK as full_scale; the assertion holds only because negative indices wrap around | `C104_negative_ook`, `C104_ook_polarity` |
| C104 | test_dig_delay_fir_coeffs holds for the sinc coefficients as well | `C104_negative_delay` |
| C105 | example_runs.py transmits NRZ (lines 13, 19) and estimates, slices and checks as PAM4 (lines 115, 222, 346); the residual error and the wrong decisions are those of the mismatch | `C105_estimated`, `C105_errors` |
| C106 | equalization_lms_ffe_test fails for some accepted poles: with PRBS7 and three poles 3/10 the smallest eigenvalue of the gradient is 0.073, and the 100000 passes with learning rate 1e-3 that the loop admits leave the second tap more than 1e-2 away from the channel polynomial | `C106_negative_ffe` |
| C107 | lock_pattern_to_signal_test compares the position of the maximum with the length minus the shift without the remainder that the binary test takes, so that shift 0 fails for every implementation with one correlation value per position | `C107_negative_lock_zero` |
| C107 | the decoding tests use error-free codewords only: decoders that never detect or correct an error pass, and the convolutional decoding tests compare `pattern[:len(decoded)]`, so that a decoder returning nothing passes | `C107_blind_manchester`, `C107_blind_bipolar`, `C107_blind_linear`, `C107_blind_conv` |
| C108 | rx_example applies the symbol-spaced `channel_sampled` at the sample rate without upsampling (line 146; rx_example2 upsamples, line 255), which shrinks the delays of the channel by the factor osr | `C108_symbol_spaced_taps_at_sample_rate` |
| C110 | channel_reconstruction.py cuts the segment `channel[8*osr : -(7*osr-1)]`, one sample longer than the interpolations, and raises ValueError on the shipped data when subtracting | `C110_negative_reconstruction` |
| C110 | channel_example(pulse_show=True) plots the pair (signal, memory) returned by pulse_shape and raises ValueError | `C110_negative_pulse_show` |
| C111 | FfeDfe keeps the tap arrays of FfeDfeData and the LMS update `+=` works in place: a second simulation from the same data starts with the trained taps, and both share them | `C111_negative_shared` |
| C111 | `set_ffe` keeps the given array: after setting the taps to an entry of the history, the next update changes that entry | `C111_negative_history` |
| C111 | PrbsGen.get_prev_seed reads the attribute `seed_prev`, which is never assigned: AttributeError | `C111_negative_prev_seed` |
| C112 | decoding_conv_viterbi selects by the last transition alone: for a code of distance 3 its block loss is of first order in the bit error probability, the exhaustive decoder has second order | `C112_negative_viterbi` |
| C119 | slicer (and with it quantize) documents "a matrix of the same dimension", but an array with three or more axes, or a matrix without rows, comes back as a vector | `C119_negative_slicer` |
| C121 | the general lock tests compare with a rotation of 0 that they then reject: a false alarm in at least 3 % of the suite runs | `C121_suite` |
| C122 | mode 'dBm/Hz' reads at most 4.01/n of the density of white noise (more than 26 dB too low with the default bandwidth); mode 'dBm' shows a tone's power times rbw over the sampling frequency | `C122_negative_noise_level`, `C122_negative_tone` |
| C123 | prbs_checker_economy loses lock on a single wrong bit at position n-1 (with n the order), and counts wrong bits in front of the seed window it ends up with as correct | `C123_negative_one_error`, `C123_retry` |
| C126 | arrays of rank two or more: differential decoding returns a wrong array for some binary input of every shape with two or more rows; decoding_mlt3 and bipolar error detection raise unless all axes but the first have length 1; 0-d arrays raise | `C126_negative_differential`, `C126_negative_mlt3`, `C126_negative_detect`, `C126_rejects` |
| C127 | interpolation of order n: at the Nyquist frequency no order helps, and sinc interpolation of every order changes a constant signal half way between two samples | `C127_negative_nyquist`, `C127_negative_sinc` |
| - | PrbsGen.get_prev_seed of the example simulation reads an attribute that is never set (observation) | |

## What is modelled and what is not

| File | Modelled | Not modelled |
|---|---|---|
| CommDspy/auxiliary.py | all functions (`Model/Prbs`, `Mapping`, `Coding`, `Framing`, `Noise`, `Linear`; bin2uint and uint2bin on arrays of any rank in `Tensor`) | integer overflow beyond 64 bits |
| CommDspy/constants.py | both enumerations | |
| CommDspy/tx/* | prbs_generator, PrbsIterator, bin2symbol, mapping, all coders; the line codes on arrays of any rank (`Model/TensorCode`, C126) | |
| CommDspy/rx/checker.py, lock_pattern.py | all; correlation errors as a bounded disturbance (C81) | |
| CommDspy/rx/decoding.py, misc/ml_decoding.py | all decoders with and without error_prob, ml_decoding, Trellis | Trellis plotting helpers, if any |
| CommDspy/rx/slicer.py, quantiztion.py, symbol2bin.py, demapping.py | all; slicer, quantize, demapping on arrays of any rank (`Model/Tensor`) | strides |
| CommDspy/rx/ffe_dfe_model.py, ctle_model.py, clock_data_recovery.py, least_mean_squares.py | all; ffe_dfe and mueller_muller_step also in floating-point arithmetic (`Model/Rounded`, `Model/RoundedRx`, C82, C118) | negative osr |
| CommDspy/channel/* | awgn, awgn_channel (also in floating-point arithmetic, `Model/RoundedFilter`, C90), pulse_shape with jitter, all pulses | floating-point rounding elsewhere; SciPy's spline is defined by its characterisation (C77) |
| CommDspy/digital_delay.py, eye_diagram.py, psa.py | all computations | plotting |
| CommDspy/channel_estimation.py, equalization_estimation.py | all | |
| CommDspy/misc/help_classes.py, help_functions.py | all | |
| CommDspy/misc/least_squares.py | ols, ridge (manual and the sklearn optimum), lasso_regression_manual, lasso_regression with the contract of sklearn's Lasso | the coordinate descent inside sklearn's Lasso |
| example_simulation | Encoder, Decoder, convergence control, levels and decisions, Channel, PrbsGen, Checker, Adc, FfeDfe, Ctle, Transmitter, Receiver and FullLink, the shipped configuration and the top-level program | the history lists other than those of the taps (`Model/SimState`; never filled in the shipped program, `C99_negative_no_history`), NumPy views, plots |
| test/ | test_pattern_coding.py, test_prbs_generator.py, test_prbs_analysis.py, test_bin_to_symbol.py, test_pattern_lock.py, test_channel_estimation.py, test_noise.py as functions of the draws, test_equalization_estimation.py, test_cdr.py from the pulse shaping on (C102), the tests of test_main.py with literal data, test_data (C83, C85 to C88, C91, C92, C96, C102, C104, C106), the tests of the coders, PRBS, symbols and lock also for arbitrary implementations (C107); of example_scripts/example_runs.py transmitter and estimation (C105), phase search, equalization at both rates and genie checker (C108), shapes of the plotted arrays (C110); example_scripts/channel_reconstruction.py (C110) | the other tests and scripts |

## Trusted base

* Lean's kernel (4.33.0). No `sorry`, `admit`, `native_decide`, `bv_decide`, own axioms, `implemented_by` or `unsafe`.
* Axioms: every theorem of the manifest depends on a subset of `propext`, `Classical.choice`, `Quot.sound` (checked with `#print axioms`; many finite-table theorems need fewer). `decide +kernel` is evaluated by the kernel itself and adds no axiom.
* Mathlib's definitions used in statements: ordered fields, reals, square root, sine/cosine, derivatives, polynomials, complex numbers, finite sums.
* The reading of the Python source and of NumPy/SciPy semantics, recorded in the comment of each model definition; in particular `scipy.signal.lfilter` (transposed direct form II), `convolve`/`correlate` (exact values), `bilinear`, `welch`, `interp1d` of kind cubic (not-a-knot spline), `numpy.linalg.pinv` (Penrose equations), `np.round` (half to even), `np.isclose`.
* The floating-point behaviour of the code outside the cases named under the conventions and C82, C89, C90, C118, C128, C129, C130 (equalizer with and without feedback; power, rms, noise level, LMS gradients and FFE training; levels, mapping, demapping, slicer, quantizer; channel filter; pattern lock, timing detector; Lagrange oversampling; all in p-bit arithmetic with unbounded exponent) is not covered: theorems over fields or reals speak about exact arithmetic.

Concrete cases: every `Verif/Props` file has `example`s that meet the hypotheses of its theorems. `Verif/Cases/*.lean` adds direct instances, one per theorem named in the comment above it, with concrete data and every hypothesis discharged. They include proofs that the assumed floating-point routines exist (`isCorrelate_exists`, `isConvValid_exists`, `isDot_exists`).
