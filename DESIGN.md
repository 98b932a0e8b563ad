# Formal model of stratum-dsp: design and trusted base

Subject: `/repo` (HLLMR/stratum-dsp, pinned commit), read as text only.
Everything below is Lean 4 (4.33.0, Mathlib) under `lean/Verif/`.

## 1. What is modelled and how

The crate is a DSP pipeline of pure functions over `f32`, `usize`, `Vec` and small
structs.  There is no concurrency and no I/O.  The model is a function-by-function
transcription into total, computable Lean functions:

* **f32** is a *concrete* IEEE-754 binary32 model (`Verif/F32.lean` and `Verif/F32/*`: rounding, order, bounds,
  square root, scaling lemmas): NaN, two
  infinities, and finite values = exactly the representable rationals.  Each
  arithmetic operation is the exact rational operation followed by
  round-to-nearest-ties-to-even with gradual underflow and overflow to infinity.
  Comparisons are false on NaN; `max`/`min` ignore NaN; `clamp` passes NaN through
  and panics on bad bounds, as in Rust's `core`.  `sqrt` is correctly rounded.
* **usize / u32** are natural numbers; where the code narrows (`as i32`), wraps or
  can underflow, the model does so explicitly.  `f32 as usize` is the saturating
  Rust cast (NaN -> 0).
* **Result / panic / non-termination**: `Except Fail`, with `Fail.err` (the
  `AnalysisError` constructors; message texts are dropped), `Fail.panic`, and
  `Fail.fuel` for the loops whose termination is itself a property (these take a
  fuel argument; termination is proved or refuted separately).
* **slice::sort_by** (stable) is a stable insertion sort; it equals Rust's result
  whenever the comparator is a total preorder.  `partial_cmp().unwrap()` comparators
  panic when the list has at least two elements and one is NaN.  For
  `unwrap_or(Equal)` comparators on lists that contain NaN, Rust leaves the order
  unspecified; theorems about such lists use only that the result is a permutation.
* **HashMap iteration order** is an explicit parameter (any permutation of the
  entries); theorems quantify over it.
* **External numerics** (`powf`, `log10`, `log2`, `ln`, `exp`, `sin`, `cos`,
  `atan2`, `rustfft`) are parameters.  Theorems hold for every choice unless a
  hypothesis about them is stated in the theorem.

### Simplifications (also repeated at the definitions)

* The two zeros are merged (a finite value is a rational).  Observable only in
  `x / -0.0`, `atan2` signs; the modelled code never relies on the sign of zero.
* NaN payloads/signs are merged.
* f32 expressions are evaluated in source order with no fused multiply-add and no
  reassociation (rustc does neither); `iter().sum()` is a left fold from zero.
* `usize` additions/multiplications are assumed not to exceed 64 bits.
* Allocation failures are not modelled.
* One iteration order per hash map serves all detections of one analysis; the theorems
  hold for every order.
* From Rust 1.81 on `sort_by` may panic when the comparator is not a total order, which
  `partial_cmp().unwrap_or(Equal)` is not when NaN occurs.  The model does not panic there.
* `select_nth_unstable_by` is modelled by the rank in a sorted copy where only the element is used
  (medians), and as the parameter `sel` where the kept set is used (harmonic profile peaks).
* Strings are `List Char`; the `{:.2}` formatter is a parameter.
* `log::` output and error message texts are not modelled.

### Which code is modelled

| source (under src/) | model (under lean/Verif/Model/) | not modelled |
|---|---|---|
| preprocessing/channel_mixer.rs | ChannelMixer | - |
| preprocessing/normalization.rs | Normalization | `KWeightingFilter::reset` (unused) |
| preprocessing/silence.rs | Silence | - |
| features/onset/*.rs | Onset (energy flux, spectral flux, HFC, HPSS, thresholds), Consensus | - |
| features/period/{autocorrelation, comb_filter, candidate_filter, peak_picking, mod}.rs | Period | - |
| features/period/{tempogram, tempogram_fft, tempogram_autocorr}.rs | Tempogram | debug printing |
| features/period/novelty.rs | Novelty | - |
| features/period/multi_resolution.rs | MultiRes | debug printing |
| features/beat_tracking/*.rs | Beat, Prior | getters |
| features/chroma/{extractor, normalization, smoothing}.rs | Chroma, Hpcp, Mask | - |
| features/key/*.rs | KeyDet, Notation | - |
| analysis/{confidence, result}.rs | Confidence, Notation | processing time, version string, derived traits |
| config.rs | `Analyze.Config`, with the defaults of `Default` | debug fields |
| lib.rs (`analyze_audio`) | Analyze, Pipeline | timing, logging, debug dumps |
| error.rs | `ErrKind` in Common.lean | message texts |

Not modelled at all: `ml/*` (feature-gated placeholders that return `NotImplemented`), `archive/*` (not
compiled), `examples/*` (command line programs, file decoding), benches and tests.

## 2. Trusted base

* The Lean 4 kernel; axioms used by the property theorems: at most `propext`,
  `Classical.choice`, `Quot.sound` (checked with `#print axioms`).  No axioms are
  added; no `sorry`, `admit`, `native_decide`, `bv_decide`.
* The reading of the Rust source (each definition cites file and lines).
* The IEEE-754 claims listed above (rustc on the supported targets implements
  binary32 with correctly rounded + - * / sqrt).
* The parameters for transcendental functions and the FFT stand for any function;
  nothing is assumed unless a theorem says so.


### Library assumptions

Each is a hypothesis of the theorems that need it and is shown satisfiable beside them.

| name | says | used for |
|---|---|---|
| `PowNonneg` | `10^y` is not negative | gains (C04, C05, C90) |
| `Chroma.Sane` | `x^0.6` of a finite `x >= 0` is in [0, 2^77]; `exp` of `x <= 0` is in [0,1]; `log2` of a positive finite number is within 200 | chroma (C46, C66, C69, C78, C90) |
| `SaneExp` | `exp` is monotone and not tiny near 0 | soft mapping of single tones |
| `PowSane`, `KeyPow` | ranges of `powf` for exponents in [0, 2], `0^p = 0`, ranges of `powi` on [0,1] | C78, C82, C90 |
| `LnSane`, `LnMono` | `ln` of `x >= 1` is in [0,128]; monotone | novelty curves (C21-C26, C90) |
| `LogMono` | `log2` is monotone | log-frequency spectrum (C81, C90) |
| `ExpSmall` | `exp(x) <= 0.1` for `x <= -2.3125` | beat tracking (C27-C29, C88, C90) |
| `TrigSane` | ranges of `sin`, `cos`, `atan2` | tuning (C80, C90) |
| `CosUnit` | `cos` is in [-1,1] | window functions (C90) |
| `SpecFft`, `FftTame` | the transform keeps the length and, on inputs in [-1,1], stays within twice the length rounded up to a power of two / has finite power | C21-C24, C90 |
| `TopK` | `select_nth_unstable_by` splits into the k largest and the rest | C78, C79, C90 |
| `NumberText` | the characters the `{:.2}` formatter produces | warnings (C50, C88, C89) |

## 3. Findings

Properties that the code does not have, each with a proved refutation, and what holds instead:

* **C02** (`C02_violated`): False as stated: the unframed tail (less than one hop) is removed unmeasured. Proved for every other sample; witness of the violation given.
* **C03** (`C03_violated`): False for frame size 1 only; the panic set is characterised exactly.
* **C04** (`C04_violated`): Proved for finite samples up to 2^126; above that 1/peak is subnormal and the claim is false (witness).
* **C05** (`C05_violated`): RMS method fully proved for every signal that fits in memory; the loudness method within 2^-22 for peak and target in [2^-60, 2^60], and with a slack of 2^-149 of the original peak for every other signal unless the limiting gain target/peak overflows, where the output is infinite (C05_violated).
* **C06** (`C06_violated`): False for the Peak method with negative headroom (witness); proved in all other cases.
* **C100** (`C100_violated`, `C100_violated_default`): violated: exactly the scanned tempos whose truncated beat length is a multiple of the pulse period share the top strength, and the slowest of them is reported; at 44.1 kHz, hop 512, 40 to 240 BPM in steps of 1 every pulse above 143 BPM is reported below 140 BPM.
* **C101** (`C101_violated_slower`, `C101_violated_phase`): proved: with the first click at sample 0 the tempo of the metronome is a candidate with full confidence; violated: slower multiples of the beat have full confidence too and come first; when the first click is a fifth of a beat or more off the start, the tempo is no candidate at all.
* **C102** (`C102_violated`): proved for beats that are a whole number of hops, at any starting position; violated for beats of a whole number of hops and a half: the two neighbouring lags tie, neither is a peak, and every candidate is at most half the tempo.
* **C103** (`C103_violated_independent`, `C103_violated`): the score is 0 or 1 and says only whether the energy-flux detector found anything; it never depends on the vote, is 1 when no other detector agrees, and the list of methods is constant.
* **C104** (`C104_violated`, `C104_violated_pause`): trimming leaves audio alone exactly when its first frame is loud and its tail short; a second pass changes nothing when nothing was cut from the end, or the cut followed two loud frames; otherwise the cut through the last loud frame lets the second pass remove more.
* **C105** (`C105_violated`, `C105_violated_end`): half a frame of the silence in front may stay; the end is found up to one frame, and loud samples at the end can be lost.
* **C106** (`C106_violated`): proved for the averaging modes; in Dominant mode samples of equal magnitude and opposite sign (and NaN) depend on the order.
* **C108** (`C108_violated`): proved up to 2^16 frames when the best major and the best minor key stand out from the other keys of their mode by one part in 2^19 per frame: the reported key is one of the two before, one of the two moved up after; a flat chroma vector is its own transposition, so the key cannot move; the choice of mode is always a tie (C59).
* **C110** (`C110_violated`): violated: the prior does not enter the choice; onsets at one instant fit every tempo equally, yet every such update lowers the tempo by 5 BPM (to 60); holds where the current tempo is strictly the most likely tried one.
* **C112** (`C112_violated`): violated: the fade of the loudest bin alone gives the maximal novelty; the shares of the loudest bin decide, so the same sound struck louder gives exactly 0; holds where the loudest bin keeps its level.
* **C113** (`C113_violated`): exact dichotomy: all attacks are found, at their frames, or none (the threshold must be exceeded, so equal attacks that reach the percentile's rank are all dropped); at the default 0.8 all are found below one attack in five transitions, none above; at the accepted percentile 1 nothing is ever found in any spectrogram.
* **C115** (`C115_violated`): violated: of eighteen regular clicks at 126 BPM with the estimate 120 (126 is the state +5 %) at most the first three become beats; holds as long as the accumulated drift stays within 39 ms.
* **C116** (`C116_violated`): the formula is proved for every cell, with medians by counting; violated at the edges: with a time margin of 1 a click in the first frame keeps half its magnitude, since the median of two cells is the louder one.
* **C117** (`C117_violated`): which clicks are reported, and that each is reported once, is proved outright; the position is violated for every signal when the frame is longer than two hops (the default): the report comes between frame - hop and frame - 1 samples before the click (35 to 46 ms at 2048/512), never within a hop of it.
* **C118** (`C118_violated`): the three component scores are monotone, and so is the overall score while the same estimates are available; violated when a key (or tempo) becomes available: with key and grid scores adding up to at most half the tempo score, finding the key lowers the overall confidence (0.6 to 0.43, Medium to Low, in the example).
* **C12** (`C12_violated`, `C12_violated_infinite`): range, votes and ranking proved; 'full confidence means all methods voted' is refuted (weights are summed per onset, not per method).
* **C120** (`C120_violated`): independence of the level is proved, and more: every frame may have its own gain; therefore the second half is violated for every sound: frames that differ in loudness only have no onset at all, whatever the percentile.
* **C122** (`C122_violated`): True for the energy-flux detector (C122_energy_flux). The percentile detectors count the added frames: the threshold falls and the same music gets additional onsets (C122_violated); the onsets they had are kept, at the right place (the three _partial theorems, under a condition on the rounded rank).
* **C125** (`C125_violated_frame`, `C125_violated_tuning`, `C125_violated_nan`, `C125_violated_hang`, `C125_violated_range`): Holds for frame size 0, hop size 0, and, when two onsets were found, for bad tempo ranges. Violated otherwise: frame size 1 panics, a NaN tuning limit panics, a NaN resolution is accepted, a resolution below the f32 spacing never returns, a backwards range is accepted (bpm 0) when there are no onsets.
* **C126** (`C126_violated`): Proved for peak and RMS levels. For LUFS proved when the filtered signal is louder and no block of the quieter recording is gated. Violated otherwise: only the absolute gate of BS.1770 is implemented, so amplifying a recording by 2 dB can lower its loudness by more than 1 LU, when a quiet block passes the gate.
* **C127** (`C127_violated`): Proved for the plain detector, the ensemble, and the mode heuristic without the harmonic-minor bonus. Violated with the bonus: it is multiplied by the number of frames although the scores it is added to have been normalised, so a C major chord followed by thirty silent frames is reported as F minor (default bonus weight). Segments and multi-scale windows are cut by counting frames, so pauses move them.
* **C128** (`C128_violated`): Proved for gains that are powers of two (multiples of about 6 dB): other gains round differently, so exact equality is not to be expected. For the energy detector the quiet version must have at least one onset: very quiet recordings have none, since the rise is compared with a fixed 1e-10 (C128_violated). The spectral-flux detector is covered by C120.
* **C129** (`C129_violated`, `C129_violated_superflux`): Proved for gains that are powers of two (others round differently), for energy and HFC curves of the quiet version that reach 1, and for spectral-flux frames that are silent or above 1e-10. Violated for very quiet recordings, whose curve is not scaled to its peak (C129_violated), and by the log-compressed SuperFlux curve, whose shape depends on the level (C129_violated_superflux, with the correctly rounded logarithms of the numbers involved).
* **C13** (`C13_violated`, `C13_violated_panic`): shift invariance proved below 2^31 samples; refuted beyond (i32 truncation merges onsets 2^32 apart, or overflows).
* **C130** (`C130_violated`): Proved for gains that are powers of two and vectors that the quiet version normalises (or zero vectors). Violated below a norm of 1e-10: such vectors are returned as they are. The linear-frequency chroma raises magnitudes to the power 0.6 in the mathematical library, so exact equality would be a property of that library.
* **C132** (`C132_violated`, `C132_violated_range`): Proved outright for hpss_decompose, percentile_threshold, vote_onsets and detect_key. The others accept some documented misuse: an empty spectrogram (spectral flux, HFC), fewer than two frames (novelty), empty channels (mono mix), a BPM range with a NaN bound (tempograms) all return an empty list; the partial theorems exclude exactly these inputs and C132_violated / C132_violated_range prove the violations.
* **C133** (`C133_violated`, `C133_violated_gap`): The first half is proved. The second half is violated: the next downbeat is looked for only one bar after the last one found, so a bar at whose end there is no beat is the last one (C133_violated, for every grid); with one bar line missing from an otherwise steady piece of any length, all later bars are missing (C133_violated_gap).
* **C135** (`C135_violated`): Proved for the tempograms, the autocorrelation estimator and the vote. Violated by the comb filterbank: it chooses the onset nearest to a beat by distances truncated to whole samples, so the same three onsets give 119 BPM at 22.05 kHz and 118 BPM at 44.1 kHz.
* **C136** (`C136_violated`, `C136_violated_rms`, `C136_violated_peak`): Proved for measured_lufs, for peak_db of signals loud enough for the method, and for rms_db of the RMS method. Violated otherwise: the peak and loudness methods measure the RMS after applying the gain, so rms_db is that of the result (C136_violated for every signal, C136_violated_rms a case); the RMS method reports peak level minus infinity whenever the RMS is at most 1e-10 (C136_violated_peak).
* **C137** (`C137_violated`, `C137_violated_reverse`): Proved for the beginning, and for the end when the silence lasts for the minimum duration. Violated at the end otherwise: shorter trailing silence is never removed nor listed (C137_violated, for every such signal), while the same silence in front is (C137_violated_reverse). The comment in the source (or if it's leading/trailing) says that both are meant to be included.
* **C139** (`C139_violated`, `C139_violated_click`): Proved for every frame whose window lies inside the recording; the removal of disturbances also at the ends. Violated at the ends: a change shortly after the beginning is moved to the first frame (C139_violated, for all values and window sizes), and a click next to the end of a recording is spread to its neighbours (C139_violated_click), since the shortened window has an even number of values of which the upper middle one is taken.
* **C14** (`C14_violated`): proved for min_distance below 2^31 (NaN samples allowed); refuted for 2^32, which `as i32` turns into 0.
* **C140** (`C140_violated`, `C140_violated_short`): Proved for all frames with a whole step behind them. Violated at the end: whatever follows the last full segment, up to a step less one frame (6 s with the default settings), has no influence on the result (C140_violated), and a track shorter than one segment is rejected (C140_violated_short).
* **C141** (`C141_violated`): The first half is proved. The second is violated: beats that accelerate evenly from 80 to 160 BPM are marked nowhere, because the variation is only measured inside each segment and never between segments.
* **C142** (`C142_violated`, `C142_violated_confidence`): Proved for one candidate per method, and for a lone autocorrelation candidate. Violated with more candidates: if both methods put 60 BPM first and the comb filter also lists 120, the autocorrelation candidate is moved to 120, which then ranks first with two methods while 60 is left with one. The documented confidences are violated: a lone comb candidate in 60-180 BPM is multiplied by 1.4, and two agreeing candidates get the mean of average and maximum times 1.2 and then up to 2.1.
* **C143** (`C143_violated`): Proved for a maximum attained once. Violated for flat tops: if the maximum is attained by neighbouring samples, no reported peak has that value, and a peak half as high may be reported first (example in the file), because a peak must be strictly above both neighbours.
* **C144** (`C144_violated`): Four and six are proved. Three is violated, universally: a rhythm that repeats every three beats repeats every six, the two hypotheses score the same, and max_by takes the later one, 6/8; 3/4 is never reported for it.
* **C145** (`C145_violated`, `C145_violated_noise`): The formula is proved to within 0.02, and the lower bound L(N-1)/N - 0.02 for a lead of L times the range. The converse is violated: two keys tied at the top with the others at zero get a clarity above 0.9, and so do 24 scores that agree to two parts in a million, because the lead is measured against the mean and in units of the range.
* **C146** (`C146_violated`): Proved to within one part in 131072. Violated for large powers: a vector of unit length with one prominent class, sharpened with power 24, has powers below the fixed limit 1e-10 and becomes the uniform vector.
* **C147** (`C147_violated`): Silence and unweighted methods are proved in full. The third part is violated: curves that are constant up to one part in a million give a combined curve with full-scale peaks and zeros, because the remainder after subtracting the mean is scaled up to one as soon as it exceeds 1e-10.
* **C148** (`C148_violated`): Scores (bit for bit) and confidence are proved, and that the reported key has the best score. The same key is violated where several keys share the best score: the single detector picks one by a vote in the order of a hash map, the ensemble the first one in index order.
* **C149** (`C149_violated`): Proved for weight one, bit for bit, invalid input included. For other equal weights it is violated: with weight 1e-11 the scores fall below the fixed limit 1e-9, the two modes are no longer levelled, and the profile of C major is C major where without weights it is A minor.
* **C150** (`C150_violated`): C150_target_partial: the level (exact mean square) of the result is at most the squared target up to one part in 2^22 per sample, and at least that unless the limiter acts. C150_twice_partial: a second pass moves no sample by more than one part in 2^21 per sample of the recording, whether the limiter acts or not. C150_violated: the sum of squares is accumulated in f32 and stops growing after 2^24 full-scale samples, so for every recording of 2^26 full-scale samples (25 minutes at 44.1 kHz), of whatever signs, the result is exactly twice (6 dB above) the target. The target meant here is the one the code uses, target_loudness_lufs + 3 - max_headroom_db: the headroom lowers the level itself, not only the peak.
* **C151** (`C151_violated`): C151_average_partial: the energy of the mix is the mean energy of the channels minus that of half their difference, up to rounding. C151_dominant: exact bounds. C151_violated: every recording with channels of opposite polarity is mixed to digital silence by Mono, MidSide and Center, which the documentation says preserve the energy.
* **C16** (`C16_violated`): terminates when resolution is at least an ulp of the upper bound; refuted for resolution 1e-6 on [60, 61].
* **C19** (`C19_violated`): the span is exact up to agreement 2 and up to rounding beyond; exact span refuted (three equal candidates round one ulp up).
* **C20** (`C20_violated`): false only when both preferred bounds are NaN (witness).
* **C21** (`C21_violated`): range and agreement for every input; confidence in [0,1] for consensus bonuses up to 2^80, refuted by a larger one; success on ordinary inputs.
* **C22** (`C22_violated`): separation, length, selection for every input; ranking when no score is NaN, in particular on ordinary inputs; refuted by finite band weights whose sum overflows: the supported tempos score NaN and an unsupported one is reported.
* **C23** (`C23_violated_conf`, `C23_violated_hangs`, `C23_violated_panics`): exact contents and order of the scan; termination for at most 2^22 steps from 1 BPM on; refuted by steps that f32 addition absorbs, by tiny tempos (overflow panic) and by infinite strengths.
* **C24** (`C24_violated`, `C24_violated_conf`): agreement at most 3 and the candidate list for every input; the BPM stays in range whenever the range covers 70 to 180 BPM, otherwise it may leave it (whole-pipeline witness); confidence in [0,1] for weights up to 256, NaN witness for overflowing weights; success on ordinary inputs.
* **C25** (`C25_violated`): decision table, mean and confidence within f32 rounding; the mean of three answers can fall just outside their span by rounding (witness).
* **C26** (`C26_violated`, `C26_violated_panic`): length, rejection and [0,1]-or-NaN for every input; strictly [0,1] for magnitudes up to 2^30; refuted by overflow and by a clamp panic of the mel curve at low sample rates.
* **C28** (`C28_violated`): strict order proved when no segment is flagged variable (onsets within 65536 s); refuted when refinement runs: overlapping segments report the same beat twice.
* **C29** (`C29_violated`): no panic and termination proved for onsets that are numbers up to 1e7 s and any BPM/confidence; NaN and infinite onsets panic (witnesses).
* **C30** (`C30_violated_nan`, `C30_violated_equal`): range proved for times within 2^100 s (NaN beyond, witness); equal intervals give exactly 1 when running sums are exact and at least 0.999 otherwise; exact 1 refuted by a 68 BPM witness.
* **C32** (`C32_violated`): refuted for every input: emissions do not depend on the tempo state, so any decoded path gives the same beats.
* **C34** (`C34_violated`): termination for beats within 2^24 s; refuted at 2^28 s, where the window start no longer advances for any number of steps.
* **C39** (`C39_violated`, `C39_violated_panic`): proved for strings without sign or zero padding and ending in an ASCII character; refuted otherwise (+1A and 01A are accepted; a multi-byte last character panics).
* **C40** (`C40_violated`): ranking, top three and maximality for every input and hash order; confidence is in [0,1] exactly when no score overflows to infinity, and a huge custom template makes it NaN.
* **C41** (`C41_violated`): deterministic when one key alone attains the largest vote; refuted for the C major profile, which is C major or A minor depending on the hash order.
* **C42** (`C42_violated`, `C42_violated_confidence`): the flip rule holds; the tonic is preserved without the minor bonus when the base key is ranked first; both other parts refuted by witnesses.
* **C43** (`C43_violated_monotone`, `C43_violated_nan`): range for scores within 2^100; monotonicity refuted by rounding, range refuted by overflow.
* **C44** (`C44_violated`): exact rotation for most keys, within one unit in the last place for all; exact rotation refuted.
* **C46** (`C46_violated`, `C46_violated_infinite`, `C46_violated_tuning`): 12 entries always; range and silence proved for finite tuning, positive FFT size and no infinite magnitude (NaN and negative magnitudes allowed), under stated library assumptions; refuted otherwise by three witnesses.
* **C48** (`C48_violated`): framing for every input; the window is the Hann window to 2^-18 if the platform cosine is accurate to 2^-20; non-negativity when the FFT returns no NaN; frame = 1 makes the Hann window NaN.
* **C49** (`C49_violated`, `C49_violated_panic`, `C49_violated_hpss`): shape and bounds for magnitudes whose powers and medians do not overflow; refuted by an overflowing powf, by the clamp panic when fmin + 1 exceeds half the sample rate, and by an overflowing window median in HPSS.
* **C51** (`C51_violated`): BPM policy fully proved; the [0,1] bound under fusion is proved when the tempogram has an estimate and refuted when it has none (legacy confidence passed through unclamped).
* **C54** (`C54_violated`): the field counts candidates, not methods (witness); confidences reach 2.1 (witness), bounded by 4.2 in C19_merge_partial.
* **C57** (`C57_violated`): refuted for every such beat list: all three scores tie and the last one, 6/8, is reported.
* **C59** (`C59_violated`, `C59_violated_profile`): refuted: on every ordinary input matched by both modes the best major and best minor key tie and the confidence is exactly 0; the A minor profile is reported as C major.
* **C62** (`C62_violated`): refuted for every audible input: segment confidences are always 0, so no change ever passes the 0.2 threshold.
* **C63** (`C63_violated`): the vote holds under every hash order; the ranking part is refuted: all scores are 0 and top_keys is C, C sharp, D major for every audible input.
* **C64** (`C64_violated`): refuted for every sequence with a NaN and a window of at least three; total without NaN.
* **C66** (`C66_violated`): unit length within 18/2^22 for audible frames of ordinary loudness; refuted for very loud frames, whose norm overflows and whose chroma is the zero vector.
* **C68** (`C68_violated`, `C68_violated_silent`): unit length within (n+6)/2^22, range and order for entries up to 2^50; an overflowing squared norm gives the zero vector, and sharpening turns silence into the uniform vector for every power.
* **C69** (`C69_violated`): everything but the range holds for every input; the range needs no infinite magnitude, and an infinite one gives a NaN chroma entry.
* **C70** (`C70_violated`): value, octave and transposition laws whenever the semitone numbers fit i32; NaN magnitudes and i32 overflow refute totality and range.
* **C71** (`C71_violated`): correctly rounded mean whenever the magnitudes are multiples of one unit with at most 2^24 units per bin; refuted in general by cancellation of the running sums.
* **C72** (`C72_violated`): error at most x/2^21 + 2^-148 for magnitudes up to 2^126; beyond, window medians overflow and the parts add up to NaN.
* **C77** (`C77_violated_autocorr`, `C77_violated_fft`): refuted universally: with half the hop size each tempogram returns the same strengths at exactly twice the tempo.
* **C78** (`C78_violated`): shape, errors and absence of panics for every input; range and unit length for magnitudes up to 2^76 and numeric settings; a loud finite tone gives NaN entries (witness).
* **C80** (`C80_violated`, `C80_violated_infinite`): range for finite magnitudes and a valid band; frame selection, silence, tuned tones and single tones; panics for a low sample rate and NaN for an infinite magnitude (witnesses).
* **C81** (`C81_violated`, `C81_violated_nan`): shape, composition, locality for every input; range for magnitudes up to 2^77; energy of a single tone; an empty band panics instead of being reported and NaN magnitudes are not skipped (witnesses).
* **C82** (`C82_violated`): composition for every input; range, end points and silence for numeric weights; a NaN weight makes every profile NaN (universal).
* **C84** (`C84_violated`): the result is that of the trimmed piece, on the trimmed piece's time axis; a second of leading silence leaves every beat time and the duration unchanged (witness).
* **C85** (`C85_violated`): refuted: center_frequency and the four median-key settings have no effect on any input (universal); the other settings are not claimed.
* **C92** (`C92_violated`): false: up to hop - 1 frames at the end (511 frames, almost six seconds, with the default settings) are in no window and can be replaced by anything (C92_violated); proved: every frame with a whole hop of frames behind it is heard.
* **C93** (`C93_violated_gate`, `C93_violated_fallback`): false as documented: with key_tonalness_power = 0 the gate has no effect (C93_violated_gate), and with fewer than ten tonal frames all excluded frames count fully (C93_violated_fallback); proved: non-interference of muted frames for every detector, and which frames are muted when the exponents are positive.
* **C94** (`C94_violated`): false below 3364 Hz: the corner of the K-weighting filter is above half the sample rate, the filter is unstable, its output overflows to NaN and a full-scale signal measures minus infinity (C94_violated, at 2 kHz); proved: blocks, gate, formula, no NaN answer, and minus infinity for silence.
* **C95** (`C95_violated`): false in general: the running mean is a difference of prefix sums in f32, so a bin louder by 2^24 anywhere below erases the mean and every whitened value becomes 20 (C95_violated); proved: the range for all inputs, and the division by the local mean for whole-number magnitudes whose sum does not round.
* **C96** (`C96_violated`): false: the same audio is reported in A minor or E major depending on the seed (C96_violated, whole pipeline); proved for every input: nothing but the name of the key can differ, errors included, and nothing at all with the ensemble, or with the mode heuristic (or minor bonus) and unweighted frames.
* **C99** (`C99_violated`, `C99_violated_short`, `C99_violated_steady`): violated: the scores of each mode are scaled so that its best key gets the same top score, so the best key of the other mode always ties with the reported key; the key confidence of a whole analysis is exactly 0 when the track has fewer frames than a segment, and when the same major and minor key lead every segment.

Settings without any effect: `enable_key_median`, `key_median_*`, `center_frequency` (C85), `tempogram_multi_res_structural_discount`.
The 2/3 and 3/4 ratios of the percussive family never match.  The comment on `max_bpm` names 180 as default; the value is 240.
With the default settings and fewer than 1024 key frames the key comes from a single detection, whose confidence is 0 (C59).

## 4. Plan per property (written before the proofs)

| id | modelled | proof |
|----|----------|-------|
| C01 | `detect_and_trim` in full | invariant over the frame walk (regions sorted, disjoint, on the hop grid), then slice lemma |
| C02 | same | expected false for the unframed tail: negation by witness, partial theorem for the front and for lengths that are fully framed |
| C03 | same | expected false for frame_size 1: witness, total for every other frame size |
| C04 | `normalize_peak` | f32 error analysis: relative rounding error of `1/peak`, monotone rounding of products; expected to need peak <= 2^126 (witness above it) |
| C05 | `normalize_rms`, `normalize_lufs`, `calculate_lufs` | same analysis |
| C06 | `normalize_*` metadata | expected false for negative headroom: witness; partial for headroom >= 0 |
| C07 | `stereo_to_mono` | rounding monotonicity |
| C08 | `detect_energy_flux_onsets` | list lemmas, sort/dedup invariants |
| C09 | `detect_spectral_flux_onsets`, `detect_hfc_onsets`, `detect_hpss_onsets` | index invariants |
| C10 | `percentile_threshold`, `adaptive_threshold_median_mad` | order statistics of a stable sort |
| C11 | `vote_onsets` | loop invariant of the greedy clustering on sorted input |
| C12 | same | counting invariant; "full confidence means all voted" expected false (weight per onset): witness |
| C13 | same, with `as i32` truncation | expected false beyond 2^31: witness; partial below |
| C14 | `find_peaks` | invariants of selection and suppression |
| C15 | `estimate_bpm_from_autocorrelation` with FFT parameter | filter/sort lemmas |
| C16 | `estimate_bpm_from_comb_filter` with fuel | refutation by absorption; termination when the step is above the ulp of max_bpm |
| C17 | same | filter/sort lemmas |
| C18 | comparator of `merge_bpm_candidates` | case analysis + monotone rounding |
| C19 | `merge_bpm_candidates` | grouping invariant |
| C20 | `LegacyBpmGuardrails` | case analysis |
| C21, C22 | `estimate_bpm_tempogram_impl` and its four public wrappers | invariants of push/dedup/sort/fold; totality on ordinary inputs; overflow witness |
| C23 | `autocorrelation_tempogram`, `fft_tempogram`, best-of | scan = iterates of `+ res`; fuel bound from f32 progress; hang, panic and NaN witnesses |
| C24 | `multi_resolution_tempogram_from_samples` | provenance of the reported tempo through folding and triplet step; magnitude bounds of the scores; whole-pipeline witnesses |
| C25 | `multi_resolution_analysis` | decision table; rounding error of mean and confidence; rounding witness |
| C26 | all functions of `novelty.rs` | f32 bounds through sums, square roots and peak scaling; expected false on overflow and low sample rates: witnesses |
| C27-C30 | `beat_tracking/mod.rs` | invariants; C28, C29 expected false: witnesses |
| C31 | `viterbi_forward_pass` | DP optimality by induction, monotone f32 product |
| C32, C33 | `hmm.rs` | C32 expected false: the emission does not depend on the state, prove independence |
| C34, C35 | `tempo_variation.rs` | C34 expected false for large times: witness; partial |
| C36 | `time_signature.rs` | case analysis; NaN panic witness |
| C37 | `bayesian.rs` | invariant over update histories |
| C38, C39 | `Key` notation | finite tables lifted; string reasoning; C39 expected false: witnesses |
| C40-C42 | `detector.rs` | sort/permutation lemmas, f32 division strictness; C41 expected false: witness with two hash orders |
| C43 | `key_clarity.rs` | f32 bounds |
| C44 | `templates.rs` | finite tables, rotation lemma |
| C45 | `key_changes.rs` | list invariants, hash order parameter |
| C46, C66 | `frame_to_chroma_tuned`, `extract_chroma_from_spectrogram*` | loop invariant on the accumulators, exact-arithmetic error analysis of the norm; expected false on overflow: witnesses |
| C47 | `smooth_chroma` | sorted-window characterisation of the median |
| C48 | `compute_stft` | list lemmas, FFT a parameter; window: rounding of the angle, real cosine 1-Lipschitz |
| C49 | masks, `hpss_decompose` | f32 bounds |
| C50 | `confidence.rs` | f32 bounds, decision table |
| C51-C53 | decision parts of `analyze_audio` | decision tables |
| C54 | `merge_bpm_candidates` | expected false (counts candidates): witness; candidate bound |
| C55 | `estimate_bpm_internal` | composition of C15, C17, C19, C20 |
| C56 | `Key::name` | finite table lifted over `% 12` |
| C57 | `detect_time_signature` | expected false (ties go to 6/8): universal refutation |
| C58, C60 | `detect_key_weighted` | f32 bounds on scores, refinement keeps the best key of each mode on top |
| C59 | `detect_key_weighted` | expected false: the best major and best minor always tie |
| C61 | `detect_key_ensemble`, `detect_key_multi_scale`, `detect_key_median` | invariant of the accumulated scores: within 2^91 times the accumulated weight, power-of-two scaling commutes with rounding |
| C62 | `detect_key_changes` | expected false: follows from C59 |
| C63 | `detect_key_median` | counting invariant of the hash map, maximum under every order; ranking part expected false |
| C64, C65 | `smooth_chroma`, `smooth_chroma_average` | C64 expected false (unwrap on NaN); f32 mean bounds |
| C67 | `frame_to_chroma_tuned` | distance of the rounded semitone, weights decrease with distance |
| C68 | `l2_normalize_chroma`, `sharpen_chroma` | exact-arithmetic error analysis as C66; expected false on overflow and silence: witnesses |
| C69 | `extract_beat_synchronous_chroma` | list lemmas, order of beat times, C46 |
| C70 | `extract_chroma_from_log_frequency_spectrogram` | loop = column sums; i32 overflow and NaN witnesses |
| C71 | `smooth_spectrogram_time` | exactness of running sums on multiples of a unit; cancellation witness |
| C72 | `hpss_decompose` | invariant of the refinement loop, error analysis of the mask ratios |
| C73 | superflux, energy-flux, HFC novelty, `normalize_in_place` | monotonicity of f32 sums and squares, overflow included |
| C74 | band variants | index arithmetic on `take`/`drop` |
| C75 | `estimate_bpm_tempogram_impl` | runner-up margin of a non-top candidate is 0 |
| C76 | `estimate_bpm_tempogram_impl` | completeness of sort + tolerance de-duplication |
| C77 | `multi_resolution_analysis`, both tempograms | scaling by two is exact in f32: simulation of the two scans |
| C78 | `frame_to_hpcp_tuned_band`, HPCP extractors | accumulation bounds, normalisation lemma; overflow witness |
| C79 | `frame_to_hpcp_tuned_band` | refinement: fold over peaks and harmonics equals a sum per pitch class; single-peak case |
| C80 | `estimate_tuning_offset_semitones_from_spectrogram` | fold over the selected frames; range from the library's `atan2`; panic witness |
| C81 | `convert_linear_to_log_frequency_spectrogram` | refinement: entry = sum of the shares of the bins next to it; rounding error of a share; witnesses |
| C82 | bass-blend HPCP extractor | composition of two profiles; convexity in f32; universal NaN refutation |
| C83 | `analyze_audio` (checks, preprocessing) with `detect_and_trim` | decision logic lifted through the whole pipeline |
| C84 | `analyze_audio` | factorisation through the trimmed piece; witness evaluated in the kernel |
| C85 | `analyze_audio` | universal refutation: settings never read |
| C86 | `analyze_audio`, tempogram branch | decision logic; fold for candidate support refined to an existence statement; f32 inequalities |
| C87 | `analyze_audio`, tempo | composition of C21, C24, C55, C86 with bounds on the numbers of onsets and candidates; Bernoulli inequality |
| C88 | `analyze_audio`, beat grid | induction over the refined segments; onsets stay inside the audio; composition of C27, C30, C33, C52 |
| C89 | `analyze_audio`, key | invariant: accumulated scores keep the 24 keys; composition of C40, C42 |
| C90 | `analyze_audio` | totality of every stage composed: spectrogram magnitudes bounded by 2^23 (2^16 for windows up to 2^14), smoothing at most four times that, log-frequency cells below 2^32, chroma in [0,1], scores below 2^116, every loop ends after a number of steps that does not depend on the run; steadiness of loops under more steps by induction |
| C91 | `segVote` | induction over the windows: accumulated scores are sums over the windows heard; ranking by the sort lemmas |
| C92 | `segVote`, `segStarts` | windows as multiples of the hop; the loop over `head ++ tail` equals the loop over `head`; negation for every tail |
| C93 | `frameWeights`, `tonalness`, `keyCall` | relation between tracks that differ in muted frames, preserved by taking windows; every detector invariant under it |
| C94 | `KFilter`, `calculateLufs` | block list as function of the index; sums of powers above the gate are positive numbers or infinity; finiteness of the coefficients for all rates; the unstable filter evaluated on an impulse |
| C95 | `whitePrefix`, `whiteCell`, `scoreCurve` | monotone prefix sums for the range; exact integer sums as differences of interval sums; concrete witness for the non-locality |
| C96 | `analyze` with two hash orders | relation "equal up to the key" between detector results, preserved by every key stage; the segment loops only read the ranking; whole-pipeline witness with an eight-point DFT |
| C97 | `analyze` on the negated samples | rounding is odd; sums, products, squares and the loudness filter commute with negation; every stage reads squares, absolute values or spectrum magnitudes |
| C98 | `normalizePeak`, `analyze` | scaling by a power of two commutes with rounding away from underflow, so the gain scales exactly and the normalized samples coincide |
| C99 | `detectKey`, `keyCall`, `analyze` | the score list is sorted; its first two entries decide the confidence; a strict leader in each mode fixes which entries those are; confidence of a vote from the window confidences |
| C100 | `Tempogram` autocorrelation scan | lag means of a 0/1 pulse in closed form by counting residues; head of the stable sort is the first maximal grid tempo |
| C101 | `estComb`, `scoreBpm` | exact distances for naturals below 2^24; every expected beat is met, or none is; the candidate list in grid order, stable sort |
| C102 | `estAutocorr`, `acfPeaks`, `acfCands` | number of click pairs per lag by an explicit bijection; the exact list of prominent peaks; transforms enter through an accuracy hypothesis that the exact transform is shown to meet |
| C103 | `report`, `analyzeTrimmed` | inversion of a successful run; two runs that differ in the onset settings compared; a concrete run of the whole analysis |
| C104 | `detectAndTrim` | cut points read off the exact silence map (C01); frames of a piece that starts on the frame grid are frames of the signal |
| C105 | `detectAndTrim` | the same, with the frames inside, across and behind the added zeros told apart |
| C106 | `stereoToMono` | commutativity of f32 addition; case split on the two magnitudes |
| C107 | `normalize` (peak) | relative error of the gain quotient and of each product; the loudest sample attains the bound |
| C108 | `detectKey`, `weightedSumDot`, templates | each score is its exact value to one part in 2^22 per frame; exact scores are permutation sums; C58 turns the margin into the reported key |
| C109 | `likelihood`, `logProb`, `candLoop`, `bestCand`, `Bayes.update` | rounding errors of one distance, then of the mean; the loop's best candidate by induction |
| C110 | `prior`, `Bayes.update` | decision: the posterior as a separate specification; all likelihoods are 1 when the onsets coincide, so the first candidate wins |
| C111 | `energyFlux`, `hfc`, `spectralFlux`, `superflux`, `peakNorm`, `pairs`, `rise` | exact rational (and real, for the norms) specification; rounding errors of the sums, the root and the division bounded separately |
| C112 | `spectralFlux`, `normFrame` | decision: no share grows implies 0 by monotonicity of rounding; concrete counterexample for decays |
| C113 | `spectralFluxOnsets`, `hfcOnsets`, `hpssOnsets`, `pickFrames` | the flux of an on/off pattern has two levels; counting both against the percentile's rank decides; universal statement at percentile 1 |
| C114 | `beatGrid`, `trackBeats`, `tempoSegments`, `stability` | error of the lattice times; emission large at clicks and small one beat after the last; beats of a segment are consecutive, so the variation of their gaps is at most 1/16 |
| C115 | `trackBeats`, `stateBpms` | the lattice ignores the states: concrete pair of tempi for every exp; accumulated drift for the partial theorem |
| C116 | `medianMask`, `bandDs`, `windowOf`, `medianInPlace`, `bandMask` | windows as index sets (equality of sorted lists), median by counting, then rounding errors of the soft mask |
| C117 | `energyFluxOnsets` on click tracks | C08 gives the flux peaks; the energy of a frame is the level of its only click (sum with one non-zero term), so the flux is non-zero only where a click enters |
| C118 | `computeConfidence`, `bpmConfidence`, `keyConfidence` | monotonicity of rounding branch by branch; the violation for a whole family of results by bounding the rounding errors of the weighted sum |
| C119 | the four detectors | the percentile value is monotone in the rank (counting), the peaks above a threshold shrink with it |
| C120 | `spectralFluxOnsets`, `normFrame`, `spectralFlux` | maximum and quotient commute with an exact gain, so the normalised frames are equal; equal frames have zero flux and no value exceeds a percentile of zeros |
| C121 | detect_and_trim | maximal silent runs only extend when more frames are silent; the minimum duration in samples is monotone in f32; both cuts are read off the map (C01, C104) |
| C122 | the four detectors | the flux of the padded recording is the flux of the recording padded with zeros; peaks of a padded flux; counting argument for the percentile |
| C123 | vote_onsets | from the partition theorem C11 (which now also fixes the order of the detections): narrow groups are sublists of wide groups, and f32 sums of non-negative sublists are no larger |
| C124 | estimate_bpm_internal, vote_onsets, generate_beat_grid | the autocorrelation flags and the sorted scan depend on membership only (first of the closest onsets in a sorted list); sorting by position then method is unique |
| C125 | analyze_audio whole | case analysis of the first failing stage; concrete witnesses evaluated by the kernel; induction on the fuel for the run that never ends |
| C126 | normalize_peak, normalize_rms, calculate_lufs | monotone rounding of gain, squares, sums, means and roots; same number of blocks when none is gated; witness evaluated by the kernel |
| C127 | detect_key_weighted, detect_key_weighted_mode_heuristic, detect_key_ensemble, key stage of analyze_audio | a silent frame has dot product 0 with every finite template and adds 0 to every sum; witness evaluated by the kernel |
| C128 | detect_energy_flux_onsets, detect_hfc_onsets, detect_hpss_onsets | scaling by a power of two commutes with the rounding of every operation used, including the correctly rounded square root (F32/SqrtScale); order comparisons and percentiles are invariant under scaling; witness evaluated by the kernel |
| C129 | the novelty functions of novelty.rs | scaling by a power of two commutes with every rounding on the way; the quotient by the peak cancels it; witnesses evaluated by the kernel |
| C130 | extract_chroma_from_log_frequency_spectrogram, l2_normalize_chroma | scaling by a power of two commutes with the rounding of sums, products and the square root; the quotient cancels it; witness evaluated by the kernel |
| C131 | detect_time_signature, generate_grid_from_beats, detect_downbeats, calculate_grid_stability | scaling times by a power of two commutes with every rounded operation; relative quantities (deviation over mean) are unchanged, absolute ones scale; comparisons are preserved |
| C132 | Onset.spectralFluxOnsets, hfcOnsets, hpssDecompose, percentileThreshold, Consensus.voteOnsets, Mixer.stereoToMono, Novelty.spectralFlux/energyFlux/hfc, Tempogram.fftTempogram/acTempogram, KeyDet.detectKey | A contract (answered when the documented preconditions hold, refused otherwise) in terms of frame lengths and parameter ranges, proved by case analysis and, for the clustering, induction over the onsets. |
| C133 | Beat.beatGrid, gridOf, downbeats, downbeatsFrom | Rounding analysis of the acceptance test in both directions (within 9 percent accepted, beyond 11 percent rejected), then induction along the beats; the violations from the same analysis. |
| C134 | Consensus.voteOnsets, tagAll, clusterFrom, candidateOf | Sorting and clustering commute with re-weighting (induction); the sums of weights scale exactly, so the quotient is the same f32. |
| C135 | Tempogram.acTempogram, fftTempogram, Period.estAutocorr, estComb, Consensus.voteOnsets | Exact scaling of f32 quotients by powers of two; clustering commutes with resampling because floor(2^k x) / 2^k = floor x; witness for the violation. |
| C136 | Norm.normalize, normalizePeak, normalizeRms, normalizeLufs, rmsDbOf, peakOf | Case analysis over all return paths against separately defined peak, RMS and level. |
| C137 | Silence.detectAndTrim, walk, finish, trimBounds | From the exact description of the silence map (C01) and the cut points read off it (C104). |
| C138 | Onset.medianMad, medianSorted, percentileThreshold | A middle element outside the interval would have half of the sorted values outside with it; the deviations of the majority from the median are within the spread, so the same argument bounds the MAD; monotone rounding. |
| C139 | Chroma.smooth | From C47 (each output is the window median) by counting: on one side of a monotone frame lie window / 2 + 1 values that are not smaller, on the other as many that are not larger. |
| C140 | KeyDet.keyChanges, segStarts, changeSegments | Arithmetic of the segment grid on top of the timeline theorem C45; congruence of the segment loop in the frames it reads. |
| C141 | Beat.tempoSegments, segLoop, window, segOf, hasVariation | Error bounds for the single-precision mean, variance and square root of nearly equal gaps, on top of the segment description C35. |
| C142 | Period.merge, octaveDown, octaveUp, addReasonable, addGroup, estOf, boost, safety | Interval bounds of the rounded quotient, exact averaging of two equal tempi, and evaluation of the singleton group; the violations are transferred to every usable exp2 because the merge sees it only through the corrected candidates. |
| C143 | Period.findPeaks, rawPeaks, greedy | From the description C14 of the peak list: the sole maximum is a qualifying peak, a missing peak needs a peak at least as high nearby, and the list is ranked. |
| C144 | Beat.timeSignature, scoreSig, lastMax, variance | Exact value 1 of the average similarity of a repeating rhythm, an upper bound below 127/128 when one gap in four differs (error bound of the rounded sum), and monotony of the rounded score. |
| C145 | KeyDet.keyClarity | Relative error bound of the rounded sum carried through mean, difference and quotient; clamping does not increase the distance to a number between 0 and 1. Concrete witnesses for the violations. |
| C146 | Chroma.sharpen | Relative error of the power and of the division by a common norm, whose size is bounded from both sides. Concrete witness for the violation. |
| C147 | Novelty.combined, mix, meanSubtract, movingAverage, condition, peakNorm | Zeros are followed through mixing, normalising, subtracting the (non-negative) mean and averaging; products with weight zero vanish exactly. Concrete witness for the violation. |
| C148 | KeyDet.detectEnsemble, detectKey, lookupLast, margin | The shares are exactly 1 and 0, scaling by them is exact, so the sorted list is a permutation of the other; two sorted permutations have the same first two scores. Concrete witness for the violation. |
| C149 | KeyDet.detectKey, detectKeyMode, detectEnsemble, detectMultiScale, detectMedian, weightedSumDot, chromaSum, segWeights | Multiplication by one is exact for every float and counting up to 2^24 is exact; the weights of a window of equal weights are equal weights of the window (induction over segments and scales). Concrete witness for the violation. |
| C150 | normalize and normalize_rms, with the peak, the measured RMS and the limiter | error bounds for the f32 sum of squares, the square root, the gain and the scaled samples; for the violation, induction on the stalled sum |
| C151 | stereo_to_mono in all modes | per-sample rounding bound and the parallelogram law, summed by induction; the violation for all recordings |
