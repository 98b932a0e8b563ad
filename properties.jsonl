{"id": "C01", "title": "Silence trimming returns one contiguous piece of the input", "statement": "When detect_and_trim succeeds, the trimmed audio is exactly samples[a..b] for some a <= b <= len (no sample is altered, reordered or invented), and every region of the silence map lies inside [0, len], is non-empty, and the regions are in increasing order and disjoint.", "quantifier": "every sample vector, sample rate, threshold, minimum duration and frame size for which the call returns Ok", "why_tests_cant": "The frame walk has an unbounded number of silence/sound alternations and window/length remainders; a test fixes a handful.", "anchors": ["src/preprocessing/silence.rs: detect_and_trim, SilenceDetector"]}
{"id": "C02", "title": "Silence trimming removes only audio that was measured as silent", "statement": "Every sample removed from the front or the back of the signal by detect_and_trim belongs to some analysed frame whose RMS was measured to be at or below the threshold.", "quantifier": "every sample vector and every detector configuration with frame_size >= 2", "why_tests_cant": "Depends on the remainder of len modulo the hop size for every length; off-by-a-hop losses are invisible on the usual round-number fixtures.", "anchors": ["src/preprocessing/silence.rs: detect_and_trim (framing lines 146-176, trimming lines 221-263)"]}
{"id": "C03", "title": "Silence detection never panics", "statement": "detect_and_trim returns Ok or Err, never panics, for any input; in particular a non-zero frame size is accepted.", "quantifier": "every sample vector (including NaN and infinities), sample rate, and detector configuration", "why_tests_cant": "Panics hide in arithmetic corner cases (division by hop size, slices) that range over all integers.", "anchors": ["src/preprocessing/silence.rs: detect_and_trim"]}
{"id": "C04", "title": "Peak normalisation never clips", "statement": "After normalize with the Peak method every finite sample of a signal has absolute value at most 1.0, whatever the requested headroom (including negative headroom), and a signal whose peak is at most 1e-10 is returned unchanged.", "quantifier": "every non-empty signal of finite samples and every headroom", "why_tests_cant": "The claim is about the f32 rounding of gain and of every product; tests sample a few amplitudes with a tolerance.", "anchors": ["src/preprocessing/normalization.rs: normalize, normalize_peak"]}
{"id": "C05", "title": "RMS and loudness normalisation respect their clipping limit", "statement": "After RMS normalisation no sample exceeds 1.0 in absolute value; after loudness normalisation no sample exceeds the requested headroom peak by more than rounding; normalisation multiplies every sample by one common gain and keeps the length.", "quantifier": "every non-empty signal of finite samples, every target and headroom, every sample rate", "why_tests_cant": "Requires a bound over all f32 inputs and all gain branches including rounding of the limiter itself.", "anchors": ["src/preprocessing/normalization.rs: normalize_rms, normalize_lufs, calculate_lufs"]}
{"id": "C06", "title": "The reported gain is the gain applied", "statement": "The gain_db field of the metadata returned by normalize is the decibel value of the linear gain that the samples were actually multiplied by.", "quantifier": "every signal, method, target and headroom", "why_tests_cant": "A wrong report shows only on the branches where the limiter engages; it relates two outputs for all inputs.", "anchors": ["src/preprocessing/normalization.rs: normalize_peak (lines 290-303), normalize_rms, normalize_lufs, LoudnessMetadata"]}
{"id": "C07", "title": "Mono mixing keeps length, stays inside the channel envelope and preserves identical channels", "statement": "stereo_to_mono fails exactly when the channel lengths differ; otherwise it returns one sample per frame; each output is bounded in absolute value by the larger of the two inputs; in Dominant mode each output is bit-for-bit one of the two inputs, one of largest magnitude; mixing a channel with itself returns the channel.", "quantifier": "every pair of finite channel vectors and every mixing mode (channel amplitudes below half of f32::MAX for the averaging modes)", "why_tests_cant": "Rounding and overflow of l+r over all f32 pairs.", "anchors": ["src/preprocessing/channel_mixer.rs: stereo_to_mono, ChannelMixMode"]}
{"id": "C08", "title": "Energy-flux onsets are strictly increasing sample positions on the hop grid inside the signal", "statement": "Every onset reported by detect_energy_flux_onsets is a positive multiple of hop_size smaller than the signal length; the list is strictly increasing, consecutive onsets are at least half a hop apart; every onset is a flux peak above the threshold and every strict interior flux peak above the threshold is reported.", "quantifier": "every signal, frame size, hop size and threshold for which the call returns Ok", "why_tests_cant": "Soundness and completeness of peak picking over all flux curves.", "anchors": ["src/features/onset/energy_flux.rs: detect_energy_flux_onsets"]}
{"id": "C09", "title": "Frame-based onset detectors return strictly increasing in-range frame indices", "statement": "The frame indices returned by detect_spectral_flux_onsets, detect_hfc_onsets and detect_hpss_onsets are strictly increasing, at least 1 and smaller than the number of spectrogram frames; each detector reports exactly the local maxima of its flux above the percentile threshold; the spectral-flux and HFC detectors reject ragged rows with an error, and no detector panics.", "quantifier": "every magnitude spectrogram (any shape, any values including NaN) and every percentile", "why_tests_cant": "Index arithmetic over all shapes; NaN ordering.", "anchors": ["src/features/onset/spectral_flux.rs: detect_spectral_flux_onsets", "src/features/onset/hfc.rs: detect_hfc_onsets", "src/features/onset/hpss.rs: detect_hpss_onsets"]}
{"id": "C10", "title": "Percentile threshold really is a percentile", "statement": "percentile_threshold returns one of the given values; for NaN-free values at least floor-index many values are <= it and the remaining ones are >= it; it fails exactly on empty input or a percentile outside [0,1] (NaN included). The median/MAD threshold is at least the median and invariant under reordering of the values.", "quantifier": "every list of values and every percentile / multiplier", "why_tests_cant": "Order-statistics claim over all multisets.", "anchors": ["src/features/onset/threshold.rs: percentile_threshold, adaptive_threshold_median_mad"]}
{"id": "C11", "title": "Consensus voting partitions the detected onsets", "statement": "vote_onsets neither loses nor duplicates detections: its candidates correspond one-to-one to groups that partition all input onsets, onsets closer than the tolerance end up in the same group, different groups are separated by more than the tolerance, and each candidate's position is the integer mean of its group (hence within the group's span).", "quantifier": "every four lists of onset positions below 2^31 samples, any order, any non-negative weights, tolerance and sample rate", "why_tests_cant": "A clustering invariant over arbitrary long lists; the pairwise separation property is an invariant of the greedy loop.", "anchors": ["src/features/onset/consensus.rs: vote_onsets"]}
{"id": "C12", "title": "Consensus confidence and vote counts are meaningful", "statement": "Each candidate has confidence in [0,1] and voted_by between 1 and 4 equal to the number of distinct methods in its group; candidates are ordered by non-increasing confidence; full confidence 1.0 with sane weights means every method with positive weight voted.", "quantifier": "every consensus input with non-negative finite weights", "why_tests_cant": "Needs the accumulated rounding of the weight sum bounded for all group sizes, and the per-method/per-onset distinction only shows on multi-hit clusters.", "anchors": ["src/features/onset/consensus.rs: vote_onsets (lines 219-271)"]}
{"id": "C13", "title": "Consensus voting handles every sample position", "statement": "vote_onsets gives the same grouping whatever the absolute position of the onsets: shifting all onsets by a constant shifts the candidates and nothing else, and two onsets farther apart than the tolerance are never merged.", "quantifier": "every onset position representable as usize, i.e. also recordings longer than 2^31 samples", "why_tests_cant": "The failing positions are beyond any realistic fixture.", "anchors": ["src/features/onset/consensus.rs: vote_onsets (line 197, `as i32`)"]}
{"id": "C14", "title": "Peak picking returns genuine, well separated, ranked peaks", "statement": "find_peaks returns distinct indices of strict local maxima (or signal edges) at or above the threshold, sorted by value from highest to lowest, pairwise at least min_distance apart; and it is maximal: every qualifying local maximum that is not returned lies within min_distance of a returned peak that is at least as high.", "quantifier": "every signal, threshold and minimum distance with fewer than 2^31 samples and NaN-free values", "why_tests_cant": "Soundness, separation and maximality of greedy non-maximum suppression over all signals.", "anchors": ["src/features/period/peak_picking.rs: find_peaks"]}
{"id": "C15", "title": "Autocorrelation BPM candidates are in range and ranked", "statement": "Every candidate returned by estimate_bpm_from_autocorrelation has a BPM inside [min_bpm, max_bpm] and a confidence in [0,1]; candidates are sorted by non-increasing confidence.", "quantifier": "every onset list, sample rate, hop size and BPM range for which the call returns Ok (bounds not NaN), whatever the FFT returns", "why_tests_cant": "Ranges over all lag grids and all ACF values.", "anchors": ["src/features/period/autocorrelation.rs: estimate_bpm_from_autocorrelation, find_peaks_in_acf"]}
{"id": "C16", "title": "The comb filterbank search terminates", "statement": "estimate_bpm_from_comb_filter returns for every accepted parameter set, i.e. for every bpm_resolution > 0.", "quantifier": "every onset list and every accepted (min_bpm, max_bpm, bpm_resolution)", "why_tests_cant": "Non-termination cannot be observed by a test and depends on absorption in f32 addition.", "anchors": ["src/features/period/comb_filter.rs: estimate_bpm_from_comb_filter (lines 150-190)", "src/config.rs: bpm_resolution"]}
{"id": "C17", "title": "Comb filterbank candidates are in range, normalised and ranked", "statement": "Every candidate of estimate_bpm_from_comb_filter lies in [min_bpm, max_bpm] up to 1e-10, has a confidence in [0.1, 1], the list is sorted by non-increasing confidence and if it is non-empty the best confidence is 1.", "quantifier": "every accepted input on which the search terminates", "why_tests_cant": "All tempo grids and all onset patterns.", "anchors": ["src/features/period/comb_filter.rs: estimate_bpm_from_comb_filter, coarse_to_fine_search, score_bpm_candidate"]}
{"id": "C18", "title": "The BPM ranking comparator is a consistent order", "statement": "The comparison used by merge_bpm_candidates to rank estimates is a total preorder (antisymmetric up to equality, transitive) on NaN-free estimates, so the sort is well defined and cannot panic, and the result does not depend on the sorting algorithm up to ties.", "quantifier": "every triple of estimates with NaN-free bpm and confidence", "why_tests_cant": "Rust's sort panics or misbehaves only on specific inconsistent triples; transitivity with a 0.5 tolerance band is a claim over all f32 triples.", "anchors": ["src/features/period/candidate_filter.rs: merge_bpm_candidates (comparator lines 385-432)"]}
{"id": "C19", "title": "Merging conserves tempo evidence", "statement": "merge_bpm_candidates returns nothing only when both inputs are empty, every merged estimate's BPM lies within the range spanned by (octave-corrected) inputs, its method_agreement counts at least one, and confidences are non-negative.", "quantifier": "every pair of candidate lists with finite BPMs and confidences", "why_tests_cant": "Grouping by running average over arbitrary lists.", "anchors": ["src/features/period/candidate_filter.rs: merge_bpm_candidates, boost_consensus_candidates"]}
{"id": "C20", "title": "Legacy guardrails are a sane, total classification", "statement": "For any configured guardrail values the effective ranges are ordered, the preferred range lies inside the soft range and all multipliers are finite and non-negative; every finite BPM is classified preferred / soft / extreme consistently with those ranges, and a non-finite BPM gets weight 0.", "quantifier": "every guardrail configuration (including NaN and inverted ranges) and every BPM", "why_tests_cant": "Configuration space includes NaN, infinities and inverted ranges.", "anchors": ["src/features/period/mod.rs: LegacyBpmGuardrails::clamp_sane, mul_for"]}
{"id": "C21", "title": "Tempogram BPM stays inside the configured search range", "statement": "When estimate_bpm_tempogram (and its band-fusion and candidate variants) returns Ok, the BPM and every reported candidate lie in [min_bpm, max_bpm], the confidence is in [0,1], and method_agreement is at most 2.", "quantifier": "every spectrogram, configuration and band-fusion setting, whatever the FFT and transcendental functions return", "why_tests_cant": "Octave folding, metrical multiples and NaN scores interact; the range claim is over all of them.", "anchors": ["src/features/period/tempogram.rs: estimate_bpm_tempogram*, estimate_bpm_tempogram_impl"]}
{"id": "C22", "title": "Tempogram candidates are distinct and ranked", "statement": "The candidate list is sorted by non-increasing score, any two candidates differ by at least 0.75 BPM, its length is at most the requested top_n, and the flag `selected` marks exactly candidates within 0.75 BPM of the reported BPM.", "quantifier": "every spectrogram, configuration and top_n", "why_tests_cant": "De-duplication with a tolerance over all candidate sets.", "anchors": ["src/features/period/tempogram.rs: estimate_bpm_tempogram_impl (lines 430-775)"]}
{"id": "C23", "title": "Tempogram scans terminate and are ranked", "statement": "autocorrelation_tempogram and fft_tempogram return for every accepted parameter set; entries are within [min_bpm, max_bpm] and sorted by non-increasing strength; best-of selection returns an entry of the tempogram with confidence in [0,1].", "quantifier": "every novelty curve, sample rate, hop and BPM grid", "why_tests_cant": "Termination depends on f32 absorption; ranking over all curves.", "anchors": ["src/features/period/tempogram_autocorr.rs: autocorrelation_tempogram, find_best_bpm_autocorr", "src/features/period/tempogram_fft.rs: fft_tempogram, find_best_bpm_fft"]}
{"id": "C24", "title": "Multi-resolution escalation does not leave the BPM range", "statement": "multi_resolution_tempogram_from_samples returns a BPM inside [min_bpm, max_bpm], confidence in [0,1] and an agreement of at most 3.", "quantifier": "every audio signal and tempogram configuration", "why_tests_cant": "Half/double-time folding arithmetic over all candidate sets.", "anchors": ["src/features/period/multi_resolution.rs: multi_resolution_tempogram_from_samples"]}
{"id": "C25", "title": "Multi-resolution fusion rules", "statement": "multi_resolution_analysis succeeds iff at least one resolution succeeds; if all successful resolutions agree within 2 BPM the result is their mean with agreement equal to their number; otherwise it is the most confident one with confidence scaled by 0.9; the BPM is always within the span of the individual estimates.", "quantifier": "every triple of per-resolution outcomes", "why_tests_cant": "Decision table over all outcome combinations, with f32 averaging.", "anchors": ["src/features/period/multi_resolution.rs: multi_resolution_analysis"]}
{"id": "C26", "title": "Novelty curves have one value per frame transition, in [0,1]", "statement": "superflux, mel superflux, spectral-flux, energy-flux, HFC and combined novelty of a spectrogram of n >= 2 frames have exactly n-1 values, all in [0,1]; fewer than two frames give an empty curve; zero-bin or ragged spectrograms of two or more frames are rejected with an error, never a panic.", "quantifier": "every spectrogram (any shape, NaN included) and every parameter setting accepted", "why_tests_cant": "Normalisation with NaN-ignoring max over all matrices.", "anchors": ["src/features/period/novelty.rs: superflux_novelty, energy_flux_novelty, hfc_novelty, combined_novelty_with_params, normalize_in_place"]}
{"id": "C27", "title": "Beat grids are ordered and bars start on beats", "statement": "When generate_beat_grid succeeds the beats are non-empty and sorted, the first beat is a downbeat, every downbeat is one of the beats, the bars equal the downbeats, and consecutive downbeats are one bar apart up to 10 percent (plus f32 rounding).", "quantifier": "every BPM, confidence and onset list for which the call returns Ok", "why_tests_cant": "Invariant of the greedy bar walk over all beat lists.", "anchors": ["src/features/beat_tracking/mod.rs: generate_beat_grid, generate_beat_grid_from_positions_with_time_sig, detect_downbeats_with_time_sig"]}
{"id": "C28", "title": "Beat grids contain each beat once", "statement": "The beats of a generated grid are strictly increasing: no beat time is reported twice.", "quantifier": "every BPM and onset list for which generate_beat_grid returns Ok", "why_tests_cant": "Duplicates only arise when several overlapping tempo segments are refined.", "anchors": ["src/features/beat_tracking/mod.rs: generate_beat_grid (lines 160-215)"]}
{"id": "C29", "title": "Beat-grid generation reports errors instead of panicking", "statement": "generate_beat_grid returns Ok or Err for every argument, including NaN onsets and NaN BPM.", "quantifier": "every BPM, confidence and onset list", "why_tests_cant": "NaN reaches an unwrap only through specific list shapes.", "anchors": ["src/features/beat_tracking/mod.rs: generate_beat_grid (line 133)"]}
{"id": "C30", "title": "Grid stability is a normalised consistency score", "statement": "The stability returned with a grid is in [0,1]; it is 1 when all beat intervals are equal and 0 when fewer than two beats or no positive interval exist.", "quantifier": "every list of beat positions with finite times", "why_tests_cant": "Mean/variance in f32 over all lists; NaN absence must be shown.", "anchors": ["src/features/beat_tracking/mod.rs: calculate_grid_stability"]}
{"id": "C31", "title": "Viterbi decoding is optimal", "statement": "The state path chosen by the HMM beat tracker attains the maximum, over all state sequences, of the (f32, left-to-right rounded) path probability, and ties are broken deterministically.", "quantifier": "every emission matrix of any length and every transition matrix, both with entries in [0,1]", "why_tests_cant": "Number of state sequences is exponential in the length; optimality must survive f32 rounding and underflow.", "anchors": ["src/features/beat_tracking/hmm.rs: viterbi_forward_pass"]}
{"id": "C32", "title": "HMM beats follow the onsets' tempo", "statement": "The HMM tracker's beat times adapt to tempo states: the decoded tempo path influences the reported beat positions.", "quantifier": "every BPM and onset list", "why_tests_cant": "Independence of an output from an internal path is a for-all claim.", "anchors": ["src/features/beat_tracking/hmm.rs: track_beats, compute_emission_probabilities, extract_beats_from_path"]}
{"id": "C33", "title": "HMM beats are near detected onsets", "statement": "Every beat reported by track_beats lies on the nominal beat lattice anchored at the first onset, with confidence in [0,1], sorted by time, and its emission probability exceeds 0.1.", "quantifier": "every BPM in (0,300] and sorted onset list", "why_tests_cant": "All onset lists and lengths.", "anchors": ["src/features/beat_tracking/hmm.rs: track_beats, extract_beats_from_path"]}
{"id": "C34", "title": "Tempo segmentation terminates", "statement": "detect_tempo_variations returns for every sorted list of finite beat times.", "quantifier": "every sorted list of finite beat times and every BPM", "why_tests_cant": "Absorption of the segment step in f32 only occurs for large time stamps.", "anchors": ["src/features/beat_tracking/tempo_variation.rs: detect_tempo_variations (lines 141-206)"]}
{"id": "C35", "title": "Tempo segments are well formed", "statement": "detect_tempo_variations returns at least one segment; each has start <= end, confidence in [0,1], positive BPM, starts are non-decreasing, all lie within the first and last beat; a segment is marked variable exactly when its interval variation exceeds 0.15, in which case its confidence is at most about one half.", "quantifier": "every sorted list of finite beat times and positive BPM on which the call returns", "why_tests_cant": "Invariant of the sliding window over all beat lists.", "anchors": ["src/features/beat_tracking/tempo_variation.rs: detect_tempo_variations, has_tempo_variation"]}
{"id": "C36", "title": "Time-signature detection is total and bounded", "statement": "detect_time_signature returns one of 4/4, 3/4, 6/8 with a confidence in [0,1], 4/4 with 0.5 when fewer than 8 beats are given, and reports an error (not a panic) otherwise.", "quantifier": "every list of beat times and every BPM", "why_tests_cant": "Depends on sums over all beat lists and NaN handling.", "anchors": ["src/features/beat_tracking/time_signature.rs: detect_time_signature, score_time_signature"]}
{"id": "C37", "title": "Bayesian tempo updates stay in the tracked range", "statement": "After any sequence of update_with_onsets calls the Bayesian tracker's BPM is one of the values it was seeded with or lies in [60,180] (within 5 BPM of the previous one), and its confidence stays in [0,1].", "quantifier": "every sequence of onset batches, of any length", "why_tests_cant": "Invariant over histories of updates.", "anchors": ["src/features/beat_tracking/bayesian.rs: BayesianBeatTracker::new, update_with_onsets, generate_bpm_candidates"]}
{"id": "C38", "title": "Numerical key notation is a lossless naming of the 24 keys", "statement": "numerical() is injective on the 24 keys and from_numerical(key.numerical()) returns that key; the two notations of relative major/minor share a number; moving up a fifth increments the number modulo 12.", "quantifier": "every key index (any u32, taken modulo 12)", "why_tests_cant": "Any u32 index.", "anchors": ["src/analysis/result.rs: Key::numerical, Key::from_numerical, Key::name"]}
{"id": "C39", "title": "Key notation parsing accepts only the documented format and never panics", "statement": "from_numerical returns Some exactly for the 24 strings 1A..12A, 1B..12B and None for every other string.", "quantifier": "every string", "why_tests_cant": "All unicode strings; the panic needs a multi-byte last character.", "anchors": ["src/analysis/result.rs: Key::from_numerical (lines 113-140)"]}
{"id": "C40", "title": "Key detection ranks all 24 keys and reports a best one", "statement": "When detect_key / detect_key_weighted succeeds, all_scores contains each of the 24 keys exactly once in non-increasing score order, top_keys is its first three entries, the reported key attains the maximal score, and the confidence is in [0,1].", "quantifier": "every chroma sequence, frame weighting and template set for which the call returns, and every hash-map iteration order", "why_tests_cant": "The weighted vote goes through a hash map with random iteration order and f32 division; the claim is over all orders and scores.", "anchors": ["src/features/key/detector.rs: detect_key, detect_key_weighted"]}
{"id": "C41", "title": "Key detection is deterministic", "statement": "Calling detect_key twice on the same chroma returns the same key.", "quantifier": "every chroma sequence and every pair of hash seeds", "why_tests_cant": "Hash seeds are random per process; tests run one.", "anchors": ["src/features/key/detector.rs: detect_key_weighted (lines 226-262)", "src/features/key/key_changes.rs: detect_key_changes (HashMap count)"]}
{"id": "C42", "title": "The mode heuristic only changes the mode", "statement": "detect_key_weighted_mode_heuristic returns the same tonic as its base detection; when it flips, the opposite-mode score is at least the configured fraction of the base score; confidence stays in [0,1].", "quantifier": "every chroma sequence and heuristic setting", "why_tests_cant": "All score configurations.", "anchors": ["src/features/key/detector.rs: detect_key_weighted_mode_heuristic"]}
{"id": "C43", "title": "Key clarity is a normalised score", "statement": "compute_key_clarity returns a value in [0,1] for every ranked NaN-free score list, 0 when fewer than two scores or all scores are equal, and it never decreases when the best score alone is raised.", "quantifier": "every ranked score list", "why_tests_cant": "All score lists with f32 averaging.", "anchors": ["src/features/key/key_clarity.rs: compute_key_clarity"]}
{"id": "C44", "title": "Key templates are rotations of one another", "statement": "For both template families, the template of key k is the C template rotated by k semitones, hence each key's raw score of a chroma rotated by k equals the C score of the unrotated chroma up to f32 summation order; all template weights are finite and non-negative and every template has unit L2 norm up to rounding.", "quantifier": "every key and pitch class", "why_tests_cant": "Finite but large table; the equivariance claim is over all chroma vectors.", "anchors": ["src/features/key/templates.rs: KeyTemplates::new, new_temperley, get_template"]}
{"id": "C45", "title": "Key-change timelines are consistent", "statement": "detect_key_changes returns segments in time order, key changes whose from-key differs from the to-key, each change sits at a boundary between consecutive segments with exactly these keys, and primary_key has a maximal number of segments under every hash order.", "quantifier": "every chroma sequence, segment duration and overlap with overlap < duration, every hash-map iteration order", "why_tests_cant": "Histories of segments and hash orders.", "anchors": ["src/features/key/key_changes.rs: detect_key_changes"]}
{"id": "C46", "title": "Chroma vectors are 12-dimensional, bounded and finite", "statement": "Every chroma vector produced from a spectrogram has exactly 12 entries; entries are never NaN and lie in [0, 1] up to f32 rounding; a silent frame yields the zero vector.", "quantifier": "every spectrogram with any values, any tuning and mapping mode", "why_tests_cant": "All magnitude vectors including NaN, infinities and subnormals.", "anchors": ["src/features/chroma/extractor.rs: frame_to_chroma_tuned, extract_chroma_from_spectrogram*", "src/features/chroma/normalization.rs"]}
{"id": "C47", "title": "Chroma smoothing keeps shape and envelope", "statement": "Median smoothing returns one vector per frame, each output value is one of the input values of the same pitch class inside the window (so never outside the window's range), and a window of 0 or 1 is the identity; constant sequences are fixed points.", "quantifier": "every rectangular NaN-free chroma sequence and window size", "why_tests_cant": "All windows at both borders over all lengths.", "anchors": ["src/features/chroma/smoothing.rs: smooth_chroma, smooth_chroma_average"]}
{"id": "C48", "title": "STFT framing is exact", "statement": "compute_stft of n samples returns floor((n - frame)/hop) + 1 rows of frame/2 + 1 magnitudes when n >= frame and none otherwise; each row depends only on its own window of samples, weighted by a Hann window; magnitudes are non-negative.", "quantifier": "every sample vector, frame and hop size > 0, whatever FFT implementation", "why_tests_cant": "All lengths and hop combinations.", "anchors": ["src/features/chroma/extractor.rs: compute_stft"]}
{"id": "C49", "title": "Spectrogram masking never amplifies", "statement": "The harmonic time mask and the HPSS median mask return a spectrogram of the same shape in which every magnitude is between 0 and the input magnitude; HPSS decomposition's harmonic and percussive parts each stay between 0 and the input.", "quantifier": "every rectangular non-negative spectrogram and every setting accepted", "why_tests_cant": "f32 rounding of mask products over all values.", "anchors": ["src/features/chroma/extractor.rs: harmonic_spectrogram_time_mask, harmonic_spectrogram_hpss_median_mask", "src/features/onset/hpss.rs: hpss_decompose"]}
{"id": "C50", "title": "Confidence scores are normalised and classified consistently", "statement": "compute_confidence returns four scores in [0,1] for every result with non-NaN fields; a failed BPM (<= 0) contributes 0; exactly one of high / medium / low holds and confidence_level names it; the overall score never exceeds the maximum of the components by more than rounding.", "quantifier": "every AnalysisResult", "why_tests_cant": "All field combinations including NaN and out-of-range confidences.", "anchors": ["src/analysis/confidence.rs: compute_confidence, is_high_confidence, is_medium_confidence, is_low_confidence, confidence_level"]}
{"id": "C51", "title": "Final BPM selection policy", "statement": "The BPM reported by analyze_audio is 0 exactly when no estimator produced a positive estimate; with force_legacy_bpm it is the legacy estimate; otherwise a successful tempogram estimate is always the one reported (fusion only changes confidence), and the reported BPM confidence is in [0,1] under fusion.", "quantifier": "every combination of estimator outcomes and configuration switches", "why_tests_cant": "Decision table over continuous estimates and nested switches.", "anchors": ["src/lib.rs: analyze_audio (lines 814-900)"]}
{"id": "C52", "title": "Warnings and flags tell the truth", "statement": "analyze_audio attaches the BPM, stability, key-confidence and clarity warnings exactly when the corresponding reported value is at its failure value / under its threshold, and the WeakTonality flag exactly with the clarity warning; compute_confidence penalises accordingly.", "quantifier": "every analysis outcome", "why_tests_cant": "Biconditional over all outcomes.", "anchors": ["src/lib.rs: analyze_audio (lines 1560-1595)", "src/analysis/confidence.rs"]}
{"id": "C53", "title": "Onset conversion for consensus keeps positions valid", "statement": "Frame indices from the frame-based detectors are converted into strictly increasing sample positions inside the trimmed signal before voting, for any hop size, without overflow.", "quantifier": "every list of frame indices, hop size and signal length", "why_tests_cant": "All lists and saturating arithmetic.", "anchors": ["src/lib.rs: analyze_audio (lines 181-190, 261-286)"]}
{"id": "C54", "title": "Method agreement counts methods", "statement": "The method_agreement of a merged legacy estimate ('number of methods that agree') never exceeds the two methods that exist, and merged confidences stay scores in [0,1].", "quantifier": "every pair of candidate lists", "why_tests_cant": "Grouping over arbitrary lists; tests use one candidate per method.", "anchors": ["src/features/period/candidate_filter.rs: merge_bpm_candidates", "src/features/period/mod.rs: BpmEstimate"]}
{"id": "C55", "title": "Legacy BPM estimation stays in the requested range", "statement": "When estimate_bpm / estimate_bpm_with_guardrails succeed they report no tempo exactly when neither method produced a candidate; otherwise the reported BPM lies in [min_bpm, max_bpm] (up to f32 rounding of group means), with non-negative confidence and positive agreement.", "quantifier": "every onset list, sample rate, hop, BPM range within [1e-15, 1e15], resolution and guardrail configuration accepted that gives at most 2^20 candidates", "why_tests_cant": "End-to-end composition of candidate generation, octave correction, grouping, guardrails and re-ranking over all inputs.", "anchors": ["src/features/period/mod.rs: estimate_bpm, estimate_bpm_with_guardrails, estimate_bpm_internal"]}
{"id": "C56", "title": "Key names distinguish the 24 keys", "statement": "Key::name gives 24 pairwise different names, one for every (tonic pitch class, mode); minor names are the major name of the same tonic followed by 'm', and indices congruent modulo 12 name the same key.", "quantifier": "every Key value, including out-of-range indices", "why_tests_cant": "Index is any u32; tests look at a few keys.", "anchors": ["src/analysis/result.rs: Key::name"]}
{"id": "C57", "title": "Perfectly regular beats keep the default 4/4", "statement": "For a beat list whose intervals are all equal (a steady pulse carries no metre information) detect_time_signature reports the documented default 4/4, as in its doc example of eight beats at 120 BPM.", "quantifier": "every beat list with equal positive intervals, of at least eight beats", "why_tests_cant": "Tie-breaking between floating-point scores for all lengths and intervals; the unit test accepts any answer.", "anchors": ["src/features/beat_tracking/time_signature.rs: detect_time_signature"]}
{"id": "C58", "title": "The reported key is the best match within its mode", "statement": "When detect_key / detect_key_weighted succeeds on ordinary chroma, no key of the same mode as the reported key has a template match (sum over frames of weight times the dot product with the key's template) greater than that of the reported key.", "quantifier": "every chroma sequence of 12 values in [0,1] per frame, every finite non-negative frame weighting, template set and hash order", "why_tests_cant": "Voting, normalisation and the circle-of-fifths refinement sit between match and report; tests use a handful of chords.", "anchors": ["src/features/key/detector.rs: detect_key_weighted"]}
{"id": "C59", "title": "A key's own profile is detected as that key", "statement": "A chroma sequence equal to the profile of a key is detected as that key, with positive confidence.", "quantifier": "every key, every number of frames, every hash order", "why_tests_cant": "The interaction of per-mode normalisation with refinement bonuses makes scores tie; tests only check that some key is returned.", "anchors": ["src/features/key/detector.rs: detect_key_weighted"]}
{"id": "C60", "title": "Key detection never fails on well-formed chroma", "statement": "detect_key / detect_key_weighted return a result, not an error or a panic, for every non-empty sequence of 12-value chroma frames in [0,1]; the reported key is one of the 24 keys and the confidence is in [0,1].", "quantifier": "every non-empty chroma sequence in [0,1], every finite non-negative frame weighting, unit template set and hash order", "why_tests_cant": "Every unwrap on partial_cmp must be shown NaN-free; tests run a few inputs.", "anchors": ["src/features/key/detector.rs: detect_key_weighted"]}
{"id": "C61", "title": "Every key-detector variant returns a full ranking", "statement": "On well-formed chroma detect_key_ensemble, detect_key_multi_scale and detect_key_median return a result, all_scores contains each of the 24 keys exactly once in non-increasing order, the key is one of the 24, and the confidence is in [0,1].", "quantifier": "every non-empty chroma sequence in [0,1], every frame weighting, every segment length, hop, clarity threshold, scale weights up to 2^10, harmonic-minor bonus weights up to 16 and ensemble weights in [0, 2^60], every hash order", "why_tests_cant": "Accumulated weighted averages of f32 scores over arbitrarily many segments; unwrap on partial_cmp must be NaN-free.", "anchors": ["src/features/key/detector.rs: detect_key_ensemble, detect_key_multi_scale, detect_key_median"]}
{"id": "C62", "title": "A clear modulation is reported", "statement": "detect_key_changes reports at least one key change when consecutive segments are the profiles of two different keys.", "quantifier": "every pair of keys and every number of frames", "why_tests_cant": "All chroma sequences; the tests only check that the call returns.", "anchors": ["src/features/key/key_changes.rs: detect_key_changes"]}
{"id": "C63", "title": "The median key wins the segment vote and its ranking", "statement": "detect_key_median reports the key with the most segments, ties broken by summed confidence, under every hash order, and the reported key is the best-scored one in its own ranking.", "quantifier": "every chroma sequence, segment length, hop, minimum number of segments and hash order", "why_tests_cant": "Histories of segments and random hash orders.", "anchors": ["src/features/key/detector.rs: detect_key_median"]}
{"id": "C64", "title": "Chroma smoothing never fails", "statement": "smooth_chroma returns a smoothed sequence for every rectangular chroma sequence and window size, without panicking.", "quantifier": "every rectangular chroma sequence, including NaN entries, and every window size", "why_tests_cant": "Panics hide behind unwrap on partial_cmp and depend on where a NaN sits.", "anchors": ["src/features/chroma/smoothing.rs: smooth_chroma"]}
{"id": "C65", "title": "Average smoothing keeps shape and range", "statement": "smooth_chroma_average returns one vector per frame with the same width; every value stays in [0,1] when the input does, and is the f32 mean of the window.", "quantifier": "every rectangular chroma sequence in [0,1] and every window size", "why_tests_cant": "Accumulated f32 rounding over arbitrarily long windows.", "anchors": ["src/features/chroma/smoothing.rs: smooth_chroma_average"]}
{"id": "C66", "title": "Chroma of an audible frame has unit length", "statement": "The chroma vector of a frame that carries energy between 100 Hz and 5 kHz has unit Euclidean length up to f32 rounding.", "quantifier": "every finite frame with audible energy, any sample rate, FFT size, tuning and mapping mode", "why_tests_cant": "The squared norm is accumulated in f32: overflow, underflow and rounding over all magnitude vectors.", "anchors": ["src/features/chroma/extractor.rs: frame_to_chroma_tuned"]}
{"id": "C67", "title": "A single tone lands on the nearest pitch class", "statement": "A frame whose only energy is at one frequency between 100 Hz and 5 kHz yields a unit chroma vector whose largest entry is the equal-tempered pitch class nearest to that frequency (with the tuning offset); with hard mapping all others are zero, with soft mapping only the neighbouring classes can be non-zero.", "quantifier": "every bin, sample rate, FFT size, finite tuning, magnitude and mapping mode", "why_tests_cant": "All frequencies, including those at the boundary between pitch classes and at the octave wrap-around.", "anchors": ["src/features/chroma/extractor.rs: frame_to_chroma_tuned, frequency_to_semitone"]}
{"id": "C68", "title": "L2 normalisation and sharpening return unit vectors", "statement": "l2_normalize_chroma and sharpen_chroma keep the number of entries and return vectors of unit Euclidean length up to f32 rounding, with entries in [0,1] in the order of the input; a silent (zero) vector is handled, and sharpening with power 1 leaves a normalised vector unchanged.", "quantifier": "every non-negative finite chroma vector and power", "why_tests_cant": "The squared norm is accumulated in f32 over all magnitudes: overflow, underflow and rounding.", "anchors": ["src/features/chroma/normalization.rs: l2_normalize_chroma, sharpen_chroma"]}
{"id": "C69", "title": "Beat-synchronous chroma follows the beats", "statement": "extract_beat_synchronous_chroma returns one 12-entry vector and one energy per pair of consecutive beats; each depends exactly on the frames that start in that beat interval, an interval without frames gives zeros, with sorted beats every frame counts for at most one interval, and entries lie in [0,1].", "quantifier": "every spectrogram, beat list, hop size and sample rate", "why_tests_cant": "Every alignment of frame times with beat times, including coinciding and repeated beats.", "anchors": ["src/features/chroma/extractor.rs: extract_beat_synchronous_chroma"]}
{"id": "C70", "title": "Log-frequency chroma folds octaves", "statement": "extract_chroma_from_log_frequency_spectrogram returns one 12-entry vector per frame whose entries before normalisation are the sums of the positive magnitudes of their pitch class; shifting the offset by octaves changes nothing, by one semitone moves every bin to the next pitch class; it never panics and entries are in [0,1].", "quantifier": "every log-frequency spectrogram and semitone offset", "why_tests_cant": "All i32 offsets and all magnitudes.", "anchors": ["src/features/chroma/extractor.rs: extract_chroma_from_log_frequency_spectrogram"]}
{"id": "C71", "title": "Time smoothing averages the neighbouring frames", "statement": "smooth_spectrogram_time keeps the shape of the spectrogram, leaves it unchanged for margin 0, and otherwise replaces each magnitude by the mean of its bin over the frames within the margin, which lies between the smallest and the largest of them.", "quantifier": "every rectangular non-negative spectrogram and margin", "why_tests_cant": "The mean is a difference of two running f32 sums: cancellation depends on everything that was played before.", "anchors": ["src/features/chroma/extractor.rs: smooth_spectrogram_time"]}
{"id": "C72", "title": "Harmonic and percussive parts add up to the input", "statement": "For every cell of the spectrogram the harmonic and the percussive magnitude returned by hpss_decompose add up to the input magnitude, up to a few units of f32 rounding, whatever the margin and however many refinement iterations are run.", "quantifier": "every rectangular non-negative spectrogram and margin", "why_tests_cant": "All magnitudes, all margins, and a data-dependent number of refinement iterations.", "anchors": ["src/features/onset/hpss.rs: hpss_decompose"]}
{"id": "C73", "title": "Novelty marks increases and is scaled to its peak", "statement": "Where no bin of a frame is louder than every nearby bin of the previous frame (within the max-filter radius) the superflux novelty is exactly 0; where no bin gets louder at all, energy-flux and HFC novelty are exactly 0. Every curve of ordinary magnitudes either attains exactly 1 or is at most 1e-10 everywhere.", "quantifier": "every spectrogram, frame and filter radius", "why_tests_cant": "Universally quantified over magnitudes, f32 rounding and overflow of the squared sums.", "anchors": ["src/features/period/novelty.rs: superflux_novelty, energy_flux_novelty, hfc_novelty, normalize_in_place"]}
{"id": "C74", "title": "Band novelty is the novelty of the cropped spectrogram", "statement": "The band-limited superflux and energy-flux novelty over bins [s, e) equal the full novelty of the spectrogram cropped to those bins; a band reaching beyond the spectrum is cut off there, a band of fewer than two bins gives an empty curve, and the band over all bins gives the full curve for HFC too.", "quantifier": "every valid spectrogram and band", "why_tests_cant": "An equality of two separately written functions for all spectrograms, bands and filter radii.", "anchors": ["src/features/period/novelty.rs: superflux_novelty_band, energy_flux_novelty_band, hfc_novelty_band"]}
{"id": "C75", "title": "Only the top-ranked tempogram candidate gets a positive confidence", "statement": "If the tempogram estimator reports a confidence above 0, the reported BPM is the first candidate of the ranking; whenever octave folding replaces the winner, the reported confidence is 0.", "quantifier": "every spectrogram, configuration and band-fusion setting for which no candidate score is NaN", "why_tests_cant": "The interplay of folding and the runner-up margin over all candidate sets.", "anchors": ["src/features/period/tempogram.rs: estimate_bpm_tempogram_impl (lines 655-720)"]}
{"id": "C76", "title": "Tempogram candidates are the metrical relatives of the strongest peaks", "statement": "Without band fusion every candidate is 1, 1/2, 2, 1/3, 3, 2/3 or 3/2 times one of the eight strongest entries of the FFT or autocorrelation tempogram of the combined novelty curve, and every such product inside [min_bpm, max_bpm] is within 0.75 BPM of a candidate.", "quantifier": "every spectrogram and BPM grid", "why_tests_cant": "Completeness of candidate generation through sorting and tolerance-based de-duplication, for all tempograms.", "anchors": ["src/features/period/tempogram.rs: estimate_bpm_tempogram_impl (lines 530-570)"]}
{"id": "C77", "title": "All passes of the multi-resolution analysis measure the same clock", "statement": "multi_resolution_analysis runs the tempogram on one magnitude spectrogram, computed with one hop size; a periodicity of those frames therefore has one tempo, and the passes should agree on it: a pass must not report the same peaks at a different BPM merely because of its nominal hop size.", "quantifier": "every spectrogram, sample rate and BPM range", "why_tests_cant": "A relation between the outputs of several passes for all inputs, exact in f32.", "anchors": ["src/features/period/multi_resolution.rs: multi_resolution_analysis (lines 97-113)", "src/features/period/tempogram_autocorr.rs: autocorrelation_tempogram", "src/features/period/tempogram_fft.rs: fft_tempogram"]}
{"id": "C78", "title": "Harmonic pitch-class profiles are bounded, of unit length, and zero for silence", "statement": "extract_hpcp_from_spectrogram_with_options_and_energy_tuned returns one 12-entry profile and one energy per frame, or InvalidInput for empty or ragged frames, and never panics; every entry lies in [0, 1] and the profile has unit length unless it is (almost) zero; frames without a positive magnitude, and frames without a spectral peak, give the zero profile.", "quantifier": "every spectrogram, sample rate, FFT size, tuning and option value; any library functions within their documented ranges", "why_tests_cant": "Arbitrary frames and option values (NaN, negative, very loud); error bounds on the norm hold for all inputs only by proof.", "anchors": ["src/features/chroma/extractor.rs: frame_to_hpcp_tuned_band (lines 529-681)", "src/features/chroma/extractor.rs: extract_hpcp_from_spectrogram_with_options_and_energy_tuned (lines 1097-1150)"]}
{"id": "C79", "title": "A harmonic profile is made of the strongest spectral peaks and their harmonics", "statement": "The profile of a frame depends only on the in-band local maxima of the frame: the strongest ones, at most `peaks_per_frame`, each contribute their harmonics with decaying weights; everything that is not a peak is ignored. A frame with a single in-band peak gives a profile whose largest entry is the pitch class nearest to that peak.", "quantifier": "every frame without NaN, every configuration, every way of selecting the strongest peaks", "why_tests_cant": "Concerns arbitrary frames and an unspecified selection order; tests see a few synthetic tones.", "anchors": ["src/features/chroma/extractor.rs: frame_to_hpcp_tuned_band (lines 529-681)"]}
{"id": "C80", "title": "The tuning estimate is a fraction of a semitone, zero for silence and for a tuned instrument", "statement": "estimate_tuning_offset_semitones_from_spectrogram returns a number between -0.5 and 0.5; it looks only at every frame_step-th frame; it is 0 for silence, for empty spectrograms and for tones in tune, and for a single tone it is that tone's deviation from the nearest semitone.", "quantifier": "every spectrogram of equal frames, sample rate, FFT size, frequency limits, frame step and threshold", "why_tests_cant": "The estimate is a circular mean over all loud in-band bins; range and exact fixed points need a proof over all inputs, including degenerate limits that panic.", "anchors": ["src/features/chroma/extractor.rs: estimate_tuning_offset_semitones_from_spectrogram (lines 66-170)"]}
{"id": "C81", "title": "The log-frequency spectrogram redistributes energy between neighbouring semitone bins", "statement": "convert_linear_to_log_frequency_spectrogram returns one frame per input frame, with one bin per semitone of the band; every in-band magnitude is shared between the two semitone bins next to its frequency in proportion to the distance, so a single tone keeps its magnitude; nothing else contributes; entries are finite and non-negative; an empty band or unequal frames are reported as InvalidInput.", "quantifier": "every spectrogram, sample rate, FFT size and frequency limits; any non-decreasing logarithm", "why_tests_cant": "Concerns all spectrograms and limits; the failing cases (panic for an empty band, NaN magnitudes) are corner cases of arithmetic conversions.", "anchors": ["src/features/chroma/extractor.rs: convert_linear_to_log_frequency_spectrogram (lines 701-807)"]}
{"id": "C82", "title": "The bass blend is a convex mixture of two harmonic profiles", "statement": "extract_hpcp_bass_blend_from_spectrogram_with_options_and_energy_tuned mixes, frame by frame, the ordinary harmonic profile with the profile of the bass band (at most 12 peaks) and scales the result to unit length: a weight of 0 gives the ordinary profile, a weight of 1 the bass profile, weights outside [0, 1] are limited, energies are unchanged, entries stay in [0, 1] and silence stays silent.", "quantifier": "every spectrogram, configuration, bass band and weight", "why_tests_cant": "A relation between two extractors for all inputs and weights, including NaN.", "anchors": ["src/features/chroma/extractor.rs: extract_hpcp_bass_blend_from_spectrogram_with_options_and_energy_tuned (lines 1154-1239)"]}
{"id": "C83", "title": "Empty, unreadable and silent inputs are reported, never analysed", "statement": "analyze_audio returns InvalidInput for an empty buffer or a sample rate of 0, and ProcessingError when silence trimming leaves nothing; with trimming on, it fails this way exactly when no analysis frame is louder than the threshold, and otherwise analyses a contiguous piece of the audio. The documentation's own example (30 seconds of zeros) is such an error.", "quantifier": "every buffer, sample rate and configuration; any library functions", "why_tests_cant": "Quantifies over all audio and configurations of the whole pipeline; the tests analyse a handful of files.", "anchors": ["src/lib.rs: analyze_audio (lines 85-147)", "src/preprocessing/silence.rs: detect_and_trim (lines 62-230)"]}
{"id": "C84", "title": "Reported times refer to the submitted audio", "statement": "Beat times, downbeats, bars and the duration are given on the time axis of the buffer handed to analyze_audio: prepending a second of silence moves every beat by one second and lengthens the duration by one second.", "quantifier": "every buffer, sample rate and configuration", "why_tests_cant": "A relation between two runs of the whole pipeline on arbitrary audio.", "anchors": ["src/lib.rs: analyze_audio (lines 113-147, 913-958, 1561-1635)"]}
{"id": "C85", "title": "Every documented setting of AnalysisConfig has an effect", "statement": "A field of AnalysisConfig described as controlling a step of the analysis changes the result for some audio.", "quantifier": "every configuration field, buffer and sample rate", "why_tests_cant": "Absence of an effect is a statement about all audio.", "anchors": ["src/config.rs: AnalysisConfig", "src/lib.rs: analyze_audio"]}
{"id": "C86", "title": "Tempo escalation is triggered, used and reported according to its policy", "statement": "With tempogram multi-resolution on, a second pass runs exactly when the base tempo lies in 55-80 or 170-200 BPM, or a candidate at double or half tempo reaches 90 % of the score near the base, or a weakly supported base doubles into 170-200; the percussive pass only for a base in 55-80 BPM. The final estimate is the base unless the metadata says a pass was used; no base of at most 180 BPM is promoted above 180; a percussive estimate lies in 70-180; the confidence never drops below 0.88 * 0.85 of the base confidence; a pass reported as used was triggered, and the flags are absent when their feature is off.", "quantifier": "every buffer, spectrogram, sample rate, configuration and library functions", "why_tests_cant": "Decision logic over all estimates, scores and candidate lists of three estimators; tests cover a few tracks.", "anchors": ["src/lib.rs: analyze_audio, tempogram branch (lines 337-812)"]}
{"id": "C87", "title": "The reported tempo is absent or within the configured range", "statement": "A successful analysis reports BPM 0 with confidence 0, or a tempogram estimate exactly within [min_bpm, max_bpm] with a confidence in [0,1], or - only when the legacy estimator is forced or the tempogram gave nothing, in which case the tempogram metadata are absent - a positive legacy estimate within the range up to accumulated rounding, with a non-negative confidence.", "quantifier": "every buffer of up to 2^31 samples, every sample rate and every configuration whose range includes 70-180 BPM and can be searched by the comb filter in 2^19 steps; any library functions", "why_tests_cant": "The bound composes onset detection, two estimators, escalation and fusion over all audio.", "anchors": ["src/lib.rs: analyze_audio (lines 294-909)", "src/features/period/mod.rs: estimate_bpm_internal (lines 216-404)"]}
{"id": "C88", "title": "The reported beat grid is anchored in the audio", "statement": "Without beats the grid is empty altogether, the stability is 0 and a stability warning is given. With beats the reported tempo is in (0,300], beats are in order, downbeats are beats and start with the first, bars are the downbeats, successive downbeats are one bar of 4, 3 or 6 beats apart at the reported tempo up to 10 percent, every beat (also after tempo-variation refinement) is within 54 ms of an onset at a sample position inside the audio, and the stability is in [0,1].", "quantifier": "every buffer of up to 2^31 samples, sample rate and configuration; any exp that is at most 0.1 below -2.3125", "why_tests_cant": "Quantifies over all audio through onset detection, tempo estimation, Viterbi tracking and segment refinement.", "anchors": ["src/lib.rs: analyze_audio (lines 912-958)", "src/features/beat_tracking/mod.rs: generate_beat_grid (lines 108-247)"]}
{"id": "C89", "title": "The reported key is always one of the 24 keys", "statement": "Whatever the audio and the settings (ensemble, multi-scale, segment voting, heuristics), the key is one of the 24 major and minor keys, confidence and clarity are in [0,1] (or NaN), and audio shorter than one analysis frame gives C major with confidence and clarity 0, the weak-tonality flag and both key warnings.", "quantifier": "every buffer, sample rate, configuration, hash order and library functions", "why_tests_cant": "Covers all combinations of the key settings on all audio.", "anchors": ["src/lib.rs: analyze_audio, key branch (lines 961-1559)"]}
{"id": "C90", "title": "Ordinary audio is always analysed", "statement": "analyze_audio does not panic, does not loop and returns no error on ordinary audio, except ProcessingError when trimming is on and every frame of the normalized audio is below the amplitude threshold. Otherwise it returns one of the 24 keys with confidence in [0,1] and (single detection or segment voting) clarity in [0,1], the duration of what was left after trimming, and, as soon as two analysis frames were left, a tempo inside the configured range. In particular this holds for AnalysisConfig::default() at every sample rate from 1 kHz.", "quantifier": "every buffer of 1 to 2^30 finite samples (below 2^126 with peak normalization, in [-1,1] without normalization), every sample rate of at least 1 kHz, and every configuration with a window of 2 to 2^20 samples, a searchable tempo range, tempogram weights that cannot overflow and any key features (any mask or smoothing, plain chroma, harmonic profile, bass blend, with a window of at most 2^14 samples log-frequency chroma and, for recordings up to 8192 s, beat-synchronous chroma, tuning correction, sharpening, any template set, ensemble, multi-scale, segment vote or mode heuristic, a harmonic-minor bonus of weight up to 16); library functions in their mathematical ranges", "why_tests_cant": "Quantifies over all audio through every stage of the pipeline; a single overflow to NaN, index error or unfinished loop anywhere would break it.", "anchors": ["src/lib.rs: analyze_audio (lines 88-1635)", "src/config.rs: Default for AnalysisConfig (lines 594-744)"]}
{"id": "C91", "title": "The segment vote elects the key with the most votes", "statement": "Where analyze_audio lets segments vote on the key, every window of key_segment_len_frames frames starting at a multiple of the hop is heard by an ordinary detection; windows at least as clear as key_segment_min_clarity vote for each key with its score times their clarity; the reported key has the most votes, the ranking is by votes and the confidence is the relative margin over the runner-up; without a clear window the answer is the detection over all frames.", "quantifier": "every chroma sequence, frame weights, settings and library", "why_tests_cant": "The votes are sums over all windows of results of another detection; the claim ties the winner to them for every track.", "anchors": ["src/lib.rs: analyze_audio (lines 1332-1436)"]}
{"id": "C92", "title": "The segment vote hears the whole track", "statement": "Every chroma frame of the track takes part in the segment vote on the key.", "quantifier": "every track length, segment length and hop; every content of the unheard frames", "why_tests_cant": "Whether some frame is ignored depends on the track length; that its content cannot matter quantifies over all contents.", "anchors": ["src/lib.rs: analyze_audio (lines 1337-1387)"]}
{"id": "C93", "title": "Muted frames have no say in the key", "statement": "Frame weights are never negative; frames without energy and frames less tonal than key_min_tonalness get weight 0, and frames of weight 0 influence neither key nor confidence, whichever detector is configured. The documentation calls key_min_tonalness the minimum tonalness required to include a frame.", "quantifier": "every chroma sequence, energies, settings and every replacement of the muted frames", "why_tests_cant": "A non-interference property over all contents of the muted frames and all detectors.", "anchors": ["src/lib.rs: analyze_audio (lines 1235-1287)", "src/features/key/detector.rs: weighted_sum_dot (lines 984-1001), detect_key_weighted_mode_heuristic (lines 345-367)", "src/config.rs: key_min_tonalness (lines 273-276)"]}
{"id": "C94", "title": "The loudness measurement gates and averages whole blocks", "statement": "calculate_lufs on a non-empty signal filters it, cuts it into 400 ms blocks, drops those at or below -70 LUFS and reports -0.691 + 10 log10 of the mean power of the rest, minus infinity when no block is left; the answer is a number, silence measures minus infinity, and a full-scale signal does not count as silent, at every accepted sample rate.", "quantifier": "every signal, every sample rate from 1 kHz on, every library", "why_tests_cant": "The filter is recursive: whether its output stays finite depends on the sample rate and on the whole history of the signal.", "anchors": ["src/preprocessing/normalization.rs: KWeightingFilter (lines 112-174), calculate_lufs (lines 193-259)"]}
{"id": "C95", "title": "Spectral whitening judges each bin against its neighbourhood", "statement": "With whitening on (and whitening_smooth_bins at least 3), the curve on which the harmonic profile picks its peaks has one value per bin, between 0 and 20 whatever the magnitudes; it is the magnitude divided by the mean magnitude of the bins within half the smoothing window, so bins outside that window have no influence on it.", "quantifier": "every frame of magnitudes, every smoothing window", "why_tests_cant": "The running mean is computed as a difference of prefix sums: whether it only depends on the window is a question of rounding over all frames.", "anchors": ["src/features/chroma/extractor.rs: whitening in frame_to_hpcp (lines 556-583)"]}
{"id": "C96", "title": "Analysing the same audio twice gives the same answer", "statement": "Two calls of analyze_audio with the same samples, sample rate and configuration return the same result (or the same error), although the hash maps of the key detector are seeded at random in every run.", "quantifier": "every audio, sample rate and configuration; every pair of iteration orders of the hash maps", "why_tests_cant": "Random seeds differ from run to run: a test observes one seed, and a tie broken by the seed may not show up in any number of runs.", "anchors": ["src/features/key/detector.rs: key_votes (lines 250-275)", "src/lib.rs: analyze_audio (lines 88-1635)"]}
{"id": "C97", "title": "Inverting the polarity of a recording does not change its analysis", "statement": "analyze_audio on a recording and on the same recording with every sample negated returns the same result, bit by bit, or the same error.", "quantifier": "every audio, sample rate and configuration; every spectrum transform that commutes with negation", "why_tests_cant": "A test inverts a few clips; a stage that half-rectifies or peeks at the sign of a sample only shows on audio that is asymmetric in the right place.", "anchors": ["src/lib.rs: analyze_audio (lines 88-1635)", "src/preprocessing/normalization.rs: normalize (lines 220-484)", "src/preprocessing/silence.rs: detect_and_trim", "src/features/chroma/extractor.rs: compute_stft"]}
{"id": "C98", "title": "With peak normalization the level of a recording does not matter", "statement": "analyze_audio with peak normalization (the default) gives the same result, bit by bit, for a recording and for the same recording amplified by any power of two, unless the peak is at most 1e-10.", "quantifier": "every audio with a peak above 1e-10 and below 2^100 after amplification, every power of two, every sample rate and configuration with peak normalization", "why_tests_cant": "The gain is a rounded quotient; a test sees a few levels and cannot tell exact equality from equality up to rounding that happens not to matter.", "anchors": ["src/preprocessing/normalization.rs: normalize_peak (lines 262-322)", "src/lib.rs: analyze_audio (lines 88-1635)"]}
{"id": "C99", "title": "The key confidence tells how clear the key is", "statement": "When the analysed audio has a clear tonal centre, the reported key confidence is above zero; in general it grows with the margin by which the reported key beats the alternatives.", "quantifier": "every audio, sample rate and configuration; every order in which the hash tables may be iterated", "why_tests_cant": "A test compares the confidence of a few clips; that it is exactly zero for every short or every unambiguous piece is a statement about all of them.", "anchors": ["src/features/key/detector.rs: detect_key_weighted (lines 68-312)", "src/lib.rs: key stage (lines 1198-1480)"]}
{"id": "C100", "title": "The autocorrelation tempogram of a steady pulse peaks at its tempo", "statement": "For a novelty curve that is a steady pulse, one peak every p frames, the tempo that the autocorrelation tempogram reports as best is the tempo of the pulse (up to the scan step).", "quantifier": "every pulse period and phase, every curve length, sample rate, hop and tempo grid", "why_tests_cant": "A test uses one pulse rate on one grid; which of the tempos that tie at the top wins depends on the grid and on truncation of the beat length, for every pulse rate.", "anchors": ["src/features/period/tempogram_autocorr.rs: autocorrelation_tempogram (lines 79-178), find_best_bpm_autocorr"]}
{"id": "C101", "title": "The comb filterbank ranks the tempo of a metronome first, wherever its first click falls", "statement": "For onsets that are the clicks of a metronome whose tempo lies on the scan grid, the first candidate of the comb filterbank has that tempo, whatever the position of the first click.", "quantifier": "every beat length, click count, starting position, sample rate and tempo grid", "why_tests_cant": "Tests place the first click at sample 0 and look for the tempo anywhere in the list; the order of the candidates and the dependence on the starting position concern all click trains.", "anchors": ["src/features/period/comb_filter.rs: estimate_bpm_from_comb_filter (lines 96-215), score_bpm_candidate (lines 342-397)"]}
{"id": "C102", "title": "The autocorrelation estimator ranks the tempo of a metronome first", "statement": "For onsets that are the clicks of a metronome whose tempo lies inside the search range, the first candidate of estimate_bpm_from_autocorrelation has that tempo (up to the resolution of a hop).", "quantifier": "every beat length, click count, starting position, sample rate, hop size and search range; every Fourier transform accurate to 1/20", "why_tests_cant": "Tests use a beat that is a whole number of hops; whether the peak survives when the beat falls between two lags concerns every beat length.", "anchors": ["src/features/period/autocorrelation.rs: estimate_bpm_from_autocorrelation (lines 99-216), compute_autocorrelation_fft (lines 229-268), find_peaks_in_acf (lines 282-338)"]}
{"id": "C103", "title": "The metadata say which methods were used and how far they agree", "statement": "For a successful analysis, methods_used names the onset and tempo methods that contributed to the result, and onset_method_consensus is a score from 0 to 1 that tells how far the onset methods agree (1: they agree; lower: they do not, or only one was run).", "quantifier": "every library, configuration, audio and sample rate for which the analysis succeeds", "why_tests_cant": "The score is a function of all detectors' results; a test sees one value on one clip and cannot tell a constant from a measurement.", "anchors": ["src/lib.rs: analyze_audio (lines 149-291, 1590-1619)", "src/analysis/result.rs: AnalysisMetadata (lines 217-262)"]}
{"id": "C104", "title": "Trimming audio a second time changes nothing", "statement": "detect_and_trim applied to the trimmed audio it returned (same sample rate and detector) returns that audio unchanged.", "quantifier": "every signal, sample rate and detector for which the call succeeds", "why_tests_cant": "Depends on how the frames of the trimmed signal fall relative to the original ones, for every signal and detector.", "anchors": ["src/preprocessing/silence.rs: detect_and_trim (lines 102-279)"]}
{"id": "C105", "title": "Digital silence around a recording does not change what is analysed", "statement": "Putting zeros in front of or behind a recording that detect_and_trim leaves alone gives back that recording after trimming.", "quantifier": "every recording, amount of digital silence, sample rate and detector", "why_tests_cant": "The frames straddling the boundary depend on the content of the recording and on the amount of silence.", "anchors": ["src/preprocessing/silence.rs: detect_and_trim (lines 102-279)"]}
{"id": "C106", "title": "Swapping the stereo channels does not change the mono mix", "statement": "stereo_to_mono(left, right, mode) and stereo_to_mono(right, left, mode) are the same.", "quantifier": "every pair of channels and every mixing mode", "why_tests_cant": "All pairs of f32 values, NaN and infinities included.", "anchors": ["src/preprocessing/channel_mixer.rs: stereo_to_mono (lines 80-147)"]}
{"id": "C107", "title": "Peak normalisation hits its target, and doing it twice changes nothing audible", "statement": "normalize with NormalizationMethod::Peak delivers samples none of which exceeds 10^(-headroom/20) by more than one part in 2^22 and one of which reaches it to one part in 2^22; normalising the result again moves no sample by more than one part in 2^20 (plus 2^-149).", "quantifier": "finite samples of magnitude at most 2^100 with at least one above 1e-10, every target between 2^-20 (about -120 dB) and full scale", "why_tests_cant": "Rounding of the gain and of every product, for every signal and headroom.", "anchors": ["src/preprocessing/normalization.rs: normalize (peak branch)"]}
{"id": "C108", "title": "Transposing the music transposes the key", "statement": "If every chroma vector is moved up by k semitones (frame weights unchanged), detect_key reports the key k semitones higher.", "quantifier": "every sequence of chroma vectors and frame weights, every transposition, both template families", "why_tests_cant": "The templates and sums are rounded differently after a rotation; holds or fails depending on the margin between keys, over all chroma.", "anchors": ["src/features/key/detector.rs: detect_key (lines 100-330), weighted_sum_dot (lines 984-1001)", "src/features/key/templates.rs (lines 60-270)"]}
{"id": "C109", "title": "The Bayesian tempo update measures how well the onsets fit the beat grid, not how many there are", "statement": "The likelihood update_with_onsets gives a tempo is exp(-a), where a is the mean over the onsets of the squared distance to the nearest beat of the grid at that tempo (starting at the first onset), over 2*(50 ms)^2; the new tempo is a tried one that no other tried tempo exceeds in likelihood, and the confidence is that likelihood scaled by how far the tempo moved.", "quantifier": "every list of up to 2^20 onsets in a recording of up to 4096 s, every tempo in [30,300] BPM (fit); every state and every list of onsets (choice)", "why_tests_cant": "A statement about sums of rounded distances over all onset lists, with explicit error bounds.", "anchors": ["src/features/beat_tracking/bayesian.rs: compute_likelihood (lines 203-255), update_with_onsets (lines 104-178), generate_bpm_candidates (lines 183-195)"]}
{"id": "C110", "title": "The Bayesian tempo update weighs the evidence against the previous estimate", "statement": "As documented (P(BPM|evidence) ~ P(evidence|BPM) x P(BPM|prior)), after update_with_onsets no tried tempo has a greater product of likelihood and prior than the new tempo.", "quantifier": "every state of the tracker and every list of onsets", "why_tests_cant": "Holds or fails over all onset lists; the prior is computed but plays no part, so ties are resolved towards the slowest tempo.", "anchors": ["src/features/beat_tracking/bayesian.rs: update_with_onsets (lines 104-178), compute_prior (lines 257-272), module documentation (lines 9-18)"]}
{"id": "C111", "title": "The novelty curves are the rectified changes they are documented to be", "statement": "Each value of the energy-flux curve is max(0, E(t+1) - E(t)) with E the sum of squared magnitudes, of the HFC curve the same with each squared magnitude weighted by its bin number, of the spectral-flux curve the Euclidean norm of the rises of the bins' shares of their frame's loudest bin, and of the superflux curve the norm of the rises of ln(1+x) above everything within the filter radius of the previous frame; every curve is divided by its largest value.", "quantifier": "every spectrogram of up to 2^20 bins with finite magnitudes in the stated range, every frame, every filter radius, with explicit rounding-error bounds", "why_tests_cant": "An equality with an exact specification for all spectrograms; tests compare a few frames loosely.", "anchors": ["src/features/period/novelty.rs: energy_flux_novelty (lines 477-545), hfc_novelty (lines 687-768), spectral_flux_novelty (lines 222-314), superflux_novelty (lines 336-388)"]}
{"id": "C112", "title": "Spectral-flux novelty marks onsets, not decays", "statement": "As documented, positive differences (onsets) are emphasised over negative ones (decays): where no bin gets louder from one frame to the next, the spectral-flux novelty is 0.", "quantifier": "every spectrogram with finite non-negative magnitudes and every frame", "why_tests_cant": "Holds or fails over all spectrograms; each frame is first scaled to its own peak, so a decay of the loudest bin raises all others.", "anchors": ["src/features/period/novelty.rs: spectral_flux_novelty (lines 222-314), documentation (lines 190-197)"]}
{"id": "C113", "title": "The frame-based onset detectors find the attacks of a sound that is switched on and off", "statement": "When one sound of ordinary level starts out of silence several times, the spectral-flux, HFC and HPSS detectors report exactly the frames where it sets in.", "quantifier": "every sound (magnitudes up to 2^30, audible above the lowest bin), every on/off pattern, every percentile in [0,1]", "why_tests_cant": "Ranges over all on/off patterns; whether all or none of the attacks is reported depends on their number against the percentile's rank.", "anchors": ["src/features/onset/spectral_flux.rs: detect_spectral_flux_onsets (lines 69-221), src/features/onset/hfc.rs: detect_hfc_onsets (lines 76-215), src/features/onset/hpss.rs: detect_hpss_onsets (lines 275-373)"]}
{"id": "C114", "title": "With the right tempo the beat grid is the clicks of the metronome", "statement": "Given the clicks of a metronome (each up to 40 ms off, in any order) and its tempo, generate_beat_grid returns exactly one beat per click, within a millisecond of the exact time of the click, and calls the grid stable (at least 0.9375).", "quantifier": "every tempo in [30,300] BPM, every number of clicks within 4096 s, every displacement of up to 40 ms, every confidence, every exp with exp(x) > 0.1 on [-2,0] and at most 0.1 below -2.3125", "why_tests_cant": "Ranges over all displaced click tracks; the rounding of the lattice, of the mean and of the deviation must stay inside the 50 ms and 15 % thresholds for every length.", "anchors": ["src/features/beat_tracking/mod.rs: generate_beat_grid (lines 108-247)", "src/features/beat_tracking/hmm.rs: track_beats (lines 121-160), compute_emission_probabilities (lines 231-298), extract_beats_from_path (lines 383-441)", "src/features/beat_tracking/tempo_variation.rs: detect_tempo_variations (lines 95-220)"]}
{"id": "C115", "title": "The beat tracker follows a metronome that is 5 % faster than the estimate", "statement": "The tracker is documented to model tempi up to 10 % around the estimate as states and to find the best beat sequence: clicks at the tempo of one of its states should become beats.", "quantifier": "every tempo in [30,300] BPM and every tempo within 10 % of it, every number of clicks", "why_tests_cant": "Holds or fails over all pairs of tempi; the existing tests use the exact tempo and few beats.", "anchors": ["src/features/beat_tracking/hmm.rs: module documentation (lines 1-20), track_beats (lines 92-160), compute_emission_probabilities (lines 231-298)"]}
{"id": "C116", "title": "The median HPSS mask keeps steady tones and removes clicks", "statement": "harmonic_spectrogram_hpss_median_mask multiplies every cell of the band by H^p/(H^p+P^p+1e-12), H being the median over time and P the median over frequency around the last kept frame; so a bin sounding in most of the frames looked at, with quiet neighbours, keeps its magnitude, and a bin silent in most of them is silenced, however loud the click.", "quantifier": "every rectangular spectrogram (also with NaN, infinite or negative cells), every band, step, margin and power, every cell", "why_tests_cant": "Ranges over all spectrograms and margins; clipped windows at the edges and the thinned-out frames are easy to get wrong by one.", "anchors": ["src/features/chroma/extractor.rs: harmonic_spectrogram_hpss_median_mask (lines 1369-1501)"]}
{"id": "C117", "title": "The energy-flux detector reports every click, where the click is", "statement": "On a click track detect_energy_flux_onsets reports exactly one position per click whose level is above the threshold relative to the loudest click: the start of the first frame containing it. A user reads these positions as the times of the clicks, so they should be within a hop of them.", "quantifier": "every click track (non-NaN samples, clicks at least a frame and a hop apart), every frame size up to 2^24, hop size and threshold", "why_tests_cant": "Ranges over all positions and loudnesses of the clicks and all frame/hop combinations; the tests only count onsets of one kick pattern.", "anchors": ["src/features/onset/energy_flux.rs: detect_energy_flux_onsets (lines 67-243)"]}
{"id": "C118", "title": "A better analysis never has a lower overall confidence", "statement": "compute_confidence is monotone: if every confidence, the key clarity and the grid stability are at least as high, no tempo is lost and no warning is added, then the tempo, key and grid scores and the overall confidence are at least as high.", "quantifier": "every two analysis results of which one is in no respect worse than the other (NaN fields excluded)", "why_tests_cant": "Ranges over all pairs of results; unit tests check single results, so a jump between two branches of the formula is invisible to them.", "anchors": ["src/analysis/confidence.rs: compute_confidence (lines 121-179), compute_bpm_confidence, compute_key_confidence (lines 231-297)"]}
{"id": "C119", "title": "A stricter threshold never adds onsets", "statement": "For each of the four onset detectors: when both runs succeed, every onset reported with the higher threshold (percentile, or dB for energy flux) is also reported with the lower one.", "quantifier": "every input (any values, NaN included) and every two thresholds, one at most the other", "why_tests_cant": "A relation between two runs over all inputs; with peak picking, sorting and de-duplication in between, single examples cannot establish it.", "anchors": ["src/features/onset/energy_flux.rs: detect_energy_flux_onsets", "src/features/onset/spectral_flux.rs: detect_spectral_flux_onsets", "src/features/onset/hfc.rs: detect_hfc_onsets", "src/features/onset/hpss.rs: detect_hpss_onsets"]}
{"id": "C120", "title": "The spectral-flux detector is independent of the recording level but hears a sound getting louder", "statement": "detect_spectral_flux_onsets reports the same onsets when the whole recording is made louder or softer, and reports an onset where a sound suddenly becomes louder (a note struck again while it still rings).", "quantifier": "every spectrogram, every gain (also a different gain per frame) that is exact in f32 and keeps audible frames audible, every percentile", "why_tests_cant": "A relation between two runs on all spectrograms and gains; the repository's tests use one synthetic pattern with silence between the notes.", "anchors": ["src/features/onset/spectral_flux.rs: detect_spectral_flux_onsets (lines 69-221), normalisation of every frame to its own maximum (lines 118-132)"]}
{"id": "C121", "title": "A keener silence setting trims no less", "statement": "Raising the silence threshold, or shortening the minimum silence duration, never brings audio back: when both calls of detect_and_trim succeed, the audio kept with the keener setting is a contiguous piece of the audio kept with the other, and every silent region of the other's map lies inside a region of the keener one's.", "quantifier": "every sample vector and sample rate, every two settings with the same frame size", "why_tests_cant": "A relation between two runs over all inputs. Silent runs merge and grow when the threshold rises, and the leading and trailing cuts are decided by different rules.", "anchors": ["src/preprocessing/silence.rs: detect_and_trim"]}
{"id": "C122", "title": "Silence around the music moves the onsets and changes nothing else", "statement": "Digital silence put in front of a recording delays every onset by exactly that much, silence behind it changes nothing, and no onset appears or disappears.", "quantifier": "every recording that starts and ends with one silent frame, every amount of added silence, each of the four onset detectors", "why_tests_cant": "A relation between two runs of different length for every recording. The threshold is global, so silence anywhere could change decisions everywhere.", "anchors": ["src/features/onset/energy_flux.rs: detect_energy_flux_onsets", "src/features/onset/spectral_flux.rs: detect_spectral_flux_onsets", "src/features/onset/hfc.rs: detect_hfc_onsets", "src/features/onset/hpss.rs: detect_hpss_onsets"]}
{"id": "C123", "title": "A wider tolerance merges more onsets, never fewer", "statement": "When the consensus tolerance is raised, vote_onsets never returns more candidates; and for every candidate there is one, at the wider tolerance, that counts at least as many methods and has at least the same confidence.", "quantifier": "every four onset lists with positions below 2^31, every weights with a finite sum, every two tolerances", "why_tests_cant": "A relation between two clusterings of arbitrary onset lists; clusters grow, chain and merge, and confidences are rounded sums in an order decided by the sort.", "anchors": ["src/features/onset/consensus.rs: vote_onsets"]}
{"id": "C124", "title": "The order in which onsets are listed does not matter", "statement": "The legacy tempo estimate depends only on the set of onset positions: listing them in another order, or repeating some, changes nothing. Likewise the consensus vote does not depend on the order within each detector's list, and the beat grid does not depend on the order of the onset times.", "quantifier": "every two onset lists with the same positions (both or neither with two entries), every four detector lists and their permutations, every onset times and their permutations, all settings", "why_tests_cant": "A relation between runs on all reorderings of all onset lists; the comb filter breaks ties in list order and the vote merges greedily in list order.", "anchors": ["src/features/period/mod.rs: estimate_bpm, estimate_bpm_with_guardrails", "src/features/period/comb_filter.rs: score_bpm_candidate (lines 342-397)", "src/features/onset/consensus.rs: vote_onsets", "src/features/beat_tracking/mod.rs: generate_beat_grid (lines 134-136)"]}
{"id": "C125", "title": "Settings the analysis cannot use are answered with an error", "statement": "analyze_audio answers every configuration it cannot work with (frame or hop size too small, empty or backwards tempo range, a tempo resolution that is not positive or too fine, NaN settings) with an InvalidInput error: it never panics on it, never runs for ever and never returns a result computed from it.", "quantifier": "every configuration, every audio, every sample rate", "why_tests_cant": "The configuration is a struct of some eighty numbers, checked piecemeal deep inside the stages; which combinations slip through, panic or never return is a question about all of them.", "anchors": ["src/lib.rs: analyze_audio", "src/config.rs: AnalysisConfig", "src/preprocessing/silence.rs: detect_and_trim", "src/features/period/comb_filter.rs: estimate_bpm_from_comb_filter", "src/features/period/tempogram.rs: error swallowed in lib.rs"]}
{"id": "C126", "title": "A louder copy of a recording is never measured as quieter", "statement": "If every sample of a recording is at least as large in magnitude as in another (in particular after amplification by a gain of at least 1), the reported peak level, RMS level and integrated loudness (LUFS) are at least as high.", "quantifier": "every two recordings of the same length ordered sample by sample, every gain >= 1, every sample rate, every monotone logarithm", "why_tests_cant": "A relation between two measurements over all recordings; the loudness gate removes blocks, so the average is over a different set of blocks in the two runs.", "anchors": ["src/preprocessing/normalization.rs: normalize_peak, normalize_rms (metadata)", "src/preprocessing/normalization.rs: calculate_lufs (lines 185-259)"]}
{"id": "C127", "title": "Pauses have no say in the key", "statement": "Inserting silent frames (all-zero chroma vectors) anywhere in a track changes neither the detected key nor its confidence nor the ranking of the 24 keys.", "quantifier": "every track (list of chroma vectors), every way of inserting silent frames, every hash seed, both template sets", "why_tests_cant": "A relation between two runs over all tracks and all insertions; scores, averages and normalisations all have frame counts in reach.", "anchors": ["src/features/key/detector.rs: detect_key_weighted, detect_key_weighted_mode_heuristic, detect_key_ensemble", "src/lib.rs lines 1290-1456"]}
{"id": "C128", "title": "The volume of a recording does not move its onsets", "statement": "Amplifying a recording (or its spectrogram) leaves the onsets found by the energy-flux, high-frequency-content and percussive (HPSS) detectors exactly where they are.", "quantifier": "every recording or spectrogram with ordinary values (zero, or 2^-40 to 2^20 in magnitude), every gain 2^k with k <= 20, every frame and hop size, threshold and percentile", "why_tests_cant": "A relation between two runs over all signals, with rounding of sums, quotients and square roots in between.", "anchors": ["src/features/onset/energy_flux.rs: detect_energy_flux_onsets", "src/features/onset/hfc.rs: detect_hfc_onsets", "src/features/onset/hpss.rs: detect_hpss_onsets"]}
{"id": "C129", "title": "The volume of a recording does not change its novelty curves", "statement": "Amplifying a recording leaves every value of the energy-flux, high-frequency-content and spectral-flux novelty curves (whole spectrum and bands) exactly as it is, so the tempo analysis built on them does not depend on the recording level.", "quantifier": "every spectrogram with ordinary magnitudes (zero, or 2^-40 to 2^20) and at most 65536 bins, every gain 2^k with k <= 20, every band", "why_tests_cant": "A relation between two runs over all spectrograms, through rounded sums, differences and quotients.", "anchors": ["src/features/period/novelty.rs: energy_flux_novelty, energy_flux_novelty_band, hfc_novelty, hfc_novelty_band, spectral_flux_novelty, superflux_novelty"]}
{"id": "C130", "title": "The volume of a recording does not change its normalised chroma", "statement": "Amplifying a recording leaves the log-frequency chroma vectors and L2-normalised chroma vectors exactly as they are.", "quantifier": "every log-frequency spectrogram with ordinary magnitudes (zero, or 2^-40 to 2^20) and at most 1024 bins, every vector of at most 16 such entries, every semitone offset, every gain 2^k with k <= 20", "why_tests_cant": "A relation between two runs over all spectrograms, through rounded sums, a square root and quotients.", "anchors": ["src/features/chroma/extractor.rs lines 937-981: extract_chroma_from_log_frequency_spectrogram", "src/features/chroma/normalization.rs: l2_normalize_chroma"]}
{"id": "C131", "title": "A piece played at half the tempo has the same metre", "statement": "Playing the same beats at half the tempo (or a quarter, an eighth, ...) changes neither the detected time signature and its confidence nor the grid stability, and the bars start at the same beats.", "quantifier": "every list of at most 4096 beats at times from 0 to 2^20 s, consecutive beats at least 2^-10 s apart or out of order (no spacing needed for the bars), every slow-down by 2^k with k <= 10, every slower tempo from 1 to 1000 BPM (any positive tempo for signature and stability), every time signature", "why_tests_cant": "A relation between two runs over all beat sequences, through rounded means, variances, square roots and tolerance tests.", "anchors": ["src/features/beat_tracking/time_signature.rs: detect_time_signature", "src/features/beat_tracking/mod.rs lines 293-321 (grid), 363-404 (downbeats), 425-485 (stability)"]}
{"id": "C132", "title": "The documented misuses are answered with an error, and nothing else is", "statement": "Every public function whose documentation lists error conditions returns an AnalysisError exactly under these conditions: the spectral-flux and HFC detectors for an empty spectrogram, empty or unequal frames, a percentile that is not a number from 0 to 1 (HFC also for sample rate 0); hpss_decompose for an empty spectrogram and empty or unequal frames; percentile_threshold for an empty list or a percentile outside 0 to 1; vote_onsets for sample rate or tolerance 0 or a negative weight; stereo_to_mono for channels that are empty or differ in length; the novelty curves for fewer than two frames or unequal frames; the tempograms for an empty curve, sample rate or hop 0 or an invalid BPM range; detect_key for missing or misshaped chroma. On all other input they return a result (detect_key and vote_onsets: do not return an error).", "quantifier": "all inputs, including NaN parameters and ragged spectrograms of any size", "why_tests_cant": "a test tries one misuse per function; the contract says that no other input is refused and no listed one is accepted, over all combinations", "anchors": ["src/features/onset/spectral_flux.rs:50-103", "src/features/onset/hfc.rs:48-117", "src/features/onset/hpss.rs:46-100", "src/features/onset/threshold.rs:86-109", "src/features/onset/consensus.rs:80-158", "src/preprocessing/channel_mixer.rs:60-98", "src/features/period/novelty.rs:215-258", "src/features/period/tempogram_fft.rs:72-112", "src/features/key/detector.rs:38-110"]}
{"id": "C133", "title": "The bars of a beat grid go on to the end of the piece", "statement": "If the beats of a returned grid keep the tempo it was made for (beats up to seven apart are as far apart as the tempo says, to a fifth of a beat), the downbeats are exactly every n-th beat, n = 4, 3 or 6, from the first beat to the last. A single missing beat or a pause interrupts the bars at most until the music is steady again.", "quantifier": "all onset lists, tempos, confidences and mathematical libraries for which a grid is returned, beats within 65536 s; all rounding included", "why_tests_cant": "a test checks a few bars of a perfect click track; the bars must be right for every steady piece of any length, with jitter, drift and f32 rounding, and after any gap", "anchors": ["src/features/beat_tracking/mod.rs:293-321", "src/features/beat_tracking/mod.rs:363-404"]}
{"id": "C134", "title": "The weights of the onset methods rank the onsets but do not choose them", "statement": "Two calls of vote_onsets that differ only in accepted weights report the same onsets, at the same positions and times and with the same number of votes, whatever the weights are (also with a method weighted zero); only confidence and order depend on them. Multiplying all four weights by the same power of two changes nothing at all.", "quantifier": "all onset lists, tolerances and sample rates for which a result is returned; all non-negative weights for the first half, weights between 2^-40 and 2^20 in size (or zero), factors up to 2^20 and up to 2^24 onsets for the second", "why_tests_cant": "a test compares two weightings on one list; a weight that leaked into the clustering, or a confidence that depended on the absolute size of the weights, would show only on some lists", "anchors": ["src/features/onset/consensus.rs:110-290"]}
{"id": "C135", "title": "Resampling a recording does not change its onsets and its tempo", "statement": "If all sample positions, the sample rate and the hop size are multiplied by the same factor, nothing audible has changed. So both tempograms, the autocorrelation candidates and the comb-filterbank candidates are the same, and the consensus vote reports the same onsets in the same order, with the same confidence and votes, each inside the same coarse sample.", "quantifier": "all novelty curves, onset lists, weights, tolerances, tempo ranges, transforms and mathematical libraries; factors 2^k (any factor for the tempograms); rates and hops up to 2^24 samples (tempograms), 2^52 (autocorrelation) or 2^40 (consensus); positions below 2^30 (2^31 after resampling)", "why_tests_cant": "a test compares two sample rates on one recording; a constant in samples, a truncation or a rounding that depends on the rate shows only for particular positions", "anchors": ["src/features/onset/consensus.rs:110-290", "src/features/period/autocorrelation.rs:99-216", "src/features/period/tempogram_autocorr.rs:79-178", "src/features/period/tempogram_fft.rs:78-192", "src/features/period/comb_filter.rs:342-397"]}
{"id": "C136", "title": "The levels in the normalisation metadata are those of the input", "statement": "The metadata returned by normalize say how loud the signal was before normalisation, as documented: measured_lufs is the loudness measured on the input (or absent), peak_db the level of its peak and rms_db its RMS level, each minus infinity up to 1e-10 and 20 log10 of the amplitude above.", "quantifier": "every signal, method, target, headroom and mathematical library for which normalize succeeds", "why_tests_cant": "each branch of the three methods fills in the fields by itself, some before and some after the gain is applied in place; a test of one branch says nothing about the others", "anchors": ["src/preprocessing/normalization.rs:62-73", "src/preprocessing/normalization.rs:262-322", "src/preprocessing/normalization.rs:325-398", "src/preprocessing/normalization.rs:401-484"]}
{"id": "C137", "title": "Silence is cut off at both ends of a recording alike", "statement": "detect_and_trim removes leading and trailing silence: the trimmed audio starts with the first frame above the threshold, and it ends where the silent frames at the end begin. Playing a recording backwards does not change how much silence is removed.", "quantifier": "every signal with at least one loud frame, every sample rate, frame size of at least 2, threshold, minimum duration and mathematical library", "why_tests_cant": "the two ends are handled by different branches of the frame loop; a test with long silence at both ends exercises neither limit", "anchors": ["src/preprocessing/silence.rs:61-101", "src/preprocessing/silence.rs:184-256"]}
{"id": "C138", "title": "A minority of outliers cannot move the median threshold", "statement": "adaptive_threshold_median_mad is more robust to outliers than percentile_threshold, as documented: if more than half of the values lie between lo and hi, the threshold is at least lo and at most hi + k * (hi - lo), whatever the remaining values are (they may be infinite). The percentile threshold at 0.8 on the other hand is dragged to any level that one value in five reaches.", "quantifier": "every list of values without NaN, every finite k of at least 0, every interval of magnitude up to 2^125; for the percentile every list of 1 to 2^20 values and every level", "why_tests_cant": "the test uses one list of six values with one outlier and a loose bound of 50; robustness is about all values that the outliers can take", "anchors": ["src/features/onset/threshold.rs:34-72", "src/features/onset/threshold.rs:88-109"]}
{"id": "C139", "title": "Median smoothing keeps chord changes and removes short disturbances", "statement": "smooth_chroma reduces frame-to-frame variance while preserving sharp transitions, as documented: where a pitch class only rises or only falls within the window its values are returned unchanged, so a change between two sustained chords stays in its frame; and where more than half of the frames in the window agree on a value, a click or dropout in the other frames has no effect.", "quantifier": "every rectangular chroma sequence without NaN, every window size (length and window together below 2^31), every frame and pitch class", "why_tests_cant": "the tests check the number of frames and one spike; they do not exercise both ends, where the window is cut short and the upper of two middle values is taken", "anchors": ["src/features/chroma/smoothing.rs:12-95"]}
{"id": "C140", "title": "The key-change analysis hears the whole track", "statement": "detect_key_changes divides the track into overlapping segments: every chroma frame lies in a segment whose key enters the result, so a key change is noticed wherever it happens, and every non-empty valid chroma sequence is analysed (errors are documented for empty or invalid chroma only).", "quantifier": "every chroma sequence, sample rate, hop size, template set, segment duration, overlap and hash order", "why_tests_cant": "the segment grid ends at an arbitrary place inside the last segment; the tests use constant chroma, for which every part of the track gives the same answer", "anchors": ["src/features/key/key_changes.rs:70-187"]}
{"id": "C141", "title": "Loose timing is not taken for a change of tempo, and a change of tempo is noticed", "statement": "detect_tempo_variations tells drift from ordinary timing: if all gaps between beats stay within 5 % of one value, no segment is marked variable and every segment reports that tempo; if the tempo of the beginning and of the end differ by a factor of 1.5 or more, some segment is marked, so that the tempo is tracked (documented uses: DJ mixes with tempo changes, recordings with tempo drift).", "quantifier": "every sorted list of up to 4096 finite beats with gaps from 0.2 s to 2 s, every nominal tempo", "why_tests_cant": "the tests use one constant and one abruptly changing list; the variation is computed per segment of 4 to 8 s in single precision", "anchors": ["src/features/beat_tracking/tempo_variation.rs:95-227"]}
{"id": "C142", "title": "Octave relations between the two tempo estimators are resolved as documented, and agreement is kept", "statement": "merge_bpm_candidates resolves octave errors in favour of the comb filter and keeps what both methods agree on: if autocorrelation reports twice or half the comb filter's tempo (or the same) and that tempo lies in 60-180 BPM, the merged estimate is the comb tempo with two supporting methods; a tempo that both methods report is reported with two supporting methods whatever else they list; a single method's confidence is passed on unchanged, and two methods' confidence is min(1.0, (conf1 + conf2) * 1.2).", "quantifier": "every pair of candidates, every confidence, every octave ratio within 2.3 %, every libm whose exp2 gives at least 1.0275 for the tolerance", "why_tests_cant": "the tests merge two exact octaves with fixed confidences; the ratio test is computed in single precision, in two passes, against up to three comb candidates", "anchors": ["src/features/period/candidate_filter.rs:51-112", "src/features/period/candidate_filter.rs:114-443"]}
{"id": "C143", "title": "The highest point of a signal is its first peak", "statement": "find_peaks reports the highest point of a signal first: if the signal has at least three samples and its maximum reaches the threshold, the first reported peak is a sample where the maximum is attained, whatever the minimum distance.", "quantifier": "every signal of 3 to 2^31 - 1 samples, every relative threshold and every absolute threshold that the maximum reaches, every minimum distance below 2^31", "why_tests_cant": "the tests pick peaks of short hand-written lists without ties; the claim concerns the interplay of rounding of the relative threshold, suppression of neighbours and ranking", "anchors": ["src/features/period/peak_picking.rs:8-127"]}
{"id": "C144", "title": "A rhythm that repeats with the bar is reported with that bar", "statement": "detect_time_signature finds the bar from repeating timing patterns as documented: if the gaps between the beats repeat every four beats (and not sooner), it reports 4/4; if they repeat every three beats, 3/4; if they repeat every six beats but not every three, 6/8.", "quantifier": "every beat list with 7 (four: 10) to 4096 gaps of 1/8 s to G <= 2 s, every positive tempo; for 4/4 some gap differs by G/6 from its predecessor and some from the gap two later", "why_tests_cant": "the tests use equally spaced beats and accept any answer; the scores are rounded sums over all pairs of gaps and the decision is a comparison of three of them", "anchors": ["src/features/beat_tracking/time_signature.rs:68-199"]}
{"id": "C145", "title": "A high key clarity means a clear key", "statement": "compute_key_clarity returns (best score - mean score) / (highest - lowest score), so that a key which leads all others by a large part of the range gets a high clarity; and a clarity above 0.5 (documented as strong tonality, reliable key detection) is not returned when the key is undecided or all keys fit about equally well.", "quantifier": "every ranked list of 2 to 64 keys with finite non-negative scores, the best between 1/1024 and 1024, and a range of at least a thousandth of the best score", "why_tests_cant": "the tests check a few score lists and the bounds 0 and 1; the value for all lists, with rounding of the sum, the mean and the quotient, needs an error bound", "anchors": ["src/features/key/key_clarity.rs:12-93"]}
{"id": "C146", "title": "Sharpening raises the contrast of a chroma vector", "statement": "sharpen_chroma with a power above one increases the contrast between strong and weak semitone classes, as documented: in the result the ratio of two classes is the ratio of their powers, so it is at least the ratio before sharpening.", "quantifier": "every power function accurate to one part in a million, every vector of up to 4096 entries whose powers are at most one and one of which is at least 2^-30, every two entries with powers of at least 2^-40", "why_tests_cant": "the test looks at the largest entry of one vector with power 2; the ratios depend on rounding of the powers, the norm and the quotients", "anchors": ["src/features/chroma/normalization.rs:14-66"]}
{"id": "C147", "title": "The combined novelty adds nothing of its own to the three methods", "statement": "combined_novelty_with_params is zero where all three curves are silent within the smoothing window, does not depend on a method whose weight is zero or negative, and, its local mean subtraction being a high-pass, has no strong peaks where all three curves are steady.", "quantifier": "every three curves with values in [0,1], every weights up to 2^80 (negative and NaN included), every window lengths, every position", "why_tests_cant": "the tests combine short curves with default parameters; weights, windows and curves are unbounded and the curve is normalised twice", "anchors": ["src/features/period/novelty.rs:838-986"]}
{"id": "C148", "title": "An ensemble with all its weight on one template set is that template set", "statement": "detect_key_ensemble with the weight of one template set at zero returns what detect_key_weighted returns with the other: the same score for every key, the same confidence and the same key.", "quantifier": "every ordinary chroma sequence and frame weights, every weight from 1e-9 to 2^60, either template set, every order of the hash maps", "why_tests_cant": "the tests do not call the ensemble with extreme weights; the scores of 24 keys pass through hash maps, scaling and sorting", "anchors": ["src/features/key/detector.rs:865-976"]}
{"id": "C149", "title": "Weighting all frames equally is not weighting", "statement": "detect_key_weighted, the mode heuristic, the ensemble, the multi-scale and the median detector return with equal weights for all frames exactly what they return without weights.", "quantifier": "every chroma sequence (mode heuristic and multi-scale: up to 2^24 frames), every template set, every setting, every order of the hash maps; weight one", "why_tests_cant": "the tests call the detectors without weights or with a few weights; equality of the whole result for all sequences and settings is not testable", "anchors": ["src/features/key/detector.rs:68-133", "src/features/key/detector.rs:326-1001"]}
{"id": "C150", "title": "RMS normalisation brings a recording to its target level", "statement": "normalize with the RMS method returns a recording whose RMS is the target level, up to rounding, unless that would push a sample over full scale; it never returns one louder than the target. Normalising the result again changes nothing but rounding.", "quantifier": "every recording of finite samples up to 2^16 samples at a level above 2^-25, every target between 2^-20 and full scale, every mathematical library", "why_tests_cant": "ranges over all recordings, targets and lengths; the tests only check the gain and the peak of one short signal, and a recording long enough for the single-precision sum to stop growing (6 minutes and more) is never tried", "anchors": ["src/preprocessing/normalization.rs:325-398", "src/preprocessing/normalization.rs:520-547"]}
{"id": "C151", "title": "Mixing down to mono keeps the energy of the recording", "statement": "stereo_to_mono preserves the overall energy, as documented for the Mono mode: a recording that sounds in stereo sounds in the mix, and the Dominant mode keeps at least the energy of the louder channel.", "quantifier": "all pairs of channels of the same length with finite samples (averaging modes: up to 2^20 in size), all four modes", "why_tests_cant": "an energy balance over all pairs of channels, including all phase relations between them; the tests mix a few samples", "anchors": ["src/preprocessing/channel_mixer.rs:27-41", "src/preprocessing/channel_mixer.rs:80-147"]}
