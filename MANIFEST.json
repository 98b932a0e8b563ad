{
 "claims": [
  {
   "property": "C01",
   "status": "proved",
   "theorems": [
    "Verif.Props.C01_trim_contiguous",
    "Verif.Props.C01_silence_map_exact"
   ],
   "note": "Contiguity, order and exact content of the silence map, over every input."
  },
  {
   "property": "C02",
   "status": "partial",
   "theorems": [
    "Verif.Props.C02_trimmed_is_silent_partial",
    "Verif.Props.C02_trimmed_is_silent_framed",
    "Verif.Props.C02_violated"
   ],
   "note": "False as stated: the unframed tail (less than one hop) is removed unmeasured. Proved for every other sample; witness of the violation given."
  },
  {
   "property": "C03",
   "status": "partial",
   "theorems": [
    "Verif.Props.C03_panic_iff",
    "Verif.Props.C03_no_panic_partial",
    "Verif.Props.C03_violated"
   ],
   "note": "False for frame size 1 only; the panic set is characterised exactly."
  },
  {
   "property": "C04",
   "status": "partial",
   "theorems": [
    "Verif.Props.C04_peak_never_clips_partial",
    "Verif.Props.C04_silent_unchanged",
    "Verif.Props.C04_violated",
    "Verif.Props.C04_normalize_no_panic"
   ],
   "note": "Proved for finite samples up to 2^126; above that 1/peak is subnormal and the claim is false (witness)."
  },
  {
   "property": "C05",
   "status": "partial",
   "theorems": [
    "Verif.Props.C05_rms_never_clips",
    "Verif.Props.C05_rms_all",
    "Verif.Props.C05_loudness_limit_partial",
    "Verif.Props.C05_loudness_any_partial",
    "Verif.Props.C05_common_gain",
    "Verif.Props.C05_violated"
   ],
   "note": "RMS method fully proved for every signal that fits in memory; the loudness method within 2^-22 for peak and target in [2^-60, 2^60], and with a slack of 2^-149 of the original peak for every other signal unless the limiting gain target/peak overflows, where the output is infinite (C05_violated)."
  },
  {
   "property": "C06",
   "status": "partial",
   "theorems": [
    "Verif.Props.C06_reported_gain_partial",
    "Verif.Props.C06_violated"
   ],
   "note": "False for the Peak method with negative headroom (witness); proved in all other cases."
  },
  {
   "property": "C07",
   "status": "proved",
   "theorems": [
    "Verif.Props.C07_length",
    "Verif.Props.C07_between",
    "Verif.Props.C07_average",
    "Verif.Props.C07_identity",
    "Verif.Props.C07_dominant",
    "Verif.Props.C07_overflow"
   ],
   "note": "Over the amplitude range of the claim (l + r does not overflow); a witness shows the range is needed."
  },
  {
   "property": "C08",
   "status": "proved",
   "theorems": [
    "Verif.Props.C08_energy_flux_onsets"
   ],
   "note": "Onset set characterised exactly; gaps are in fact at least one full hop."
  },
  {
   "property": "C09",
   "status": "proved",
   "theorems": [
    "Verif.Props.C09_spectral_flux",
    "Verif.Props.C09_hfc",
    "Verif.Props.C09_hpss",
    "Verif.Props.C09_empty"
   ],
   "note": "Each detector returns exactly the flux peaks above the percentile; exact error conditions."
  },
  {
   "property": "C10",
   "status": "proved",
   "theorems": [
    "Verif.Props.C10_percentile",
    "Verif.Props.C10_percentile_perm",
    "Verif.Props.C10_median_mad"
   ],
   "note": "Rank counts, exact failure conditions, permutation invariance."
  },
  {
   "property": "C11",
   "status": "proved",
   "theorems": [
    "Verif.Props.C11_partition"
   ],
   "note": "refinement to a grouping specification, exact error conditions, no panic"
  },
  {
   "property": "C12",
   "status": "partial",
   "theorems": [
    "Verif.Props.C12_confidence_partial",
    "Verif.Props.C11_partition",
    "Verif.Props.C12_violated",
    "Verif.Props.C12_violated_infinite"
   ],
   "note": "range, votes and ranking proved; 'full confidence means all methods voted' is refuted (weights are summed per onset, not per method)"
  },
  {
   "property": "C13",
   "status": "partial",
   "theorems": [
    "Verif.Props.C13_shift_partial",
    "Verif.Props.C11_partition",
    "Verif.Props.C13_violated",
    "Verif.Props.C13_violated_panic"
   ],
   "note": "shift invariance proved below 2^31 samples; refuted beyond (i32 truncation merges onsets 2^32 apart, or overflows)"
  },
  {
   "property": "C14",
   "status": "partial",
   "theorems": [
    "Verif.Props.C14_find_peaks_partial",
    "Verif.Props.C14_violated"
   ],
   "note": "proved for min_distance below 2^31 (NaN samples allowed); refuted for 2^32, which `as i32` turns into 0"
  },
  {
   "property": "C15",
   "status": "proved",
   "theorems": [
    "Verif.Props.C15_autocorrelation"
   ],
   "note": "exact error conditions, every candidate a strict local maximum at an integer lag inside the range, confidence relative to the global maximum; inverse FFT is a parameter"
  },
  {
   "property": "C16",
   "status": "partial",
   "theorems": [
    "Verif.Props.C16_comb_terminates_partial",
    "Verif.Props.C16_violated"
   ],
   "note": "terminates when resolution is at least an ulp of the upper bound; refuted for resolution 1e-6 on [60, 61]"
  },
  {
   "property": "C17",
   "status": "proved",
   "theorems": [
    "Verif.Props.C17_comb",
    "Verif.Props.C17_coarse_to_fine"
   ],
   "note": ""
  },
  {
   "property": "C18",
   "status": "proved",
   "theorems": [
    "Verif.Props.C18_total_preorder",
    "Verif.Props.C18_ranking_unique",
    "Verif.Props.C18_rule"
   ],
   "note": "by a lexicographic rank into a linear order; only the confidence has to be NaN-free"
  },
  {
   "property": "C19",
   "status": "partial",
   "theorems": [
    "Verif.Props.C19_merge_partial",
    "Verif.Props.C19_violated"
   ],
   "note": "the span is exact up to agreement 2 and up to rounding beyond; exact span refuted (three equal candidates round one ulp up)"
  },
  {
   "property": "C20",
   "status": "partial",
   "theorems": [
    "Verif.Props.C20_guardrails_partial",
    "Verif.Props.C20_violated"
   ],
   "note": "false only when both preferred bounds are NaN (witness)"
  },
  {
   "property": "C54",
   "status": "partial",
   "theorems": [
    "Verif.Props.C54_agreement_partial",
    "Verif.Props.C54_violated"
   ],
   "note": "the field counts candidates, not methods (witness); confidences reach 2.1 (witness), bounded by 4.2 in C19_merge_partial"
  },
  {
   "property": "C55",
   "status": "proved",
   "theorems": [
    "Verif.Props.C55_legacy_estimate"
   ],
   "note": "for BPM bounds within [1e-15, 1e15] and at most 2^20 candidates"
  },
  {
   "property": "C38",
   "status": "proved",
   "theorems": [
    "Verif.Props.C38_round_trip",
    "Verif.Props.C38_circle_of_fifths",
    "Verif.Props.C38_injective"
   ],
   "note": "every u32 index; canonical key is the index modulo 12"
  },
  {
   "property": "C39",
   "status": "partial",
   "theorems": [
    "Verif.Props.C39_parse_partial",
    "Verif.Props.C39_violated",
    "Verif.Props.C39_violated_panic"
   ],
   "note": "proved for strings without sign or zero padding and ending in an ASCII character; refuted otherwise (+1A and 01A are accepted; a multi-byte last character panics)"
  },
  {
   "property": "C56",
   "status": "proved",
   "theorems": [
    "Verif.Props.C56_names"
   ],
   "note": ""
  },
  {
   "property": "C50",
   "status": "proved",
   "theorems": [
    "Verif.Props.C50_scores",
    "Verif.Props.C50_flags",
    "Verif.Props.C50_nan"
   ],
   "note": "four scores in [0,1], exactly one class, overall between worst and best component up to rounding; NaN shown to be outside the claim"
  },
  {
   "property": "C51",
   "status": "partial",
   "theorems": [
    "Verif.Props.C51_selection_partial",
    "Verif.Props.C51_violated"
   ],
   "note": "BPM policy fully proved; the [0,1] bound under fusion is proved when the tempogram has an estimate and refuted when it has none (legacy confidence passed through unclamped)"
  },
  {
   "property": "C52",
   "status": "proved",
   "theorems": [
    "Verif.Props.C52_warnings",
    "Verif.Props.C52_penalties"
   ],
   "note": "the number formatter {:.2} is a parameter assumed to print only digits, sign, point, NaN or inf"
  },
  {
   "property": "C53",
   "status": "proved",
   "theorems": [
    "Verif.Props.C53_to_samples",
    "Verif.Props.C53_choice"
   ],
   "note": ""
  },
  {
   "property": "C31",
   "status": "proved",
   "theorems": [
    "Verif.Props.C31_viterbi_optimal"
   ],
   "note": "for matrices of probabilities (entries in [0,1]); path probability is the rounded left-to-right f32 product"
  },
  {
   "property": "C32",
   "status": "partial",
   "theorems": [
    "Verif.Props.C32_violated"
   ],
   "note": "refuted for every input: emissions do not depend on the tempo state, so any decoded path gives the same beats"
  },
  {
   "property": "C33",
   "status": "proved",
   "theorems": [
    "Verif.Props.C33_beats_on_lattice",
    "Verif.Props.C33_beats_near_onsets"
   ],
   "note": "exp is a parameter; the 54 ms bound needs exp(x) <= 0.1 below -2.3125"
  },
  {
   "property": "C27",
   "status": "proved",
   "theorems": [
    "Verif.Props.C27_grid",
    "Verif.Props.C27_bar_length"
   ],
   "note": "shape of every returned grid; the bar-length bound is also given in exact arithmetic for beats within 65536 s"
  },
  {
   "property": "C28",
   "status": "partial",
   "theorems": [
    "Verif.Props.C28_beats_once_partial",
    "Verif.Props.C28_violated"
   ],
   "note": "strict order proved when no segment is flagged variable (onsets within 65536 s); refuted when refinement runs: overlapping segments report the same beat twice"
  },
  {
   "property": "C29",
   "status": "partial",
   "theorems": [
    "Verif.Props.C29_no_panic_partial",
    "Verif.Props.C29_violated"
   ],
   "note": "no panic and termination proved for onsets that are numbers up to 1e7 s and any BPM/confidence; NaN and infinite onsets panic (witnesses)"
  },
  {
   "property": "C30",
   "status": "partial",
   "theorems": [
    "Verif.Props.C30_zero",
    "Verif.Props.C30_range_partial",
    "Verif.Props.C30_equal_exact",
    "Verif.Props.C30_equal_partial",
    "Verif.Props.C30_violated_nan",
    "Verif.Props.C30_violated_equal"
   ],
   "note": "range proved for times within 2^100 s (NaN beyond, witness); equal intervals give exactly 1 when running sums are exact and at least 0.999 otherwise; exact 1 refuted by a 68 BPM witness"
  },
  {
   "property": "C34",
   "status": "partial",
   "theorems": [
    "Verif.Props.C34_terminates_partial",
    "Verif.Props.C34_violated"
   ],
   "note": "termination for beats within 2^24 s; refuted at 2^28 s, where the window start no longer advances for any number of steps"
  },
  {
   "property": "C35",
   "status": "proved",
   "theorems": [
    "Verif.Props.C35_segments"
   ],
   "note": "for sorted finite beats and a positive nominal BPM"
  },
  {
   "property": "C36",
   "status": "proved",
   "theorems": [
    "Verif.Props.C36_total",
    "Verif.Props.C36_choice"
   ],
   "note": "total, confidence in [0,1], and the choice follows the pattern scores with ties resolved to 6/8, then 3/4"
  },
  {
   "property": "C37",
   "status": "proved",
   "theorems": [
    "Verif.Props.C37_invariant",
    "Verif.Props.C37_update"
   ],
   "note": "invariant over every sequence of updates"
  },
  {
   "property": "C57",
   "status": "partial",
   "theorems": [
    "Verif.Props.C57_violated"
   ],
   "note": "refuted for every such beat list: all three scores tie and the last one, 6/8, is reported"
  },
  {
   "property": "C40",
   "status": "partial",
   "theorems": [
    "Verif.Props.C40_ranking",
    "Verif.Props.C40_confidence",
    "Verif.Props.C40_violated"
   ],
   "note": "ranking, top three and maximality for every input and hash order; confidence is in [0,1] exactly when no score overflows to infinity, and a huge custom template makes it NaN"
  },
  {
   "property": "C41",
   "status": "partial",
   "theorems": [
    "Verif.Props.C41_deterministic_partial",
    "Verif.Props.C41_violated"
   ],
   "note": "deterministic when one key alone attains the largest vote; refuted for the C major profile, which is C major or A minor depending on the hash order"
  },
  {
   "property": "C42",
   "status": "partial",
   "theorems": [
    "Verif.Props.C42_flip_partial",
    "Verif.Props.C42_tonic_partial",
    "Verif.Props.C42_confidence_partial",
    "Verif.Props.C42_violated",
    "Verif.Props.C42_violated_confidence",
    "Verif.Props.C42_evidence"
   ],
   "note": "the flip rule holds; the tonic is preserved without the minor bonus when the base key is ranked first; both other parts refuted by witnesses"
  },
  {
   "property": "C43",
   "status": "partial",
   "theorems": [
    "Verif.Props.C43_range_partial",
    "Verif.Props.C43_zero",
    "Verif.Props.C43_nan",
    "Verif.Props.C43_violated_monotone",
    "Verif.Props.C43_violated_nan"
   ],
   "note": "range for scores within 2^100; monotonicity refuted by rounding, range refuted by overflow"
  },
  {
   "property": "C44",
   "status": "partial",
   "theorems": [
    "Verif.Props.C44_rotation_partial",
    "Verif.Props.C44_rotation_close",
    "Verif.Props.C44_weights",
    "Verif.Props.C44_modes",
    "Verif.Props.C44_index",
    "Verif.Props.C44_transposition",
    "Verif.Props.C44_violated"
   ],
   "note": "exact rotation for most keys, within one unit in the last place for all; exact rotation refuted"
  },
  {
   "property": "C58",
   "status": "proved",
   "theorems": [
    "Verif.Props.C58_best_in_mode"
   ],
   "note": ""
  },
  {
   "property": "C59",
   "status": "partial",
   "theorems": [
    "Verif.Props.C59_violated",
    "Verif.Props.C59_violated_profile"
   ],
   "note": "refuted: on every ordinary input matched by both modes the best major and best minor key tie and the confidence is exactly 0; the A minor profile is reported as C major"
  },
  {
   "property": "C60",
   "status": "proved",
   "theorems": [
    "Verif.Props.C60_total",
    "Verif.Props.C60_outside"
   ],
   "note": "with witnesses that outside the stated inputs it panics"
  },
  {
   "property": "C45",
   "status": "proved",
   "theorems": [
    "Verif.Props.C45_timeline",
    "Verif.Props.C45_outside"
   ],
   "note": "for tracks of fewer than 2^64 frames; an overlap longer than the segment panics"
  },
  {
   "property": "C61",
   "status": "proved",
   "theorems": [
    "Verif.Props.C61_ensemble",
    "Verif.Props.C61_multi_scale",
    "Verif.Props.C61_scores",
    "Verif.Props.C61_median"
   ],
   "note": "scale weights up to 2^10, harmonic-minor bonus weights up to 16, ensemble weights in [0, 2^60]"
  },
  {
   "property": "C62",
   "status": "partial",
   "theorems": [
    "Verif.Props.C62_violated"
   ],
   "note": "refuted for every audible input: segment confidences are always 0, so no change ever passes the 0.2 threshold"
  },
  {
   "property": "C63",
   "status": "partial",
   "theorems": [
    "Verif.Props.C63_vote_partial",
    "Verif.Props.C63_violated"
   ],
   "note": "the vote holds under every hash order; the ranking part is refuted: all scores are 0 and top_keys is C, C sharp, D major for every audible input"
  },
  {
   "property": "C46",
   "status": "partial",
   "theorems": [
    "Verif.Props.C46_shape",
    "Verif.Props.C46_range_partial",
    "Verif.Props.C46_silent_partial",
    "Verif.Props.C46_violated",
    "Verif.Props.C46_violated_infinite",
    "Verif.Props.C46_violated_tuning"
   ],
   "note": "12 entries always; range and silence proved for finite tuning, positive FFT size and no infinite magnitude (NaN and negative magnitudes allowed), under stated library assumptions; refuted otherwise by three witnesses"
  },
  {
   "property": "C47",
   "status": "proved",
   "theorems": [
    "Verif.Props.C47_median",
    "Verif.Props.C47_envelope",
    "Verif.Props.C47_identity",
    "Verif.Props.C47_constant"
   ],
   "note": ""
  },
  {
   "property": "C48",
   "status": "partial",
   "theorems": [
    "Verif.Props.C48_framing",
    "Verif.Props.C48_nonneg_partial",
    "Verif.Props.C48_window",
    "Verif.Props.C48_violated"
   ],
   "note": "framing for every input; the window is the Hann window to 2^-18 if the platform cosine is accurate to 2^-20; non-negativity when the FFT returns no NaN; frame = 1 makes the Hann window NaN"
  },
  {
   "property": "C64",
   "status": "partial",
   "theorems": [
    "Verif.Props.C64_violated",
    "Verif.Props.C64_total_partial"
   ],
   "note": "refuted for every sequence with a NaN and a window of at least three; total without NaN"
  },
  {
   "property": "C65",
   "status": "proved",
   "theorems": [
    "Verif.Props.C65_average"
   ],
   "note": ""
  },
  {
   "property": "C66",
   "status": "partial",
   "theorems": [
    "Verif.Props.C66_unit_partial",
    "Verif.Props.C66_audible_partial",
    "Verif.Props.C66_violated"
   ],
   "note": "unit length within 18/2^22 for audible frames of ordinary loudness; refuted for very loud frames, whose norm overflows and whose chroma is the zero vector"
  },
  {
   "property": "C67",
   "status": "proved",
   "theorems": [
    "Verif.Props.C67_tone"
   ],
   "note": "under the library assumptions Sane and SaneExp stated in the theorem"
  },
  {
   "property": "C68",
   "status": "partial",
   "theorems": [
    "Verif.Props.C68_length",
    "Verif.Props.C68_normalize_partial",
    "Verif.Props.C68_sharpen_partial",
    "Verif.Props.C68_violated",
    "Verif.Props.C68_violated_silent"
   ],
   "note": "unit length within (n+6)/2^22, range and order for entries up to 2^50; an overflowing squared norm gives the zero vector, and sharpening turns silence into the uniform vector for every power"
  },
  {
   "property": "C69",
   "status": "partial",
   "theorems": [
    "Verif.Props.C69_intervals",
    "Verif.Props.C69_empty",
    "Verif.Props.C69_partition",
    "Verif.Props.C69_range_partial",
    "Verif.Props.C69_violated"
   ],
   "note": "everything but the range holds for every input; the range needs no infinite magnitude, and an infinite one gives a NaN chroma entry"
  },
  {
   "property": "C70",
   "status": "partial",
   "theorems": [
    "Verif.Props.C70_value",
    "Verif.Props.C70_octave",
    "Verif.Props.C70_transpose",
    "Verif.Props.C70_range_partial",
    "Verif.Props.C70_violated"
   ],
   "note": "value, octave and transposition laws whenever the semitone numbers fit i32; NaN magnitudes and i32 overflow refute totality and range"
  },
  {
   "property": "C49",
   "status": "partial",
   "theorems": [
    "Verif.Props.C49_time_mask_partial",
    "Verif.Props.C49_median_mask_partial",
    "Verif.Props.C49_hpss_partial",
    "Verif.Props.C49_violated",
    "Verif.Props.C49_violated_panic",
    "Verif.Props.C49_violated_hpss"
   ],
   "note": "shape and bounds for magnitudes whose powers and medians do not overflow; refuted by an overflowing powf, by the clamp panic when fmin + 1 exceeds half the sample rate, and by an overflowing window median in HPSS"
  },
  {
   "property": "C71",
   "status": "partial",
   "theorems": [
    "Verif.Props.C71_mean_partial",
    "Verif.Props.C71_between_partial",
    "Verif.Props.C71_zero",
    "Verif.Props.C71_violated"
   ],
   "note": "correctly rounded mean whenever the magnitudes are multiples of one unit with at most 2^24 units per bin; refuted in general by cancellation of the running sums"
  },
  {
   "property": "C72",
   "status": "partial",
   "theorems": [
    "Verif.Props.C72_sum_partial",
    "Verif.Props.C72_violated"
   ],
   "note": "error at most x/2^21 + 2^-148 for magnitudes up to 2^126; beyond, window medians overflow and the parts add up to NaN"
  },
  {
   "property": "C26",
   "status": "partial",
   "theorems": [
    "Verif.Props.C26_curves",
    "Verif.Props.C26_range_partial",
    "Verif.Props.C26_mel",
    "Verif.Props.C26_mel_partial",
    "Verif.Props.C26_combined_partial",
    "Verif.Props.C26_violated",
    "Verif.Props.C26_violated_panic"
   ],
   "note": "length, rejection and [0,1]-or-NaN for every input; strictly [0,1] for magnitudes up to 2^30; refuted by overflow and by a clamp panic of the mel curve at low sample rates"
  },
  {
   "property": "C73",
   "status": "proved",
   "theorems": [
    "Verif.Props.C73_superflux",
    "Verif.Props.C73_energy",
    "Verif.Props.C73_peak"
   ],
   "note": "superflux assumes ln is monotone from 1 on; the peak part is for magnitudes up to 2^30"
  },
  {
   "property": "C74",
   "status": "proved",
   "theorems": [
    "Verif.Props.C74_band",
    "Verif.Props.C74_clip",
    "Verif.Props.C74_full",
    "Verif.Props.C74_hfc"
   ],
   "note": ""
  },
  {
   "property": "C21",
   "status": "partial",
   "theorems": [
    "Verif.Props.C21_range",
    "Verif.Props.C21_confidence_partial",
    "Verif.Props.C21_succeeds",
    "Verif.Props.C21_violated"
   ],
   "note": "range and agreement for every input; confidence in [0,1] for consensus bonuses up to 2^80, refuted by a larger one; success on ordinary inputs"
  },
  {
   "property": "C22",
   "status": "partial",
   "theorems": [
    "Verif.Props.C22_candidates",
    "Verif.Props.C22_ranked_partial",
    "Verif.Props.C22_ranked",
    "Verif.Props.C22_violated"
   ],
   "note": "separation, length, selection for every input; ranking when no score is NaN, in particular on ordinary inputs; refuted by finite band weights whose sum overflows: the supported tempos score NaN and an unsupported one is reported"
  },
  {
   "property": "C23",
   "status": "partial",
   "theorems": [
    "Verif.Props.C23_autocorr",
    "Verif.Props.C23_rejects",
    "Verif.Props.C23_fft",
    "Verif.Props.C23_power",
    "Verif.Props.C23_best_partial",
    "Verif.Props.C23_ranked_unit",
    "Verif.Props.C23_terminates_partial",
    "Verif.Props.C23_violated_conf",
    "Verif.Props.C23_violated_hangs",
    "Verif.Props.C23_violated_panics"
   ],
   "note": "exact contents and order of the scan; termination for at most 2^22 steps from 1 BPM on; refuted by steps that f32 addition absorbs, by tiny tempos (overflow panic) and by infinite strengths"
  },
  {
   "property": "C75",
   "status": "proved",
   "theorems": [
    "Verif.Props.C75_top",
    "Verif.Props.C75_fold"
   ],
   "note": "for rankings without NaN scores, in particular ordinary inputs (C22_ranked)"
  },
  {
   "property": "C76",
   "status": "proved",
   "theorems": [
    "Verif.Props.C76_relatives"
   ],
   "note": ""
  },
  {
   "property": "C24",
   "status": "partial",
   "theorems": [
    "Verif.Props.C24_range_partial",
    "Verif.Props.C24_candidates",
    "Verif.Props.C24_confidence_partial",
    "Verif.Props.C24_succeeds",
    "Verif.Props.C24_violated",
    "Verif.Props.C24_violated_conf"
   ],
   "note": "agreement at most 3 and the candidate list for every input; the BPM stays in range whenever the range covers 70 to 180 BPM, otherwise it may leave it (whole-pipeline witness); confidence in [0,1] for weights up to 256, NaN witness for overflowing weights; success on ordinary inputs"
  },
  {
   "property": "C25",
   "status": "partial",
   "theorems": [
    "Verif.Props.C25_success",
    "Verif.Props.C25_agree",
    "Verif.Props.C25_disagree",
    "Verif.Props.C25_single",
    "Verif.Props.C25_span_partial",
    "Verif.Props.C25_total",
    "Verif.Props.C25_violated"
   ],
   "note": "decision table, mean and confidence within f32 rounding; the mean of three answers can fall just outside their span by rounding (witness)"
  },
  {
   "property": "C77",
   "status": "partial",
   "theorems": [
    "Verif.Props.C77_violated_autocorr",
    "Verif.Props.C77_violated_fft"
   ],
   "note": "refuted universally: with half the hop size each tempogram returns the same strengths at exactly twice the tempo"
  },
  {
   "property": "C78",
   "status": "partial",
   "theorems": [
    "Verif.Props.C78_shape",
    "Verif.Props.C78_range_partial",
    "Verif.Props.C78_silent",
    "Verif.Props.C78_violated"
   ],
   "note": "shape, errors and absence of panics for every input; range and unit length for magnitudes up to 2^76 and numeric settings; a loud finite tone gives NaN entries (witness)"
  },
  {
   "property": "C79",
   "status": "proved",
   "theorems": [
    "Verif.Props.C79_peaks",
    "Verif.Props.C79_only_peaks",
    "Verif.Props.C79_tone"
   ],
   "note": "refinement to a peak-by-peak specification for every selection that keeps the strongest peaks; a single peak is mapped to its nearest pitch class"
  },
  {
   "property": "C80",
   "status": "partial",
   "theorems": [
    "Verif.Props.C80_range_partial",
    "Verif.Props.C80_frames",
    "Verif.Props.C80_silence",
    "Verif.Props.C80_in_tune",
    "Verif.Props.C80_tone",
    "Verif.Props.C80_violated",
    "Verif.Props.C80_violated_infinite"
   ],
   "note": "range for finite magnitudes and a valid band; frame selection, silence, tuned tones and single tones; panics for a low sample rate and NaN for an infinite magnitude (witnesses)"
  },
  {
   "property": "C81",
   "status": "partial",
   "theorems": [
    "Verif.Props.C81_shape",
    "Verif.Props.C81_composition",
    "Verif.Props.C81_local",
    "Verif.Props.C81_range_partial",
    "Verif.Props.C81_tone",
    "Verif.Props.C81_violated",
    "Verif.Props.C81_violated_nan"
   ],
   "note": "shape, composition, locality for every input; range for magnitudes up to 2^77; energy of a single tone; an empty band panics instead of being reported and NaN magnitudes are not skipped (witnesses)"
  },
  {
   "property": "C82",
   "status": "partial",
   "theorems": [
    "Verif.Props.C82_composition",
    "Verif.Props.C82_range_partial",
    "Verif.Props.C82_ends",
    "Verif.Props.C82_silent",
    "Verif.Props.C82_violated"
   ],
   "note": "composition for every input; range, end points and silence for numeric weights; a NaN weight makes every profile NaN (universal)"
  },
  {
   "property": "C83",
   "status": "proved",
   "theorems": [
    "Verif.Props.C83_rejects",
    "Verif.Props.C83_silence",
    "Verif.Props.C83_zeros"
   ],
   "note": "the checks and the silence trimming of the whole pipeline, for every library"
  },
  {
   "property": "C84",
   "status": "partial",
   "theorems": [
    "Verif.Props.C84_factor_partial",
    "Verif.Props.C84_violated"
   ],
   "note": "the result is that of the trimmed piece, on the trimmed piece's time axis; a second of leading silence leaves every beat time and the duration unchanged (witness)"
  },
  {
   "property": "C85",
   "status": "partial",
   "theorems": [
    "Verif.Props.C85_violated"
   ],
   "note": "refuted: center_frequency and the four median-key settings have no effect on any input (universal); the other settings are not claimed"
  },
  {
   "property": "C86",
   "status": "proved",
   "theorems": [
    "Verif.Props.C86_flags",
    "Verif.Props.C86_policy",
    "Verif.Props.C86_related",
    "Verif.Props.C86_trigger"
   ],
   "note": "flags, policy and trigger of the escalation for every library and configuration; candidate support specified as existence of a rival candidate"
  },
  {
   "property": "C87",
   "status": "proved",
   "theorems": [
    "Verif.Props.C87_tempo"
   ],
   "note": "the slack of the legacy case is 3*(n/hop+10)/2^24, from merging candidates in f32"
  },
  {
   "property": "C88",
   "status": "proved",
   "theorems": [
    "Verif.Props.C88_grid"
   ],
   "note": "library assumption: exp(x) <= 0.1 for x <= -2.3125; warnings stated for any number formatter"
  },
  {
   "property": "C89",
   "status": "proved",
   "theorems": [
    "Verif.Props.C89_key"
   ],
   "note": "unconditional; the absence of NaN on finite audio is a separate claim"
  },
  {
   "property": "C90",
   "status": "proved",
   "theorems": [
    "Verif.Props.C90_succeeds",
    "Verif.Props.C90_default"
   ],
   "note": "library assumptions GoodLib (ranges of cos, sin, atan2, powf, exp, ln, log2 and of the transforms, log2 monotone, top-k selection, hash order a permutation), shown satisfiable by plain_good; log-frequency or beat-synchronous chroma with a window above 2^14 samples and beat-synchronous chroma for recordings above 8192 s are outside the claim; all three normalization methods, masks, chroma extractions and detectors are covered"
  },
  {
   "property": "C91",
   "status": "proved",
   "theorems": [
    "Verif.Props.C91_vote"
   ],
   "note": ""
  },
  {
   "property": "C92",
   "status": "partial",
   "theorems": [
    "Verif.Props.C92_violated",
    "Verif.Props.C92_heard_partial"
   ],
   "note": "false: up to hop - 1 frames at the end (511 frames, almost six seconds, with the default settings) are in no window and can be replaced by anything (C92_violated); proved: every frame with a whole hop of frames behind it is heard"
  },
  {
   "property": "C93",
   "status": "partial",
   "theorems": [
    "Verif.Props.C93_muted",
    "Verif.Props.C93_weights",
    "Verif.Props.C93_tonalness",
    "Verif.Props.C93_violated_gate",
    "Verif.Props.C93_violated_fallback"
   ],
   "note": "false as documented: with key_tonalness_power = 0 the gate has no effect (C93_violated_gate), and with fewer than ten tonal frames all excluded frames count fully (C93_violated_fallback); proved: non-interference of muted frames for every detector, and which frames are muted when the exponents are positive"
  },
  {
   "property": "C94",
   "status": "partial",
   "theorems": [
    "Verif.Props.C94_measurement",
    "Verif.Props.C94_silence",
    "Verif.Props.C94_violated"
   ],
   "note": "false below 3364 Hz: the corner of the K-weighting filter is above half the sample rate, the filter is unstable, its output overflows to NaN and a full-scale signal measures minus infinity (C94_violated, at 2 kHz); proved: blocks, gate, formula, no NaN answer, and minus infinity for silence"
  },
  {
   "property": "C95",
   "status": "partial",
   "theorems": [
    "Verif.Props.C95_range",
    "Verif.Props.C95_mean_partial",
    "Verif.Props.C95_violated"
   ],
   "note": "false in general: the running mean is a difference of prefix sums in f32, so a bin louder by 2^24 anywhere below erases the mean and every whitened value becomes 20 (C95_violated); proved: the range for all inputs, and the division by the local mean for whole-number magnitudes whose sum does not round"
  },
  {
   "property": "C96",
   "status": "partial",
   "theorems": [
    "Verif.Props.C96_all_but_key_partial",
    "Verif.Props.C96_same",
    "Verif.Props.C96_violated"
   ],
   "note": "false: the same audio is reported in A minor or E major depending on the seed (C96_violated, whole pipeline); proved for every input: nothing but the name of the key can differ, errors included, and nothing at all with the ensemble, or with the mode heuristic (or minor bonus) and unweighted frames"
  },
  {
   "property": "C97",
   "status": "proved",
   "theorems": [
    "Verif.Props.C97_polarity",
    "Verif.Props.tableDft_odd"
   ],
   "note": "whole analyze_audio; the transform is a parameter assumed to commute with negation, which is proved for every transform built from sums of products; the zeros of either sign are one value in the model"
  },
  {
   "property": "C98",
   "status": "proved",
   "theorems": [
    "Verif.Props.C98_level",
    "Verif.Props.C98_needs_normalization"
   ],
   "note": "whole analyze_audio with peak normalization; also proved: without normalization the claim is false (absolute silence threshold)"
  },
  {
   "property": "C99",
   "status": "partial",
   "theorems": [
    "Verif.Props.C99_margin_partial",
    "Verif.Props.C99_violated",
    "Verif.Props.C99_violated_short",
    "Verif.Props.C99_violated_steady"
   ],
   "note": "violated: the scores of each mode are scaled so that its best key gets the same top score, so the best key of the other mode always ties with the reported key; the key confidence of a whole analysis is exactly 0 when the track has fewer frames than a segment, and when the same major and minor key lead every segment"
  },
  {
   "property": "C100",
   "status": "partial",
   "theorems": [
    "Verif.Props.C100_pulse",
    "Verif.Props.C100_violated",
    "Verif.Props.C100_violated_default"
   ],
   "note": "violated: exactly the scanned tempos whose truncated beat length is a multiple of the pulse period share the top strength, and the slowest of them is reported; at 44.1 kHz, hop 512, 40 to 240 BPM in steps of 1 every pulse above 143 BPM is reported below 140 BPM"
  },
  {
   "property": "C101",
   "status": "partial",
   "theorems": [
    "Verif.Props.C101_on_beat_partial",
    "Verif.Props.C101_violated_slower",
    "Verif.Props.C101_violated_phase"
   ],
   "note": "proved: with the first click at sample 0 the tempo of the metronome is a candidate with full confidence; violated: slower multiples of the beat have full confidence too and come first; when the first click is a fifth of a beat or more off the start, the tempo is no candidate at all"
  },
  {
   "property": "C102",
   "status": "partial",
   "theorems": [
    "Verif.Props.C102_whole_hops_partial",
    "Verif.Props.C102_violated"
   ],
   "note": "proved for beats that are a whole number of hops, at any starting position; violated for beats of a whole number of hops and a half: the two neighbouring lags tie, neither is a peak, and every candidate is at most half the tempo"
  },
  {
   "property": "C103",
   "status": "partial",
   "theorems": [
    "Verif.Props.C103_score_partial",
    "Verif.Props.C103_violated_independent",
    "Verif.Props.C103_violated"
   ],
   "note": "the score is 0 or 1 and says only whether the energy-flux detector found anything; it never depends on the vote, is 1 when no other detector agrees, and the list of methods is constant"
  },
  {
   "property": "C104",
   "status": "partial",
   "theorems": [
    "Verif.Props.C104_unchanged",
    "Verif.Props.C104_unchanged_iff",
    "Verif.Props.C104_again_partial",
    "Verif.Props.C104_sustained_partial",
    "Verif.Props.C104_violated",
    "Verif.Props.C104_violated_pause"
   ],
   "note": "trimming leaves audio alone exactly when its first frame is loud and its tail short; a second pass changes nothing when nothing was cut from the end, or the cut followed two loud frames; otherwise the cut through the last loud frame lets the second pass remove more"
  },
  {
   "property": "C105",
   "status": "partial",
   "theorems": [
    "Verif.Props.C105_front_partial",
    "Verif.Props.C105_end_partial",
    "Verif.Props.C105_violated",
    "Verif.Props.C105_violated_end"
   ],
   "note": "half a frame of the silence in front may stay; the end is found up to one frame, and loud samples at the end can be lost"
  },
  {
   "property": "C106",
   "status": "partial",
   "theorems": [
    "Verif.Props.C106_average",
    "Verif.Props.C106_dominant_partial",
    "Verif.Props.C106_violated"
   ],
   "note": "proved for the averaging modes; in Dominant mode samples of equal magnitude and opposite sign (and NaN) depend on the order"
  },
  {
   "property": "C107",
   "status": "proved",
   "theorems": [
    "Verif.Props.C107_target",
    "Verif.Props.C107_twice"
   ],
   "note": "two-sided: no output above the target and one at it, within f32 rounding"
  },
  {
   "property": "C108",
   "status": "partial",
   "theorems": [
    "Verif.Props.C108_partial",
    "Verif.Props.C108_accuracy",
    "Verif.Props.C108_violated"
   ],
   "note": "proved up to 2^16 frames when the best major and the best minor key stand out from the other keys of their mode by one part in 2^19 per frame: the reported key is one of the two before, one of the two moved up after; a flat chroma vector is its own transposition, so the key cannot move; the choice of mode is always a tie (C59)"
  },
  {
   "property": "C109",
   "status": "proved",
   "theorems": [
    "Verif.Props.C109_fit",
    "Verif.Props.C109_choice"
   ],
   "note": "distances to D/2^20 s, the mean to one part in 2^22 per onset; the choice holds with no assumption on exp"
  },
  {
   "property": "C110",
   "status": "partial",
   "theorems": [
    "Verif.Props.C110_partial",
    "Verif.Props.C110_violated",
    "Verif.Props.C110_drifts"
   ],
   "note": "violated: the prior does not enter the choice; onsets at one instant fit every tempo equally, yet every such update lowers the tempo by 5 BPM (to 60); holds where the current tempo is strictly the most likely tried one"
  },
  {
   "property": "C111",
   "status": "proved",
   "theorems": [
    "Verif.Props.C111_energy",
    "Verif.Props.C111_hfc",
    "Verif.Props.C111_spectral",
    "Verif.Props.C111_superflux"
   ],
   "note": "energy and HFC to B/M*(n+4)/2^20, the norms to (n+3)/2^21 plus (sqrt n+1)/2^18 over the largest one; superflux takes ln as a parameter with values in [0,K]"
  },
  {
   "property": "C112",
   "status": "partial",
   "theorems": [
    "Verif.Props.C112_partial",
    "Verif.Props.C112_violated",
    "Verif.Props.C112_shares",
    "Verif.Props.C112_misses"
   ],
   "note": "violated: the fade of the loudest bin alone gives the maximal novelty; the shares of the loudest bin decide, so the same sound struck louder gives exactly 0; holds where the loudest bin keeps its level"
  },
  {
   "property": "C113",
   "status": "partial",
   "theorems": [
    "Verif.Props.C113_attacks",
    "Verif.Props.C113_partial",
    "Verif.Props.C113_none",
    "Verif.Props.C113_violated",
    "Verif.Props.C113_top"
   ],
   "note": "exact dichotomy: all attacks are found, at their frames, or none (the threshold must be exceeded, so equal attacks that reach the percentile's rank are all dropped); at the default 0.8 all are found below one attack in five transitions, none above; at the accepted percentile 1 nothing is ever found in any spectrogram"
  },
  {
   "property": "C114",
   "status": "proved",
   "theorems": [
    "Verif.Props.C114_metronome"
   ],
   "note": "assumes ExpSmall and ExpLarge of the exp function (true of expf) and the fuel bound of C34"
  },
  {
   "property": "C115",
   "status": "partial",
   "theorems": [
    "Verif.Props.C115_partial",
    "Verif.Props.C115_violated"
   ],
   "note": "violated: of eighteen regular clicks at 126 BPM with the estimate 120 (126 is the state +5 %) at most the first three become beats; holds as long as the accumulated drift stays within 39 ms"
  },
  {
   "property": "C116",
   "status": "partial",
   "theorems": [
    "Verif.Props.C116_mask",
    "Verif.Props.C116_click",
    "Verif.Props.C116_tone",
    "Verif.Props.C116_violated"
   ],
   "note": "the formula is proved for every cell, with medians by counting; violated at the edges: with a time margin of 1 a click in the first frame keeps half its magnitude, since the median of two cells is the louder one"
  },
  {
   "property": "C117",
   "status": "partial",
   "theorems": [
    "Verif.Props.C117_clicks",
    "Verif.Props.C117_equal",
    "Verif.Props.C117_early",
    "Verif.Props.C117_violated"
   ],
   "note": "which clicks are reported, and that each is reported once, is proved outright; the position is violated for every signal when the frame is longer than two hops (the default): the report comes between frame - hop and frame - 1 samples before the click (35 to 46 ms at 2048/512), never within a hop of it"
  },
  {
   "property": "C118",
   "status": "partial",
   "theorems": [
    "Verif.Props.C118_components",
    "Verif.Props.C118_overall_partial",
    "Verif.Props.C118_violated"
   ],
   "note": "the three component scores are monotone, and so is the overall score while the same estimates are available; violated when a key (or tempo) becomes available: with key and grid scores adding up to at most half the tempo score, finding the key lowers the overall confidence (0.6 to 0.43, Medium to Low, in the example)"
  },
  {
   "property": "C119",
   "status": "proved",
   "theorems": [
    "Verif.Props.C119_energy_flux",
    "Verif.Props.C119_spectral_flux",
    "Verif.Props.C119_hfc",
    "Verif.Props.C119_hpss"
   ],
   "note": "for energy flux under the assumption that 10^(dB/20) is non-negative and grows with the dB value (powf is a parameter)"
  },
  {
   "property": "C120",
   "status": "partial",
   "theorems": [
    "Verif.Props.C120_level_partial",
    "Verif.Props.C120_violated"
   ],
   "note": "independence of the level is proved, and more: every frame may have its own gain; therefore the second half is violated for every sound: frames that differ in loudness only have no onset at all, whatever the percentile"
  },
  {
   "property": "C121",
   "status": "proved",
   "theorems": [
    "Verif.Props.C121_map",
    "Verif.Props.C121_trim"
   ],
   "note": "under the assumption that 10^(dB/20) grows with the dB value (powf is a parameter)"
  },
  {
   "property": "C122",
   "status": "partial",
   "theorems": [
    "Verif.Props.C122_energy_flux",
    "Verif.Props.C122_spectral_flux_partial",
    "Verif.Props.C122_hfc_partial",
    "Verif.Props.C122_hpss_partial",
    "Verif.Props.C122_violated"
   ],
   "note": "True for the energy-flux detector (C122_energy_flux). The percentile detectors count the added frames: the threshold falls and the same music gets additional onsets (C122_violated); the onsets they had are kept, at the right place (the three _partial theorems, under a condition on the rounded rank)."
  },
  {
   "property": "C123",
   "status": "proved",
   "theorems": [
    "Verif.Props.C123_wider"
   ],
   "note": ""
  },
  {
   "property": "C124",
   "status": "proved",
   "theorems": [
    "Verif.Props.C124_tempo",
    "Verif.Props.C124_vote",
    "Verif.Props.C124_grid"
   ],
   "note": ""
  },
  {
   "property": "C125",
   "status": "partial",
   "theorems": [
    "Verif.Props.C125_frames_partial",
    "Verif.Props.C125_range_partial",
    "Verif.Props.C125_violated_frame",
    "Verif.Props.C125_violated_tuning",
    "Verif.Props.C125_violated_nan",
    "Verif.Props.C125_violated_hang",
    "Verif.Props.C125_violated_range"
   ],
   "note": "Holds for frame size 0, hop size 0, and, when two onsets were found, for bad tempo ranges. Violated otherwise: frame size 1 panics, a NaN tuning limit panics, a NaN resolution is accepted, a resolution below the f32 spacing never returns, a backwards range is accepted (bpm 0) when there are no onsets."
  },
  {
   "property": "C126",
   "status": "partial",
   "theorems": [
    "Verif.Props.C126_levels",
    "Verif.Props.C126_gain",
    "Verif.Props.C126_lufs_partial",
    "Verif.Props.C126_violated"
   ],
   "note": "Proved for peak and RMS levels. For LUFS proved when the filtered signal is louder and no block of the quieter recording is gated. Violated otherwise: only the absolute gate of BS.1770 is implemented, so amplifying a recording by 2 dB can lower its loudness by more than 1 LU, when a quiet block passes the gate."
  },
  {
   "property": "C127",
   "status": "partial",
   "theorems": [
    "Verif.Props.C127_detect",
    "Verif.Props.C127_mode_partial",
    "Verif.Props.C127_stage_partial",
    "Verif.Props.C127_violated"
   ],
   "note": "Proved for the plain detector, the ensemble, and the mode heuristic without the harmonic-minor bonus. Violated with the bonus: it is multiplied by the number of frames although the scores it is added to have been normalised, so a C major chord followed by thirty silent frames is reported as F minor (default bonus weight). Segments and multi-scale windows are cut by counting frames, so pauses move them."
  },
  {
   "property": "C128",
   "status": "partial",
   "theorems": [
    "Verif.Props.C128_energy_partial",
    "Verif.Props.C128_hfc_partial",
    "Verif.Props.C128_hpss_partial",
    "Verif.Props.C128_violated"
   ],
   "note": "Proved for gains that are powers of two (multiples of about 6 dB): other gains round differently, so exact equality is not to be expected. For the energy detector the quiet version must have at least one onset: very quiet recordings have none, since the rise is compared with a fixed 1e-10 (C128_violated). The spectral-flux detector is covered by C120."
  },
  {
   "property": "C129",
   "status": "partial",
   "theorems": [
    "Verif.Props.C129_energy_partial",
    "Verif.Props.C129_energyBand_partial",
    "Verif.Props.C129_hfc_partial",
    "Verif.Props.C129_hfcBand_partial",
    "Verif.Props.C129_spectral_partial",
    "Verif.Props.C129_violated",
    "Verif.Props.C129_violated_superflux"
   ],
   "note": "Proved for gains that are powers of two (others round differently), for energy and HFC curves of the quiet version that reach 1, and for spectral-flux frames that are silent or above 1e-10. Violated for very quiet recordings, whose curve is not scaled to its peak (C129_violated), and by the log-compressed SuperFlux curve, whose shape depends on the level (C129_violated_superflux, with the correctly rounded logarithms of the numbers involved)."
  },
  {
   "property": "C130",
   "status": "partial",
   "theorems": [
    "Verif.Props.C130_log_partial",
    "Verif.Props.C130_l2_partial",
    "Verif.Props.C130_violated"
   ],
   "note": "Proved for gains that are powers of two and vectors that the quiet version normalises (or zero vectors). Violated below a norm of 1e-10: such vectors are returned as they are. The linear-frequency chroma raises magnitudes to the power 0.6 in the mathematical library, so exact equality would be a property of that library."
  },
  {
   "property": "C131",
   "status": "proved",
   "theorems": [
    "Verif.Props.C131_signature",
    "Verif.Props.C131_stability",
    "Verif.Props.C131_bars"
   ],
   "note": "The tempo segmentation is not covered: its windows last 4 to 8 seconds whatever the tempo, so a slower piece is cut differently."
  },
  {
   "property": "C132",
   "status": "partial",
   "theorems": [
    "Verif.Props.C132_spectral_partial",
    "Verif.Props.C132_hfc_partial",
    "Verif.Props.C132_hpss",
    "Verif.Props.C132_percentile",
    "Verif.Props.C132_consensus",
    "Verif.Props.C132_mono_partial",
    "Verif.Props.C132_novelty_partial",
    "Verif.Props.C132_fft_partial",
    "Verif.Props.C132_key",
    "Verif.Props.C132_violated",
    "Verif.Props.C132_violated_range"
   ],
   "note": "Proved outright for hpss_decompose, percentile_threshold, vote_onsets and detect_key. The others accept some documented misuse: an empty spectrogram (spectral flux, HFC), fewer than two frames (novelty), empty channels (mono mix), a BPM range with a NaN bound (tempograms) all return an empty list; the partial theorems exclude exactly these inputs and C132_violated / C132_violated_range prove the violations."
  },
  {
   "property": "C133",
   "status": "partial",
   "theorems": [
    "Verif.Props.C133_bars_partial",
    "Verif.Props.C133_violated",
    "Verif.Props.C133_violated_gap"
   ],
   "note": "The first half is proved. The second half is violated: the next downbeat is looked for only one bar after the last one found, so a bar at whose end there is no beat is the last one (C133_violated, for every grid); with one bar line missing from an otherwise steady piece of any length, all later bars are missing (C133_violated_gap)."
  },
  {
   "property": "C134",
   "status": "proved",
   "theorems": [
    "Verif.Props.C134_choice",
    "Verif.Props.C134_ratio"
   ],
   "note": "Weights need not sum to one, as the code says. The onsets of a method of weight zero are reported, with confidence zero."
  },
  {
   "property": "C135",
   "status": "partial",
   "theorems": [
    "Verif.Props.C135_tempogram",
    "Verif.Props.C135_autocorr",
    "Verif.Props.C135_consensus",
    "Verif.Props.C135_violated"
   ],
   "note": "Proved for the tempograms, the autocorrelation estimator and the vote. Violated by the comb filterbank: it chooses the onset nearest to a beat by distances truncated to whole samples, so the same three onsets give 119 BPM at 22.05 kHz and 118 BPM at 44.1 kHz."
  },
  {
   "property": "C136",
   "status": "partial",
   "theorems": [
    "Verif.Props.C136_levels_partial",
    "Verif.Props.C136_violated",
    "Verif.Props.C136_violated_rms",
    "Verif.Props.C136_violated_peak"
   ],
   "note": "Proved for measured_lufs, for peak_db of signals loud enough for the method, and for rms_db of the RMS method. Violated otherwise: the peak and loudness methods measure the RMS after applying the gain, so rms_db is that of the result (C136_violated for every signal, C136_violated_rms a case); the RMS method reports peak level minus infinity whenever the RMS is at most 1e-10 (C136_violated_peak)."
  },
  {
   "property": "C137",
   "status": "partial",
   "theorems": [
    "Verif.Props.C137_leading",
    "Verif.Props.C137_trailing_partial",
    "Verif.Props.C137_violated",
    "Verif.Props.C137_violated_reverse"
   ],
   "note": "Proved for the beginning, and for the end when the silence lasts for the minimum duration. Violated at the end otherwise: shorter trailing silence is never removed nor listed (C137_violated, for every such signal), while the same silence in front is (C137_violated_reverse). The comment in the source (or if it's leading/trailing) says that both are meant to be included."
  },
  {
   "property": "C138",
   "status": "proved",
   "theorems": [
    "Verif.Props.C138_robust",
    "Verif.Props.C138_percentile"
   ],
   "note": ""
  },
  {
   "property": "C139",
   "status": "partial",
   "theorems": [
    "Verif.Props.C139_changes_partial",
    "Verif.Props.C139_blips",
    "Verif.Props.C139_violated",
    "Verif.Props.C139_violated_click"
   ],
   "note": "Proved for every frame whose window lies inside the recording; the removal of disturbances also at the ends. Violated at the ends: a change shortly after the beginning is moved to the first frame (C139_violated, for all values and window sizes), and a click next to the end of a recording is spread to its neighbours (C139_violated_click), since the shortened window has an even number of values of which the upper middle one is taken."
  },
  {
   "property": "C140",
   "status": "partial",
   "theorems": [
    "Verif.Props.C140_heard_partial",
    "Verif.Props.C140_violated",
    "Verif.Props.C140_violated_short"
   ],
   "note": "Proved for all frames with a whole step behind them. Violated at the end: whatever follows the last full segment, up to a step less one frame (6 s with the default settings), has no influence on the result (C140_violated), and a track shorter than one segment is rejected (C140_violated_short)."
  },
  {
   "property": "C141",
   "status": "partial",
   "theorems": [
    "Verif.Props.C141_loose_partial",
    "Verif.Props.C141_violated"
   ],
   "note": "The first half is proved. The second is violated: beats that accelerate evenly from 80 to 160 BPM are marked nowhere, because the variation is only measured inside each segment and never between segments."
  },
  {
   "property": "C142",
   "status": "partial",
   "theorems": [
    "Verif.Props.C142_octave_partial",
    "Verif.Props.C142_violated",
    "Verif.Props.C142_violated_confidence"
   ],
   "note": "Proved for one candidate per method, and for a lone autocorrelation candidate. Violated with more candidates: if both methods put 60 BPM first and the comb filter also lists 120, the autocorrelation candidate is moved to 120, which then ranks first with two methods while 60 is left with one. The documented confidences are violated: a lone comb candidate in 60-180 BPM is multiplied by 1.4, and two agreeing candidates get the mean of average and maximum times 1.2 and then up to 2.1."
  },
  {
   "property": "C143",
   "status": "partial",
   "theorems": [
    "Verif.Props.C143_top_partial",
    "Verif.Props.C143_violated"
   ],
   "note": "Proved for a maximum attained once. Violated for flat tops: if the maximum is attained by neighbouring samples, no reported peak has that value, and a peak half as high may be reported first (example in the file), because a peak must be strictly above both neighbours."
  },
  {
   "property": "C144",
   "status": "partial",
   "theorems": [
    "Verif.Props.C144_four_partial",
    "Verif.Props.C144_six_partial",
    "Verif.Props.C144_violated"
   ],
   "note": "Four and six are proved. Three is violated, universally: a rhythm that repeats every three beats repeats every six, the two hypotheses score the same, and max_by takes the later one, 6/8; 3/4 is never reported for it."
  },
  {
   "property": "C145",
   "status": "partial",
   "theorems": [
    "Verif.Props.C145_clear_partial",
    "Verif.Props.C145_violated",
    "Verif.Props.C145_violated_noise"
   ],
   "note": "The formula is proved to within 0.02, and the lower bound L(N-1)/N - 0.02 for a lead of L times the range. The converse is violated: two keys tied at the top with the others at zero get a clarity above 0.9, and so do 24 scores that agree to two parts in a million, because the lead is measured against the mean and in units of the range."
  },
  {
   "property": "C146",
   "status": "partial",
   "theorems": [
    "Verif.Props.C146_contrast_partial",
    "Verif.Props.C146_violated"
   ],
   "note": "Proved to within one part in 131072. Violated for large powers: a vector of unit length with one prominent class, sharpened with power 24, has powers below the fixed limit 1e-10 and becomes the uniform vector."
  },
  {
   "property": "C147",
   "status": "partial",
   "theorems": [
    "Verif.Props.C147_silence",
    "Verif.Props.C147_unweighted",
    "Verif.Props.C147_violated"
   ],
   "note": "Silence and unweighted methods are proved in full. The third part is violated: curves that are constant up to one part in a million give a combined curve with full-scale peaks and zeros, because the remainder after subtracting the mean is scaled up to one as soon as it exceeds 1e-10."
  },
  {
   "property": "C148",
   "status": "partial",
   "theorems": [
    "Verif.Props.C148_single_partial",
    "Verif.Props.C148_violated"
   ],
   "note": "Scores (bit for bit) and confidence are proved, and that the reported key has the best score. The same key is violated where several keys share the best score: the single detector picks one by a vote in the order of a hash map, the ensemble the first one in index order."
  },
  {
   "property": "C149",
   "status": "partial",
   "theorems": [
    "Verif.Props.C149_plain_partial",
    "Verif.Props.C149_mode_partial",
    "Verif.Props.C149_ensemble_partial",
    "Verif.Props.C149_multi_partial",
    "Verif.Props.C149_median_partial",
    "Verif.Props.C149_violated"
   ],
   "note": "Proved for weight one, bit for bit, invalid input included. For other equal weights it is violated: with weight 1e-11 the scores fall below the fixed limit 1e-9, the two modes are no longer levelled, and the profile of C major is C major where without weights it is A minor."
  },
  {
   "property": "C150",
   "status": "partial",
   "theorems": [
    "Verif.Props.C150_target_partial",
    "Verif.Props.C150_twice_partial",
    "Verif.Props.C150_violated"
   ],
   "note": "C150_target_partial: the level (exact mean square) of the result is at most the squared target up to one part in 2^22 per sample, and at least that unless the limiter acts. C150_twice_partial: a second pass moves no sample by more than one part in 2^21 per sample of the recording, whether the limiter acts or not. C150_violated: the sum of squares is accumulated in f32 and stops growing after 2^24 full-scale samples, so for every recording of 2^26 full-scale samples (25 minutes at 44.1 kHz), of whatever signs, the result is exactly twice (6 dB above) the target. The target meant here is the one the code uses, target_loudness_lufs + 3 - max_headroom_db: the headroom lowers the level itself, not only the peak."
  },
  {
   "property": "C151",
   "status": "partial",
   "theorems": [
    "Verif.Props.C151_average_partial",
    "Verif.Props.C151_dominant",
    "Verif.Props.C151_violated"
   ],
   "note": "C151_average_partial: the energy of the mix is the mean energy of the channels minus that of half their difference, up to rounding. C151_dominant: exact bounds. C151_violated: every recording with channels of opposite polarity is mixed to digital silence by Mono, MidSide and Center, which the documentation says preserve the energy."
  }
 ]
}