/-
Property theorems C132: the public detectors answer the misuses their documentation lists with an error, and nothing
else (src/features/onset/{spectral_flux,hfc,hpss,threshold,consensus}.rs,
src/features/period/{novelty,tempogram_fft,tempogram_autocorr}.rs, src/features/key/detector.rs,
src/preprocessing/channel_mixer.rs).
-/
import Verif.Lemmas.Onset
import Verif.Model.Novelty
import Verif.Model.Tempogram
import Verif.Model.KeyDet
import Verif.Model.ChannelMixer
import Verif.Model.Consensus

namespace Verif.Props
open Verif

/-! ### Specification -/

/-- the call returned an `AnalysisError` (not a value, not a panic) -/
def Refused {α} (r : R α) : Prop := ∃ k, r = .error (.err k)

/-- the call returned a value -/
def Answered {α} (r : R α) : Prop := ∃ a, r = .ok a

/-- all frames have the same, positive number of bins -/
def Rectangular (spec : List (List F32)) : Prop := ∃ n, 0 < n ∧ ∀ fr ∈ spec, fr.length = n

/-- a percentile is a number from 0 to 1 -/
def IsShare (p : F32) : Prop := 0 ≤ p ∧ p ≤ 1

/-- a usable BPM range: positive and not empty; NaN is not a bound -/
def IsBpmRange (lo hi : F32) : Prop := 0 < lo ∧ lo < hi

/-! ### Frames -/

theorem refused_err {α} (k : ErrKind) : Refused (R.err k : R α) := ⟨k, rfl⟩

theorem answered_ok {α} (a : α) : Answered (.ok a : R α) := ⟨a, rfl⟩

theorem not_refused_ok {α} (a : α) : ¬ Refused (.ok a : R α) := by rintro ⟨k, h⟩; cases h

theorem rectangular_iff {spec : List (List F32)} (h : spec ≠ []) :
    Rectangular spec ↔ (spec.headD []).length ≠ 0 ∧ spec.any (fun f => f.length != (spec.headD []).length) = false := by
  obtain ⟨fr, rest, rfl⟩ := List.exists_cons_of_ne_nil h
  rw [List.headD_cons, List.any_eq_false]
  constructor
  · rintro ⟨n, hn, hl⟩
    have h0 := hl fr List.mem_cons_self
    refine ⟨by omega, fun x hx => ?_⟩
    rw [hl x hx, h0]; simp
  · rintro ⟨h0, hl⟩
    refine ⟨fr.length, by omega, fun x hx => ?_⟩
    have := hl x hx
    simpa using this

theorem isShare_iff {p : F32} : IsShare p ↔ Onset.inUnit p = true := by
  unfold IsShare Onset.inUnit
  rw [Bool.and_eq_true, decide_eq_true_iff, decide_eq_true_iff]

theorem pickFrames_answers {f : List F32} (h : f ≠ []) (p : F32) : Answered (Onset.pickFrames f p) := by
  obtain ⟨hi, e⟩ := Onset.pctValue_ok p h
  unfold Onset.pickFrames
  rw [e, R.ok_bind]
  exact ⟨_, rfl⟩

theorem framesOk_accepts {mags : List (List F32)} (h : mags ≠ []) {p : F32} :
    Onset.framesOk mags p = none ↔ Rectangular mags ∧ IsShare p := by
  rw [rectangular_iff h, isShare_iff]
  unfold Onset.framesOk
  constructor
  · intro h
    split_ifs at h with h1 h2 h3
    exact ⟨⟨h2, by rw [← Bool.not_eq_true]; exact h3⟩, h1⟩
  · rintro ⟨⟨h1, h2⟩, h3⟩
    rw [if_neg (not_not.2 h3), if_neg h1, if_neg (by rw [h2]; simp)]

/-- the outcome of a call: answered exactly when `ok`, refused otherwise -/
def Contract {α} (r : R α) (ok : Prop) : Prop := (ok → Answered r) ∧ (¬ ok → Refused r)

theorem contract_of {α} {r : R α} {ok : Prop} (h1 : ok → Answered r) (h2 : ¬ ok → Refused r) : Contract r ok := ⟨h1, h2⟩

/-! ### The onset detectors -/

/-- **C132 (spectral flux, partial).** For a spectrogram with at least one frame `detect_spectral_flux_onsets` returns an
error exactly when the frames differ in length (or are empty) or the percentile is not a number from 0 to 1; otherwise
it returns onsets.  Full statement: an empty spectrogram is refused as well. -/
theorem C132_spectral_partial (mags : List (List F32)) (p : F32) (h : mags ≠ []) :
    Contract (Onset.spectralFluxOnsets mags p) (Rectangular mags ∧ IsShare p) := by
  unfold Onset.spectralFluxOnsets
  rw [if_neg h]
  refine ⟨fun hok => ?_, fun hno => ?_⟩
  · rw [(framesOk_accepts h).2 hok]
    dsimp only
    split_ifs with h1 h2
    · exact ⟨_, rfl⟩
    · exact ⟨_, rfl⟩
    · exact pickFrames_answers h2 p
  · cases e : Onset.framesOk mags p with
    | none => exact absurd ((framesOk_accepts h).1 e) hno
    | some k => exact ⟨k, rfl⟩

/-- **C132 (HFC, partial).** As `C132_spectral_partial`, and a sample rate of zero is refused. -/
theorem C132_hfc_partial (mags : List (List F32)) (sr : ℕ) (p : F32) (h : mags ≠ []) :
    Contract (Onset.hfcOnsets mags sr p) (sr ≠ 0 ∧ Rectangular mags ∧ IsShare p) := by
  unfold Onset.hfcOnsets
  rw [if_neg h]
  by_cases hs : sr = 0
  · rw [if_pos hs]
    exact ⟨fun h => absurd hs h.1, fun _ => refused_err _⟩
  rw [if_neg hs]
  refine ⟨fun hok => ?_, fun hno => ?_⟩
  · rw [(framesOk_accepts h).2 hok.2]
    dsimp only
    split_ifs with h1 h2
    · exact ⟨_, rfl⟩
    · exact ⟨_, rfl⟩
    · exact pickFrames_answers h2 p
  · cases e : Onset.framesOk mags p with
    | none => exact absurd ⟨hs, (framesOk_accepts h).1 e⟩ hno
    | some k => exact ⟨k, rfl⟩

/-- **C132 (HPSS).** `hpss_decompose` refuses exactly the empty spectrograms and those with empty or unequal frames. -/
theorem C132_hpss (spec : List (List F32)) (margin : ℕ) :
    Contract (Onset.hpssDecompose spec margin) (spec ≠ [] ∧ Rectangular spec) := by
  unfold Onset.hpssDecompose
  by_cases h : spec = []
  · rw [if_pos h]
    exact ⟨fun hok => absurd h hok.1, fun _ => refused_err _⟩
  rw [if_neg h]
  refine ⟨fun hok => ?_, fun hno => ?_⟩
  · obtain ⟨h1, h2⟩ := (rectangular_iff h).1 hok.2
    rw [if_neg h1, if_neg (by rw [h2]; simp)]
    exact ⟨_, rfl⟩
  · split_ifs with h1 h2
    · exact refused_err _
    · exact refused_err _
    · exact absurd ⟨h, (rectangular_iff h).2 ⟨h1, by simpa using h2⟩⟩ hno

/-- **C132 (percentile).** `percentile_threshold` refuses exactly the empty lists and the percentiles outside 0 to 1. -/
theorem C132_percentile (values : List F32) (p : F32) :
    Contract (Onset.percentileThreshold values p) (values ≠ [] ∧ IsShare p) := by
  unfold Onset.percentileThreshold
  rw [isShare_iff]
  by_cases h : values = []
  · rw [if_pos h]
    exact ⟨fun hok => absurd h hok.1, fun _ => refused_err _⟩
  rw [if_neg h]
  by_cases h1 : Onset.inUnit p = true
  · rw [if_neg (by simp [h1])]
    obtain ⟨hi, e⟩ := Onset.pctValue_ok p h
    exact ⟨fun _ => ⟨_, e⟩, fun hno => absurd ⟨h, h1⟩ hno⟩
  · rw [if_pos h1]
    exact ⟨fun hok => absurd hok.2 h1, fun _ => refused_err _⟩

/-! ### Consensus -/

theorem bind_not_refused {α β} {r : R α} {f : α → R β} (h1 : ¬ Refused r) (h2 : ∀ a, ¬ Refused (f a)) : ¬ Refused (r >>= f) := by
  cases r with
  | ok a => exact h2 a
  | error e =>
    rintro ⟨k, h⟩
    exact h1 ⟨k, by cases h; rfl⟩

theorem hits_not_refused (tol : ℕ) (o : Consensus.Tagged) : ∀ c, ¬ Refused (Consensus.hits tol o c)
  | [] => not_refused_ok _
  | x :: xs => by
    unfold Consensus.hits
    refine bind_not_refused ?_ fun d => ?_
    · rintro ⟨k, h⟩
      revert h
      unfold Consensus.near
      dsimp only
      split_ifs <;> intro h <;> cases h
    · split_ifs
      · exact not_refused_ok _
      · exact hits_not_refused tol o xs

theorem addTo_not_refused (tol : ℕ) (o : Consensus.Tagged) : ∀ cs, ¬ Refused (Consensus.addTo tol o cs)
  | [] => not_refused_ok _
  | c :: cs => by
    unfold Consensus.addTo
    refine bind_not_refused (hits_not_refused tol o c) fun b => ?_
    split_ifs
    · exact not_refused_ok _
    · exact bind_not_refused (addTo_not_refused tol o cs) fun _ => not_refused_ok _

theorem clusterFrom_not_refused (tol : ℕ) : ∀ os cs, ¬ Refused (Consensus.clusterFrom tol os cs)
  | [], _ => not_refused_ok _
  | o :: os, cs => by
    unfold Consensus.clusterFrom
    exact bind_not_refused (addTo_not_refused tol o cs) fun cs' => clusterFrom_not_refused tol os cs'

/-- **C132 (consensus).** `vote_onsets` refuses exactly a sample rate of zero, a tolerance of zero and negative weights. -/
theorem C132_consensus (inp : Consensus.Input) (w : ℕ → F32) (tol sr : ℕ) :
    Refused (Consensus.voteOnsets inp w tol sr) ↔ sr = 0 ∨ tol = 0 ∨ ∃ i < 4, w i < 0 := by
  have hw : (∃ i < 4, w i < 0) ↔ (w 0 < 0 ∨ w 1 < 0 ∨ w 2 < 0 ∨ w 3 < 0) := by
    constructor
    · rintro ⟨i, hi, h⟩
      have : i = 0 ∨ i = 1 ∨ i = 2 ∨ i = 3 := by omega
      rcases this with rfl | rfl | rfl | rfl <;> simp [h]
    · rintro (h | h | h | h)
      exacts [⟨0, by omega, h⟩, ⟨1, by omega, h⟩, ⟨2, by omega, h⟩, ⟨3, by omega, h⟩]
  rw [hw]
  unfold Consensus.voteOnsets
  by_cases h1 : sr = 0
  · rw [if_pos h1]; exact ⟨fun _ => Or.inl h1, fun _ => refused_err _⟩
  rw [if_neg h1]
  by_cases h2 : tol = 0
  · rw [if_pos h2]; exact ⟨fun _ => Or.inr (Or.inl h2), fun _ => refused_err _⟩
  rw [if_neg h2]
  by_cases h3 : w 0 < 0 ∨ w 1 < 0 ∨ w 2 < 0 ∨ w 3 < 0
  · rw [if_pos h3]; exact ⟨fun _ => Or.inr (Or.inr h3), fun _ => refused_err _⟩
  rw [if_neg h3]
  constructor
  · intro h
    exfalso
    revert h
    dsimp only
    split_ifs
    · exact not_refused_ok _
    · exact bind_not_refused (clusterFrom_not_refused _ _ _) fun _ => not_refused_ok _
  · rintro (h | h | h)
    exacts [absurd h h1, absurd h h2, absurd h h3]

/-! ### The mono mix -/

/-- **C132 (mono mix, partial).** `stereo_to_mono` refuses exactly the channels of different length.  Full statement: it
refuses two empty channels as well. -/
theorem C132_mono_partial (l r : List F32) (mode : Mixer.Mode) (h : l ≠ []) :
    Contract (Mixer.stereoToMono l r mode) (l.length = r.length) := by
  unfold Mixer.stereoToMono
  refine ⟨fun hok => ?_, fun hno => ?_⟩
  · rw [if_neg (by simp [hok]), if_neg h]
    exact ⟨_, rfl⟩
  · rw [if_pos hno]
    exact refused_err _

/-! ### The novelty curves and the tempograms -/

/-- **C132 (novelty, partial).** For two frames or more `spectral_flux_novelty` and `energy_flux_novelty` refuse exactly
the spectrograms with empty or unequal frames, `hfc_novelty` a sample rate of zero as well.  Full statement: fewer than
two frames are refused. -/
theorem C132_novelty_partial (spec : List (List F32)) (sr : ℕ) (h : 2 ≤ spec.length) :
    Contract (Novelty.spectralFlux spec) (Rectangular spec) ∧ Contract (Novelty.energyFlux spec) (Rectangular spec) ∧
      Contract (Novelty.hfc spec sr) (sr ≠ 0 ∧ Rectangular spec) := by
  have h0 : spec ≠ [] := by rintro rfl; simp at h
  have hck : (Rectangular spec ∧ Novelty.checkSpec spec = .ok ()) ∨ (¬ Rectangular spec ∧ Novelty.checkSpec spec = R.err .invalidInput) := by
    rw [rectangular_iff h0]
    unfold Novelty.checkSpec Novelty.ragged
    by_cases h1 : (spec.headD []).length = 0
    · exact Or.inr ⟨fun h => h.1 h1, by rw [if_pos h1]⟩
    · by_cases h2 : spec.any (fun f => f.length != (spec.headD []).length) = true
      · exact Or.inr ⟨fun h => (by rw [h.2] at h2; exact absurd h2 (by simp)), by rw [if_neg h1, if_pos h2]⟩
      · exact Or.inl ⟨⟨h1, by simpa using h2⟩, by rw [if_neg h1, if_neg h2]⟩
  have key : ∀ c : List F32, Contract (do Novelty.checkSpec spec; .ok c : R (List F32)) (Rectangular spec) := by
    intro c
    rcases hck with ⟨hr, e⟩ | ⟨hr, e⟩
    · rw [e]
      exact ⟨fun _ => ⟨_, rfl⟩, fun hn => absurd hr hn⟩
    · rw [e]
      exact ⟨fun hn => absurd hn hr, fun _ => ⟨_, rfl⟩⟩
  refine ⟨?_, ?_, ?_⟩
  · unfold Novelty.spectralFlux
    rw [if_neg (by omega)]
    exact key _
  · unfold Novelty.energyFlux
    rw [if_neg (by omega)]
    exact key _
  · unfold Novelty.hfc
    rw [if_neg h0]
    by_cases hs : sr = 0
    · rw [if_pos hs]
      exact ⟨fun hok => absurd hs hok.1, fun _ => refused_err _⟩
    · rw [if_neg hs, if_neg (by omega)]
      obtain ⟨k1, k2⟩ := key (Novelty.peakNorm (Novelty.rise (spec.map (Novelty.hfcFrom 0))))
      exact ⟨fun hok => k1 hok.2, fun hno => k2 fun hr => hno ⟨hs, hr⟩⟩

theorem range_iff {lo hi : F32} (h1 : lo ≠ F32.nan) (h2 : hi ≠ F32.nan) : IsBpmRange lo hi ↔ ¬ (lo ≤ 0 ∨ hi ≤ lo) := by
  unfold IsBpmRange
  constructor
  · rintro ⟨a, b⟩ (h | h)
    · exact F32.not_le_of_lt a h
    · exact F32.not_le_of_lt b h
  · intro h
    push Not at h
    exact ⟨F32.lt_of_not_le F32.zero_ne_nan h1 h.1, F32.lt_of_not_le h1 h2 h.2⟩

/-- **C132 (FFT tempogram, partial).** For a BPM range given by numbers `fft_tempogram` refuses exactly an empty novelty
curve, a sample rate or hop of zero and a range that is not positive or empty.  Full statement: a range with a NaN bound
is refused as well. -/
theorem C132_fft_partial (M : Libm) (fft : List F32 → ℕ → F32 × F32) (nov : List F32) (sr hop : ℕ) (lo hi : F32)
    (h1 : lo ≠ F32.nan) (h2 : hi ≠ F32.nan) :
    Contract (Tempogram.fftTempogram M fft nov sr hop lo hi) (nov ≠ [] ∧ sr ≠ 0 ∧ hop ≠ 0 ∧ IsBpmRange lo hi) := by
  rw [range_iff h1 h2]
  unfold Tempogram.fftTempogram
  refine ⟨fun hok => ?_, fun hno => ?_⟩
  · rw [if_neg hok.1, if_neg hok.2.1, if_neg hok.2.2.1, if_neg hok.2.2.2]
    exact ⟨_, rfl⟩
  · split_ifs with a b c d
    · exact refused_err _
    · exact refused_err _
    · exact refused_err _
    · exact refused_err _
    · exact absurd ⟨a, b, c, d⟩ hno

/-! ### Keys -/

/-- **C132 (key).** `detect_key` refuses exactly the missing chroma, chroma vectors that do not have 12 entries, and
frame weights that do not match the frames; on everything else it does not return an error. -/
theorem C132_key (ord : List (Keys.Key × F32) → List (Keys.Key × F32)) (chroma : List (List F32)) (T : KeyDet.Templates)
    (weights : Option (List F32)) : Refused (KeyDet.detectKey ord chroma T weights) ↔
      chroma = [] ∨ (∃ c ∈ chroma, c.length ≠ 12) ∨ ∃ w, weights = some w ∧ w.length ≠ chroma.length := by
  unfold KeyDet.detectKey
  by_cases h0 : chroma = []
  · rw [if_pos h0]
    exact ⟨fun _ => Or.inl h0, fun _ => refused_err _⟩
  rw [if_neg h0]
  by_cases h1 : chroma.any (fun c => c.length != 12) = true
  · rw [if_pos h1]
    obtain ⟨c, hc, hl⟩ := List.any_eq_true.1 h1
    exact ⟨fun _ => Or.inr (Or.inl ⟨c, hc, by simpa using hl⟩), fun _ => refused_err _⟩
  rw [if_neg h1]
  by_cases h2 : weights.any (fun w => w.length != chroma.length) = true
  · rw [if_pos h2]
    refine ⟨fun _ => Or.inr (Or.inr ?_), fun _ => refused_err _⟩
    cases weights with
    | none => cases h2
    | some w => exact ⟨w, rfl, by simpa using h2⟩
  rw [if_neg h2]
  constructor
  · rintro ⟨k, hk⟩
    exfalso
    unfold sortDescP at hk
    split_ifs at hk
    · cases hk
    · cases hk
  · rintro (h | ⟨c, hc, hl⟩ | ⟨w, rfl, hw⟩)
    · exact absurd h h0
    · exact absurd (List.any_eq_true.2 ⟨c, hc, by simpa using hl⟩) h1
    · exact absurd (show (some w).any (fun w => w.length != chroma.length) = true by simpa using hw) h2

/-! ### Witnesses and violations -/

example : Rectangular [[1, 2], [3, 4], [0, 0]] ∧ IsShare 0.8 ∧ IsBpmRange 40 240 :=
  ⟨⟨2, by norm_num, by simp⟩, by unfold IsShare; decide +kernel, by unfold IsBpmRange; decide +kernel⟩

example : Answered (Onset.spectralFluxOnsets [[1, 2], [3, 4], [0, 0]] 0.8) ∧ Refused (Onset.spectralFluxOnsets [[1, 2], [3]] 0.8) ∧
    Refused (Onset.spectralFluxOnsets [[1, 2], [3, 4]] F32.nan) := by
  have hr : Rectangular [[1, 2], [3, 4], [0, 0]] := ⟨2, by norm_num, by simp⟩
  refine ⟨(C132_spectral_partial _ _ (by simp)).1 ⟨hr, by unfold IsShare; decide +kernel⟩, (C132_spectral_partial _ _ (by simp)).2 ?_,
    (C132_spectral_partial _ _ (by simp)).2 ?_⟩
  · rintro ⟨⟨n, hn, h⟩, -⟩
    have a := h [1, 2] (by simp)
    have b := h [3] (by simp)
    simp at a b; omega
  · rintro ⟨-, h⟩
    unfold IsShare at h
    exact absurd h (by decide +kernel)

example : Refused (Novelty.hfc [[1, 2], [3]] 44100) ∧ Answered (Novelty.hfc [[1, 2], [3, 5]] 44100) ∧
    Refused (Novelty.hfc [[1, 2], [3, 5]] 0) := by
  have hr : Rectangular [[1, 2], [3, 5]] := ⟨2, by norm_num, by simp⟩
  refine ⟨(C132_novelty_partial _ _ (by simp)).2.2.2 ?_, (C132_novelty_partial _ _ (by simp)).2.2.1 ⟨by norm_num, hr⟩,
    (C132_novelty_partial _ _ (by simp)).2.2.2 (by simp)⟩
  rintro ⟨-, n, hn, h⟩
  have a := h [1, 2] (by simp)
  have b := h [3] (by simp)
  simp at a b; omega

example : Refused (Mixer.stereoToMono [1, 2] [3] .mono) ∧ Answered (Mixer.stereoToMono [1, 2] [3, 4] .mono) :=
  ⟨(C132_mono_partial _ _ _ (by simp)).2 (by simp), (C132_mono_partial _ _ _ (by simp)).1 (by simp)⟩

example : Refused (Tempogram.fftTempogram Libm.demo (fun _ _ => (0, 0)) [0, 1, 0] 44100 512 240 40) :=
  (C132_fft_partial _ _ _ _ _ _ _ (by decide +kernel) (by decide +kernel)).2 fun h => absurd h.2.2.2.2 (by decide +kernel)

/-- **C132 is violated.** Contrary to their documentation the spectral-flux and HFC detectors accept an empty
spectrogram, `spectral_flux_novelty` accepts fewer than two frames whatever they look like, and `stereo_to_mono` accepts
empty channels: all return an empty list. -/
theorem C132_violated : (∀ p, Onset.spectralFluxOnsets [] p = .ok []) ∧ (∀ sr p, Onset.hfcOnsets [] sr p = .ok []) ∧
    (∀ spec : List (List F32), spec.length < 2 → Novelty.spectralFlux spec = .ok []) ∧
    ∀ mode, Mixer.stereoToMono [] [] mode = .ok [] := by
  refine ⟨fun _ => rfl, fun _ _ => rfl, fun spec h => ?_, fun _ => rfl⟩
  unfold Novelty.spectralFlux
  rw [if_pos h]

/-- **C132 is violated** by the tempograms: a BPM range with a NaN bound is not refused; the tempogram is empty. -/
theorem C132_violated_range (M : Libm) (fft : List F32 → ℕ → F32 × F32) (nov : List F32) (sr hop fuel : ℕ) (x res : F32) (h0 : nov ≠ [])
    (h1 : sr ≠ 0) (h2 : hop ≠ 0) (hx : 0 < x) (hr : 0 < res) :
    ¬ IsBpmRange x F32.nan ∧ ¬ IsBpmRange F32.nan x ∧
    Tempogram.fftTempogram M fft nov sr hop x F32.nan = .ok [] ∧ Tempogram.fftTempogram M fft nov sr hop F32.nan x = .ok [] ∧
    Tempogram.acTempogram fuel nov sr hop x F32.nan res = .ok [] ∧ Tempogram.acTempogram fuel nov sr hop F32.nan x res = .ok [] := by
  have n1 : ∀ y : F32, ¬ y ≤ F32.nan := fun y h => F32.ne_nan_right h rfl
  have n2 : ∀ y : F32, ¬ F32.nan ≤ y := fun y h => F32.ne_nan_left h rfl
  have hx0 := F32.not_le_of_lt hx
  have hr0 := F32.not_le_of_lt hr
  refine ⟨fun h => n1 _ (F32.le_of_lt h.2), fun h => n2 _ (F32.le_of_lt h.2), ?_, ?_, ?_, ?_⟩
  · unfold Tempogram.fftTempogram
    rw [if_neg h0, if_neg h1, if_neg h2, if_neg (by rintro (h | h); exacts [hx0 h, n2 _ h])]
    dsimp only
    rw [List.filter_eq_nil_iff.2 (fun p _ => by simp [n1])]
    rfl
  · unfold Tempogram.fftTempogram
    rw [if_neg h0, if_neg h1, if_neg h2, if_neg (by rintro (h | h); exacts [n2 _ h, n1 _ h])]
    dsimp only
    rw [List.filter_eq_nil_iff.2 (fun p _ => by simp [n2])]
    rfl
  · unfold Tempogram.acTempogram
    rw [if_neg h0, if_neg h1, if_neg h2, if_neg (by rintro (h | h); exacts [hx0 h, n2 _ h]), if_neg hr0]
    cases fuel <;> simp [Tempogram.acLoop, n1] <;> rfl
  · unfold Tempogram.acTempogram
    rw [if_neg h0, if_neg h1, if_neg h2, if_neg (by rintro (h | h); exacts [n2 _ h, n1 _ h]), if_neg hr0]
    cases fuel <;> simp [Tempogram.acLoop, n2] <;> rfl

end Verif.Props
