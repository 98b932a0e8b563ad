/-
Model of the remaining parts of src/features/chroma/extractor.rs: tuning estimation (lines 66-170), harmonic
pitch-class profiles (497-681, 1097-1239) and the log-frequency spectrogram (701-807).  Log calls and error
texts are dropped.

Parameters besides the mathematical library: `powi x n` stands for `f32::powi`, and `sel k l` for the first `k`
entries of `l` after `select_nth_unstable_by(k - 1, descending)`, which entries with equal scores are kept and in which
order being left to the standard library.
-/
import Verif.Model.Mask

namespace Verif.Hpcp
open Verif Chroma

/-! ### Tuning -/

/-- the centre frequency of bin `i` -/
def binFreq (sr fft i : ℕ) : F32 := F32.ofNat i * (F32.ofNat sr / F32.ofNat fft)

/-- extractor.rs lines 111-120: the largest in-band magnitude, from bin `i` on -/
def peakFrom (sr fft : ℕ) (fmin fmax : F32) : ℕ → List F32 → F32 → F32
  | _, [], p => p
  | i, m :: ms, p =>
    if binFreq sr fft i < fmin then peakFrom sr fft fmin fmax (i + 1) ms p
    else if fmax < binFreq sr fft i then p
    else peakFrom sr fft fmin fmax (i + 1) ms (F32.max p m)

/-- extractor.rs lines 104-106: `(sum_sin, sum_cos, sum_w)` -/
structure Sums where
  s : F32
  c : F32
  w : F32
deriving DecidableEq

/-- extractor.rs lines 138-148: one bin above the threshold -/
def addBin (M : Libm) (f m : F32) (a : Sums) : Sums :=
  let semi := 12 * M.log2 (f / A4) + SEMI
  let w := M.powf (F32.max m 0) 0.5
  if w ≤ 0 then a
  else
    let angle := 2 * PI * (semi - semi.round)
    ⟨a.s + w * M.sin angle, a.c + w * M.cos angle, a.w + w⟩

/-- extractor.rs lines 127-149: the bins of one frame, from bin `i` on -/
def sumFrom (M : Libm) (sr fft : ℕ) (fmin fmax thr : F32) : ℕ → List F32 → Sums → Sums
  | _, [], a => a
  | i, m :: ms, a =>
    if m < thr then sumFrom M sr fft fmin fmax thr (i + 1) ms a
    else if binFreq sr fft i < fmin then sumFrom M sr fft fmin fmax thr (i + 1) ms a
    else if fmax < binFreq sr fft i then a
    else sumFrom M sr fft fmin fmax thr (i + 1) ms (addBin M (binFreq sr fft i) m a)

/-- extractor.rs lines 109-153: one frame -/
def addFrame (M : Libm) (sr fft : ℕ) (fmin fmax thr : F32) (a : Sums) (frame : List F32) : Sums :=
  let p := peakFrom sr fft fmin fmax 0 frame 0
  if p ≤ 1e-12 then a else sumFrom M sr fft fmin fmax (p * thr) 0 frame a

/-- extractor.rs lines 155-169 -/
def circularMean (M : Libm) (a : Sums) : F32 :=
  if a.w ≤ 1e-6 then 0
  else if F32.sqrt (a.s * a.s + a.c * a.c) / a.w < 0.05 then 0
  else M.atan2 a.s a.c / (2 * PI)

/-- every `step`-th element (`iter().step_by(step)`) -/
def everyNth {α} (step : ℕ) (l : List α) : List α := (l.zipIdx.filter (fun p => p.2 % step = 0)).map (·.1)

/-- extractor.rs lines 66-170 (`estimate_tuning_offset_semitones_from_spectrogram`) -/
def estimateTuning (M : Libm) (spec : List (List F32)) (sr fft : ℕ) (fminHz fmaxHz : F32) (frameStep : ℕ) (thr : F32) : R F32 :=
  if spec = [] then .ok 0
  else do
    checkSpec spec
    if sr = 0 ∨ fft = 0 then pure 0
    else do
      let fmin := F32.max fminHz 20
      let fmax ← clampP fmaxHz (fmin + 1) (F32.ofNat sr / 2)
      pure (circularMean M ((everyNth (Nat.max frameStep 1) spec).foldl
        (addFrame M sr fft fmin fmax (F32.clamp thr 0 1)) ⟨0, 0, 0⟩))

/-! ### Harmonic pitch-class profiles -/

/-- extractor.rs lines 565-571: `prefix[k]` -/
def whitePrefix (frame : List F32) (k : ℕ) : F32 := F32.sum ((frame.take k).map (fun x => F32.max x 0))

/-- extractor.rs lines 567-582: one whitened magnitude; `half` is half of the odd window -/
def whiteCell (frame : List F32) (half i : ℕ) : F32 :=
  let l := i - half
  let r := Nat.min (i + half) (frame.length - 1)
  let mean := (whitePrefix frame (r + 1) - whitePrefix frame l) / F32.max (F32.ofNat (r + 1 - l)) 1
  F32.min (F32.max (frame.getD i 0) 0 / (mean + 1e-12)) 20

/-- extractor.rs lines 561-583, `bins.max(3) | 1` being the next odd number: the curve on which peaks are picked -/
def scoreCurve (white : Bool) (bins : ℕ) (frame : List F32) : List F32 :=
  if white && decide (3 ≤ bins) then
    (List.range frame.length).map (whiteCell frame ((if bins % 2 = 0 then bins + 1 else bins) / 2))
  else frame

/-- extractor.rs lines 587-618: local maxima among the bins `i ..`, `n` of them -/
def peaksFrom (sr fft : ℕ) (fmin fmax : F32) (v : List F32) : ℕ → ℕ → List (ℕ × F32)
  | 0, _ => []
  | n + 1, i =>
    if binFreq sr fft i < fmin then peaksFrom sr fft fmin fmax v n (i + 1)
    else if fmax < binFreq sr fft i then []
    else if v.getD i 0 ≤ v.getD (i - 1) 0 ∨ v.getD i 0 < v.getD (i + 1) 0 then peaksFrom sr fft fmin fmax v n (i + 1)
    else (i, v.getD i 0) :: peaksFrom sr fft fmin fmax v n (i + 1)

/-- extractor.rs lines 529-543: the settings that do not change from frame to frame -/
structure Cfg where
  sr : ℕ
  fft : ℕ
  sigma : F32
  tuning : F32
  peaks : ℕ
  harmonics : ℕ
  decay : F32
  magPower : F32
  white : Bool
  bins : ℕ
deriving DecidableEq

/-- extractor.rs lines 644-669: the harmonics `h ..` of a peak at `f0`, `n` of them -/
def harmonics (M : Libm) (powi : F32 → ℕ → F32) (g : Cfg) (fmin fmax f0 w0 : F32) : ℕ → ℕ → List F32 → R (List F32)
  | 0, _, c => .ok c
  | n + 1, h, c =>
    if fmax < f0 * F32.ofNat h then .ok c
    else if f0 * F32.ofNat h < fmin then harmonics M powi g fmin fmax f0 w0 n (h + 1) c
    else do
      let hw := powi (F32.clamp g.decay 0 1) (h - 1) / F32.ofNat h
      let c' ← softStep M g.sigma (semitone M (f0 * F32.ofNat h) g.tuning) (w0 * hw) c
      harmonics M powi g fmin fmax f0 w0 n (h + 1) c'

/-- extractor.rs lines 633-670: one peak -/
def addPeak (M : Libm) (powi : F32 → ℕ → F32) (g : Cfg) (fmin fmax : F32) (frame : List F32) (c : List F32) (p : ℕ × F32) :
    R (List F32) :=
  let f0 := binFreq g.sr g.fft p.1
  let w0 := M.powf (F32.max (frame.getD p.1 0) 0) (F32.clamp g.magPower 0.05 1)
  if f0 ≤ 0 then .ok c
  else if w0 ≤ 0 then .ok c
  else harmonics M powi g fmin fmax f0 w0 (Nat.max g.harmonics 1) 1 c

/-- extractor.rs lines 587-618: the peaks of a frame -/
def framePeaks (g : Cfg) (fmin fmax : F32) (frame : List F32) : List (ℕ × F32) :=
  peaksFrom g.sr g.fft fmin fmax (scoreCurve g.white g.bins frame) (frame.length - 2) 1

/-- extractor.rs lines 529-681 (`frame_to_hpcp_tuned_band`; `frame_to_hpcp_tuned`, lines 499-526, passes `FMIN`, `FMAX`) -/
def frameToHpcp (M : Libm) (powi : F32 → ℕ → F32) (sel : ℕ → List (ℕ × F32) → List (ℕ × F32)) (g : Cfg)
    (fminHz fmaxHz : F32) (frame : List F32) : R (List F32) :=
  if frame = [] ∨ g.sr = 0 ∨ g.fft = 0 then .ok zero12
  else
    let fmin := F32.max fminHz 20
    let fmax := F32.min fmaxHz (F32.ofNat g.sr / 2)
    if fmax ≤ fmin then .ok zero12
    else
      let ps := framePeaks g fmin fmax frame
      if ps = [] then .ok zero12
      else do
        let c ← (sel (Nat.min (Nat.max g.peaks 1) ps.length) ps).foldlM (addPeak M powi g fmin fmax frame) zero12
        pure (unitOrKeep c)

/-- extractor.rs lines 1097-1150 (`extract_hpcp_from_spectrogram_with_options_and_energy_tuned`) -/
def hpcpOfSpec (M : Libm) (powi : F32 → ℕ → F32) (sel : ℕ → List (ℕ × F32) → List (ℕ × F32)) (g : Cfg)
    (spec : List (List F32)) : R (List (List F32) × List F32) :=
  if spec = [] then .ok ([], [])
  else do
    checkSpec spec
    let cs ← spec.mapM (frameToHpcp M powi sel g FMIN FMAX)
    pure (cs, spec.map energy)

/-- extractor.rs lines 1226-1235: the blend of two profiles of 12 entries -/
def blend (w : F32) (full bass : List F32) : List F32 :=
  unitOrKeep (List.zipWith (fun a b => (1 - w) * a + w * b) full bass)

/-- extractor.rs lines 1154-1239 (`extract_hpcp_bass_blend_from_spectrogram_with_options_and_energy_tuned`) -/
def bassBlend (M : Libm) (powi : F32 → ℕ → F32) (sel : ℕ → List (ℕ × F32) → List (ℕ × F32)) (g : Cfg)
    (bassFmin bassFmax weight : F32) (spec : List (List F32)) : R (List (List F32) × List F32) :=
  if spec = [] then .ok ([], [])
  else do
    checkSpec spec
    let cs ← spec.mapM (fun fr => do
      let full ← frameToHpcp M powi sel g FMIN FMAX fr
      let bass ← frameToHpcp M powi sel { g with peaks := Nat.min (Nat.max g.peaks 1) 12 } bassFmin bassFmax fr
      pure (blend (F32.clamp weight 0 1) full bass))
    pure (cs, spec.map energy)

/-! ### Log-frequency spectrogram -/

/-- `12.0 * (f / A4_FREQ).log2() + SEMITONE_OFFSET` (extractor.rs lines 740-741, 785) -/
def semi (M : Libm) (f : F32) : F32 := 12 * M.log2 (f / A4) + SEMI

/-- extractor.rs lines 785-800: share a magnitude at semitone position `x` (from the first bin) between two bins -/
def addLog (n : ℕ) (x m : F32) (v : List F32) : List F32 :=
  let lo := (F32.floor x).toUsize
  let hi := Nat.min (F32.ceil x).toUsize (n - 1)
  if lo < n then
    let wh := x - F32.ofNat lo
    let v := v.modify lo (fun y => y + m * (1 - wh))
    if hi ≠ lo ∧ hi < n then v.modify hi (fun y => y + m * wh) else v
  else v

/-- extractor.rs lines 774-801: the bins of one frame, from bin `i` on -/
def logFrom (M : Libm) (sr fft : ℕ) (fmin fmax : F32) (smin : ℤ) (n : ℕ) : ℕ → List F32 → List F32 → List F32
  | _, [], v => v
  | i, m :: ms, v =>
    if m ≤ 0 then logFrom M sr fft fmin fmax smin n (i + 1) ms v
    else if binFreq sr fft i < fmin ∨ fmax ≤ binFreq sr fft i ∨ F32.ofNat sr / 2 ≤ binFreq sr fft i then
      logFrom M sr fft fmin fmax smin n (i + 1) ms v
    else logFrom M sr fft fmin fmax smin n (i + 1) ms (addLog n (semi M (binFreq sr fft i) - F32.ofInt smin) m v)

/-- extractor.rs lines 744-752: the number of semitone bins; the subtraction and the addition panic when they leave `i32`
(debug semantics), and a negative number becomes a `usize` beyond every possible allocation, so that the vector of
line 756 panics -/
def semiBins (smin smax : ℤ) : R ℕ := do
  let d ← i32 (smax - smin)
  let n ← i32 (d + 1)
  if n < 0 then R.panic
  else if n = 0 then R.err .invalidInput
  else pure n.toNat

/-- extractor.rs lines 701-807 (`convert_linear_to_log_frequency_spectrogram`) -/
def toLog (M : Libm) (spec : List (List F32)) (sr fft : ℕ) (fminHz fmaxHz : F32) : R (List (List F32)) :=
  if spec = [] then .ok []
  else if ragged spec then R.err .invalidInput
  else if sr = 0 ∨ fft = 0 then R.err .invalidInput
  else do
    let fmin := F32.max fminHz 20
    let fmax := F32.min fmaxHz (F32.ofNat sr / 2 - 1)
    let smin := (F32.floor (semi M fmin)).toI32
    let smax := (F32.ceil (semi M fmax)).toI32
    let n ← semiBins smin smax
    pure (spec.map (fun fr => logFrom M sr fft fmin fmax smin n 0 fr (List.replicate n 0)))

end Verif.Hpcp
