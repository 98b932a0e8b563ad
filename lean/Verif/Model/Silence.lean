/-
Model of src/preprocessing/silence.rs.
-/
import Verif.Common

namespace Verif.Silence
open Verif

/-- src/preprocessing/silence.rs lines 27-38 (`SilenceDetector`). -/
structure Detector where
  thresholdDb : F32
  minDurationMs : ℕ
  frameSize : ℕ

/-- src/preprocessing/silence.rs lines 52-59 (`SilenceRegion`); `duration_seconds` is dropped,
it never reaches the caller. -/
structure Region where
  start : ℕ
  stop : ℕ
deriving DecidableEq, Repr

/-- RMS of one frame, lines 159-165. -/
def frameRms (frame : List F32) : F32 :=
  if frame.length > 0 then
    F32.sqrt (F32.sum (frame.map (fun x => x * x)) / F32.ofNat frame.length)
  else 0

/-- Number of analysed frames, lines 144-149; `hop = 0` with a full frame available is an integer
division by zero (panic), handled in `detectAndTrim`. -/
def numFrames (n frameSize hop : ℕ) : ℕ :=
  if frameSize ≤ n then (n - frameSize) / hop + 1 else 1

/-- Body of the frame loop, lines 154-169. -/
def frameRmsAt (samples : List F32) (frameSize hop i : ℕ) : R F32 := do
  let start := i * hop
  let stop := Nat.min (start + frameSize) samples.length
  let seg ← slice samples start stop
  pure (frameRms seg)

/-- Loop state of lines 184-218. -/
structure Walk where
  regions : List Region
  inSilence : Bool
  startFrame : ℕ

/-- One iteration of the loop of lines 188-218 (`frame_starts[i]` is `idx starts i`). -/
def walkStep (n numFrames minFrames : ℕ) (starts : List ℕ) (st : Walk) (frameIdx : ℕ)
    (isSilent : Bool) : R Walk :=
  if isSilent && !st.inSilence then
    pure { st with inSilence := true, startFrame := frameIdx }
  else if !isSilent && st.inSilence then do
    let dur := frameIdx - st.startFrame
    if dur ≥ minFrames ∨ st.startFrame = 0 ∨ frameIdx = numFrames then
      let s ← idx starts st.startFrame
      let e ← if frameIdx < starts.length then idx starts frameIdx else pure n
      pure { st with regions := st.regions ++ [⟨s, e⟩], inSilence := false }
    else pure { st with inSilence := false }
  else pure st

/-- The loop of lines 188-218 from frame `k` on. -/
def walk (n numFrames minFrames : ℕ) (starts : List ℕ) : List Bool → ℕ → Walk → R Walk
  | [], _, st => pure st
  | b :: bs, k, st => do
    let st' ← walkStep n numFrames minFrames starts st k b
    walk n numFrames minFrames starts bs (k + 1) st'

/-- Trailing silence, lines 221-231. -/
def finish (n numFrames minFrames : ℕ) (starts : List ℕ) (st : Walk) : R (List Region) :=
  if st.inSilence then
    if numFrames - st.startFrame ≥ minFrames ∨ st.startFrame = 0 then do
      let s ← idx starts st.startFrame
      pure (st.regions ++ [⟨s, n⟩])
    else pure st.regions
  else pure st.regions

/-- Trim bounds, lines 234-256. -/
def trimBounds (n : ℕ) (regions : List Region) : ℕ × ℕ :=
  let trimStart := match regions.head? with
    | some r => if r.start = 0 then r.stop else 0
    | none => 0
  let trimEnd := match regions.getLast? with
    | some r => if r.stop = n then r.start else n
    | none => n
  let trimStart := Nat.min trimStart trimEnd
  let trimEnd := Nat.max trimEnd trimStart
  (trimStart, trimEnd)

/-- Minimum silence length in frames, lines 179-181 (`div_ceil`). -/
def minFrames (det : Detector) (sampleRate hop : ℕ) : ℕ :=
  let minSamples := (F32.ofNat det.minDurationMs / 1000 * F32.ofNat sampleRate).toUsize
  (minSamples + (hop - 1)) / hop

/-- Silent-region map from the frame loudness decisions: lines 184-231. -/
def regionsOf (n nf minF hop : ℕ) (silent : List Bool) : R (List Region) := do
  let starts := (List.range nf).map (· * hop)
  let st ← walk n nf minF starts silent 0 ⟨[], false, 0⟩
  finish n nf minF starts st

/-- `detect_and_trim`, lines 102-279.  Result: trimmed samples and silence map. -/
def detectAndTrim (M : Libm) (samples : List F32) (sampleRate : ℕ) (det : Detector) :
    R (List F32 × List (ℕ × ℕ)) :=
  if samples = [] then pure ([], [])
  else if sampleRate = 0 then R.err .invalidInput
  else if det.frameSize = 0 then R.err .invalidInput
  else do
    let n := samples.length
    let thr := M.powf 10 (det.thresholdDb / 20)
    let hop := det.frameSize / 2
    -- lines 146 and 181 divide by `hop`; line 146 only when a full frame fits, line 181 always
    if hop = 0 then R.panic
    else
      let nf := numFrames n det.frameSize hop
      let rms ← (List.range nf).mapM (frameRmsAt samples det.frameSize hop)
      let silent := rms.map (fun r => decide (r ≤ thr))
      let regions ← regionsOf n nf (minFrames det sampleRate hop) hop silent
      let (a, b) := trimBounds n regions
      let trimmed ← if a < b ∧ b ≤ n then slice samples a b else pure []
      pure (trimmed, regions.map (fun r => (r.start, r.stop)))

end Verif.Silence
