/-
Model of src/preprocessing/normalization.rs.  Logging calls are dropped.  Samples mutated in place
become returned lists.
-/
import Verif.Common

namespace Verif.Norm
open Verif

/-- lines 30-37 (`NormalizationMethod`) -/
inductive Method where
  | peak | rms | loudness
deriving DecidableEq

/-- lines 41-50 (`NormalizationConfig`) -/
structure Config where
  targetLufs : F32
  headroomDb : F32
  method : Method

/-- lines 64-73 (`LoudnessMetadata`) -/
structure Meta where
  lufs : Option F32
  peakDb : F32
  rmsDb : F32
  gainDb : F32
deriving DecidableEq

/-- line 87 -/
def EPS : F32 := 1e-10

/-- `f32::NEG_INFINITY` -/
def negInf : F32 := F32.inf true

/-- lines 112-123 (`KWeightingFilter`): state and normalised coefficients -/
structure KFilter where
  x1 : F32
  x2 : F32
  b0 : F32
  b1 : F32
  b2 : F32
  a1 : F32
  a2 : F32

/-- lines 131-158 (`KWeightingFilter::new`) -/
def KFilter.new (M : Libm) (sampleRate : F32) : KFilter :=
  let w0 := 2 * (3.1415927 : F32) * 1681.9745 / sampleRate
  let cosw := M.cos w0
  let sinw := M.sin w0
  let alpha := sinw / 2 * F32.sqrt (1 / 0.707)
  let b0 := (1 + cosw) / 2
  let b1 := -(1 + cosw)
  let b2 := (1 + cosw) / 2
  let a0 := 1 + alpha
  let a1 := -2 * cosw
  let a2 := 1 - alpha
  ⟨0, 0, b0 / a0, b1 / a0, b2 / a0, a1 / a0, a2 / a0⟩

/-- lines 161-167 (`process`) -/
def KFilter.process (f : KFilter) (s : F32) : F32 × KFilter :=
  let out := f.b0 * s + f.x1
  (out, { f with x1 := f.b1 * s + f.x2 - f.a1 * out, x2 := f.b2 * s - f.a2 * out })

/-- lines 206-207: filtering the whole signal -/
def KFilter.run : KFilter → List F32 → List F32
  | _, [] => []
  | f, s :: ss => let (o, f') := f.process s; o :: f'.run ss

/-- `(samples.iter().map(|&x| x * x).sum::<f32>() / samples.len() as f32)`, lines 218-219, 303, 337, 443, 464 -/
def meanSq (l : List F32) : F32 := F32.sum (l.map (fun x => x * x)) / F32.ofNat l.length

/-- lines 185-259 (`calculate_lufs`) -/
def calculateLufs (M : Libm) (samples : List F32) (sampleRate : F32) : R F32 :=
  if samples = [] then R.err .invalidInput
  else if sampleRate ≤ 0 then R.err .invalidInput
  else
    let block := (sampleRate * 400 / 1000).toUsize
    if block = 0 then R.err .invalidInput
    else do
      let filtered := (KFilter.new M sampleRate).run samples
      let nb := (filtered.length + block - 1) / block
      let energies ← (List.range nb).mapM (fun i => do
        let start := i * block
        let stop := Nat.min (start + block) filtered.length
        let seg ← slice filtered start stop
        pure (meanSq seg))
      if energies = [] then R.err .processing
      else
        let gate := M.powf 10 ((-70 + 0.691) / 10)
        let gated := energies.filter (fun e => decide (gate < e))
        if gated = [] then pure negInf
        else
          let mean := F32.sum gated / F32.ofNat gated.length
          if mean ≤ EPS then R.err .numerical
          else pure (-0.691 + 10 * M.log10 mean)

/-- `samples.iter().map(|&x| x.abs()).fold(0.0f32, f32::max)`, lines 273, 353, 427 -/
def peakOf (l : List F32) : F32 := F32.foldMax 0 (l.map F32.abs)

/-- `rms_db` computed after the gain, lines 303-308, 443-448, 464-469 -/
def rmsDbOf (M : Libm) (l : List F32) : F32 :=
  let rms := F32.sqrt (meanSq l)
  if EPS < rms then 20 * M.log10 rms else negInf

/-- lines 262-322 (`normalize_peak`) -/
def normalizePeak (M : Libm) (samples : List F32) (headroomDb : F32) : R (List F32 × Meta) :=
  if samples = [] then R.err .invalidInput
  else
    let peak := peakOf samples
    if peak ≤ EPS then .ok (samples, ⟨none, negInf, negInf, 0⟩)
    else
      let peakDb := 20 * M.log10 peak
      let target := M.powf 10 ((0 - headroomDb) / 20)
      let gain := target / peak
      let gainDb := 20 * M.log10 gain
      let gain := F32.min gain (1 / peak)
      let out := samples.map (· * gain)
      .ok (out, ⟨none, peakDb, rmsDbOf M out, gainDb⟩)

/-- lines 325-398 (`normalize_rms`) -/
def normalizeRms (M : Libm) (samples : List F32) (targetRmsDb headroomDb : F32) :
    R (List F32 × Meta) :=
  if samples = [] then R.err .invalidInput
  else
    let rms := F32.sqrt (meanSq samples)
    if rms ≤ EPS then .ok (samples, ⟨none, negInf, negInf, 0⟩)
    else
      let rmsDb := 20 * M.log10 rms
      let peak := peakOf samples
      let peakDb := 20 * M.log10 peak
      let target := M.powf 10 ((targetRmsDb - headroomDb) / 20)
      let gain := target / rms
      let gainDb := 20 * M.log10 gain
      let newPeak := peak * gain
      if 1 < newPeak then
        let maxGain := 1 / peak
        .ok (samples.map (· * maxGain), ⟨none, peakDb, rmsDb, 20 * M.log10 maxGain⟩)
      else .ok (samples.map (· * gain), ⟨none, peakDb, rmsDb, gainDb⟩)

/-- lines 401-484 (`normalize_lufs`) -/
def normalizeLufs (M : Libm) (samples : List F32) (targetLufs headroomDb sampleRate : F32) :
    R (List F32 × Meta) :=
  if samples = [] then R.err .invalidInput
  else do
    let measured ← calculateLufs M samples sampleRate
    if measured.feq negInf then normalizePeak M samples headroomDb
    else
      let gainDb := targetLufs - measured
      let gain := M.powf 10 (gainDb / 20)
      let peak := peakOf samples
      let peakDb := 20 * M.log10 peak
      let newPeak := peak * gain
      let targetPeak := M.powf 10 ((0 - headroomDb) / 20)
      if targetPeak < newPeak then
        let maxGain := targetPeak / peak
        let out := samples.map (· * maxGain)
        pure (out, ⟨some measured, peakDb, rmsDbOf M out, 20 * M.log10 maxGain⟩)
      else
        let out := samples.map (· * gain)
        pure (out, ⟨some measured, peakDb, rmsDbOf M out, gainDb⟩)

/-- lines 520-547 (`normalize`) -/
def normalize (M : Libm) (samples : List F32) (c : Config) (sampleRate : F32) :
    R (List F32 × Meta) :=
  match c.method with
  | .peak => normalizePeak M samples c.headroomDb
  | .rms => normalizeRms M samples (c.targetLufs + 3) c.headroomDb
  | .loudness => normalizeLufs M samples c.targetLufs c.headroomDb sampleRate

end Verif.Norm
