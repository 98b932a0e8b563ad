/-
Model of src/features/onset/{threshold,energy_flux,spectral_flux,hfc,hpss}.rs.
Log calls are dropped.  Inside a loop `for i in 1..(len - 1)` the reads `v[i-1]`, `v[i]`, `v[i+1]` are
in bounds by the loop range; they are written `at v i` (0 outside the list, never reached).
-/
import Verif.Common

namespace Verif.Onset
open Verif

/-- `v[i]` at a position guarded by the surrounding loop range. -/
def at' (v : List F32) (i : ℕ) : F32 := v.getD i 0

/-! ### threshold.rs -/

/-- Median of an already sorted list, threshold.rs lines 51-55 and 62-66 (also hpss.rs lines 196-202
and 230-236).  `0` on the empty list, as in hpss.rs. -/
def medianSorted (s : List F32) : F32 :=
  if s = [] then 0
  else if s.length % 2 = 0 then (at' s (s.length / 2 - 1) + at' s (s.length / 2)) * 0.5
  else at' s (s.length / 2)

/-- threshold.rs lines 34-72 (`adaptive_threshold_median_mad`) -/
def medianMad (values : List F32) (k : F32) : R F32 :=
  if values = [] then R.err .invalidInput
  else if k < 0 then R.err .invalidInput
  else
    let median := medianSorted (sortAsc id values)
    let mad := medianSorted (sortAsc id (values.map (fun v => (v - median).abs)))
    .ok (median + k * mad)

/-- Index of the percentile, threshold.rs lines 105-106 (also spectral_flux.rs 168-169, hfc.rs
165-166, hpss.rs 327-328). -/
def pctIdx (n : ℕ) (p : F32) : ℕ := Nat.min (F32.ofNat n * p).toUsize (n - 1)

/-- `sorted[threshold_idx]`: threshold.rs lines 102-108 -/
def pctValue (values : List F32) (p : F32) : R F32 :=
  idx (sortAsc id values) (pctIdx values.length p)

/-- `(0.0..=1.0).contains(&p)` -/
def inUnit (p : F32) : Bool := decide (0 ≤ p) && decide (p ≤ 1)

/-- threshold.rs lines 88-109 (`percentile_threshold`) -/
def percentileThreshold (values : List F32) (p : F32) : R F32 :=
  if values = [] then R.err .invalidInput
  else if ¬ inUnit p then R.err .invalidInput
  else pctValue values p

/-! ### Peak picking shared by the four detectors

energy_flux.rs lines 170-217, spectral_flux.rs lines 180-210, hfc.rs lines 177-204 and hpss.rs lines
339-364 contain the same three steps; the returned number `k` is the index of the later of the two
frames whose difference is `flux[k-1]`. -/

/-- Interior local maxima above the threshold. -/
def interiorPeaks (f : List F32) (thr : F32) : List ℕ :=
  ((List.range' 1 (f.length - 1 - 1)).filter (fun i =>
    decide (thr < at' f i) && decide (at' f (i - 1) < at' f i) && decide (at' f (i + 1) ≤ at' f i))).map (· + 1)

/-- First position. -/
def firstPeak (f : List F32) (thr : F32) : List ℕ :=
  if 1 < f.length ∧ thr < at' f 0 ∧ at' f 1 ≤ at' f 0 then [1] else []

/-- Last position. -/
def lastPeak (f : List F32) (thr : F32) : List ℕ :=
  let last := f.length - 1
  if 1 < f.length ∧ thr < at' f last ∧ at' f (last - 1) < at' f last then [last + 1] else []

def rawPeaks (f : List F32) (thr : F32) : List ℕ := interiorPeaks f thr ++ firstPeak f thr ++ lastPeak f thr

/-- Half-wave rectified first difference (energy_flux.rs 139-144, hfc.rs 149-154, hpss.rs 312-317):
`(e[i] - e[i-1]).max(0.0)` for `i = 1..len`. -/
def diffFlux (e : List F32) : List F32 :=
  (List.range (e.length - 1)).map (fun i => F32.max (at' e (i + 1) - at' e i) 0)

/-! ### energy_flux.rs -/

/-- energy_flux.rs line 25, spectral_flux.rs line 25 -/
def EPS : F32 := 1e-10

/-- energy_flux.rs lines 122-131: RMS energy of frame `i` (slice panics if out of bounds) -/
def frameEnergy (samples : List F32) (frame hop i : ℕ) : R F32 := do
  let start := i * hop
  let stop := Nat.min (start + frame) samples.length
  let seg ← slice samples start stop
  pure (F32.sqrt (F32.sum (seg.map (fun x => x * x)) / F32.ofNat (stop - start)))

/-- energy_flux.rs lines 228-235: keep onsets at least half a hop after the last kept one -/
def spread (half : ℕ) : ℕ → List ℕ → List ℕ
  | _, [] => []
  | last, o :: os => if last + half ≤ o then o :: spread half o os else spread half last os

/-- energy_flux.rs lines 224-238 -/
def spreadAll (half : ℕ) (l : List ℕ) : List ℕ :=
  match l with
  | [] => []
  | o :: os => o :: spread half o os

/-- energy_flux.rs lines 67-243 (`detect_energy_flux_onsets`) -/
def energyFluxOnsets (M : Libm) (samples : List F32) (frame hop : ℕ) (thrDb : F32) : R (List ℕ) :=
  if samples = [] then .ok []
  else if frame = 0 then R.err .invalidInput
  else if hop = 0 then R.err .invalidInput
  else if samples.length < frame then .ok []
  else
    let nf := (samples.length - frame) / hop + 1
    if nf < 2 then .ok []
    else do
      let e ← (List.range nf).mapM (frameEnergy samples frame hop)
      let f := diffFlux e
      if f = [] then pure []
      else
        let maxFlux := F32.foldMax 0 f
        if maxFlux ≤ EPS then pure []
        else
          let thr := maxFlux * M.powf 10 (thrDb / 20)
          let raw := ((rawPeaks f thr).map (· * hop)).filter (fun o => decide (o < samples.length))
          pure (spreadAll (hop / 2) (sortNat raw))

/-! ### spectral_flux.rs -/

/-- spectral_flux.rs lines 118-132: normalise each frame to its maximum -/
def normFrame (frame : List F32) : List F32 :=
  let m := F32.foldMax 0 frame
  if EPS < m then frame.map (· / m) else frame.map (fun _ => 0)

/-- spectral_flux.rs lines 136-157: L2 norm of the positive differences -/
def spectralFlux (mags : List (List F32)) : List F32 :=
  let norm := mags.map normFrame
  (List.range (norm.length - 1)).map (fun i =>
    F32.sqrt (F32.sum (((norm.getD i []).zip (norm.getD (i + 1) [])).map (fun p =>
      let d := F32.max (p.2 - p.1) 0
      d * d))))

/-- Validation shared by spectral_flux.rs lines 78-103 and hfc.rs lines 92-117. -/
def framesOk (mags : List (List F32)) (pct : F32) : Option ErrKind :=
  if ¬ inUnit pct then some .invalidInput
  else if (mags.headD []).length = 0 then some .invalidInput
  else if mags.any (fun f => f.length != (mags.headD []).length) then some .invalidInput
  else none

/-- Thresholding and peak picking on a non-empty flux: spectral_flux.rs 165-216, hfc.rs 162-210,
hpss.rs 324-368. -/
def pickFrames (f : List F32) (pct : F32) : R (List ℕ) := do
  let thr ← pctValue f pct
  pure (dedupAdj (sortNat (rawPeaks f thr)))

/-- spectral_flux.rs lines 69-221 (`detect_spectral_flux_onsets`) -/
def spectralFluxOnsets (mags : List (List F32)) (pct : F32) : R (List ℕ) :=
  if mags = [] then .ok []
  else match framesOk mags pct with
  | some e => R.err e
  | none =>
    if mags.length < 2 then .ok []
    else
      let f := spectralFlux mags
      if f = [] then .ok [] else pickFrames f pct

/-! ### hfc.rs -/

/-- hfc.rs lines 130-140: `hfc += bin_idx as f32 * magnitude * magnitude` -/
def hfcOf (frame : List F32) : F32 :=
  (frame.zipIdx).foldl (fun acc p => acc + F32.ofNat p.2 * p.1 * p.1) 0

/-- hfc.rs lines 76-215 (`detect_hfc_onsets`) -/
def hfcOnsets (mags : List (List F32)) (sampleRate : ℕ) (pct : F32) : R (List ℕ) :=
  if mags = [] then .ok []
  else if sampleRate = 0 then R.err .invalidInput
  else match framesOk mags pct with
  | some e => R.err e
  | none =>
    if mags.length < 2 then .ok []
    else
      let f := diffFlux (mags.map hfcOf)
      if f = [] then .ok [] else pickFrames f pct

/-! ### hpss.rs -/

/-- hpss.rs lines 275-373 (`detect_hpss_onsets`) -/
def hpssOnsets (perc : List (List F32)) (pct : F32) : R (List ℕ) :=
  if perc = [] then .ok []
  else if ¬ inUnit pct then R.err .invalidInput
  else if perc.length < 2 then .ok []
  else
    let f := diffFlux (perc.map (fun fr => F32.sum (fr.map (fun x => x * x))))
    if f = [] then .ok [] else pickFrames f pct

/-- Median of a window, hpss.rs lines 195-202 / 229-236 -/
def windowMedian (w : List F32) : F32 := medianSorted (sortAsc id w)

/-- Window `[i - margin, i + margin]` clipped to the list, hpss.rs lines 189-192 / 223-226 -/
def window (v : List F32) (margin i : ℕ) : List F32 :=
  (v.drop (i - margin)).take (Nat.min (i + margin + 1) v.length - (i - margin))

/-- Entry `[frame][bin]` of a rectangular spectrogram. -/
def cell (s : List (List F32)) (i j : ℕ) : F32 := at' (s.getD i []) j

/-- hpss.rs lines 179-209 (`apply_horizontal_median_filter`), for a rectangular spectrogram -/
def medianTime (s : List (List F32)) (margin : ℕ) : List (List F32) :=
  s.zipIdx.map (fun p => (List.range (s.headD []).length).map (fun j =>
    windowMedian (window (s.map (fun fr => at' fr j)) margin p.2)))

/-- hpss.rs lines 213-243 (`apply_vertical_median_filter`), for a rectangular spectrogram -/
def medianFreq (s : List (List F32)) (margin : ℕ) : List (List F32) :=
  s.map (fun fr => (List.range (s.headD []).length).map (fun j => windowMedian (window fr margin j)))

/-- hpss.rs lines 133-147: soft mask of one cell -/
def splitCell (orig h p : F32) : F32 × F32 :=
  let total := h + p
  if 1e-10 < total then (orig * (h / total), orig * (p / total)) else (orig * 0.5, orig * 0.5)

/-- One refinement iteration, hpss.rs lines 117-149 -/
def hpssStep (orig : List (List F32)) (margin : ℕ) (hp : List (List F32) × List (List F32)) :
    List (List F32) × List (List F32) :=
  let h := medianTime hp.1 margin
  let p := medianFreq hp.2 margin
  (orig.zipIdx.map (fun fr => fr.1.zipIdx.map (fun c => (splitCell c.1 (cell h fr.2 c.2) (cell p fr.2 c.2)).1)),
   orig.zipIdx.map (fun fr => fr.1.zipIdx.map (fun c => (splitCell c.1 (cell h fr.2 c.2) (cell p fr.2 c.2)).2)))

/-- Largest change of any cell, hpss.rs lines 153-163 -/
def maxChange (a b : List (List F32) × List (List F32)) : F32 :=
  F32.foldMax 0 (((a.1.flatten.zip b.1.flatten).zip (a.2.flatten.zip b.2.flatten)).flatMap
    (fun q => [(q.1.1 - q.1.2).abs, (q.2.1 - q.2.2).abs]))

/-- The refinement loop, hpss.rs lines 112-170 (`n` iterations left, `it` the iteration index) -/
def hpssLoop (orig : List (List F32)) (margin : ℕ) :
    ℕ → ℕ → List (List F32) × List (List F32) → List (List F32) × List (List F32)
  | 0, _, hp => hp
  | n + 1, it, hp =>
    let hp' := hpssStep orig margin hp
    if 0 < it ∧ maxChange hp' hp < 1e-6 then hp' else hpssLoop orig margin n (it + 1) hp'

/-- hpss.rs lines 71-175 (`hpss_decompose`) with `DEFAULT_ITERATIONS` (line 25) iterations -/
def hpssDecompose (spec : List (List F32)) (margin : ℕ) : R (List (List F32) × List (List F32)) :=
  if spec = [] then R.err .invalidInput
  else if (spec.headD []).length = 0 then R.err .invalidInput
  else if spec.any (fun f => f.length != (spec.headD []).length) then R.err .invalidInput
  else .ok (hpssLoop spec margin 10 0 (spec, spec))

end Verif.Onset
