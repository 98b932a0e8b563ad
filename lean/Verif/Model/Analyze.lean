/-
Model of `analyze_audio` (src/lib.rs lines 88-1635) on top of the models of its parts.

Left out: log and debug output (`debug_track_id` is taken to be `None`), `processing_time_ms`, the
constant `algorithm_version`, and `compute_confidence` at the end, whose value is only logged.
-/
import Verif.Model.Pipeline
import Verif.Model.Normalization
import Verif.Model.Silence
import Verif.Model.Onset
import Verif.Model.MultiRes
import Verif.Model.Beat
import Verif.Model.Mask
import Verif.Model.Hpcp
import Verif.Model.KeyDet

namespace Verif.Analyze
open Verif Verif.Keys Tempogram

/-- the libraries the code calls: libm, the three FFT shapes, `powi`, the peak selection, the iteration
orders of hash maps, the number formatter, and the fuel of the loops that may not end -/
structure Lib where
  M : Libm
  sfft : List F32 → List (F32 × F32)
  fft : List F32 → ℕ → F32 × F32
  ifft : List F32 → ℕ → F32
  powi : F32 → ℕ → F32
  sel : ℕ → List (ℕ × F32) → List (ℕ × F32)
  ord : List (Key × F32) → List (Key × F32)
  ord2 : List (Key × F32) → List (Key × F32)
  fmt : F32 → List Char
  fuel : ℕ

/-- config.rs lines 8-591 (`AnalysisConfig`) with the values of `Default` (594-744) as defaults; the debug
fields are left out -/
structure Config where
  minAmplitudeDb : F32 := -40
  normalization : Norm.Method := .peak
  enableNormalization : Bool := true
  enableSilenceTrimming : Bool := true
  enableOnsetConsensus : Bool := true
  onsetPercentile : F32 := 0.80
  onsetTolMs : ℕ := 50
  onsetWeights : ℕ → F32 := fun _ => 0.25
  enableHpssOnsets : Bool := false
  hpssMargin : ℕ := 10
  forceLegacy : Bool := false
  enableFusion : Bool := false
  enableGuardrails : Bool := true
  guard : Period.Guard := ⟨72, 168, 60, 210, 1.30, 0.70, 0.01⟩
  enableMultiRes : Bool := true
  multiTopK : ℕ := 25
  multiW : MultiRes.Weights := ⟨0.45, 0.35, 0.20, 0.92, 0.08, false⟩
  enablePercussive : Bool := false
  band : BandCfg := ⟨true, 200, 2000, 8000, 0.40, 0.25, 0.20, 0.15, true, 0.25, 0.08, true, 40, 30, 8000, 2, 0.15,
    0.30, 0.35, 0.35, 16, 5, 4⟩
  emitCands : Bool := false
  candsTopN : ℕ := 10
  minBpm : F32 := 40
  maxBpm : F32 := 240
  bpmRes : F32 := 1
  frame : ℕ := 2048
  hop : ℕ := 512
  centerFrequency : F32 := 440
  softChroma : Bool := true
  softSigma : F32 := 0.5
  sharpening : F32 := 1
  enableTimeSmoothing : Bool := true
  smoothMargin : ℕ := 12
  enableFrameWeighting : Bool := true
  minTonalness : F32 := 0
  tonalnessPower : F32 := 2
  energyPower : F32 := 0.50
  enableHarmonicMask : Bool := true
  harmonicMaskPower : F32 := 2
  enableKeyHpss : Bool := false
  keyHpssStep : ℕ := 4
  keyHpssTime : ℕ := 8
  keyHpssFreq : ℕ := 8
  keyHpssPower : F32 := 2
  enableKeyStft : Bool := true
  keyFrame : ℕ := 8192
  keyHop : ℕ := 512
  enableLogFreq : Bool := false
  enableBeatSync : Bool := false
  enableMultiScale : Bool := false
  multiScaleLens : List ℕ := [120, 360, 720]
  multiScaleHop : ℕ := 60
  multiScaleClarity : F32 := 0.20
  multiScaleWeights : List F32 := []
  temperley : Bool := false
  enableEnsemble : Bool := false
  ensembleKK : F32 := 0.5
  ensembleTemp : F32 := 0.5
  enableMedian : Bool := false
  medianLen : ℕ := 480
  medianHop : ℕ := 120
  medianMin : ℕ := 3
  enableTuning : Bool := false
  tuningMax : F32 := 0.08
  tuningStep : ℕ := 20
  tuningThr : F32 := 0.35
  enableEdgeTrim : Bool := false
  edgeFraction : F32 := 0.15
  enableSegments : Bool := true
  segLen : ℕ := 1024
  segHop : ℕ := 512
  segClarity : F32 := 0.20
  enableMode : Bool := false
  thirdMargin : F32 := 0
  flipMin : F32 := 0.60
  enableHpcp : Bool := true
  hpcpPeaks : ℕ := 24
  hpcpHarmonics : ℕ := 4
  hpcpDecay : F32 := 0.60
  hpcpPower : F32 := 0.50
  enableWhitening : Bool := false
  whiteningBins : ℕ := 31
  enableBass : Bool := false
  bassFmin : F32 := 55
  bassFmax : F32 := 300
  bassWeight : F32 := 0.35
  enableMinorBonus : Bool := false
  minorBonusWeight : F32 := 0.2

/-- `match call { Ok(x) => Some(x), Err(e) => { log; None } }`: an `Err` is swallowed, a panic is not -/
def attempt {α} : R α → R (Option α)
  | .ok a => .ok (some a)
  | .error (.err _) => .ok none
  | .error e => .error e

/-- `match call { Ok(x) => x, Err(e) => { log; d } }` -/
def orElse {α} (d : α) (r : R α) : R α := do pure ((← attempt r).getD d)

/-! ### Preprocessing and onsets -/

/-- lib.rs lines 113-127 -/
def normalized (L : Lib) (c : Config) (samples : List F32) (sr : ℕ) : R (List F32) :=
  if c.enableNormalization then do
    let r ← Norm.normalize L.M samples ⟨-14, 1, c.normalization⟩ (F32.ofNat sr)
    pure r.1
  else .ok samples

/-- lib.rs lines 129-141 -/
def trimmed (L : Lib) (c : Config) (samples : List F32) (sr : ℕ) : R (List F32) :=
  if c.enableSilenceTrimming then do
    let r ← Silence.detectAndTrim L.M samples sr ⟨c.minAmplitudeDb, 500, c.frame⟩
    pure r.1
  else .ok samples

/-- lib.rs lines 173-291: the onset list used by the legacy estimate and by beat tracking -/
def onsets (c : Config) (energy : List ℕ) (spec : List (List F32)) (n sr : ℕ) : R (List ℕ) :=
  if c.enableOnsetConsensus && decide (spec ≠ []) then do
    let sf ← orElse [] (Onset.spectralFluxOnsets spec c.onsetPercentile)
    let hf ← orElse [] (Onset.hfcOnsets spec sr c.onsetPercentile)
    let hp ← if c.enableHpssOnsets then
        orElse [] (do
          let d ← Onset.hpssDecompose spec c.hpssMargin
          Onset.hpssOnsets d.2 c.onsetPercentile)
      else .ok []
    let voted ← attempt (Consensus.voteOnsets ⟨energy, Pipeline.toSamples sf c.hop n, Pipeline.toSamples hf c.hop n,
      Pipeline.toSamples hp c.hop n⟩ c.onsetWeights c.onsetTolMs sr)
    pure (Pipeline.chooseOnsets energy voted)
  else .ok energy

/-- lib.rs lines 294-329 -/
def legacy (L : Lib) (c : Config) (ons : List ℕ) (sr : ℕ) : R (Option Period.Est) :=
  if 2 ≤ ons.length then
    Period.estimateBpm L.M L.ifft L.fuel ons sr c.hop c.minBpm c.maxBpm c.bpmRes (if c.enableGuardrails then some c.guard else none)
  else .ok none

/-! ### Tempogram branch -/

/-- lib.rs lines 375-377 -/
def useAux (c : Config) : Bool := c.band.enabled || c.band.mel || decide (0 < c.band.bonus)

/-- lib.rs lines 387-408 (and 597-618, 716-737): `hop_size as u32` keeps the low 32 bits -/
def tempoParams (c : Config) (sr : ℕ) : Params := ⟨sr, c.hop % 2 ^ 32, c.minBpm, c.maxBpm, c.bpmRes⟩

/-- lib.rs lines 346-373, 387-408: the band settings passed to the estimator -/
def tempoBand (c : Config) : Option BandCfg := if useAux c then some c.band else none

/-- lib.rs lines 412 and 413 -/
def trapLow (b : F32) : Bool := decide (55 ≤ b) && decide (b ≤ 80)
def trapHigh (b : F32) : Bool := decide (170 ≤ b) && decide (b ≤ 200)

/-- lib.rs lines 420-432 -/
def candSupport (cands : List CandDbg) (bpm tol : F32) : F32 :=
  cands.foldl (fun best c => if (c.bpm - bpm).abs ≤ tol then F32.max best c.score else best) 0

/-- lib.rs lines 434-439 -/
def familyCompetes (res : F32) (b : F32) (cands : List CandDbg) : Bool :=
  let tol := F32.max 2 res
  let s := candSupport cands b tol
  let s2 := candSupport cands (b * 2) tol
  let sh := candSupport cands (b * 0.5) tol
  (decide (0 < s2) && decide (s * 0.90 ≤ s2)) || (decide (0 < sh) && decide (s * 0.90 ≤ sh))

/-- lib.rs lines 453-457 -/
def ambiguous (res : F32) (base : Period.Est) (cands : List CandDbg) : Bool :=
  let fold := decide (170 ≤ base.bpm * 2) && decide (base.bpm * 2 ≤ 200)
  let weak := decide (base.agreement = 0) || decide (base.conf < 0.06)
  trapLow base.bpm || trapHigh base.bpm || familyCompetes res base.bpm cands || (weak && fold)

/-- lib.rs lines 515-519 and 624-629 -/
def ratio (a b : F32) : F32 := if 1e-6 < a then F32.max (b / a) (a / b) else 1

/-- `(rel - r).abs() < 0.05` -/
def closeTo (rel r : F32) : Bool := decide ((rel - r).abs < 0.05)

/-- lib.rs lines 515-539 -/
def mrBetter (base mr : Period.Est) : Bool :=
  let rel := ratio base.bpm mr.bpm
  let family := closeTo rel 2 || closeTo rel 1.5 || closeTo rel (4 / 3)
  let forbid := decide (base.bpm ≤ 180) && decide (180 < mr.bpm)
  !forbid &&
    (decide (base.conf + 0.05 ≤ mr.conf) ||
     (decide (base.agreement < mr.agreement) && decide (base.conf * 0.90 ≤ mr.conf)) ||
     ((trapLow base.bpm || trapHigh base.bpm) && family && decide (base.conf * 0.88 ≤ mr.conf) &&
       ((decide (70 ≤ mr.bpm) && decide (mr.bpm ≤ 180)) || decide (180 < base.bpm))))

/-- lib.rs lines 624-657 -/
def percBetter (base chosen p : Period.Est) : Bool :=
  let rel := ratio chosen.bpm p.bpm
  let family := closeTo rel 2 || closeTo rel 1.5 || closeTo rel (4 / 3) || closeTo rel (3 / 2) ||
    closeTo rel (2 / 3) || closeTo rel (3 / 4)
  let forbid := decide (chosen.bpm ≤ 180) && decide (180 < p.bpm)
  let low := trapLow base.bpm || decide (base.bpm < 95)
  !forbid && family && (decide (70 ≤ p.bpm) && decide (p.bpm ≤ 180)) &&
    (decide (chosen.conf + 0.04 ≤ p.conf) ||
     (low && decide (chosen.conf * 0.85 ≤ p.conf)) ||
     (decide (chosen.agreement < p.agreement) && decide (chosen.conf * 0.92 ≤ p.conf)))

/-- what the tempogram branch leaves behind: the estimate and the `tempogram_*` metadata -/
structure Tempo where
  est : Option Period.Est
  cands : Option (List CandDbg)
  mrTriggered : Option Bool
  mrUsed : Option Bool
  percTriggered : Option Bool
  percUsed : Option Bool

/-- lib.rs lines 489-580: the estimate after the multi-resolution pass -/
def afterMulti (L : Lib) (c : Config) (samples : List F32) (sr : ℕ) (amb : Bool) (base : Period.Est × List CandDbg) :
    R ((Period.Est × List CandDbg) × Bool) :=
  if amb then do
    let r ← attempt (MultiRes.fromSamples L.M L.sfft L.fft L.fuel samples sr c.frame c.minBpm c.maxBpm c.bpmRes
      c.multiTopK c.multiW (some c.band))
    match r with
    | some mr => pure (if mrBetter base.1 mr.1 then (mr, true) else (base, false))
    | none => pure (base, false)
  else .ok (base, false)

/-- lib.rs lines 590-683: the estimate after the percussive pass, with `tempogram_percussive_used` -/
def afterPerc (L : Lib) (c : Config) (spec : List (List F32)) (sr topN : ℕ) (needed : Bool) (base : Period.Est)
    (chosen : Period.Est × List CandDbg) : R ((Period.Est × List CandDbg) × Option Bool) :=
  if c.enablePercussive && needed then do
    let d ← attempt (Onset.hpssDecompose spec c.hpssMargin)
    match d with
    | none => pure (chosen, some false)
    | some hp =>
      let p ← attempt (estimateCands L.M L.fft L.fuel hp.2 (tempoParams c sr) topN (tempoBand c))
      match p with
      | none => pure (chosen, some false)
      | some pe => pure (if percBetter base chosen.1 pe.1 then (pe, some true) else (chosen, some false))
  else if c.enablePercussive then .ok (chosen, some false)
  else .ok (chosen, none)

/-- lib.rs lines 379-714: base estimate, then the escalations -/
def tempoMulti (L : Lib) (c : Config) (samples : List F32) (spec : List (List F32)) (sr : ℕ) : R Tempo := do
  let topN := Nat.max (Nat.max c.candsTopN c.multiTopK) 10
  let base ← attempt (estimateCands L.M L.fft L.fuel spec (tempoParams c sr) topN (tempoBand c))
  match base with
  | none => pure ⟨none, none, none, none, none, none⟩
  | some b =>
    let amb := ambiguous c.bpmRes b.1 b.2
    let (chosen, usedMr) ← afterMulti L c samples sr amb b
    let needed := amb && trapLow b.1.bpm
    let (final, usedP) ← afterPerc L c spec sr topN needed b.1 chosen
    pure ⟨some final.1, if c.emitCands then some final.2 else none, some amb, some usedMr, some needed, usedP⟩

/-- lib.rs lines 331-812 -/
def tempo (L : Lib) (c : Config) (samples : List F32) (spec : List (List F32)) (sr : ℕ) : R Tempo :=
  if !c.forceLegacy && decide (spec ≠ []) then
    if c.enableMultiRes then tempoMulti L c samples spec sr
    else if c.emitCands then do
      let r ← attempt (estimateCands L.M L.fft L.fuel spec (tempoParams c sr) c.candsTopN (tempoBand c))
      pure ⟨r.map (·.1), r.map (·.2), none, none, none, none⟩
    else do
      let r ← attempt (estimate L.M L.fft L.fuel spec (tempoParams c sr) (tempoBand c))
      pure ⟨r, none, none, none, none, none⟩
  else .ok ⟨none, none, none, none, none, none⟩

/-! ### Beat grid -/

/-- lib.rs lines 912-958 -/
def beats (L : Lib) (bpm conf : F32) (ons : List ℕ) (sr : ℕ) : R (Beat.Grid × F32) :=
  if 0 < bpm ∧ 2 ≤ ons.length then
    orElse (⟨[], [], []⟩, 0) (Beat.beatGrid L.M L.fuel bpm conf (ons.map (fun i => F32.ofNat i / F32.ofNat sr)))
  else .ok (⟨[], [], []⟩, 0)

/-! ### Key branch -/

/-- lib.rs lines 985-994 -/
def keyFft (c : Config) : ℕ := if c.enableKeyStft then Nat.max c.keyFrame 256 else c.frame
def keyHopOf (c : Config) : ℕ := if c.enableKeyStft then Nat.max c.keyHop 1 else c.hop

/-- lib.rs lines 996-1009 -/
def keySpec (L : Lib) (c : Config) (samples : List F32) (spec : List (List F32)) : R (List (List F32)) :=
  if c.enableKeyStft then orElse spec (Chroma.computeStft L.M L.sfft samples (keyFft c) (keyHopOf c))
  else .ok spec

/-- lib.rs lines 1011-1062 -/
def specForKey (L : Lib) (c : Config) (sr : ℕ) (ks : List (List F32)) : R (List (List F32)) :=
  if ks ≠ [] then
    if c.enableKeyHpss then
      orElse ks (Mask.medianMask L.M ks sr (keyFft c) 100 5000 c.keyHpssStep c.keyHpssTime c.keyHpssFreq c.keyHpssPower)
    else if c.enableHarmonicMask then orElse ks (Mask.timeMask L.M ks c.smoothMargin c.harmonicMaskPower)
    else if c.enableTimeSmoothing then orElse ks (Mask.smoothTime ks c.smoothMargin)
    else .ok ks
  else .ok ks

/-- lib.rs lines 1064-1092: `none` is `use_log_freq = false` -/
def logFreq (L : Lib) (c : Config) (sr : ℕ) (ks : List (List F32)) : R (Option (List (List F32) × ℤ)) :=
  if c.enableLogFreq && decide (ks ≠ []) then do
    let r ← attempt (Hpcp.toLog L.M ks sr (keyFft c) 100 5000)
    pure (r.map (fun s => (s, (F32.floor (12 * L.M.log2 (100 / 440) + 57)).toI32)))
  else .ok none

/-- lib.rs lines 1094-1118: the estimate is clamped with run-time bounds, which panics when the bound is NaN -/
def tuningOffset (L : Lib) (c : Config) (sr : ℕ) (ks : List (List F32)) (useLog : Bool) : R F32 :=
  if c.enableTuning && decide (ks ≠ []) && !useLog then do
    let r ← attempt (Hpcp.estimateTuning L.M ks sr (keyFft c) 80 2000 c.tuningStep c.tuningThr)
    match r with
    | some d => clampP d (-c.tuningMax.abs) c.tuningMax.abs
    | none => pure 0
  else .ok 0

/-- lib.rs lines 1151-1160: the settings of the harmonic profile -/
def hpcpCfg (c : Config) (sr : ℕ) (tuning : F32) : Hpcp.Cfg :=
  ⟨sr, keyFft c, c.softSigma, tuning, c.hpcpPeaks, c.hpcpHarmonics, c.hpcpDecay, c.hpcpPower, c.enableWhitening, c.whiteningBins⟩

/-- lib.rs lines 1120-1195: chroma vectors and frame energies -/
def chromaCall (L : Lib) (c : Config) (sr : ℕ) (ks : List (List F32)) (lg : Option (List (List F32) × ℤ)) (tuning : F32)
    (bts : List F32) : R (List (List F32) × List F32) :=
  if c.enableBeatSync && decide (bts ≠ []) && decide (lg = none) then
    Chroma.beatChroma L.M sr (keyFft c) (keyHopOf c) c.softChroma c.softSigma tuning ks bts
  else match lg with
  | some s => do
    let cs ← Chroma.chromaOfLogSpec s.1 s.2
    pure (cs, s.1.map Chroma.energy)
  | none =>
    if c.enableHpcp then
      if c.enableBass then
        Hpcp.bassBlend L.M L.powi L.sel (hpcpCfg c sr tuning) c.bassFmin c.bassFmax c.bassWeight ks
      else Hpcp.hpcpOfSpec L.M L.powi L.sel (hpcpCfg c sr tuning) ks
    else if c.enableTuning && decide (1e-6 < tuning.abs) then
      Chroma.chromaEnergyOfSpec L.M sr (keyFft c) c.softChroma c.softSigma tuning ks
    else Chroma.chromaEnergyOfSpec L.M sr (keyFft c) c.softChroma c.softSigma 0 ks

/-- lib.rs lines 1199-1213: sharpening and smoothing -/
def postChroma (L : Lib) (c : Config) (cs : List (List F32)) : R (List (List F32)) :=
  let sharp := if 1 < c.sharpening then cs.map (fun v => Chroma.sharpen L.M v c.sharpening) else cs
  if 5 < sharp.length then Chroma.smooth sharp 5 else .ok sharp

/-- lib.rs lines 1222-1226: first and last frame kept -/
def edges (fraction : F32) (n : ℕ) : ℕ × ℕ :=
  let frac := F32.clamp fraction 0 0.49
  ((F32.round (F32.ofNat n * frac)).toUsize, (F32.round (F32.ofNat n * (1 - frac))).toUsize)

/-- lib.rs lines 1215-1233 -/
def edgeTrim (c : Config) (cs : List (List F32)) (es : List F32) : R (List (List F32) × List F32) :=
  if c.enableEdgeTrim && decide (cs.length = es.length) && decide (200 ≤ cs.length) then
    let b := edges c.edgeFraction cs.length
    if b.1 + 50 < b.2 ∧ b.2 ≤ cs.length then do
      let x ← slice cs b.1 b.2
      let y ← slice es b.1 b.2
      pure (x, y)
    else .ok (cs, es)
  else .ok (cs, es)

/-- lib.rs lines 1236-1251 (`chroma_tonalness`) -/
def tonalness (M : Libm) (ch : List F32) : F32 :=
  let s := F32.sum ch
  if s ≤ 1e-12 then 0
  else
    let entropy := ch.foldl (fun e x => if 1e-12 < x / s then e - x / s * M.ln (x / s) else e) 0
    F32.clamp (1 - entropy / M.ln 12) 0 1

/-- lib.rs lines 1263-1274: the weight of one frame -/
def frameWeight (M : Libm) (c : Config) (median : F32) (ch : List F32) (e : F32) : F32 :=
  let t := tonalness M ch
  let t' := if t < c.minTonalness then 0 else t
  let en := F32.max (e / median) 0
  F32.max (M.powf t' (F32.max c.tonalnessPower 0) * M.powf en (F32.max c.energyPower 0)) 0

/-- lib.rs lines 1256-1275; the list is not empty, so the index is in range -/
def allWeights (M : Libm) (c : Config) (cs : List (List F32)) (es : List F32) : List F32 :=
  let median := F32.max ((sortAsc id es).getD (es.length / 2) 0) 1e-12
  List.zipWith (frameWeight M c median) cs es

/-- lib.rs lines 1253-1287 -/
def frameWeights (M : Libm) (c : Config) (cs : List (List F32)) (es : List F32) : Option (List F32) :=
  if c.enableFrameWeighting && decide (es ≠ []) && decide (es.length = cs.length) then
    let w := allWeights M c cs es
    if F32.sum w ≤ 1e-12 ∨ (w.filter (fun x => decide (0 < x))).length < 10 then none else some w
  else none

/-- lib.rs lines 1302, templates.rs (`new_with_template_set`) -/
def templates (c : Config) : KeyDet.Templates := if c.temperley then KeyDet.temperley else KeyDet.krumhanslKessler

/-- lib.rs lines 1355-1373, 1390-1412, 1437-1455: detection with or without the heuristics -/
def detect (L : Lib) (c : Config) (cs : List (List F32)) (w : Option (List F32)) : R KeyDet.Res :=
  KeyDet.detectWith L.ord cs (templates c) w c.enableMode c.thirdMargin c.flipMin c.enableMinorBonus c.minorBonusWeight

/-- lib.rs lines 1375-1385: add the scores of a clear segment -/
def addSegment (minClarity clarity : F32) (acc : List (Key × F32) × ℕ) (r : KeyDet.Res) : List (Key × F32) × ℕ :=
  if minClarity ≤ clarity then
    (r.all.foldl (fun a p => a.map (fun q => if q.1 = p.1 then (q.1, q.2 + p.2 * clarity) else q)) acc.1, acc.2 + 1)
  else acc

/-- lib.rs lines 1352-1387: the loop over the segments -/
def segLoop (det : List (List F32) → Option (List F32) → R KeyDet.Res) (cs : List (List F32)) (w : Option (List F32))
    (minClarity : F32) (len : ℕ) : List ℕ → List (Key × F32) × ℕ → R (List (Key × F32) × ℕ)
  | [], acc => .ok acc
  | s :: ss, acc => do
    let seg ← slice cs s (s + len)
    let wseg ← match w with
      | none => pure none
      | some ws => do pure (some (← slice ws s (s + len)))
    let r ← det seg wseg
    let q ← KeyDet.keyClarity r.all
    segLoop det cs w minClarity len ss (addSegment minClarity q acc r)

/-- lib.rs lines 1337-1436 -/
def segVote (L : Lib) (c : Config) (cs : List (List F32)) (w : Option (List F32)) : R KeyDet.Res := do
  let len := Nat.min c.segLen cs.length
  let hop := Nat.max (Nat.min c.segHop len) 1
  let acc ← segLoop (detect L c) cs w (F32.clamp c.segClarity 0 1) len (KeyDet.segStarts cs.length len hop)
    (KeyDet.allKeys.map (fun k => (k, 0)), 0)
  if acc.2 = 0 then detect L c cs w
  else do
    let scores ← sortDescP Prod.snd acc.1
    let best := scores.getD 0 (.major 0, 0)
    pure ⟨best.1, KeyDet.margin best.2 (scores.getD 1 (.major 0, 0)).2, scores, scores.take 3⟩

/-- lib.rs lines 1332-1336 -/
def segOn (c : Config) (n : ℕ) : Bool :=
  c.enableSegments && decide (Nat.max c.segLen 1 ≤ n) && decide (120 ≤ c.segLen) && decide (1 ≤ c.segHop)

/-- lib.rs lines 1304-1308 -/
def multiScaleOn (c : Config) (n : ℕ) : Bool :=
  c.enableMultiScale && decide (c.multiScaleLens ≠ []) && decide ((c.multiScaleLens.min?).getD 1 ≤ n)

/-- lib.rs lines 1290-1456.  The outer result is what `?` does to `analyze_audio` (a failing segment ends the
whole analysis), the inner one is `key_call`. -/
def keyCall (L : Lib) (c : Config) (cs : List (List F32)) (w : Option (List F32)) : R (Option KeyDet.Res) :=
  if c.enableEnsemble then attempt (KeyDet.detectEnsemble L.ord L.ord2 cs w c.ensembleKK c.ensembleTemp)
  else if multiScaleOn c cs.length then
    attempt (KeyDet.detectMultiScale L.ord cs (templates c) w c.multiScaleLens (Nat.max c.multiScaleHop 1)
      (F32.clamp c.multiScaleClarity 0 1) (if c.multiScaleWeights = [] then none else some c.multiScaleWeights)
      c.enableMode c.thirdMargin (if c.enableMode then c.flipMin else 0) c.enableMinorBonus c.minorBonusWeight)
  else if segOn c cs.length then do pure (some (← segVote L c cs w))
  else attempt (detect L c cs w)

/-- lib.rs lines 1197-1552: from the chroma vectors to `(key, key_confidence, key_clarity)` -/
def keyOf (L : Lib) (c : Config) (cs0 : List (List F32)) (es0 : List F32) : R (Key × F32 × F32) := do
  let cs1 ← postChroma L c cs0
  let (cs, es) ← edgeTrim c cs1 es0
  let r ← keyCall L c cs (frameWeights L.M c cs es)
  match r with
  | some res => do
    let q ← KeyDet.keyClarity res.all
    pure (res.key, res.conf, q)
  | none => pure (.major 0, 0, 0)

/-- lib.rs lines 961-1559 -/
def keyPart (L : Lib) (c : Config) (samples : List F32) (spec : List (List F32)) (sr : ℕ) (bts : List F32) :
    R (Key × F32 × F32) :=
  if c.frame ≤ samples.length then do
    let ks0 ← keySpec L c samples spec
    let ks ← specForKey L c sr ks0
    let lg ← logFreq L c sr ks
    let tuning ← tuningOffset L c sr ks lg.isSome
    let r ← attempt (chromaCall L c sr ks lg tuning bts)
    match r with
    | some (cs, es) => keyOf L c cs es
    | none => pure (.major 0, 0, 0)
  else .ok (.major 0, 0, 0)

/-! ### The whole analysis -/

/-- result.rs (`AnalysisResult` with `AnalysisMetadata`), without the timing and the version -/
structure Result where
  bpm : F32
  bpmConf : F32
  key : Key
  keyConf : F32
  keyClarity : F32
  grid : Beat.Grid
  stability : F32
  duration : F32
  sampleRate : ℕ
  onsetConsensus : F32
  methodsUsed : List (List Char)
  flags : List Confidence.Flag
  warnings : List (List Char)
  cands : Option (List CandDbg)
  mrTriggered : Option Bool
  mrUsed : Option Bool
  percTriggered : Option Bool
  percUsed : Option Bool

/-- lib.rs lines 1564-1619 -/
def report (L : Lib) (n sr : ℕ) (energy : List ℕ) (t : Tempo) (bpm : F32 × F32) (g : Beat.Grid × F32)
    (k : Key × F32 × F32) : Result :=
  let w := Pipeline.warnings L.fmt bpm.1 g.2 k.2.1 k.2.2
  { bpm := bpm.1, bpmConf := bpm.2, key := k.1, keyConf := k.2.1, keyClarity := k.2.2, grid := g.1, stability := g.2
    duration := F32.ofNat n / F32.ofNat sr, sampleRate := sr, onsetConsensus := if energy = [] then 0 else 1
    methodsUsed := ["energy_flux".toList, "chroma_extraction".toList, "key_detection".toList]
    flags := w.2, warnings := w.1, cands := t.cands, mrTriggered := t.mrTriggered, mrUsed := t.mrUsed
    percTriggered := t.percTriggered, percUsed := t.percUsed }

/-- lib.rs lines 149-1635: everything after preprocessing -/
def analyzeTrimmed (L : Lib) (c : Config) (x : List F32) (sr : ℕ) : R Result := do
  let energy ← Onset.energyFluxOnsets L.M x c.frame c.hop (-20)
  let spec ← Chroma.computeStft L.M L.sfft x c.frame c.hop
  let ons ← onsets c energy spec x.length sr
  let leg ← legacy L c ons sr
  let t ← tempo L c x spec sr
  let bpm := Pipeline.selectBpm c.forceLegacy c.enableFusion t.est leg
  let g ← beats L bpm.1 bpm.2 ons sr
  let k ← keyPart L c x spec sr g.1.beats
  pure (report L x.length sr energy t bpm g k)

/-- lib.rs lines 88-1635 (`analyze_audio`) -/
def analyze (L : Lib) (c : Config) (samples : List F32) (sr : ℕ) : R Result :=
  if samples = [] then R.err .invalidInput
  else if sr = 0 then R.err .invalidInput
  else do
    let y ← normalized L c samples sr
    let x ← trimmed L c y sr
    if x = [] then R.err .processing else analyzeTrimmed L c x sr

end Verif.Analyze
