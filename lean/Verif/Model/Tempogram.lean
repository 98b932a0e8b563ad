/-
Model of the tempogram estimators: src/features/period/{tempogram_autocorr,tempogram_fft,tempogram}.rs.
Log calls are dropped.
-/
import Verif.Model.Novelty
import Verif.Model.Period
import Verif.Model.Chroma

namespace Verif.Tempogram
open Verif Novelty

/-- tempogram_autocorr.rs line 34, tempogram_fft.rs line 34 -/
def EPS : F32 := 1e-10

/-! ### tempogram_autocorr.rs -/

/-- tempogram_autocorr.rs lines 133-157: mean lagged product.  `i + lag_frames` overflows (debug semantics: panic) when
the lag is too close to `usize::MAX`.  The `i32` counter stays below the number of novelty values. -/
def acStrength (nov : List F32) (rate bpm : F32) : R F32 :=
  let lag := (rate / (bpm / 60)).toUsize
  if F32.usizeMax < lag + (nov.length - 1) then R.panic
  else
    let prods := ((List.range nov.length).filter (fun i => decide (i + lag < nov.length))).map
      (fun i => at' nov i * at' nov (i + lag))
    .ok (if 0 < prods.length then F32.sum prods / F32.ofNat prods.length else 0)

/-- tempogram_autocorr.rs lines 128-162: the scan.  Its termination is property C23, so it carries fuel: `Fail.fuel` means
the loop was still running. -/
def acLoop (nov : List F32) (rate maxB res : F32) : ℕ → F32 → R (List (F32 × F32))
  | 0, bpm => if bpm ≤ maxB then R.outOfFuel else .ok []
  | fuel + 1, bpm =>
    if bpm ≤ maxB then do
      let s ← acStrength nov rate bpm
      let rest ← acLoop nov rate maxB res fuel (bpm + res)
      pure ((bpm, s) :: rest)
    else .ok []

/-- tempogram_autocorr.rs lines 79-178 (`autocorrelation_tempogram`) -/
def acTempogram (fuel : ℕ) (nov : List F32) (sr hop : ℕ) (minB maxB res : F32) : R (List (F32 × F32)) :=
  if nov = [] then R.err .invalidInput
  else if sr = 0 then R.err .invalidInput
  else if hop = 0 then R.err .invalidInput
  else if minB ≤ 0 ∨ maxB ≤ minB then R.err .invalidInput
  else if res ≤ 0 then R.err .invalidInput
  else do
    let t ← acLoop nov (F32.ofNat sr / F32.ofNat hop) maxB res fuel minB
    pure (sortDesc Prod.snd t)

/-- tempogram_autocorr.rs lines 38-47 and tempogram_fft.rs lines 38-47 -/
structure Best where
  bpm : F32
  conf : F32
  strength : F32
deriving DecidableEq

/-- tempogram_autocorr.rs lines 192-222 (`find_best_bpm_autocorr`) and tempogram_fft.rs lines 206-236
(`find_best_bpm_fft`), which are the same -/
def findBest (t : List (F32 × F32)) : Option Best :=
  match t with
  | [] => none
  | b :: ts =>
    let conf := match ts with
      | [] => 0.5
      | s :: _ => if EPS < b.2 then F32.clamp (F32.max (b.2 - s.2) 0 / b.2) 0 1 else 0
    some ⟨b.1, conf, b.2⟩

/-! ### tempogram_fft.rs -/

/-- tempogram_fft.rs lines 126-146: mean removed, Hann window, zero padding -/
def fftInput (M : Libm) (nov : List F32) : List F32 :=
  let n := nov.length
  let mean := F32.sum nov / F32.ofNat n
  (nov.zipIdx.map (fun p =>
    let w := if 1 < n then 0.5 * (1 - M.cos (2 * Chroma.PI * F32.ofNat p.2 / F32.ofNat (n - 1))) else 1
    (p.1 - mean) * w)) ++ List.replicate (Period.nextPow2 n - n) 0

/-- tempogram_fft.rs lines 154-157 -/
def power (z : F32 × F32) : F32 := z.1 * z.1 + z.2 * z.2

/-- tempogram_fft.rs lines 78-192 (`fft_tempogram`).  `fft x k` is bin `k` of the transform of the real signal `x`
(crate rustfft), a parameter. -/
def fftTempogram (M : Libm) (fft : List F32 → ℕ → F32 × F32) (nov : List F32) (sr hop : ℕ) (minB maxB : F32) :
    R (List (F32 × F32)) :=
  if nov = [] then R.err .invalidInput
  else if sr = 0 then R.err .invalidInput
  else if hop = 0 then R.err .invalidInput
  else if minB ≤ 0 ∨ maxB ≤ minB then R.err .invalidInput
  else
    let size := Period.nextPow2 nov.length
    let x := fftInput M nov
    let freq := (F32.ofNat sr / F32.ofNat hop) / F32.ofNat size
    let bins := (List.range (Nat.min (size / 2 + 1) size)).map (fun k => (F32.ofNat k * freq * 60, power (fft x k)))
    .ok (sortDesc Prod.snd (bins.filter (fun p => decide (minB ≤ p.1) && decide (p.1 ≤ maxB))))

/-! ### tempogram.rs -/

/-- tempogram.rs lines 45-99 (`TempogramBandFusionConfig`) without the debug fields -/
structure BandCfg where
  enabled : Bool
  lowMax : F32
  midMax : F32
  highMax : F32
  wFull : F32
  wLow : F32
  wMid : F32
  wHigh : F32
  seedOnly : Bool
  support : F32
  bonus : F32
  mel : Bool
  nMels : ℕ
  melFmin : F32
  melFmax : F32
  melFilter : ℕ
  wMel : F32
  nwS : F32
  nwE : F32
  nwH : F32
  localWin : ℕ
  smoothWin : ℕ
  filter : ℕ
deriving DecidableEq

/-- what every call of the estimator passes on -/
structure Params where
  sr : ℕ
  hop : ℕ
  minB : F32
  maxB : F32
  res : F32
deriving DecidableEq

/-- tempogram.rs lines 292-299; `full` stands for `name == "full"` -/
structure Variant where
  full : Bool
  w : F32
  fft : List (F32 × F32)
  ac : List (F32 × F32)
  maxFft : F32
  maxAc : F32
deriving DecidableEq

/-- tempogram.rs lines 279-289 (`as isize` and the clamp to `[0, n_bins - 1]` together send negative values to 0) -/
def hzToBin (f res : F32) (nBins : ℕ) : ℕ :=
  if !f.isFinite || decide (f ≤ 0) || !res.isFinite || decide (res ≤ 0) then 0
  else Nat.min (F32.round (f / res)).toUsize (nBins - 1)

/-- tempogram.rs lines 309-322 and 391-404; `combined_novelty` (novelty.rs lines 865-867) passes the defaults -/
def conditioned (cfg : Option BandCfg) (s e h : List F32) : List F32 :=
  match cfg with
  | some c => combined s e h c.nwS c.nwE c.nwH c.localWin c.smoothWin
  | none => combined s e h 0.5 0.3 0.2 16 5

/-- tempogram.rs lines 346-351: `first().map(..).unwrap_or(1.0).max(1e-12)` -/
def peakOf (t : List (F32 × F32)) : F32 := F32.max ((t.headD (0, 1)).2) 1e-12

/-- tempogram.rs lines 343-354, 409-426 and 443-459: both tempograms of a novelty curve -/
def variantOf (M : Libm) (fft : List F32 → ℕ → F32 × F32) (fuel : ℕ) (p : Params) (full : Bool) (w : F32)
    (nov : List F32) : R Variant := do
  let f ← fftTempogram M fft nov p.sr p.hop p.minB p.maxB
  let a ← acTempogram fuel nov p.sr p.hop p.minB p.maxB p.res
  pure ⟨full, w, f, a, peakOf f, peakOf a⟩

/-- tempogram.rs lines 302-322: full-band novelty -/
def fullNovelty (M : Libm) (spec : List (List F32)) (sr : ℕ) (cfg : Option BandCfg) : R (List F32) := do
  let s ← superflux M spec ((cfg.map BandCfg.filter).getD 4)
  let e ← energyFlux spec
  let h ← hfc spec sr
  pure (conditioned cfg s e h)

/-- tempogram.rs lines 381-427: one band, or nothing -/
def bandVariant (M : Libm) (fft : List F32 → ℕ → F32 × F32) (fuel : ℕ) (p : Params) (spec : List (List F32)) (c : BandCfg)
    (s e : ℕ) (w : F32) : R (List Variant) :=
  if !(w.isFinite && decide (0 < w)) then .ok []
  else if e ≤ s + 1 then .ok []
  else do
    let sp ← superfluxBand M spec c.filter s e
    let en ← energyFluxBand spec s e
    let hf ← hfcBand spec s e
    let nov := conditioned (some c) sp en hf
    if nov = [] then pure []
    else do
      let v ← variantOf M fft fuel p false w nov
      pure [v]

/-- tempogram.rs lines 364-378: the edges of the bands -/
def bandEdges (c : BandCfg) (res : F32) (n : ℕ) : ℕ × ℕ × ℕ × ℕ :=
  let b0 := Nat.min 1 (n - 1)
  let low := Nat.max (hzToBin c.lowMax res n) b0
  let mid := Nat.max (hzToBin c.midMax res n) (low + 1)
  let hi := if 0 < c.highMax then Nat.max (hzToBin c.highMax res n) (mid + 1) else n
  (b0, low, mid, Nat.min hi n)

/-- tempogram.rs lines 356-429 -/
def bandVariants (M : Libm) (fft : List F32 → ℕ → F32 × F32) (fuel : ℕ) (p : Params) (spec : List (List F32)) :
    Option BandCfg → R (List Variant)
  | none => .ok []
  | some c =>
    if c.enabled then do
      let n := (spec.headD []).length
      let res := F32.ofNat p.sr / F32.ofNat (Nat.max ((n - 1) * 2) 2)
      let b := bandEdges c res n
      let v1 ← bandVariant M fft fuel p spec c b.1 b.2.1 c.wLow
      let v2 ← bandVariant M fft fuel p spec c b.2.1 b.2.2.1 c.wMid
      let v3 ← bandVariant M fft fuel p spec c b.2.2.1 b.2.2.2 c.wHigh
      pure (v1 ++ v2 ++ v3)
    else .ok []

/-- tempogram.rs lines 432-462 -/
def melVariants (M : Libm) (fft : List F32 → ℕ → F32 × F32) (fuel : ℕ) (p : Params) (spec : List (List F32)) :
    Option BandCfg → R (List Variant)
  | none => .ok []
  | some c =>
    if c.mel then do
      let curve ← melSuperflux M spec p.sr c.nMels c.melFmin c.melFmax c.melFilter
      if curve = [] then pure []
      else do
        let v ← variantOf M fft fuel p false c.wMel curve
        pure [v]
    else .ok []

/-- tempogram.rs lines 518-529 (`lookup_nearest`) -/
def lookup (t : List (F32 × F32)) (bpm tol : F32) : F32 :=
  (t.foldl (fun (best : F32 × F32) e =>
    let d := (e.1 - bpm).abs
    if d ≤ tol ∧ d < best.1 then (d, e.2) else best) (F32.inf false, 0)).2

/-- tempogram.rs line 551 -/
def factors : List F32 := [1, 0.5, 2, 1 / 3, 3, 2 / 3, 3 / 2]

/-- tempogram.rs lines 538-548 -/
def seeds (vs : List Variant) (pf pa : F32) : List F32 :=
  vs.flatMap (fun v => (v.fft.take 8).map Prod.fst ++ (v.ac.take 8).map Prod.fst) ++
    (if 0 < pf then [pf] else []) ++ (if 0 < pa then [pa] else [])

/-- tempogram.rs lines 531-535 and 553-558 -/
def folded (minB maxB : F32) (seeds : List F32) : List F32 :=
  (seeds.flatMap (fun b => factors.map (fun f => b * f))).filter
    (fun b => b.isFinite && decide (minB ≤ b) && decide (b ≤ maxB))

/-- tempogram.rs lines 562-570, `last` the last candidate kept -/
def dedupFrom : Option F32 → List F32 → List F32
  | _, [] => []
  | none, b :: bs => b :: dedupFrom (some b) bs
  | some last, b :: bs => if (b - last).abs < 0.75 then dedupFrom (some last) bs else b :: dedupFrom (some b) bs

/-- tempogram.rs lines 561-570 -/
def uniq (cands : List F32) : List F32 := dedupFrom none (sortAsc id cands)

/-- tempogram.rs lines 579-584 -/
structure Scored where
  bpm : F32
  score : F32
  fftNorm : F32
  acNorm : F32
deriving DecidableEq

/-- normalised support of one variant: lines 596-599 and 626-629 -/
def supFft (v : Variant) (bpm : F32) : F32 := F32.clamp (lookup v.fft bpm 0.75 / v.maxFft) 0 1
/-- normalised support of one variant: lines 597-599 and 627-629 -/
def supAc (v : Variant) (res bpm : F32) : F32 := F32.clamp (lookup v.ac bpm (F32.max res 0.5) / v.maxAc) 0 1

/-- tempogram.rs lines 590-600 -/
def accumulate (vs : List Variant) (sup : Variant → F32) : F32 :=
  vs.foldl (fun acc v => if v.w ≤ 0 then acc else acc + v.w * sup v) 0

/-- tempogram.rs lines 621-634 -/
def supportBands (vs : List Variant) (res bpm thr : F32) : ℕ :=
  ((vs.filter (fun v => !v.full)).filter (fun v => decide (thr ≤ F32.max (supFft v bpm) (supAc v res bpm)))).length

/-- tempogram.rs lines 478-487 -/
def threshold (cfg : Option BandCfg) : F32 := F32.clamp ((cfg.map BandCfg.support).getD 0.25) 0 1
/-- tempogram.rs lines 483-487 -/
def bonusOf (cfg : Option BandCfg) : F32 := F32.max ((cfg.map BandCfg.bonus).getD 0) 0

/-- tempogram.rs lines 615-638 -/
def withBonus (cfg : Option BandCfg) (bands : ℕ) (score : F32) : F32 :=
  if 0 < bonusOf cfg ∧ (cfg.map (fun c => c.enabled || c.mel)).getD false = true then
    if 2 ≤ bands then score * (1 + bonusOf cfg * (F32.ofNat bands - 1)) else score
  else score

/-- tempogram.rs lines 641-645 -/
def withPrior (bpm score : F32) : F32 :=
  if 180 < bpm then score * 0.80 else if bpm < 60 then score * 0.90 else score

/-- tempogram.rs lines 467-476 -/
def scoring (cfg : Option BandCfg) (vs : List Variant) : List Variant :=
  if (cfg.map BandCfg.seedOnly).getD true then vs.filter (fun v => v.full) else vs

/-- tempogram.rs lines 489-493 -/
def weightSum (vs : List Variant) : F32 := F32.max (F32.sum (vs.map (fun v => F32.max v.w 0))) 1e-6

/-- tempogram.rs lines 587-653: one candidate -/
def scoreOne (cfg : Option BandCfg) (seedVs : List Variant) (res bpm : F32) : Scored :=
  let vs := scoring cfg seedVs
  let fn := F32.clamp (accumulate vs (fun v => supFft v bpm) / weightSum vs) 0 1
  let an := F32.clamp (accumulate vs (fun v => supAc v res bpm) / weightSum vs) 0 1
  let s := 0.55 * an + 0.45 * fn
  ⟨bpm, withPrior bpm (withBonus cfg (supportBands seedVs res bpm (threshold cfg)) s), fn, an⟩

/-- tempogram.rs lines 669-699: octave correction -/
def octave (minB maxB : F32) (best : Scored) (scored : List Scored) : Scored :=
  if 180 < best.bpm then
    let half := best.bpm / 2
    if minB ≤ half ∧ half ≤ maxB then
      match scored.find? (fun c => decide ((c.bpm - half).abs < 0.75)) with
      | none => best
      | some f =>
        let ra := (best.acNorm + 1e-6) / (f.acNorm + 1e-6)
        let rf := (best.fftNorm + 1e-6) / (f.fftNorm + 1e-6)
        if 2 < ra ∧ 2 < rf then best else f
    else best
  else best

/-- tempogram.rs lines 701-709: confidence of `best`, the runner-up being the second in the ranking -/
def confidence (best : Scored) (scored : List Scored) : F32 :=
  if 1e-12 < best.score then
    F32.clamp (F32.max (best.score - ((scored[1]?).map Scored.score).getD 0) 0 / best.score) 0 1
  else 0

/-- tempogram.rs lines 712-718 -/
def agreement (pf pa bpm : F32) : ℕ :=
  (if 0 < pf ∧ (pf - bpm).abs < 2 then 1 else 0) + (if 0 < pa ∧ (pa - bpm).abs < 2 then 1 else 0)

/-- tempogram.rs lines 103-114 (`TempogramCandidateDebug`) -/
structure CandDbg where
  bpm : F32
  score : F32
  fftNorm : F32
  acNorm : F32
  selected : Bool
deriving DecidableEq

/-- tempogram.rs lines 501-506 -/
def primary (t : List (F32 × F32)) : F32 := ((findBest t).map Best.bpm).getD 0

/-- tempogram.rs lines 655-774: from the scored candidates to the result -/
def select (minB maxB pf pa : F32) (cands : List Scored) : R (Period.Est × List CandDbg) :=
  let scored := sortDesc Scored.score cands
  match scored with
  | [] => R.err .processing
  | top :: _ =>
    let best := octave minB maxB top scored
    .ok (⟨best.bpm, confidence best scored, agreement pf pa best.bpm⟩,
      scored.map (fun c => ⟨c.bpm, c.score, c.fftNorm, c.acNorm, decide ((c.bpm - best.bpm).abs < 0.75)⟩))

/-- tempogram.rs lines 467-774: from the variants (the full band first) to the result -/
def decideBpm (p : Params) (cfg : Option BandCfg) (full : Variant) (others : List Variant) :
    R (Period.Est × List CandDbg) :=
  let vs := full :: others
  if vs.all (fun v => v.fft.isEmpty && v.ac.isEmpty) then R.err .processing
  else
    let pf := primary full.fft
    let pa := primary full.ac
    select p.minB p.maxB pf pa ((uniq (folded p.minB p.maxB (seeds vs pf pa))).map (scoreOne cfg vs p.res))

/-- tempogram.rs lines 255-775 (`estimate_bpm_tempogram_impl`) -/
def impl (M : Libm) (fft : List F32 → ℕ → F32 × F32) (fuel : ℕ) (spec : List (List F32)) (p : Params)
    (cfg : Option BandCfg) : R (Period.Est × List CandDbg) :=
  if (spec.headD []).length = 0 then R.err .invalidInput
  else do
    let nov ← fullNovelty M spec p.sr cfg
    if nov = [] then R.err .processing
    else do
      let full ← variantOf M fft fuel p true ((cfg.map BandCfg.wFull).getD 1) nov
      let bands ← bandVariants M fft fuel p spec cfg
      let mels ← melVariants M fft fuel p spec cfg
      decideBpm p cfg full (bands ++ mels)

/-- tempogram.rs lines 155-173 and 176-195: with `cfg = none` this is `estimate_bpm_tempogram`, with `some c`
`estimate_bpm_tempogram_band_fusion` -/
def estimate (M : Libm) (fft : List F32 → ℕ → F32 × F32) (fuel : ℕ) (spec : List (List F32)) (p : Params)
    (cfg : Option BandCfg) : R Period.Est := do
  let r ← impl M fft fuel spec p cfg
  pure r.1

/-- tempogram.rs lines 198-222 and 226-251: the same with candidates (`with_candidates`, `with_candidates_band_fusion`) -/
def estimateCands (M : Libm) (fft : List F32 → ℕ → F32 × F32) (fuel : ℕ) (spec : List (List F32)) (p : Params) (topN : ℕ)
    (cfg : Option BandCfg) : R (Period.Est × List CandDbg) := do
  let r ← impl M fft fuel spec p cfg
  pure (r.1, if topN = 0 then [] else r.2.take topN)

end Verif.Tempogram
