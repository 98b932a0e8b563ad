/-
Model of the decision parts of `analyze_audio` (src/lib.rs): conversion of detector frames to sample
positions, choice of the onset list, final BPM selection, warnings and flags.
-/
import Verif.Model.Confidence
import Verif.Model.Consensus
import Verif.Model.Period

namespace Verif.Pipeline
open Verif

/-- `usize::saturating_mul` (64-bit) -/
def satMul (a b : ℕ) : ℕ := if a * b ≤ F32.usizeMax then a * b else F32.usizeMax

/-- lib.rs lines 181-190 (`to_samples`) -/
def toSamples (frames : List ℕ) (hop n : ℕ) : List ℕ :=
  dedupAdj (sortNat ((frames.map (fun f => satMul f hop)).filter (fun s => decide (s < n))))

/-- lib.rs lines 261-286: onsets kept after voting; `none` when voting returned an error (287-289) -/
def chooseOnsets (energy : List ℕ) (voted : Option (List Consensus.Candidate)) : List ℕ :=
  match voted with
  | none => energy
  | some cs =>
    let strong := dedupAdj (sortNat ((cs.filter (fun c => decide (2 ≤ c.votedBy))).map (·.timeSamples)))
    let any := dedupAdj (sortNat (cs.map (·.timeSamples)))
    let chosen := if strong ≠ [] then strong else any
    if chosen ≠ [] then chosen else energy

/-- lib.rs lines 844-856 -/
def agreeBpm (t l : F32) : Bool :=
  if 0 < l then
    [(l - t).abs, (l - t * 0.5).abs, (l - t * 2).abs, (l - t * (2 / 3)).abs, (l - t * (3 / 2)).abs].any
      (fun d => decide (d ≤ 2))
  else false

/-- lib.rs lines 814-900: the reported `(bpm, bpm_confidence)` from the tempogram and the legacy
estimate -/
def selectBpm (forceLegacy fusion : Bool) (tempo legacy : Option Period.Est) : F32 × F32 :=
  let pair (e : Period.Est) : F32 × F32 := (e.bpm, e.conf)
  if forceLegacy then (legacy.map pair).getD (0, 0)
  else if fusion then
    let (tB, tC) := (tempo.map pair).getD (0, 0)
    let (lB, lRaw) := (legacy.map pair).getD (0, 0)
    let lC := F32.clamp lRaw 0 1
    if tB ≤ 0 then (legacy.map pair).getD (0, 0)
    else
      let conf := F32.clamp tC 0 1
      if agreeBpm tB lB then (tB, F32.clamp (conf + 0.12 * lC) 0 1)
      else if 0 < lB then (tB, F32.clamp (conf * 0.9) 0 1)
      else (tB, conf)
  else ((tempo.map pair).orElse (fun _ => legacy.map pair)).getD (0, 0)

/-- lib.rs lines 1564-1589: warnings and flags.  `fmt` is the external formatter `{:.2}`. -/
def warnings (fmt : F32 → List Char) (bpm stab kconf clar : F32) : List (List Char) × List Confidence.Flag :=
  ((if F32.feq bpm 0 then ["BPM detection failed: insufficient onsets or estimation error".toList] else []) ++
   (if stab < 0.5 then
      ["Low beat grid stability: ".toList ++ fmt stab ++ " (may indicate tempo variation)".toList] else []) ++
   (if kconf < 0.3 then
      ["Low key detection confidence: ".toList ++ fmt kconf ++
        " (may indicate ambiguous or atonal music)".toList] else []) ++
   (if clar < 0.2 then
      ["Low key clarity: ".toList ++ fmt clar ++ " (track may be atonal or have weak tonality)".toList] else []),
   if clar < 0.2 then [.weakTonality] else [])

/-- lib.rs lines 1592-1619: the part of the result read by `compute_confidence` -/
def result (fmt : F32 → List Char) (bpm bconf kconf clar stab : F32) : Confidence.Result :=
  let w := warnings fmt bpm stab kconf clar
  ⟨bpm, bconf, kconf, clar, stab, w.1, w.2⟩

end Verif.Pipeline
