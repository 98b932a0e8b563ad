/-
Model of src/analysis/confidence.rs.  Only the fields of `AnalysisResult` that the module reads
are kept.  A Rust `String` is a list of characters.
-/
import Verif.Common

namespace Verif.Confidence
open Verif

/-- result.rs lines 158-167 (`AnalysisFlag`) -/
inductive Flag where
  | multimodalBpm | weakTonality | tempoVariation | onsetDetectionAmbiguous
deriving DecidableEq, Repr

/-- result.rs lines 186-215 (`AnalysisResult`), restricted to what confidence.rs reads -/
structure Result where
  bpm : F32
  bpmConf : F32
  keyConf : F32
  keyClarity : F32
  gridStab : F32
  warnings : List (List Char)
  flags : List Flag

/-- `str::contains` -/
def contains (w pat : List Char) : Bool := w.tails.any (fun t => pat.isPrefixOf t)

/-- confidence.rs lines 231-255 -/
def bpmConfidence (r : Result) : F32 :=
  if r.bpm ≤ 0 then 0
  else
    let base := F32.clamp r.bpmConf 0 1
    if r.warnings.any (fun w => contains w "BPM".toList) then base * 0.7 else base

/-- confidence.rs lines 263-297 -/
def keyConfidence (r : Result) : F32 :=
  if r.keyConf ≤ 0 then 0
  else
    let base := F32.clamp r.keyConf 0 1
    let clarityAdj : F32 := if r.keyClarity < 0.2 then 0.6 else if r.keyClarity < 0.5 then 0.85 else 1
    let warningAdj : F32 :=
      if r.warnings.any (fun w => contains w "key".toList || contains w "Key".toList ||
        contains w "tonality".toList) then 0.7 else 1
    base * clarityAdj * warningAdj

/-- confidence.rs lines 32-68 (`AnalysisConfidence`) -/
structure Scores where
  bpm : F32
  key : F32
  grid : F32
  overall : F32
  flags : List Flag

/-- confidence.rs lines 121-179 (`compute_confidence`) -/
def computeConfidence (r : Result) : Scores :=
  let b := bpmConfidence r
  let k := keyConfidence r
  let g := F32.clamp r.gridStab 0 1
  let overall : F32 :=
    if 0 < b ∧ 0 < k then F32.clamp (b * 0.4 + k * 0.3 + g * 0.3) 0 1
    else if 0 < b then b * 0.6
    else if 0 < k then k * 0.6
    else 0
  ⟨b, k, g, overall,
    r.flags ++ (if b < 0.3 then [.multimodalBpm] else []) ++ (if k < 0.2 then [.weakTonality] else []) ++
      (if g < 0.3 then [.tempoVariation] else [])⟩

/-- confidence.rs lines 187-189 -/
def Scores.isHigh (s : Scores) : Bool := decide ((0.7 : F32) ≤ s.overall)
/-- confidence.rs lines 196-198 -/
def Scores.isLow (s : Scores) : Bool := decide (s.overall < 0.5)
/-- confidence.rs lines 205-207 -/
def Scores.isMedium (s : Scores) : Bool := decide ((0.5 : F32) ≤ s.overall) && decide (s.overall < 0.7)
/-- confidence.rs lines 214-222 -/
def Scores.level (s : Scores) : List Char :=
  if s.isHigh then "High".toList else if s.isLow then "Low".toList else "Medium".toList

end Verif.Confidence
