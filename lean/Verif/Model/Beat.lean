/-
Model of src/features/beat_tracking/: hmm.rs, bayesian.rs, tempo_variation.rs, time_signature.rs and mod.rs.

`BeatPosition.beat_index` is always 0 in the code and is dropped.  `sample_rate` is unused by the
trackers and is dropped.
-/
import Verif.Common

namespace Verif.Beat
open Verif

/-- `EPSILON` (hmm.rs 49, bayesian.rs 45, tempo_variation.rs 45, time_signature.rs 35) -/
def EPS : F32 := 1e-10

/-- hmm.rs line 52 -/
def NS : ℕ := 5

/-- mod.rs lines 54-64 (`BeatPosition`) -/
structure BeatPos where
  time : F32
  conf : F32
deriving DecidableEq

/-! ### hmm.rs -/

/-- hmm.rs lines 165-174 -/
def stateBpms (bpm : F32) : List F32 := [0.90, 0.95, 1.00, 1.05, 1.10].map (fun m => bpm * m)

/-- hmm.rs lines 187-204: row `i` before normalisation -/
def transRow (i : ℕ) : List F32 :=
  (List.range NS).map (fun j =>
    let d := ((i : ℤ) - (j : ℤ)).natAbs
    if d = 0 then 0.7 else if d = 1 then 0.15 else 0)

/-- hmm.rs lines 184-219 -/
def transMatrix : List (List F32) :=
  (List.range NS).map (fun i =>
    let row := transRow i
    let s := F32.sum row
    if EPS < s then row.map (fun x => x / s) else row)

/-- hmm.rs lines 273-279 and 410-416: distance to the closest onset (infinite when all comparisons fail) -/
def minDist (onsets : List F32) (t : F32) : F32 :=
  onsets.foldl (fun m o => let d := (o - t).abs; if d < m then d else m) (.inf false)

/-- hmm.rs line 58 (`EMISSION_SIGMA`) -/
def SIGMA : F32 := 0.05 / 2

/-- hmm.rs lines 247-248: number of frames.  `as usize` saturates; `+ 1` panics on overflow (debug
semantics); `vec![..; n]` (line 256) panics when `24 * n` bytes exceed `isize::MAX`. -/
def numFrames (bpm : F32) (first last : F32) : R ℕ :=
  let n := (F32.ceil ((last - first) / (60 / bpm))).toUsize
  if n = F32.usizeMax then R.panic
  else if 2 ^ 63 ≤ 24 * (n + 1) then R.panic
  else .ok (n + 1)

/-- hmm.rs line 261: time of frame `t` -/
def frameTime (bpm first : F32) (t : ℕ) : F32 := first + F32.ofNat t * (60 / bpm)

/-- hmm.rs lines 283-292 -/
def emission (M : Libm) (onsets : List F32) (time : F32) : F32 :=
  let d := minDist onsets time
  M.exp (-(d * d) / (2 * (SIGMA * SIGMA)))

/-- hmm.rs lines 231-298.  The inner loop over states (264-294) does not use the state; the row repeats
one value.  `num_frames == 0` (250-254) cannot happen after `+ 1`; `sigma_sq <= EPSILON` is kept. -/
def emissionMatrix (M : Libm) (bpm : F32) (onsets : List F32) (states : List F32) : R (List (List F32)) := do
  match onsets.head?, onsets.getLast? with
  | some first, some last =>
    let n ← numFrames bpm first last
    if SIGMA * SIGMA ≤ EPS then R.err .numerical
    else pure ((List.range n).map (fun t =>
      let e := emission M onsets (frameTime bpm first t)
      states.map (fun _ => e)))
  | _, _ => R.err .invalidInput

/-- hmm.rs lines 336-345 and 356-365: first strict maximum above 0, as `(value, index)` -/
def argmax0 (f : ℕ → F32) (n : ℕ) : F32 × ℕ :=
  (List.range n).foldl (fun b i => if b.1 < f i then (f i, i) else b) (0, 0)

/-- hmm.rs lines 333-350, one time step: new probabilities and back pointers.  All rows have `NS`
entries, so the indexing never fails. -/
def viterbiStep (trans : List (List F32)) (prev : List F32) (em : List F32) : List F32 × List ℕ :=
  let bests := (List.range NS).map (fun s => argmax0 (fun p => prev.getD p 0 * (trans.getD p []).getD s 0) NS)
  ((List.range NS).map (fun s => (bests.getD s (0, 0)).1 * em.getD s 0), bests.map Prod.snd)

/-- hmm.rs lines 333-351, all time steps; back pointers in time order -/
def viterbiRun (trans : List (List F32)) : List F32 → List (List F32) → List F32 × List (List ℕ)
  | v, [] => (v, [])
  | v, em :: ems =>
    let (v', bp) := viterbiStep trans v em
    let (vEnd, bps) := viterbiRun trans v' ems
    (vEnd, bp :: bps)

/-- hmm.rs lines 370-372: follow the back pointers from the final state -/
def backtrace (bps : List (List ℕ)) (final : ℕ) : List ℕ :=
  bps.foldr (fun bp path => (bp.getD (path.headD 0) 0) :: path) [final]

/-- hmm.rs lines 327-330 -/
def viterbiInit (em : List F32) : List F32 := (List.range NS).map (fun s => (1 / F32.ofNat NS) * em.getD s 0)

/-- hmm.rs lines 308-375 (`viterbi_forward_pass`) -/
def viterbi (trans : List (List F32)) (em : List (List F32)) : R (List ℕ) :=
  match em with
  | [] => R.err .processing
  | e0 :: ems =>
    let (v, bps) := viterbiRun trans (viterbiInit e0) ems
    .ok (backtrace bps (argmax0 (fun s => v.getD s 0) NS).2)

/-- hmm.rs lines 407-433: the beat at frame `t`, if its emission is above the threshold -/
def beatAt (bpm first : F32) (onsets : List F32) (e : F32) (t : ℕ) : Option BeatPos :=
  if 0.1 < e then
    let bt := frameTime bpm first t
    let d := minDist onsets bt
    let align : F32 := if d < 0.05 then 1 - d / 0.05 else 0
    some ⟨bt, F32.min (e * 0.7 + align * 0.3) 1⟩
  else none

/-- hmm.rs lines 383-441 (`extract_beats_from_path`); the sort panics on NaN -/
def extractBeats (bpm : F32) (onsets : List F32) (path : List ℕ) (em : List (List F32)) : R (List BeatPos) :=
  if path = [] ∨ em = [] then R.err .processing
  else match onsets.head? with
    | none => R.panic
    | some first =>
      sortAscP BeatPos.time ((path.zipIdx).filterMap (fun p =>
        beatAt bpm first onsets ((em.getD p.2 []).getD p.1 0) p.2))

/-- hmm.rs lines 121-160 (`track_beats`) -/
def trackBeats (M : Libm) (bpm : F32) (onsets : List F32) : R (List BeatPos) :=
  if bpm ≤ EPS ∨ 300 < bpm then R.err .invalidInput
  else if onsets = [] then R.err .invalidInput
  else do
    let em ← emissionMatrix M bpm onsets (stateBpms bpm)
    let path ← viterbi transMatrix em
    extractBeats bpm onsets path em

/-! ### tempo_variation.rs -/

/-- positive differences of consecutive elements (mod.rs 442-448, tempo_variation.rs 153-159,
time_signature.rs 108-114) -/
def posIntervals : List F32 → List F32
  | a :: b :: l => if 0 < b - a then (b - a) :: posIntervals (b :: l) else posIntervals (b :: l)
  | _ => []

/-- `iter().sum::<f32>() / len as f32` -/
def mean (l : List F32) : F32 := F32.sum l / F32.ofNat l.length

/-- `iter().map(|x| (x - m)^2).sum::<f32>() / len as f32` -/
def variance (l : List F32) (m : F32) : F32 :=
  F32.sum (l.map (fun x => let d := x - m; d * d)) / F32.ofNat l.length

/-- tempo_variation.rs lines 55-71 (`TempoSegment`) -/
structure Seg where
  start : F32
  stop : F32
  bpm : F32
  conf : F32
  isVar : Bool
deriving DecidableEq

/-- tempo_variation.rs lines 163-200: the segment for a non-empty interval list -/
def segOf (nominal start stop : F32) (iv : List F32) : Seg :=
  let m := mean iv
  let sd := F32.sqrt (variance iv m)
  let cv : F32 := if EPS < m then sd / m else 0
  ⟨start, stop, if EPS < m then 60 / m else nominal, F32.max (1 - F32.min (cv / 0.3) 1) 0, decide (0.15 < cv)⟩

/-- tempo_variation.rs lines 142-202: zero or one segment for the window starting at `start` -/
def window (beats : List F32) (nominal last dur start : F32) : List Seg :=
  let stop := F32.min (start + dur) last
  let bs := beats.filter (fun b => decide (start ≤ b) && decide (b ≤ stop))
  if 3 ≤ bs.length then
    let iv := posIntervals bs
    if iv ≠ [] then [segOf nominal start stop iv] else []
  else []

/-- tempo_variation.rs lines 141-206: the `while` loop, with fuel -/
def segLoop (beats : List F32) (nominal last dur : F32) : ℕ → F32 → R (List Seg)
  | 0, _ => R.outOfFuel
  | fuel + 1, start =>
    if start < last then do
      let rest ← segLoop beats nominal last dur fuel (start + (dur - dur * 0.5))
      pure (window beats nominal last dur start ++ rest)
    else .ok []

/-- tempo_variation.rs lines 95-220 (`detect_tempo_variations`) -/
def tempoSegments (fuel : ℕ) (beats : List F32) (nominal : F32) : R (List Seg) :=
  if beats.length < 4 then .ok [⟨beats.headD 0, beats.getLastD 0, nominal, 0.5, false⟩]
  else if nominal ≤ EPS then R.err .invalidInput
  else
    let first := beats.headD 0
    let last := beats.getLastD 0
    let total := last - first
    if total < 2 then .ok [⟨first, last, nominal, 0.8, false⟩]
    else do
      let dur := F32.clamp (total / 4) 4 8
      let segs ← segLoop beats nominal last dur fuel first
      pure (if segs = [] then [⟨first, last, nominal, 0.8, false⟩] else segs)

/-- tempo_variation.rs lines 225-227 -/
def hasVariation (segs : List Seg) : Bool := segs.any (·.isVar)

/-! ### time_signature.rs -/

/-- time_signature.rs lines 38-46 -/
inductive TimeSig where
  | fourFour | threeFour | sixEight
deriving DecidableEq, Repr

/-- time_signature.rs lines 50-56 -/
def TimeSig.beatsPerBar : TimeSig → ℕ
  | .fourFour => 4
  | .threeFour => 3
  | .sixEight => 6

/-- time_signature.rs lines 155-199 -/
def scoreSig (iv : List F32) (lag : ℕ) (m : F32) : F32 :=
  if iv.length < lag then 0
  else
    let sims := (List.range (iv.length - lag)).map (fun i =>
      1 / (1 + (iv.getD i 0 - iv.getD (i + lag) 0).abs / m))
    if sims.length = 0 then 0
    else
      let autocorr := F32.sum sims / F32.ofNat sims.length
      let var := variance iv m
      let cv : F32 := if EPS < m then F32.sqrt var / m else 1
      let consistency := 1 / (1 + cv)
      F32.min (autocorr * 0.7 + consistency * 0.3) 1

/-- `max_by(|a, b| a.partial_cmp(b).unwrap())`: the last maximum; panics when a comparison meets NaN -/
def lastMax {α} (key : α → F32) : α → List α → R α
  | b, [] => .ok b
  | b, x :: xs =>
    if (key b).isNaN || (key x).isNaN then R.panic
    else if key x < key b then lastMax key b xs else lastMax key x xs

/-- time_signature.rs lines 90-149 (`detect_time_signature`) -/
def timeSignature (beats : List F32) (bpm : F32) : R (TimeSig × F32) :=
  if beats.length < 8 then .ok (.fourFour, 0.5)
  else if bpm ≤ EPS then R.err .invalidInput
  else
    let iv := posIntervals beats
    if iv = [] then .ok (.fourFour, 0.5)
    else do
      let m := mean iv
      let best ← lastMax Prod.snd (TimeSig.fourFour, scoreSig iv 4 m)
        [(TimeSig.threeFour, scoreSig iv 3 m), (TimeSig.sixEight, scoreSig iv 6 m)]
      pure (best.1, F32.clamp best.2 0 1)

/-! ### bayesian.rs -/

/-- bayesian.rs lines 54-64 (`BayesianBeatTracker`) -/
structure Bayes where
  bpm : F32
  conf : F32
  history : List F32
deriving DecidableEq

/-- bayesian.rs lines 77-83 -/
def Bayes.new (bpm conf : F32) : Bayes := ⟨bpm, F32.clamp conf 0 1, [bpm]⟩

/-- bayesian.rs lines 188-192, with fuel -/
def candLoop (hi : F32) : ℕ → F32 → R (List F32)
  | 0, _ => R.outOfFuel
  | fuel + 1, b =>
    if b ≤ hi then do
      let r ← candLoop hi fuel (b + 0.5)
      pure (b :: r)
    else .ok []

/-- bayesian.rs lines 183-195 -/
def bpmCandidates (fuel : ℕ) (bpm : F32) : R (List F32) :=
  candLoop (F32.min (bpm + 5) 180) fuel (F32.max (bpm - 5) 60)

/-- bayesian.rs lines 222-244: log-probability of one onset -/
def logProb (start interval o : F32) : F32 :=
  let k := (F32.round ((o - start) / interval)).toI32
  let d := (o - (start + F32.ofInt k * interval)).abs
  let num := -(d * d)
  num / (2 * (0.05 * 0.05))

/-- bayesian.rs lines 203-255 -/
def likelihood (M : Libm) (onsets : List F32) (bpm : F32) : R F32 :=
  if bpm ≤ EPS then R.err .invalidInput
  else match onsets.head? with
    | none => .ok 0
    | some start =>
      if (0.05 : F32) * 0.05 ≤ EPS then R.err .numerical
      else .ok (M.exp (F32.sum (onsets.map (logProb start (60 / bpm))) / F32.ofNat onsets.length))

/-- bayesian.rs lines 134-141 -/
def bestCand (M : Libm) (onsets : List F32) : List F32 → F32 × F32 → R (F32 × F32)
  | [], best => .ok best
  | c :: cs, best => do
    let l ← likelihood M onsets c
    bestCand M onsets cs (if best.2 < l then (c, l) else best)

/-- bayesian.rs lines 104-178 (`update_with_onsets`); the prior (145-149) is computed but unused -/
def Bayes.update (M : Libm) (fuel : ℕ) (b : Bayes) (onsets : List F32) : R (Bayes × F32 × F32) :=
  if onsets = [] then R.err .invalidInput
  else if b.bpm ≤ EPS ∨ 300 < b.bpm then R.err .invalidInput
  else do
    let cands ← bpmCandidates fuel b.bpm
    let (best, lik) ← bestCand M onsets cands (b.bpm, 0)
    let change := (best - b.bpm).abs
    let penalty : F32 := if change < 1 then 1 else if change < 3 then 0.8 else 0.5
    let conf := F32.min (lik * penalty) 1
    pure (⟨best, conf, b.history ++ [best]⟩, best, conf)

/-! ### mod.rs -/

/-- result.rs (`BeatGrid`) -/
structure Grid where
  downbeats : List F32
  beats : List F32
  bars : List F32
deriving DecidableEq

/-- mod.rs lines 392-401: downbeats after the last accepted one -/
def downbeatsFrom (bar tol : F32) : F32 → List F32 → List F32
  | _, [] => []
  | lastD, b :: bs =>
    if (b - (lastD + bar)).abs ≤ tol then b :: downbeatsFrom bar tol b bs else downbeatsFrom bar tol lastD bs

/-- mod.rs lines 363-404 -/
def downbeats (beats : List F32) (bpm : F32) (sig : TimeSig) : R (List F32) :=
  match beats with
  | [] => .ok []
  | b :: bs =>
    if bpm ≤ 0 then R.err .invalidInput
    else
      let bar := 60 / bpm * F32.ofNat sig.beatsPerBar
      .ok (b :: downbeatsFrom bar (bar * 0.1) b bs)

/-- mod.rs lines 293-321 -/
def gridOf (beats : List BeatPos) (bpm : F32) (sig : TimeSig) : R Grid :=
  if beats = [] then R.err .invalidInput
  else do
    let bs ← sortAscP id (beats.map BeatPos.time)
    let ds ← downbeats bs bpm sig
    pure ⟨ds, bs, ds⟩

/-- mod.rs lines 425-485 -/
def stability (beats : List BeatPos) (bpm : F32) : R F32 :=
  if beats.length < 2 then .ok 0
  else if bpm ≤ 0 then R.err .invalidInput
  else
    let iv := posIntervals (beats.map BeatPos.time)
    if iv = [] then .ok 0
    else
      let m := mean iv
      if m ≤ EPS then .ok 0
      else .ok (1 / (1 + F32.sqrt (variance iv m) / m))

/-- mod.rs lines 167-208: refinement of the segments, carrying the Bayesian tracker.  An error of the
inner `track_beats` is swallowed (193); a panic or an unfinished loop is not. -/
def refine (M : Libm) (fuel : ℕ) (onsets : List F32) (beats : List BeatPos) :
    List Seg → Bayes → R (List BeatPos)
  | [], _ => .ok []
  | s :: segs, b =>
    if s.isVar then
      let so := onsets.filter (fun o => decide (s.start ≤ o) && decide (o ≤ s.stop))
      if so ≠ [] then do
        let (b', ubpm, _) ← b.update M fuel so
        let here ← match trackBeats M ubpm so with
          | .error (.err _) => .ok []
          | r => r
        let rest ← refine M fuel onsets beats segs b'
        pure (here ++ rest)
      else refine M fuel onsets beats segs b
    else do
      let rest ← refine M fuel onsets beats segs b
      pure (beats.filter (fun (p : BeatPos) => decide (s.start ≤ p.time) && decide (p.time ≤ s.stop)) ++ rest)

/-- mod.rs lines 108-247 (`generate_beat_grid`) -/
def beatGrid (M : Libm) (fuel : ℕ) (bpm conf : F32) (onsets : List F32) : R (Grid × F32) :=
  if bpm ≤ 0 ∨ 300 < bpm then R.err .invalidInput
  else if onsets = [] then R.err .invalidInput
  else do
    let sorted ← sortAscP id onsets
    let beats ← trackBeats M bpm sorted
    if beats = [] then R.err .processing
    else do
      let segs ← tempoSegments fuel (beats.map BeatPos.time) bpm
      let beats' ←
        if hasVariation segs then do
          let refined ← refine M fuel sorted beats segs (Bayes.new bpm conf)
          if refined ≠ [] then sortAscP BeatPos.time refined else .ok beats
        else .ok beats
      let (sig, _) ← timeSignature (beats'.map BeatPos.time) bpm
      let grid ← gridOf beats' bpm sig
      let st ← stability beats' bpm
      pure (grid, st)

end Verif.Beat
