/-
Model of src/features/key/: templates.rs, detector.rs, key_clarity.rs, key_changes.rs.

A `HashMap` is an association list in insertion order together with an iteration order `ord`, a
parameter (theorems assume only that `ord l` is a permutation of `l`).
-/
import Verif.Model.Notation

namespace Verif.KeyDet
open Verif Verif.Keys

/-! ### templates.rs -/

/-- templates.rs lines 26-32: two arrays of 12 vectors -/
structure Templates where
  major : Fin 12 → List F32
  minor : Fin 12 → List F32

/-- templates.rs lines 112-125 (and 193-205): the C profile moved up by `k` semitones -/
def rotate (c : List F32) (k : Fin 12) : List F32 :=
  (List.range 12).map (fun s => c.getD ((s + 12 - k.val) % 12) 0)

/-- templates.rs line 129 (and 209) -/
def norm2 (v : List F32) : F32 := F32.sqrt (F32.sum (v.map (fun x => x * x)))

/-- templates.rs lines 128-135 (and 208-215) -/
def l2Normalize (v : List F32) : List F32 :=
  let n := norm2 v
  if 1e-12 < n then v.map (fun x => x / n) else v

/-- templates.rs lines 71-73 -/
def kkMajor : List F32 := [6.35, 2.23, 3.48, 2.33, 4.38, 4.09, 2.52, 5.19, 2.39, 3.66, 2.29, 2.88]
/-- templates.rs lines 75-77 -/
def kkMinor : List F32 := [6.33, 2.68, 3.52, 5.38, 2.60, 3.53, 2.54, 4.75, 3.98, 2.69, 3.34, 3.17]
/-- templates.rs line 156 -/
def temperleyMajor : List F32 := [5.0, 2.0, 3.5, 2.0, 4.5, 4.0, 2.0, 4.5, 2.0, 3.5, 1.5, 4.0]
/-- templates.rs line 158 -/
def temperleyMinor : List F32 := [5.0, 2.0, 3.5, 5.0, 2.0, 3.5, 2.0, 4.5, 3.5, 2.0, 4.0, 3.5]

/-- templates.rs lines 80-142 (and 161-222) -/
def mkTemplates (cMajor cMinor : List F32) : Templates :=
  ⟨fun k => l2Normalize (rotate cMajor k), fun k => l2Normalize (rotate cMinor k)⟩

/-- templates.rs lines 64-143 -/
def krumhanslKessler : Templates := mkTemplates kkMajor kkMinor
/-- templates.rs lines 149-223 -/
def temperley : Templates := mkTemplates temperleyMajor temperleyMinor

/-- templates.rs lines 251-253 -/
def Templates.getMajor (T : Templates) (i : ℕ) : List F32 := T.major ⟨i % 12, Nat.mod_lt _ (by decide)⟩
/-- templates.rs lines 264-266 -/
def Templates.getMinor (T : Templates) (i : ℕ) : List F32 := T.minor ⟨i % 12, Nat.mod_lt _ (by decide)⟩

/-- templates.rs lines 234-240: `self.minor[key_idx - 12]` panics from 24 on -/
def Templates.get (T : Templates) (i : ℕ) : R (List F32) :=
  if h : i < 12 then .ok (T.major ⟨i, h⟩)
  else if h : i - 12 < 12 then .ok (T.minor ⟨i - 12, h⟩)
  else R.panic

/-! ### detector.rs -/

/-- key/mod.rs (`KeyDetectionResult`) -/
structure Res where
  key : Key
  conf : F32
  all : List (Key × F32)
  top : List (Key × F32)
deriving DecidableEq

/-- detector.rs lines 979-981 -/
def dot (a b : List F32) : F32 := F32.sum (List.zipWith (· * ·) a b)

/-- detector.rs lines 984-1001 -/
def weightedSumDot (chroma : List (List F32)) (weights : Option (List F32)) (t : List F32) : F32 :=
  match weights with
  | none => chroma.foldl (fun acc c => acc + dot c t) 0
  | some w => (chroma.zip w).foldl (fun acc p => if 0 < p.2 then acc + p.2 * dot p.1 t else acc) 0

/-- the `matches!(k, Key::Major(_))` tests -/
def isMajor : Key → Bool
  | .major _ => true
  | .minor _ => false

/-- `Key::Major(i) => i, Key::Minor(i) => i` -/
def tonic : Key → ℕ
  | .major i => i
  | .minor i => i

/-- detector.rs lines 118-133 -/
def rawScores (chroma : List (List F32)) (T : Templates) (weights : Option (List F32)) : List (Key × F32) :=
  (List.range 12).map (fun i => (.major i, weightedSumDot chroma weights (T.getMajor i))) ++
  (List.range 12).map (fun i => (.minor i, weightedSumDot chroma weights (T.getMinor i)))

/-- detector.rs lines 138-157: `filter_map(..).fold(0.0, f32::max)` -/
def modeMax (maj : Bool) (scores : List (Key × F32)) : F32 :=
  ((scores.filter (fun p => isMajor p.1 == maj)).map Prod.snd).foldl F32.max 0

/-- detector.rs lines 160-167 -/
def normScores (scores : List (Key × F32)) : List (Key × F32) :=
  let mMaj := modeMax true scores
  let mMin := modeMax false scores
  if 1e-9 < mMaj ∧ 1e-9 < mMin then
    scores.map (fun p => (p.1, p.2 / (if isMajor p.1 then mMaj else mMin)))
  else scores

/-- `max_by(|a, b| a.partial_cmp(b).unwrap_or(Equal))` from a first element: the running maximum is
replaced unless it is strictly greater -/
def maxByE {α} (key : α → F32) (b : α) (l : List α) : α :=
  l.foldl (fun m x => if key x < key m then m else x) b

/-- `iter().max_by(..).unwrap_or(d)` -/
def maxByOr {α} (key : α → F32) (d : α) : List α → α
  | [] => d
  | b :: l => maxByE key b l

/-- detector.rs lines 177-198 -/
def topOf (maj : Bool) (scores : List (Key × F32)) : Key × F32 :=
  maxByOr Prod.snd (if maj then .major 0 else .minor 0, 0) (scores.filter (fun p => isMajor p.1 == maj))

/-- detector.rs lines 173, 219-226: place on the circle of fifths (`unwrap_or(12)`) -/
def circlePos (t : ℕ) : ℕ := (circleMajor.findIdx? (· == t)).getD 12

/-- detector.rs lines 230-232 (`i32`; positions are below 12) -/
def circleDist (a b : ℕ) : ℤ := min |(a : ℤ) - b| (12 - |(a : ℤ) - b|)

/-- detector.rs lines 202-241, one entry -/
def refineOne (ref : Key × F32) (p : Key × F32) : Key × F32 :=
  if 1e-9 < ref.2 then
    let a := circlePos (tonic p.1)
    let b := circlePos (tonic ref.1)
    if a < 12 ∧ b < 12 then
      let d := circleDist a b
      if d ≤ 2 then (p.1, p.2 + ref.2 * (0.20 * (1 - F32.ofInt d * 0.5))) else p
    else p
  else p

/-- detector.rs lines 174-243 -/
def refineScores (scores : List (Key × F32)) : List (Key × F32) :=
  let tMaj := topOf true scores
  let tMin := topOf false scores
  scores.map (fun p => refineOne (if isMajor p.1 then tMaj else tMin) p)

/-- `*map.entry(k).or_insert(0.0) += v` -/
def addVote (k : Key) (v : F32) : List (Key × F32) → List (Key × F32)
  | [] => [(k, 0 + v)]
  | p :: l => if p.1 = k then (k, p.2 + v) :: l else p :: addVote k v l

/-- detector.rs lines 250-275 -/
def finalKey (ord : List (Key × F32) → List (Key × F32)) (scores : List (Key × F32)) : Key :=
  let best := scores.getD 0 (.major 0, 0)
  let second := (scores.getD 1 (.major 0, 0)).2
  let third := (scores.getD 2 (.major 0, 0)).2
  let thr := best.2 * 0.95
  if thr ≤ second ∧ thr * 0.90 ≤ third then
    let votes := (scores.take 3).foldl (fun m p => addVote p.1 (p.2 / best.2) m) []
    (maxByOr Prod.snd (best.1, 0) (ord votes)).1
  else best.1

/-- `iter().find(|(k, _)| p k).map(|(_, s)| *s).unwrap_or(d)` -/
def findScore (p : Key → Bool) (scores : List (Key × F32)) (d : F32) : F32 :=
  ((scores.find? (fun q => p q.1)).map Prod.snd).getD d

/-- detector.rs lines 289-293 (and 499-503, 684-688, 840-844, 951-955) -/
def margin (score other : F32) : F32 :=
  if 0 < score then F32.clamp ((score - other) / score) 0 1 else 0

/-- detector.rs lines 68-313 (`detect_key_weighted`; `detect_key` is `weights = none`, 57-62) -/
def detectKey (ord : List (Key × F32) → List (Key × F32)) (chroma : List (List F32)) (T : Templates)
    (weights : Option (List F32)) : R Res :=
  if chroma = [] then R.err .invalidInput
  else if chroma.any (fun c => c.length != 12) then R.err .invalidInput
  else if weights.any (fun w => w.length != chroma.length) then R.err .invalidInput
  else do
    let scores ← sortDescP Prod.snd (refineScores (normScores (rawScores chroma T weights)))
    let key := finalKey ord scores
    let best := (scores.getD 0 (.major 0, 0)).2
    let finalScore := findScore (fun k => decide (k = key)) scores best
    let bestOther := findScore (fun k => decide (k ≠ key)) scores 0
    pure ⟨key, margin finalScore bestOther, scores, scores.take 3⟩

/-! #### mode heuristic -/

/-- `avg[i] += x[i]` for the 12 entries; rows have length 12 (checked by `detect_key_weighted`) -/
def addRow (avg x : List F32) : List F32 := List.zipWith (· + ·) avg x

/-- detector.rs lines 345-367 -/
def chromaSum (chroma : List (List F32)) (weights : Option (List F32)) : List F32 × F32 :=
  match weights with
  | none => (chroma.foldl addRow (List.replicate 12 0), F32.ofNat chroma.length)
  | some w => (chroma.zip w).foldl (fun acc p =>
      if p.2 ≤ 0 then acc else (addRow acc.1 (p.1.map (fun x => p.2 * x)), acc.2 + p.2)) (List.replicate 12 0, 0)

/-- detector.rs lines 372-377 -/
def chromaAvg (s : List F32) : List F32 :=
  let t := F32.sum s
  if 1e-9 < t then s.map (fun x => x / t) else s

/-- detector.rs lines 381-394: bonus of minor keys with a leading tone -/
def minorBonus (enable : Bool) (weight wsum : F32) (avg : List F32) (scores : List (Key × F32)) : List (Key × F32) :=
  let w := F32.max weight 0
  if enable && decide (0 < w) then
    scores.map (fun p => match p.1 with
      | .minor t => (p.1, p.2 + wsum * w * (avg.getD ((t + 11) % 12) 0 - avg.getD ((t + 10) % 12) 0))
      | .major _ => p)
  else scores

/-- detector.rs lines 432-453: evidence from one scale degree, added to `(minor, major)` -/
def degreeVote (margin mult pMin pMaj : F32) (acc : F32 × F32) : F32 × F32 :=
  let d := (pMin - pMaj).abs
  if pMaj * (1 + margin) < pMin then (acc.1 + d * mult, acc.2)
  else if pMin * (1 + margin) < pMaj then (acc.1, acc.2 + d * mult)
  else acc

/-- detector.rs lines 417-466: `(minor_pref, major_pref)` -/
def modePref (thirdMargin : F32) (avg : List F32) (t : ℕ) : Bool × Bool :=
  let at' (d : ℕ) : F32 := avg.getD ((t + d) % 12) 0
  let mg := F32.max thirdMargin 0
  let v := degreeVote mg 1 (at' 10) (at' 11) (degreeVote mg 1 (at' 8) (at' 9) (degreeVote mg 2 (at' 3) (at' 4) (0, 0)))
  if 1e-9 < v.1 + v.2 then
    (decide (v.2 * (1 + mg * 0.5) < v.1), decide (v.1 * (1 + mg * 0.5) < v.2))
  else (false, false)

/-- detector.rs lines 401-408: the (last) score stored for a key, initially 0 -/
def modeScore (scores : List (Key × F32)) (k : Key) : F32 :=
  ((scores.reverse.find? (fun p => decide (p.1 = k))).map Prod.snd).getD 0

/-- detector.rs lines 468-483 -/
def chooseMode (flip : F32) (pref : Bool × Bool) (scores : List (Key × F32)) (best : Key) : Key :=
  if 0 < flip then
    match best with
    | .major t =>
      if pref.1 && decide (0 < modeScore scores best) &&
          decide (modeScore scores best * flip ≤ modeScore scores (.minor t)) then .minor t else best
    | .minor t =>
      if pref.2 && decide (0 < modeScore scores best) &&
          decide (modeScore scores best * flip ≤ modeScore scores (.major t)) then .major t else best
  else best

/-- detector.rs lines 506-510 -/
def topWith (scores : List (Key × F32)) (k : Key) (s : F32) : List (Key × F32) :=
  let top := scores.take 3
  if top.any (fun p => decide (p.1 = k)) then top else top.dropLast ++ [(k, s)]

/-- detector.rs lines 326-518 (`detect_key_weighted_mode_heuristic`).  `major_scores[i as usize]` never
fails because the base detection only produces indices below 12. -/
def detectKeyMode (ord : List (Key × F32) → List (Key × F32)) (chroma : List (List F32)) (T : Templates)
    (weights : Option (List F32)) (thirdMargin flipMin : F32) (bonus : Bool) (bonusWeight : F32) : R Res := do
  let base ← detectKey ord chroma T weights
  let flip := F32.clamp flipMin 0 1
  if bonus = false ∧ ¬ 0 < flip then pure base
  else
    let (s, wsum) := chromaSum chroma weights
    if wsum ≤ 1e-9 then pure base
    else
      let avg := chromaAvg s
      let scores := sortDesc Prod.snd (minorBonus bonus bonusWeight wsum avg base.all)
      let best := (scores.getD 0 (.major 0, 0)).1
      let chosen := chooseMode flip (modePref thirdMargin avg (tonic best)) scores best
      let chosenScore := modeScore scores chosen
      let other := (scores.filter (fun p => decide (p.1 ≠ chosen))).foldl (fun m p => F32.max m p.2) 0
      pure ⟨chosen, margin chosenScore other, scores, topWith scores chosen chosenScore⟩

/-! #### ensemble -/

/-- the 24 keys in index order (detector.rs 574-579, 799-804, 924-929) -/
def allKeys : List Key := (List.range 12).map Key.major ++ (List.range 12).map Key.minor

/-- `HashMap` built by `insert` from a list, then `get(..).copied().unwrap_or(0.0)`: the last entry wins -/
def lookupLast (l : List (Key × F32)) (k : Key) : F32 := modeScore l k

/-- detector.rs lines 881-976 (`detect_key_ensemble`) -/
def detectEnsemble (ord1 ord2 : List (Key × F32) → List (Key × F32)) (chroma : List (List F32))
    (weights : Option (List F32)) (wKK wTemp : F32) : R Res := do
  let total := wKK + wTemp
  let nKK : F32 := if 1e-9 < total then wKK / total else 0.5
  let nTemp : F32 := if 1e-9 < total then wTemp / total else 0.5
  let kk ← detectKey ord1 chroma krumhanslKessler weights
  let te ← detectKey ord2 chroma temperley weights
  let scores := sortDesc Prod.snd (allKeys.map (fun k => (k, nKK * lookupLast kk.all k + nTemp * lookupLast te.all k)))
  let best := scores.getD 0 (.major 0, 0)
  pure ⟨best.1, margin best.2 (scores.getD 1 (.major 0, 0)).2, scores, scores.take 3⟩

/-! ### key_clarity.rs -/

/-- `min_by(|a, b| a.partial_cmp(b).unwrap())`: the first minimum; panics when a comparison meets NaN -/
def minByP : F32 → List F32 → R F32
  | b, [] => .ok b
  | b, x :: xs => if b.isNaN || x.isNaN then R.panic else if x < b then minByP x xs else minByP b xs

/-- `max_by(|a, b| a.partial_cmp(b).unwrap())` -/
def maxByP : F32 → List F32 → R F32
  | b, [] => .ok b
  | b, x :: xs => if b.isNaN || x.isNaN then R.panic else if x < b then maxByP b xs else maxByP x xs

/-- key_clarity.rs lines 51-93 (`compute_key_clarity`) -/
def keyClarity (scores : List (Key × F32)) : R F32 :=
  match scores.map Prod.snd with
  | [] => .ok 0
  | [_] => .ok 0
  | best :: rest => do
    let avg := F32.sum (best :: rest) / F32.ofNat (best :: rest).length
    let lo ← minByP best rest
    let hi ← maxByP best rest
    let range := hi - lo
    if 1e-10 < range then pure (F32.clamp ((best - avg) / range) 0 1) else pure 0

/-! #### multi-scale and median (detector.rs, using the clarity) -/

/-- detector.rs lines 604-610 (and 746-752): weights of the segment, if they cover it -/
def segWeights (weights : Option (List F32)) (start len : ℕ) : Option (List F32) :=
  weights.bind (fun w => if start + len ≤ w.length then some ((w.drop start).take len) else none)

/-- starts of the segments: `start = 0; while start + len <= n { ..; start += hop }` -/
def segStarts (n len hop : ℕ) : List ℕ :=
  if len ≤ n then (List.range ((n - len) / hop + 1)).map (fun i => i * hop) else []

/-- detector.rs lines 613-629 and 653-669: detection with or without the heuristics -/
def detectWith (ord : List (Key × F32) → List (Key × F32)) (chroma : List (List F32)) (T : Templates)
    (weights : Option (List F32)) (modeOn : Bool) (thirdMargin flipMin : F32) (bonus : Bool) (bonusWeight : F32) : R Res :=
  if modeOn || bonus then
    detectKeyMode ord chroma T weights thirdMargin (if modeOn then flipMin else 0) bonus bonusWeight
  else detectKey ord chroma T weights

/-- detector.rs lines 581-582, 573: accumulated scores, total weight, used segments -/
structure Acc where
  scores : List (Key × F32)
  weight : F32
  used : ℕ

/-- detector.rs lines 631-645 -/
def accSegment (minClarity scaleWeight : F32) (acc : Acc) (r : Res) : R Acc := do
  let c ← keyClarity r.all
  if minClarity ≤ c then
    let w := c * scaleWeight
    pure ⟨r.all.foldl (fun a p => a.map (fun q => if q.1 = p.1 then (q.1, q.2 + p.2 * w) else q)) acc.scores,
      acc.weight + w, acc.used + 1⟩
  else pure acc

/-- detector.rs lines 602-648 -/
def accSegments (det : List (List F32) → Option (List F32) → R Res) (chroma : List (List F32)) (weights : Option (List F32))
    (minClarity scaleWeight : F32) (len : ℕ) : List ℕ → Acc → R Acc
  | [], acc => .ok acc
  | s :: ss, acc => do
    let r ← det ((chroma.drop s).take len) (segWeights weights s len)
    let acc' ← accSegment minClarity scaleWeight acc r
    accSegments det chroma weights minClarity scaleWeight len ss acc'

/-- detector.rs lines 585-649 -/
def accScales (det : List (List F32) → Option (List F32) → R Res) (chroma : List (List F32)) (weights : Option (List F32))
    (minClarity : F32) (hop : ℕ) (scaleWeights : Option (List F32)) : ℕ → List ℕ → Acc → R Acc
  | _, [], acc => .ok acc
  | i, len :: lens, acc =>
    let sw : F32 := ((scaleWeights.bind (fun w => w[i]?))).getD 1
    if len = 0 ∨ chroma.length < len ∨ sw ≤ 0 then accScales det chroma weights minClarity hop scaleWeights (i + 1) lens acc
    else do
      let acc' ← accSegments det chroma weights minClarity sw len (segStarts chroma.length len (max hop 1)) acc
      accScales det chroma weights minClarity hop scaleWeights (i + 1) lens acc'

/-- detector.rs lines 546-700 (`detect_key_multi_scale`).  One hash order serves all inner calls. -/
def detectMultiScale (ord : List (Key × F32) → List (Key × F32)) (chroma : List (List F32)) (T : Templates)
    (weights : Option (List F32)) (lens : List ℕ) (hop : ℕ) (minClarity : F32) (scaleWeights : Option (List F32))
    (modeOn : Bool) (thirdMargin flipMin : F32) (bonus : Bool) (bonusWeight : F32) : R Res :=
  if chroma = [] then R.err .invalidInput
  else if lens = [] then R.err .invalidInput
  else do
    let det := fun c w => detectWith ord c T w modeOn thirdMargin flipMin bonus bonusWeight
    let acc ← accScales det chroma weights minClarity hop scaleWeights 0 lens ⟨allKeys.map (fun k => (k, 0)), 0, 0⟩
    if acc.used = 0 ∨ acc.weight ≤ 1e-12 then det chroma weights
    else do
      let scores ← sortDescP Prod.snd (acc.scores.map (fun p => (p.1, p.2 / acc.weight)))
      let best := scores.getD 0 (.major 0, 0)
      pure ⟨best.1, margin best.2 (scores.getD 1 (.major 0, 0)).2, scores, scores.take 3⟩

/-- `entry(k).or_insert((0, 0.0))`, then `.0 += 1`, `.1 += c` (detector.rs 775-779, key_changes.rs 137-141) -/
def countKey (k : Key) (c : F32) : List (Key × ℕ × F32) → List (Key × ℕ × F32)
  | [] => [(k, 1, 0 + c)]
  | p :: l => if p.1 = k then (k, p.2.1 + 1, p.2.2 + c) :: l else p :: countKey k c l

/-- detector.rs lines 744-765: an `Err` of a segment is skipped, a panic is not -/
def medianSegments (ord : List (Key × F32) → List (Key × F32)) (chroma : List (List F32)) (T : Templates)
    (weights : Option (List F32)) (len : ℕ) : List ℕ → R (List Res)
  | [] => .ok []
  | s :: ss => do
    let here ← match detectKey ord ((chroma.drop s).take len) T (segWeights weights s len) with
      | .ok r => .ok [r]
      | .error (.err _) => .ok []
      | .error e => .error e
    let rest ← medianSegments ord chroma T weights len ss
    pure (here ++ rest)

/-- detector.rs lines 784-793: `a` is strictly greater than `b` -/
def countGt (a b : Key × ℕ × F32) : Bool :=
  decide (b.2.1 < a.2.1) || (decide (b.2.1 = a.2.1) && decide (b.2.2 < a.2.2))

/-- detector.rs lines 807-820 -/
def aggScore (segs : List Res) (k : Key) : F32 :=
  let t := segs.foldl (fun (acc : F32 × F32) (r : Res) =>
    match r.all.find? (fun p => decide (p.1 = k)) with
    | some p => (acc.1 + p.2 * r.conf, acc.2 + r.conf)
    | none => acc) (0, 0)
  if 0 < t.2 then t.1 / t.2 else 0

/-- detector.rs lines 721-863 (`detect_key_median`); `ordC` is the iteration order of `key_counts` -/
def detectMedian (ord : List (Key × F32) → List (Key × F32)) (ordC : List (Key × ℕ × F32) → List (Key × ℕ × F32))
    (chroma : List (List F32)) (T : Templates) (weights : Option (List F32)) (segLen hop minSeg : ℕ) : R Res :=
  if chroma = [] then R.err .invalidInput
  else do
    let len := max (min segLen chroma.length) 120
    let segs ← medianSegments ord chroma T weights len (segStarts chroma.length len (max hop 1))
    if segs.length < max minSeg 1 then detectKey ord chroma T weights
    else
      let counts := ordC (segs.foldl (fun m r => countKey r.key r.conf m) [])
      match counts with
      | [] => R.panic
      | c :: cs =>
        let key := (cs.foldl (fun m x => if countGt m x then m else x) c).1
        let scores := sortDesc Prod.snd (allKeys.map (fun k => (k, aggScore segs k)))
        let s := findScore (fun k => decide (k = key)) scores 0
        let other := findScore (fun k => decide (k ≠ key)) scores 0
        pure ⟨key, margin s other, scores, scores.take 3⟩

/-! ### key_changes.rs -/

/-- key_changes.rs lines 19-31 -/
structure Change where
  time : F32
  fromKey : Key
  toKey : Key
  conf : F32
deriving DecidableEq

/-- key_changes.rs lines 35-47 -/
structure Changes where
  primary : Key
  primaryConf : F32
  changes : List Change
  segments : List (F32 × Key × F32)
deriving DecidableEq

/-- key_changes.rs lines 107-126: an `Err` of a segment is skipped, a panic is not -/
def changeSegments (ord : List (Key × F32) → List (Key × F32)) (chroma : List (List F32)) (T : Templates)
    (fps : F32) (len : ℕ) : List ℕ → R (List (F32 × Key × F32))
  | [] => .ok []
  | s :: ss => do
    let here ← match detectKey ord ((chroma.drop s).take len) T none with
      | .ok r => .ok [(F32.ofNat s / fps, r.key, r.conf)]
      | .error (.err _) => .ok []
      | .error e => .error e
    let rest ← changeSegments ord chroma T fps len ss
    pure (here ++ rest)

/-- key_changes.rs lines 153-172 -/
def changesOf : List (F32 × Key × F32) → List Change
  | p :: q :: l =>
    let c := (p.2.2 + q.2.2) / 2
    (if p.2.1 ≠ q.2.1 ∧ 0.2 < c then [⟨q.1, p.2.1, q.2.1, c⟩] else []) ++ changesOf (q :: l)
  | _ => []

/-- key_changes.rs lines 70-187 (`detect_key_changes`).  Line 95 underflows (panic, debug semantics)
when the overlap is longer than the segment; `hop_size = 0` gives infinite or NaN frame rates. -/
def keyChanges (ord : List (Key × F32) → List (Key × F32)) (ordC : List (Key × ℕ × F32) → List (Key × ℕ × F32))
    (chroma : List (List F32)) (sr hop : ℕ) (T : Templates) (dur overlap : F32) : R Changes :=
  if chroma = [] then R.err .invalidInput
  else
    let fps := F32.ofNat sr / F32.ofNat hop
    let len := (dur * fps).toUsize
    let ov := (overlap * fps).toUsize
    if len < ov then R.panic
    else if len = 0 ∨ len - ov = 0 then R.err .invalidInput
    else do
      let segs ← changeSegments ord chroma T fps len (segStarts chroma.length len (len - ov))
      if segs = [] then R.err .invalidInput
      else
        let counts := ordC (segs.foldl (fun m p => countKey p.2.1 p.2.2 m) [])
        match counts with
        | [] => R.panic
        | c :: cs =>
          let best := cs.foldl (fun m x => if x.2.1 < m.2.1 then m else x) c
          pure ⟨best.1, best.2.2 / F32.ofNat best.2.1, changesOf segs, segs⟩

end Verif.KeyDet
