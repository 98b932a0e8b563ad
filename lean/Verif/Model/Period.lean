/-
Model of the legacy period estimators:
src/features/period/{peak_picking,autocorrelation,comb_filter,candidate_filter,mod}.rs.
Log calls are dropped.
-/
import Verif.Common

namespace Verif.Period
open Verif

/-- `v[i]` at a position guarded by the surrounding loop range (0 outside the list, never reached). -/
def at' (v : List F32) (i : ℕ) : F32 := v.getD i 0

/-- peak_picking.rs line 6, autocorrelation.rs line 42, comb_filter.rs line 41 -/
def EPS : F32 := 1e-10

/-- `|a as i32 - b as i32| as compared with an i32`: the subtraction and `abs` panic on overflow
(debug semantics). -/
def distI32 (a b : ℕ) : R ℤ :=
  let d := asI32 a - asI32 b
  if d ≤ -2 ^ 31 ∨ 2 ^ 31 - 1 < d then R.panic else .ok |d|

/-! ### peak_picking.rs -/

/-- peak_picking.rs lines 73-99: interior local maxima, then the two ends -/
def rawPeaks (s : List F32) (thr : F32) : List (ℕ × F32) :=
  let interior := ((List.range' 1 (s.length - 1 - 1)).filter (fun i =>
    decide (at' s (i - 1) < at' s i) && decide (at' s (i + 1) < at' s i) && decide (thr ≤ at' s i))).map
      (fun i => (i, at' s i))
  let first := if at' s 1 < at' s 0 ∧ thr ≤ at' s 0 then [(0, at' s 0)] else []
  let last := s.length - 1
  let final := if at' s (last - 1) < at' s last ∧ thr ≤ at' s last then [(last, at' s last)] else []
  interior ++ first ++ final

/-- peak_picking.rs lines 109-111: is `i` too close to a kept peak (stops at the first hit) -/
def tooClose (minDist : ℕ) (i : ℕ) : List (ℕ × F32) → R Bool
  | [] => .ok false
  | p :: ps => do
    let d ← distI32 i p.1
    if d < asI32 minDist then pure true else tooClose minDist i ps

/-- peak_picking.rs lines 106-116, from the kept peaks `kept` on -/
def greedy (minDist : ℕ) : List (ℕ × F32) → List (ℕ × F32) → R (List (ℕ × F32))
  | [], kept => .ok kept
  | p :: ps, kept => do
    if ← tooClose minDist p.1 kept then greedy minDist ps kept else greedy minDist ps (kept ++ [p])

/-- peak_picking.rs lines 39-127 (`find_peaks`) -/
def findPeaks (s : List F32) (threshold : F32) (minDist : ℕ) : R (List (ℕ × F32)) :=
  if s.length < 3 then .ok []
  else
    let maxV := F32.foldMax 0 s
    let thr := if 0 < threshold ∧ threshold < 1 ∧ 0 < maxV then maxV * threshold else threshold
    if maxV < EPS then .ok []
    else do
      let peaks := rawPeaks s thr
      let peaks ← if 0 < minDist ∧ 1 < peaks.length then greedy minDist (sortDesc Prod.snd peaks) []
        else .ok peaks
      pure (sortDesc Prod.snd peaks)

/-! ### autocorrelation.rs -/

/-- mod.rs lines 61-68 (`BpmCandidate`) -/
structure Cand where
  bpm : F32
  conf : F32
deriving DecidableEq

/-- autocorrelation.rs lines 303-332: peak list built left to right; two peaks closer than two lags
are merged, keeping the higher -/
def acfPeaksFrom (s : List F32) (offset : ℕ) (prom : F32) : List ℕ → List (ℕ × F32) → R (List (ℕ × F32))
  | [], ps => .ok ps
  | i :: is, ps =>
    if at' s (i - 1) < at' s i ∧ at' s (i + 1) < at' s i ∧
        prom ≤ at' s i - F32.max (at' s (i - 1)) (at' s (i + 1)) then
      match ps.getLast? with
      | none => acfPeaksFrom s offset prom is (ps ++ [(i + offset, at' s i)])
      | some q => do
        let d ← distI32 (i + offset) q.1
        if 2 ≤ d then acfPeaksFrom s offset prom is (ps ++ [(i + offset, at' s i)])
        else if q.2 < at' s i then acfPeaksFrom s offset prom is (ps.dropLast ++ [(i + offset, at' s i)])
        else acfPeaksFrom s offset prom is ps
    else acfPeaksFrom s offset prom is ps

/-- autocorrelation.rs lines 282-338 (`find_peaks_in_acf`) -/
def acfPeaks (s : List F32) (offset : ℕ) : R (List (ℕ × F32)) :=
  if s = [] then .ok []
  else
    let maxV := F32.foldMax 0 s
    if maxV < EPS then .ok []
    else do
      let ps ← acfPeaksFrom s offset (maxV * 0.1) (List.range' 1 (s.length - 1 - 1)) []
      pure (sortDesc Prod.snd ps)

/-- autocorrelation.rs lines 157-163: one flag per frame -/
def beatSignal (onsets : List ℕ) (hop len : ℕ) : List F32 :=
  (List.range len).map (fun k => if onsets.any (fun o => o / hop == k) then 1 else 0)

/-- `usize::next_power_of_two`, for arguments up to `2^63` -/
def nextPow2 (n : ℕ) : ℕ := 2 ^ ((List.range 64).find? (fun e => decide (n ≤ 2 ^ e))).getD 64

/-- autocorrelation.rs lines 229-268 (`compute_autocorrelation_fft`).  `ifft sig k` is the real part of
the unscaled inverse transform of the power spectrum; the transforms themselves (crate rustfft) are a
parameter. -/
def autocorr (ifft : List F32 → ℕ → F32) (sig : List F32) : List F32 :=
  let scale := 1 / F32.ofNat (nextPow2 (2 * sig.length))
  (List.range sig.length).map (fun k => F32.max (ifft sig k * scale) 0)

/-- autocorrelation.rs lines 189-204 -/
def acfCands (acf : List F32) (sr hop : ℕ) (minB maxB : F32) (peaks : List (ℕ × F32)) : List Cand :=
  peaks.filterMap (fun p =>
    let bpm := (60 * F32.ofNat sr) / (F32.ofNat p.1 * F32.ofNat hop)
    if minB ≤ bpm ∧ bpm ≤ maxB then
      let maxA := F32.foldMax 0 acf
      some ⟨bpm, if EPS < maxA then F32.min (p.2 / maxA) 1 else 0⟩
    else none)

/-- autocorrelation.rs lines 99-216 (`estimate_bpm_from_autocorrelation`) -/
def estAutocorr (ifft : List F32 → ℕ → F32) (onsets : List ℕ) (sr hop : ℕ) (minB maxB : F32) :
    R (List Cand) :=
  if onsets = [] then R.err .invalidInput
  else if sr = 0 then R.err .invalidInput
  else if hop = 0 then R.err .invalidInput
  else if minB ≤ 0 ∨ maxB ≤ 0 ∨ maxB ≤ minB then R.err .invalidInput
  else if onsets.length < 2 then .ok []
  else
    let len := onsets.foldl Nat.max 0 / hop + 1
    if len < 2 then R.err .processing
    else
      let acf := autocorr ifft (beatSignal onsets hop len)
      let lagMin := (F32.ceil ((60 * F32.ofNat sr) / (maxB * F32.ofNat hop))).toUsize
      let lagMax := (F32.floor ((60 * F32.ofNat sr) / (minB * F32.ofNat hop))).toUsize
      if lagMax ≤ lagMin ∨ acf.length ≤ lagMin ∨ acf.length ≤ lagMax then .ok []
      else do
        let s ← slice acf lagMin (lagMax + 1)
        let ps ← acfPeaks s lagMin
        pure (sortDesc Cand.conf (acfCands acf sr hop minB maxB ps))

/-! ### comb_filter.rs -/

/-- comb_filter.rs lines 375-378: the onset with the least truncated distance, the first one on ties -/
def nearest (onsets : List ℕ) (beat : F32) : Option ℕ :=
  match onsets with
  | [] => none
  | o :: os => some (os.foldl (fun best x =>
      if (F32.ofNat x - beat).abs.toUsize < (F32.ofNat best - beat).abs.toUsize then x else best) o)

/-- comb_filter.rs lines 371-386: is beat `k` aligned -/
def aligned (onsets : List ℕ) (period tolS : F32) (k : ℕ) : Bool :=
  let beat := F32.ofNat k * period
  match nearest onsets beat with
  | some o => decide ((F32.ofNat o - beat).abs ≤ tolS)
  | none => false

/-- comb_filter.rs lines 342-397 (`score_bpm_candidate`); `onsets` is sorted, so `onsets[len-1]` is the
last.  The addition on line 366 panics on overflow (debug semantics). -/
def score (onsets : List ℕ) (sr : ℕ) (bpm tol : F32) : R F32 :=
  match onsets.getLast? with
  | none => .ok 0
  | some lastO =>
    let period := (60 * F32.ofNat sr) / bpm
    if period < 1 then R.err .numerical
    else
      let tolS := period * tol
      let n := (F32.ceil (F32.ofNat lastO / period)).toUsize
      if F32.usizeMax ≤ n then R.panic
      else .ok (F32.ofNat ((List.range (n + 1)).countP (aligned onsets period tolS)) / F32.ofNat (n + 1))

/-- comb_filter.rs lines 158-175: the search loop.  Its termination is property C16, so it carries
fuel: `Fail.fuel` means the loop was still running. -/
def combLoop (onsets : List ℕ) (sr : ℕ) (maxB res : F32) : ℕ → F32 → R (List (F32 × F32))
  | 0, bpm => if bpm ≤ maxB + EPS then R.outOfFuel else .ok []
  | fuel + 1, bpm =>
    if bpm ≤ maxB + EPS then do
      let tol := F32.clamp (0.1 * (120 / bpm)) 0.05 0.15
      let sc ← score onsets sr bpm tol
      let rest ← combLoop onsets sr maxB res fuel (bpm + res)
      pure ((bpm, sc) :: rest)
    else .ok []

/-- comb_filter.rs lines 155, 169-171: running maximum of the scores -/
def maxScore (cs : List (F32 × F32)) : F32 := cs.foldl (fun m c => if m < c.2 then c.2 else m) 0

/-- comb_filter.rs lines 178-206 -/
def combFinish (cs : List (F32 × F32)) : List Cand :=
  let m := maxScore cs
  let norm := if EPS < m then cs.map (fun c => Cand.mk c.1 (c.2 / m)) else cs.map (fun c => Cand.mk c.1 0)
  (sortDesc Cand.conf norm).filter (fun c => decide (0.1 ≤ c.conf))

/-- comb_filter.rs lines 96-215 (`estimate_bpm_from_comb_filter`).  The capacity hint of line 152 is not
modelled. -/
def estComb (fuel : ℕ) (onsets : List ℕ) (sr : ℕ) (minB maxB res : F32) : R (List Cand) :=
  if onsets = [] then R.err .invalidInput
  else if sr = 0 then R.err .invalidInput
  else if minB ≤ 0 ∨ maxB ≤ 0 ∨ maxB ≤ minB then R.err .invalidInput
  else if res ≤ 0 then R.err .invalidInput
  else if onsets.length < 2 then .ok []
  else do
    let cs ← combLoop (sortNat onsets) sr maxB res fuel minB
    pure (combFinish cs)

/-- comb_filter.rs lines 256-327 (`coarse_to_fine_search`) -/
def coarseToFine (fuel : ℕ) (onsets : List ℕ) (sr : ℕ) (minB maxB range : F32) : R (List Cand) := do
  let coarse ← estComb fuel onsets sr minB maxB 2
  match coarse with
  | [] => pure []
  | best :: _ =>
    let fineMin := F32.max (best.bpm - range) minB
    let fineMax := F32.min (best.bpm + range) maxB
    let fine ← estComb fuel onsets sr fineMin fineMax 0.5
    pure (sortDesc Cand.conf (if fine = [] then coarse else fine))

/-! ### candidate_filter.rs -/

/-- mod.rs lines 72-81 (`BpmEstimate`) -/
structure Est where
  bpm : F32
  conf : F32
  agreement : ℕ
deriving DecidableEq

/-- `bpm >= 60.0 && bpm <= 180.0` -/
def reasonable (b : F32) : Bool := decide (60 ≤ b) && decide (b ≤ 180)

/-- candidate_filter.rs lines 180-202: correct one autocorrelation candidate (double tempo) -/
def octaveDown (tolRatio : F32) (a : Cand) : List Cand → Cand
  | [] => a
  | c :: cs =>
    if (a.bpm / c.bpm / 2 - 1).abs < tolRatio - 1 ∧
        (reasonable c.bpm = true ∨ 200 < a.bpm ∨ a.bpm < 30) then { a with bpm := c.bpm }
    else octaveDown tolRatio a cs

/-- candidate_filter.rs lines 208-227: correct one autocorrelation candidate (half tempo) -/
def octaveUp (tolRatio : F32) (a : Cand) : List Cand → Cand
  | [] => a
  | c :: cs =>
    if (c.bpm / a.bpm / 2 - 1).abs < tolRatio - 1 ∧ reasonable c.bpm = true then { a with bpm := c.bpm }
    else octaveUp tolRatio a cs

/-- candidate_filter.rs lines 252-263: append reasonable candidates farther than 1 BPM from all kept -/
def addReasonable : List Cand → List Cand → List Cand
  | [], kept => kept
  | c :: cs, kept =>
    if reasonable c.bpm && !kept.any (fun k => decide ((k.bpm - c.bpm).abs < 1)) then
      addReasonable cs (kept ++ [c])
    else addReasonable cs kept

/-- candidate_filter.rs line 277: `(bpm, total_confidence, method_count, max_confidence)` -/
structure Group where
  bpm : F32
  total : F32
  count : ℕ
  maxC : F32
deriving DecidableEq

/-- candidate_filter.rs lines 281-296 (and 301-316): first group within ±2 BPM, or a new one -/
def addGroup (c : Cand) : List Group → List Group
  | [] => [⟨c.bpm, c.conf, 1, c.conf⟩]
  | g :: gs =>
    if (c.bpm - g.bpm).abs ≤ 2 then
      ⟨(g.bpm * F32.ofNat g.count + c.bpm) / F32.ofNat (g.count + 1), g.total + c.conf, g.count + 1,
        F32.max g.maxC c.conf⟩ :: gs
    else g :: addGroup c gs

/-- candidate_filter.rs lines 322-345 -/
def estOf (disagree : Bool) (g : Group) : Est :=
  let c := if 2 ≤ g.count then F32.min ((g.total / F32.ofNat g.count + g.maxC) / 2 * 1.2) 1 else F32.min g.total 1
  let c := if disagree && g.count == 1 then c * 0.7 else c
  ⟨g.bpm, c, g.count⟩

/-- candidate_filter.rs lines 69-70 -/
def harmonic (a e : F32) : Bool :=
  let r := F32.max (a / e) (e / a)
  decide ((r - 2).abs < 0.1) || decide ((r - 1.5).abs < 0.1) || decide ((r - 0.75).abs < 0.1)

/-- candidate_filter.rs lines 51-112 (`boost_consensus_candidates`), one estimate -/
def boost (ac cb : List Cand) (e : Est) : Est :=
  let ad := ac.any (fun a => decide ((a.bpm - e.bpm).abs < 2.5))
  let cd := cb.any (fun c => decide ((c.bpm - e.bpm).abs < 2.5))
  let ah := ac.any (fun a => harmonic a.bpm e.bpm)
  let ch := cb.any (fun c => harmonic c.bpm e.bpm)
  let conf := if ad && cd then e.conf * 1.5 else if (ad && ch) || (cd && ah) then e.conf * 1.3 else e.conf
  let conf := if cd && reasonable e.bpm then conf * 1.4 else conf
  { e with conf := conf }

/-- candidate_filter.rs lines 364-381: double the confidence of the first reasonable estimate -/
def safety (es : List Est) : List Est :=
  if (es.take 5).any (fun e => reasonable e.bpm) then es
  else match es.findIdx? (fun e => reasonable e.bpm) with
    | some i => es.modify i (fun e => { e with conf := e.conf * 2 })
    | none => es

/-- `partial_cmp(..).unwrap_or(Equal)` -/
def cmpOr (a b : F32) : Ordering := (F32.partialCmp a b).getD .eq

/-- candidate_filter.rs lines 394-403 -/
def effConf (e : Est) : F32 := if reasonable e.bpm then e.conf else e.conf * 0.5

/-- candidate_filter.rs lines 385-432: the comparator -/
def cmpEst (a b : Est) : Ordering :=
  let ar := reasonable a.bpm
  let br := reasonable b.bpm
  let ea := effConf a
  let eb := effConf b
  let c := cmpOr eb ea
  if (ea - eb).abs < 0.5 ∧ ar = true ∧ br = false then .lt
  else if (ea - eb).abs < 0.5 ∧ ar = false ∧ br = true then .gt
  else if c ≠ .eq then c
  else if c = .eq ∨ (ea - eb).abs < 0.1 then compare b.agreement a.agreement
  else c

/-- candidate_filter.rs lines 231-239 -/
def disagreement (ac cb : List Cand) : Bool :=
  match ac.head?, cb.head? with
  | some a, some c => let d := (a.bpm - c.bpm).abs; decide (10 < d) && decide (d < 50)
  | _, _ => false

/-- candidate_filter.rs lines 147-443 (`merge_bpm_candidates`); total: no error path exists -/
def merge (M : Libm) (ac cb : List Cand) (tolCents : F32) : List Est :=
  if ac = [] ∧ cb = [] then []
  else
    let tolRatio := M.exp2 (tolCents / 1200)
    let ac := ac.map (fun a => octaveDown tolRatio a (cb.take 3))
    let ac := ac.map (fun a => octaveUp tolRatio a (cb.take 3))
    let dis := disagreement ac cb
    let acL := addReasonable ac (ac.take 10)
    let cbL := cb.take 10
    let groups := (acL ++ cbL).foldl (fun gs c => addGroup c gs) []
    let es := (groups.map (estOf dis)).map (boost (acL.take 5) (cbL.take 5))
    rsort (fun a b => cmpEst a b != .gt) (safety es)

/-! ### mod.rs -/

/-- mod.rs lines 88-103 (`LegacyBpmGuardrails`) -/
structure Guard where
  prefMin : F32
  prefMax : F32
  softMin : F32
  softMax : F32
  mulPref : F32
  mulSoft : F32
  mulExt : F32

/-- mod.rs lines 106-117 (`mul_for`) -/
def Guard.mulFor (g : Guard) (b : F32) : F32 :=
  if b.isFinite = false then 0
  else if g.prefMin ≤ b ∧ b ≤ g.prefMax then g.mulPref
  else if g.softMin ≤ b ∧ b ≤ g.softMax then g.mulSoft
  else g.mulExt

/-- mod.rs lines 132-146 -/
def saneMul (m : F32) : F32 := if m.isFinite then F32.max m 0 else 0

/-- mod.rs lines 119-148 (`clamp_sane`) -/
def Guard.clampSane (g : Guard) : Guard :=
  let pmin := F32.min g.prefMin g.prefMax
  let pmax := F32.max g.prefMin g.prefMax
  ⟨pmin, pmax, F32.min (F32.min g.softMin g.softMax) pmin, F32.max (F32.max g.softMin g.softMax) pmax,
    saneMul g.mulPref, saneMul g.mulSoft, saneMul g.mulExt⟩

/-- mod.rs lines 303-322: multipliers and re-sort -/
def applyGuard (g : Option Guard) (es : List Est) : List Est :=
  match g with
  | none => es
  | some g => sortDesc Est.conf (es.map (fun e => { e with conf := e.conf * g.mulFor e.bpm }))

/-- mod.rs lines 326-339: move the estimate matching the preferred autocorrelation BPM to the front -/
def preferAutocorr (target : Option F32) (es : List Est) : List Est :=
  match target with
  | none => es
  | some t =>
    match es.findIdx? (fun e => decide ((e.bpm - t).abs < 2)) with
    | none => es
    | some i =>
      match es[i]? with
      | none => es
      | some e => e :: es.eraseIdx i

/-- mod.rs lines 216-404 (`estimate_bpm_internal`; `estimate_bpm` and `estimate_bpm_with_guardrails`,
lines 173-214, call it with `None` / `Some`) -/
def estimateBpm (M : Libm) (ifft : List F32 → ℕ → F32) (fuel : ℕ) (onsets : List ℕ) (sr hop : ℕ)
    (minB maxB res : F32) (guard : Option Guard) : R (Option Est) := do
  let ac ← estAutocorr ifft onsets sr hop minB maxB
  let cb ← estComb fuel onsets sr minB maxB res
  let g := guard.map Guard.clampSane
  let pref := match g with
    | some g => (g.prefMin, g.prefMax)
    | none => (60, 180)
  let top := (ac.find? (fun c => decide (pref.1 ≤ c.bpm) && decide (c.bpm ≤ pref.2))).map Cand.bpm
  let es := applyGuard g (merge M ac cb 50)
  pure (preferAutocorr top es).head?

end Verif.Period
