/-
Model of src/features/period/novelty.rs: the novelty curves the tempograms are built on.
Log calls and error texts are dropped; `ln`, `log10` and `powf` are parameters.  Reads inside a loop over a
validated rectangular spectrogram cannot panic and are modelled by total lookups.
-/
import Verif.Common

namespace Verif.Novelty
open Verif

/-- novelty.rs line 37 -/
def EPS : F32 := 1e-10

/-- The frames disagree in length with the first one: novelty.rs lines 49-58 (and 241-250, 494-503, 627-636, 713-722,
789-798) -/
def ragged (spec : List (List F32)) : Bool := spec.any (fun f => f.length != (spec.headD []).length)

/-- novelty.rs lines 43-58 (and 234-250, 487-503, 621-636, 706-722, 783-798) -/
def checkSpec (spec : List (List F32)) : R Unit :=
  if (spec.headD []).length = 0 then R.err .invalidInput
  else if ragged spec then R.err .invalidInput
  else .ok ()

/-- The final scaling, novelty.rs lines 300-305 (and 381-386, 448-453, 531-536, 602-607, 658-663, 758-763, 829-834), the
same as `normalize_in_place`, lines 935-942 -/
def peakNorm (c : List F32) : List F32 :=
  let m := F32.foldMax 0 c
  if EPS < m then c.map (· / m) else c

/-- `curve[i]` -/
def at' (v : List F32) (i : ℕ) : F32 := v.getD i 0

/-- `(e[i] - e[i-1]).max(0.0)` for `i = 1..len`: novelty.rs lines 518-524, 649-652, 745-751, 820-823 -/
def rise (e : List F32) : List F32 := (List.range (e.length - 1)).map (fun i => F32.max (at' e (i + 1) - at' e i) 0)

/-- novelty.rs lines 512-515 (`frame.iter().map(|&x| x * x).sum()`) -/
def energy (frame : List F32) : F32 := F32.sum (frame.map (fun x => x * x))

/-- `frame[start..end]` of a validated frame -/
def band (s e : ℕ) (frame : List F32) : List F32 := (frame.take e).drop s

/-- novelty.rs lines 477-545 (`energy_flux_novelty`) -/
def energyFlux (spec : List (List F32)) : R (List F32) :=
  if spec.length < 2 then .ok []
  else do
    checkSpec spec
    .ok (peakNorm (rise (spec.map energy)))

/-- novelty.rs lines 612-665 (`energy_flux_novelty_band`) -/
def energyFluxBand (spec : List (List F32)) (binStart binEnd : ℕ) : R (List F32) :=
  if spec.length < 2 then .ok []
  else do
    checkSpec spec
    let n := (spec.headD []).length
    let s := Nat.min binStart n
    let e := Nat.min binEnd n
    if e ≤ s + 1 then .ok []
    else .ok (peakNorm (rise (spec.map (fun fr => energy (band s e fr)))))

/-- novelty.rs lines 733-742 and 806-818: `(start + i) as f32 * mag * mag` summed over the band -/
def hfcFrom (s : ℕ) (frame : List F32) : F32 :=
  F32.sum ((frame.zipIdx s).map (fun p => F32.ofNat p.2 * p.1 * p.1))

/-- novelty.rs lines 687-768 (`hfc_novelty`) -/
def hfc (spec : List (List F32)) (sampleRate : ℕ) : R (List F32) :=
  if spec = [] then .ok []
  else if sampleRate = 0 then R.err .invalidInput
  else if spec.length < 2 then .ok []
  else do
    checkSpec spec
    .ok (peakNorm (rise (spec.map (hfcFrom 0))))

/-- novelty.rs lines 774-836 (`hfc_novelty_band`) -/
def hfcBand (spec : List (List F32)) (binStart binEnd : ℕ) : R (List F32) :=
  if spec.length < 2 then .ok []
  else do
    checkSpec spec
    let n := (spec.headD []).length
    let s := Nat.min binStart n
    let e := Nat.min binEnd n
    if e ≤ s + 1 then .ok []
    else .ok (peakNorm (rise (spec.map (fun fr => hfcFrom s (band s e fr)))))

/-- novelty.rs lines 261-270: one frame scaled to its peak -/
def normFrame (frame : List F32) : List F32 :=
  let m := F32.foldMax 0 frame
  if EPS < m then frame.map (· / m) else frame.map (fun _ => 0)

/-- novelty.rs lines 280-291 -/
def spectralStep (prev curr : List F32) : F32 :=
  F32.sqrt (F32.sum ((prev.zip curr).map (fun p =>
    let d := F32.max (p.2 - p.1) 0
    d * d)))

/-- Consecutive pairs, `for i in 1..frames.len()` with `frames[i - 1]` and `frames[i]` -/
def pairs (f : List F32 → List F32 → F32) (frames : List (List F32)) : List F32 :=
  (List.range (frames.length - 1)).map (fun i => f (frames.getD i []) (frames.getD (i + 1) []))

/-- novelty.rs lines 222-314 (`spectral_flux_novelty`) -/
def spectralFlux (spec : List (List F32)) : R (List F32) :=
  if spec.length < 2 then .ok []
  else do
    checkSpec spec
    .ok (peakNorm (pairs spectralStep (spec.map normFrame)))

/-- `(1.0 + x.max(0.0)).ln()`, novelty.rs lines 354, 421 and 180 -/
def logMag (M : Libm) (x : F32) : F32 := M.ln (1 + F32.max x 0)

/-- The largest value of the previous frame within `k` bins of `b` inside `[s, e)`: novelty.rs lines 366-371
(`s = 0`), 433-438, 587-592 -/
def prevMax (k s e b : ℕ) (prev : List F32) : F32 :=
  F32.foldMax 0 (band (Nat.max (b - k) s) (Nat.min (b + k + 1) e) prev)

/-- novelty.rs lines 363-375 (`s = 0`, `e = n_bins`), 430-442, 584-596 -/
def superStep (k s e : ℕ) (prev curr : List F32) : F32 :=
  F32.sqrt (F32.sum ((List.range' s (e - s)).map (fun b =>
    let d := F32.max (at' curr b - prevMax k s e b prev) 0
    d * d)))

/-- novelty.rs lines 336-388 (`superflux_novelty`) -/
def superflux (M : Libm) (spec : List (List F32)) (maxFilter : ℕ) : R (List F32) :=
  if spec.length < 2 then .ok []
  else do
    checkSpec spec
    let n := (spec.headD []).length
    .ok (peakNorm (pairs (superStep (Nat.max maxFilter 1) 0 n) (spec.map (fun fr => fr.map (logMag M)))))

/-- novelty.rs lines 395-455 (`superflux_novelty_band`) -/
def superfluxBand (M : Libm) (spec : List (List F32)) (maxFilter binStart binEnd : ℕ) : R (List F32) :=
  if spec.length < 2 then .ok []
  else do
    checkSpec spec
    let n := (spec.headD []).length
    let s := Nat.min binStart n
    let e := Nat.min binEnd n
    if e ≤ s + 1 then .ok []
    else .ok (peakNorm (pairs (superStep (Nat.max maxFilter 1) s e) (spec.map (fun fr => fr.map (logMag M)))))

/-! ### Mel filterbank -/

/-- novelty.rs lines 62-65 -/
def mel (M : Libm) (f : F32) : F32 := 2595 * M.log10 (1 + f / 700)

/-- novelty.rs lines 67-69 -/
def invMel (M : Libm) (m : F32) : F32 := 700 * (M.powf 10 (m / 2595) - 1)

/-- novelty.rs lines 119-124: the bin of each mel point (`as isize` and the clamp to `[0, n_bins - 1]` together send
everything below 0 and NaN to 0) -/
def binPoint (nBins : ℕ) (res hz : F32) : ℕ := Nat.min (F32.round (hz / res)).toUsize (nBins - 1)

/-- novelty.rs lines 127-131: make the points increase where there is room -/
def spreadPoints (nBins : ℕ) : ℕ → List ℕ → List ℕ
  | _, [] => []
  | prev, p :: ps =>
    let q := if p ≤ prev then Nat.min (prev + 1) (nBins - 1) else p
    q :: spreadPoints nBins q ps

/-- novelty.rs lines 127-131, starting after the first point -/
def spreadAll (nBins : ℕ) : List ℕ → List ℕ
  | [] => []
  | p :: ps => p :: spreadPoints nBins p ps

/-- novelty.rs lines 144-153: rising slope of filter `m`, as (bin, (filter, weight)) -/
def rising (m l c : ℕ) : List (ℕ × ℕ × F32) :=
  (List.range' l (c + 1 - l)).filterMap (fun b =>
    let w := if b = l then 0 else (F32.ofNat b - F32.ofNat l) / (F32.ofNat c - F32.ofNat l)
    if 0 < w then some (b, m, w) else none)

/-- novelty.rs lines 156-165: falling slope -/
def falling (m c r : ℕ) : List (ℕ × ℕ × F32) :=
  (List.range' c (r + 1 - c)).filterMap (fun b =>
    let w := if b = r then 0 else (F32.ofNat r - F32.ofNat b) / (F32.ofNat r - F32.ofNat c)
    if 0 < w then some (b, m, w) else none)

/-- novelty.rs lines 134-166: all contributions in the order they are pushed -/
def contribs (nMels : ℕ) (pts : List ℕ) : List (ℕ × ℕ × F32) :=
  (List.range nMels).flatMap (fun m =>
    let l := pts.getD m 0
    let c := pts.getD (m + 1) 0
    let r := pts.getD (m + 2) 0
    if l < c ∧ c < r then rising m l c ++ falling m c r else [])

/-- novelty.rs lines 79-172 (`MelFilterbank::new`): the number of filters and the contributions -/
def filterbank (M : Libm) (sr nBins nMels : ℕ) (fmin fmax : F32) : R (ℕ × List (ℕ × ℕ × F32)) :=
  if sr = 0 then R.err .invalidInput
  else if nBins < 2 then R.err .invalidInput
  else do
    let nm := Nat.max nMels 4
    let nyq := F32.ofNat sr * 0.5
    let f0 := F32.min (F32.max fmin 0) (F32.max nyq 1)
    let f1 := if fmax.isFinite && decide (0 < fmax) then fmax else nyq
    let f1 ← clampP f1 (f0 + 1) nyq
    let res := F32.ofNat sr / F32.ofNat ((nBins - 1) * 2)
    let m0 := mel M f0
    let step := (mel M f1 - m0) / F32.ofNat (nm + 1)
    let pts := (List.range (nm + 2)).map (fun i => binPoint nBins res (invMel M (m0 + step * F32.ofNat i)))
    .ok (nm, contribs nm (spreadAll nBins pts))

/-- novelty.rs lines 184-186: the contributions of bin `b` -/
def melAdd (bank : List (ℕ × ℕ × F32)) (v : F32) (b : ℕ) (acc : List F32) : List F32 :=
  (bank.filter (fun c => c.1 == b)).foldl (fun acc c => acc.modify c.2.1 (fun x => x + v * c.2.2)) acc

/-- novelty.rs lines 176-187 -/
def melLoop (M : Libm) (bank : List (ℕ × ℕ × F32)) : ℕ → List F32 → List F32 → List F32
  | _, [], acc => acc
  | b, x :: xs, acc =>
    let v := logMag M x
    melLoop M bank (b + 1) xs (if v ≤ 0 then acc else melAdd bank v b acc)

/-- novelty.rs lines 174-189 (`apply_logmag`) on a frame of the validated length -/
def applyLogmag (M : Libm) (bank : ℕ × List (ℕ × ℕ × F32)) (frame : List F32) : List F32 :=
  melLoop M bank.2 0 frame (List.replicate bank.1 0)

/-- novelty.rs lines 553-609 (`mel_superflux_novelty`) -/
def melSuperflux (M : Libm) (spec : List (List F32)) (sr nMels : ℕ) (fmin fmax : F32) (maxFilter : ℕ) : R (List F32) :=
  if spec.length < 2 then .ok []
  else do
    checkSpec spec
    let bank ← filterbank M sr (spec.headD []).length nMels fmin fmax
    .ok (peakNorm (pairs (superStep (Nat.max maxFilter 1) 0 bank.1) (spec.map (applyLogmag M bank))))

/-! ### Combination and conditioning -/

/-- `x[start..end]` around `i`: novelty.rs lines 956-957 and 978-979 -/
def around (x : List F32) (half i : ℕ) : List F32 := band (i - half) (Nat.min (i + half + 1) x.length) x

/-- `sum / (end - start) as f32`: novelty.rs lines 958-962 and 980-984 -/
def localMean (x : List F32) (half i : ℕ) : F32 :=
  F32.sum (around x half i) / F32.ofNat (Nat.min (i + half + 1) x.length - (i - half))

/-- novelty.rs lines 947-967 (`local_mean_subtract`) -/
def meanSubtract (x : List F32) (window : ℕ) : List F32 :=
  if x = [] ∨ window = 0 then x
  else (List.range x.length).map (fun i => F32.max (at' x i - localMean x (window / 2) i) 0)

/-- novelty.rs lines 970-986 (`smooth_moving_average_in_place`) -/
def movingAverage (x : List F32) (window : ℕ) : List F32 :=
  if x.length < 3 ∨ window ≤ 1 then x
  else (List.range x.length).map (localMean x (window / 2))

/-- novelty.rs line 903 with lines 891-894 -/
def mix (ws we wh : F32) (s e h : F32) : F32 :=
  let ws := F32.max ws 0
  let we := F32.max we 0
  let wh := F32.max wh 0
  (s * ws + e * we + h * wh) / F32.max (ws + we + wh) EPS

/-- novelty.rs lines 913-919: what happens to the mixed curve -/
def condition (localWin smoothWin : ℕ) (c : List F32) : List F32 :=
  let c := if 1 < localWin then meanSubtract c localWin else c
  let c := if 1 < smoothWin then movingAverage c smoothWin else c
  peakNorm c

/-- novelty.rs lines 874-932 (`combined_novelty_with_params`) -/
def combined (spectral energy hfc : List F32) (ws we wh : F32) (localWin smoothWin : ℕ) : List F32 :=
  let n := Nat.min (Nat.min spectral.length energy.length) hfc.length
  if n = 0 then []
  else condition localWin smoothWin (peakNorm ((List.range n).map (fun i =>
    mix ws we wh (at' spectral i) (at' energy i) (at' hfc i))))

end Verif.Novelty
