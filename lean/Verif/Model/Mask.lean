/-
Model of src/features/chroma/extractor.rs, lines 1246-1501: smoothing a magnitude spectrogram over time and
the two harmonic masks.  Log calls and error texts are dropped; `powf` is a parameter.  The spectrogram is
checked to be rectangular first, so the indexing `frames[t][b]` that follows cannot panic and is modelled by
a total lookup.
-/
import Verif.Model.Chroma

namespace Verif.Mask
open Verif Chroma

/-- `magnitude_spec_frames[t][b]` of a rectangular spectrogram -/
def at2 (s : List (List F32)) (t b : ℕ) : F32 := (s.getD t []).getD b 0

/-- A matrix of `n` rows and `m` columns (`vec![vec![0.0; m]; n]` filled cell by cell). -/
def grid (n m : ℕ) (f : ℕ → ℕ → F32) : List (List F32) :=
  (List.range n).map (fun t => (List.range m).map (fun b => f t b))

/-- One column (frequency bin) of the spectrogram. -/
def column (s : List (List F32)) (b : ℕ) : List F32 := s.map (fun fr => fr.getD b 0)

/-- extractor.rs lines 1276-1279: `prefix[k]`, the running sum of the first `k` values -/
def prefixAt (col : List F32) (k : ℕ) : F32 := F32.sum (col.take k)

/-- extractor.rs lines 1281-1285 -/
def smoothCell (col : List F32) (margin t : ℕ) : F32 :=
  let start := t - margin
  let stop := Nat.min (t + margin + 1) col.length
  (prefixAt col stop - prefixAt col start) / F32.ofNat (Nat.max (stop - start) 1)

/-- extractor.rs lines 1246-1290 (`smooth_spectrogram_time`) -/
def smoothTime (spec : List (List F32)) (margin : ℕ) : R (List (List F32)) :=
  if spec = [] ∨ margin = 0 then .ok spec
  else do
    checkSpec spec
    .ok (grid spec.length (spec.headD []).length (fun t b => smoothCell (column spec b) margin t))

/-- extractor.rs lines 1334 and 1475: the stabiliser of the mask -/
def MEPS : F32 := 1e-12

/-- extractor.rs lines 1342-1344 / 1481-1483: the mask value -/
def maskOf (M : Libm) (p h r : F32) : F32 :=
  let hp := M.powf h p
  let rp := M.powf r p
  hp / (hp + rp + MEPS)

/-- extractor.rs lines 1339-1345: one cell of the time mask -/
def timeCell (M : Libm) (p x0 h0 : F32) : F32 :=
  let x := F32.max x0 0
  let h := F32.max h0 0
  let r := F32.max (x - h) 0
  x * maskOf M p h r

/-- extractor.rs lines 1306-1349 (`harmonic_spectrogram_time_mask`) -/
def timeMask (M : Libm) (spec : List (List F32)) (margin : ℕ) (power : F32) : R (List (List F32)) :=
  if spec = [] then .ok []
  else do
    checkSpec spec
    let hEst ← smoothTime spec margin
    let p := F32.max power 1
    .ok (grid spec.length (spec.headD []).length (fun t b => timeCell M p (at2 spec t b) (at2 hEst t b)))

/-- extractor.rs lines 1451, 1467 and 1495 -/
def sane0 (x : F32) : F32 := if x.isFinite then F32.max x 0 else 0

/-- extractor.rs lines 1430-1438: the element of rank `len / 2`.  `select_nth_unstable_by` on numbers without
NaN leaves the element of that rank at its place, which is what sorting gives. -/
def medianInPlace (v : List F32) : F32 := if v = [] then 0 else (sortAsc id v).getD (v.length / 2) 0

/-- the values `v[i - margin ..= i + margin]`, clipped to the list (extractor.rs lines 1447-1452, 1464-1468) -/
def windowOf (v : List F32) (margin i : ℕ) : List F32 :=
  ((v.drop (i - margin)).take (Nat.min (i + margin + 1) v.length - (i - margin))).map sane0

/-- extractor.rs lines 1419-1427: every `step`-th frame, restricted to the band of bins `[lo, hi)` -/
def bandDs (spec : List (List F32)) (step lo hi : ℕ) : List (List F32) :=
  ((List.range spec.length).filter (fun t => t % step = 0)).map
    (fun t => ((spec.getD t []).drop lo).take (hi - lo))

/-- extractor.rs lines 1441-1485: the mask of one cell of the thinned-out band -/
def bandMask (M : Libm) (p : F32) (band : List (List F32)) (tm fm k b : ℕ) : F32 :=
  let h := medianInPlace (windowOf (column band b) tm k)
  let per := medianInPlace (windowOf (band.getD k []) fm b)
  maskOf M p (F32.max h 0) (F32.max per 0)

/-- extractor.rs lines 1488-1498: one cell of the result -/
def bandCell (M : Libm) (p : F32) (spec band : List (List F32)) (step lo hi tm fm t b : ℕ) : F32 :=
  if lo ≤ b ∧ b < hi then
    sane0 (at2 spec t b) * bandMask M p band tm fm (Nat.min (t / step) (Nat.max band.length 1 - 1)) (b - lo)
  else 0

/-- extractor.rs lines 1369-1501 (`harmonic_spectrogram_hpss_median_mask`).  Both quotients of lines 1407 and
1408 are positive or NaN, so `as isize` followed by `clamp(0, n_bins)` is `as usize` followed by `min`
(`n_bins` fits `isize`). -/
def medianMask (M : Libm) (spec : List (List F32)) (sr fft : ℕ) (fminHz fmaxHz : F32) (frameStep tm fm : ℕ)
    (power : F32) : R (List (List F32)) :=
  if spec = [] then .ok []
  else do
    checkSpec spec
    if sr = 0 ∨ fft = 0 then pure spec
    else do
      let res := F32.ofNat sr / F32.ofNat fft
      let fmin := F32.max fminHz 20
      let fmax ← clampP fmaxHz (fmin + 1) (F32.ofNat sr / 2)
      let n := (spec.headD []).length
      let lo := Nat.min (F32.toUsize (F32.floor (fmin / res))) n
      let hi := Nat.min (F32.toUsize (F32.ceil (fmax / res))) n
      if hi ≤ lo then pure spec
      else
        let step := Nat.max frameStep 1
        let band := bandDs spec step lo hi
        pure (grid spec.length n (bandCell M (F32.max power 1) spec band step lo hi tm fm))

end Verif.Mask
