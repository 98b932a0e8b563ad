/-
Model of src/features/chroma/{normalization,smoothing,extractor}.rs: L2 normalisation, sharpening,
smoothing, short-time Fourier transform framing and chroma vectors.
Log calls and error texts are dropped.  The FFT (crate rustfft) and the transcendental functions are
parameters.
-/
import Verif.Common

namespace Verif

/-- Rust's `a % b` on `f32` (C `fmod`): the exact remainder of the truncating division. -/
def F32.fmod : F32 → F32 → F32
  | .nan, _ => .nan
  | _, .nan => .nan
  | .inf _, _ => .nan
  | .fin a h, .inf _ => .fin a h
  | .fin a _, .fin b _ => if b = 0 then .nan else F32.rnd (a - b * ((F32.truncQ (a / b) : ℤ) : ℚ))

/-- `f32::rem_euclid` (library/std: `let r = self % rhs; if r < 0.0 { r + rhs.abs() } else { r }`) -/
def F32.remEuclid (a b : F32) : F32 :=
  let r := F32.fmod a b
  if r < 0 then r + b.abs else r

namespace Chroma
open Verif

/-- `f32::consts::PI` -/
def PI : F32 := 3.14159265358979323846264338327950288

/-- normalization.rs line 12, extractor.rs line 34 -/
def EPS : F32 := 1e-10

/-- `chroma.iter().map(|&x| x * x).sum::<f32>().sqrt()` (normalization.rs 52 and 83, extractor.rs 478,
673, 905, 970, 1230) -/
def norm2 (c : List F32) : F32 := F32.sqrt (F32.sum (c.map (fun x => x * x)))

/-! ### normalization.rs -/

/-- normalization.rs lines 41-65 (`sharpen_chroma`) -/
def sharpen (M : Libm) (c : List F32) (power : F32) : List F32 :=
  if c = [] then []
  else
    let s := c.map (fun x => M.powf x power)
    let n := norm2 s
    if EPS < n then s.map (fun x => x / n)
    else s.map (fun _ => 1 / F32.sqrt (F32.ofNat c.length))

/-- normalization.rs lines 78-92 (`l2_normalize_chroma`) -/
def l2Normalize (c : List F32) : List F32 :=
  if c = [] then []
  else
    let n := norm2 c
    if EPS < n then c.map (fun x => x / n)
    else List.replicate c.length (1 / F32.sqrt (F32.ofNat c.length))

/-! ### smoothing.rs -/

/-- An `i32` result: overflow panics (debug semantics). -/
def i32 (z : ℤ) : R ℤ := if -2 ^ 31 ≤ z ∧ z < 2 ^ 31 then .ok z else R.panic

/-- smoothing.rs lines 73-77 / 139-144: the value contributed by one offset of the window, if that
offset is inside the sequence -/
def winVal (vs : List (List F32)) (frame half j off : ℕ) : R (List F32) := do
  let d ← i32 (asI32 off - asI32 half)
  let z ← i32 (asI32 frame + d)
  if 0 ≤ z ∧ z.toNat < vs.length then
    let fr ← idx vs z.toNat
    let x ← idx fr j
    pure [x]
  else pure []

/-- smoothing.rs lines 70-78 / 134-145: the values of one pitch class inside the window, in order -/
def winVals (vs : List (List F32)) (w half frame j : ℕ) : R (List F32) := do
  let ls ← (List.range w).mapM (winVal vs frame half j)
  pure ls.flatten

/-- `chroma_vectors[frame_idx][semitone_idx]` -/
def entry (vs : List (List F32)) (frame j : ℕ) : R F32 := do
  let fr ← idx vs frame
  idx fr j

/-- smoothing.rs lines 70-87 -/
def medianCell (vs : List (List F32)) (w half frame j : ℕ) : R F32 := do
  let l ← winVals vs w half frame j
  if l ≠ [] then
    let s ← sortAscP id l
    idx s (l.length / 2)
  else entry vs frame j

/-- smoothing.rs lines 37-94 (`smooth_chroma`) -/
def smooth (vs : List (List F32)) (window : ℕ) : R (List (List F32)) :=
  if vs = [] then .ok []
  else if window = 0 ∨ window = 1 then .ok vs
  else
    let w := if window % 2 = 0 then window + 1 else window
    (List.range vs.length).mapM (fun i =>
      (List.range (vs.headD []).length).mapM (fun j => medianCell vs w (w / 2) i j))

/-- smoothing.rs lines 134-152 (`sum` accumulates from `0.0` in window order) -/
def averageCell (vs : List (List F32)) (w half frame j : ℕ) : R F32 := do
  let l ← winVals vs w half frame j
  if 0 < l.length then pure (F32.sum l / F32.ofNat l.length) else entry vs frame j

/-- smoothing.rs lines 109-159 (`smooth_chroma_average`); the `i32` counter `count` stays below the
number of frames -/
def smoothAverage (vs : List (List F32)) (window : ℕ) : R (List (List F32)) :=
  if vs = [] then .ok []
  else if window = 0 ∨ window = 1 then .ok vs
  else
    (List.range vs.length).mapM (fun i =>
      (List.range (vs.headD []).length).mapM (fun j => averageCell vs window (window / 2) i j))

/-! ### extractor.rs: short-time Fourier transform -/

/-- extractor.rs lines 318-323: Hann window.  For `frame = 1` the divisor is `0 as f32`. -/
def hann (M : Libm) (frame : ℕ) : List F32 :=
  (List.range frame).map (fun i =>
    0.5 * (1 - M.cos (2 * PI * F32.ofNat i / F32.ofNat (frame - 1))))

/-- extractor.rs line 352: magnitude of a complex number -/
def mag (z : F32 × F32) : F32 := F32.sqrt (z.1 * z.1 + z.2 * z.2)

/-- extractor.rs lines 339-353: one row.  `fft` maps the windowed real samples to the complex
transform of the same length (crate rustfft); `fft_input[..n_bins]` panics when it is shorter. -/
def stftRow (M : Libm) (fft : List F32 → List (F32 × F32)) (samples : List F32) (frame start : ℕ) :
    R (List F32) := do
  let s ← slice samples start (start + frame)
  let z := fft (List.zipWith (fun s w => s * w) s (hann M frame))
  let b ← slice z 0 (frame / 2 + 1)
  pure (b.map mag)

/-- extractor.rs lines 330-356: rows from `k` on, `n` of them at most -/
def stftRows (M : Libm) (fft : List F32 → List (F32 × F32)) (samples : List F32) (frame hop : ℕ) :
    ℕ → ℕ → R (List (List F32))
  | 0, _ => .ok []
  | n + 1, k =>
    if samples.length < k * hop + frame then .ok []
    else do
      let r ← stftRow M fft samples frame (k * hop)
      let rs ← stftRows M fft samples frame hop n (k + 1)
      pure (r :: rs)

/-- extractor.rs lines 301-359 (`compute_stft`); a zero hop divides by zero -/
def computeStft (M : Libm) (fft : List F32 → List (F32 × F32)) (samples : List F32) (frame hop : ℕ) :
    R (List (List F32)) :=
  if samples.length < frame then .ok []
  else if hop = 0 then R.panic
  else stftRows M fft samples frame hop ((samples.length - frame) / hop + 1) 0

/-! ### extractor.rs: chroma of one frame -/

/-- extractor.rs line 37 -/
def A4 : F32 := 440
/-- extractor.rs line 40 -/
def SEMI : F32 := 57
/-- extractor.rs lines 47-48 -/
def FMIN : F32 := 100
def FMAX : F32 := 5000

/-- `sample_rate as f32 / 2.0` -/
def nyquist (sr : ℕ) : F32 := F32.ofNat sr / 2

/-- `chroma[k] += v` -/
def addAt (c : List F32) (k : ℕ) (v : F32) : R (List F32) :=
  if k < c.length then .ok (c.modify k (fun x => x + v)) else R.panic

/-- extractor.rs line 427 (also 653) -/
def semitone (M : Libm) (f tuning : F32) : F32 := 12 * M.log2 (f / A4) + SEMI - tuning

/-- extractor.rs lines 453-458 (also 664-666): Gaussian weight of a pitch class at circular distance -/
def softWeight (M : Libm) (sigma pc : F32) (target : ℤ) : F32 :=
  let d0 := (pc - F32.ofInt target).abs
  let d := F32.min d0 (12 - d0)
  let sg := F32.max sigma 1e-6
  M.exp (-d * d / (2 * sg * sg))

/-- extractor.rs lines 445-447 (also 654-656) -/
def primaryClass (pc : F32) : ℤ := (F32.remEuclid pc.round 12).toI32

/-- extractor.rs lines 445-461 (also 654-668): spread one contribution over three pitch classes -/
def softStep (M : Libm) (sigma semi contrib : F32) (c : List F32) : R (List F32) :=
  let pc := F32.remEuclid semi 12
  [-1, 0, 1].foldlM (fun c off =>
    let t := (primaryClass pc + off) % 12
    addAt c t.toNat (contrib * softWeight M sigma pc t)) c

/-- extractor.rs lines 464-470 -/
def hardClass (semi : F32) : ℤ :=
  let k := Int.tmod (semi.round.toI32) 12
  if k < 0 then k + 12 else k

/-- extractor.rs line 473 -/
def hardStep (semi contrib : F32) (c : List F32) : R (List F32) := addAt c (hardClass semi).toNat contrib

/-- extractor.rs lines 439-475: soft or hard mapping of one contribution -/
def mapStep (M : Libm) (soft : Bool) (sigma semi contrib : F32) (c : List F32) : R (List F32) :=
  if soft then softStep M sigma semi contrib c else hardStep semi contrib c

/-- extractor.rs lines 408-475: the loop over the bins, starting at bin `i` -/
def binLoop (M : Libm) (sr fft : ℕ) (soft : Bool) (sigma tuning : F32) : ℕ → List F32 → List F32 → R (List F32)
  | _, [], c => .ok c
  | i, m :: ms, c =>
    let f := F32.ofNat i * (F32.ofNat sr / F32.ofNat fft)
    if f < FMIN then binLoop M sr fft soft sigma tuning (i + 1) ms c
    else if F32.min FMAX (nyquist sr) < f then .ok c
    else if nyquist sr ≤ f then .ok c
    else do
      let c' ← mapStep M soft sigma (semitone M f tuning) (M.powf (F32.max m 0) 0.6) c
      binLoop M sr fft soft sigma tuning (i + 1) ms c'

/-- `vec![0.0f32; 12]` -/
def zero12 : List F32 := List.replicate 12 0

/-- extractor.rs lines 478-484 (also 673-678, 905-910, 970-975, 1230-1235): normalise unless almost zero -/
def unitOrKeep (c : List F32) : List F32 :=
  let n := norm2 c
  if EPS < n then c.map (fun x => x / n) else c

/-- extractor.rs lines 393-487 (`frame_to_chroma_tuned`; `frame_to_chroma`, lines 376-391, passes
`tuning = 0.0`) -/
def frameToChroma (M : Libm) (sr fft : ℕ) (soft : Bool) (sigma tuning : F32) (frame : List F32) : R (List F32) := do
  let c ← binLoop M sr fft soft sigma tuning 0 frame zero12
  pure (unitOrKeep c)

/-- Every frame has the length of the first (the check of extractor.rs 84-93, 716-725, 1003-1012,
1065-1074, 1119-1128, 1179-1188, 1260-1269, 1321-1330, 1390-1399) -/
def ragged (spec : List (List F32)) : Bool := spec.any (fun f => f.length != (spec.headD []).length)

/-- extractor.rs lines 997-1012 and its copies: `Err` for empty or ragged frames -/
def checkSpec (spec : List (List F32)) : R Unit :=
  if (spec.headD []).length = 0 then R.err .invalidInput
  else if ragged spec then R.err .invalidInput
  else .ok ()

/-- extractor.rs lines 987-1025 (`extract_chroma_from_spectrogram_with_options`) -/
def chromaOfSpec (M : Libm) (sr fft : ℕ) (soft : Bool) (sigma : F32) (spec : List (List F32)) : R (List (List F32)) :=
  if spec = [] then .ok []
  else do
    checkSpec spec
    spec.mapM (frameToChroma M sr fft soft sigma 0)

/-- `frame.iter().map(|&x| x * x).sum()` (extractor.rs 881-884, 1079, 1133, 1194) -/
def energy (frame : List F32) : F32 := F32.sum (frame.map (fun x => x * x))

/-- extractor.rs lines 1047-1091 (`extract_chroma_from_spectrogram_with_options_and_energy_tuned`;
lines 1028-1043 pass `tuning = 0.0`) -/
def chromaEnergyOfSpec (M : Libm) (sr fft : ℕ) (soft : Bool) (sigma tuning : F32) (spec : List (List F32)) :
    R (List (List F32) × List F32) :=
  if spec = [] then .ok ([], [])
  else do
    checkSpec spec
    let cs ← spec.mapM (frameToChroma M sr fft soft sigma tuning)
    pure (cs, spec.map energy)

/-- extractor.rs lines 220-285 (`extract_chroma_with_options`; `extract_chroma`, lines 208-215, passes
soft mapping with sigma 0.5) -/
def extractChroma (M : Libm) (fft : List F32 → List (F32 × F32)) (samples : List F32) (sr frame hop : ℕ)
    (soft : Bool) (sigma : F32) : R (List (List F32)) :=
  if samples = [] then R.err .invalidInput
  else if frame = 0 then R.err .invalidInput
  else if hop = 0 then R.err .invalidInput
  else if sr = 0 then R.err .invalidInput
  else do
    let st ← computeStft M fft samples frame hop
    if st = [] then pure []
    else st.mapM (frameToChroma M sr frame soft sigma 0)

/-- extractor.rs lines 947-978 (the `if pitch_class < 0` branch is dead after `rem_euclid`): one frame
of `extract_chroma_from_log_frequency_spectrogram`.  The `i32` sum panics on overflow. -/
def logBins (offset : ℤ) : ℕ → List F32 → List F32 → R (List F32)
  | _, [], c => .ok c
  | i, m :: ms, c =>
    if m ≤ 0 then logBins offset (i + 1) ms c
    else do
      let s ← i32 (offset + asI32 i)
      let c' ← addAt c (s % 12).toNat m
      logBins offset (i + 1) ms c'

/-- extractor.rs lines 937-981 -/
def chromaOfLogSpec (spec : List (List F32)) (offset : ℤ) : R (List (List F32)) :=
  spec.mapM (fun fr => do
    let c ← logBins offset 0 fr zero12
    pure (unitOrKeep c))

/-- extractor.rs lines 865-889: the frames whose time lies in `[start, end)`, with their chroma -/
def framesIn (spec : List (List F32)) (sr hop : ℕ) (s e : F32) : List (List F32) :=
  (spec.zipIdx.filter (fun p =>
    let t := F32.ofNat p.2 * (F32.ofNat hop / F32.ofNat sr)
    decide (s ≤ t) && decide (t < e))).map (·.1)

/-- extractor.rs lines 893-898: component-wise sum (`avg_chroma[j] += val`; chroma vectors have 12
entries) -/
def addVec (a b : List F32) : List F32 := List.zipWith (fun x y => x + y) a b

/-- extractor.rs lines 861-918: one beat interval -/
def beatCell (M : Libm) (sr fft hop : ℕ) (soft : Bool) (sigma tuning : F32) (spec : List (List F32)) (s e : F32) :
    R (List F32 × F32) := do
  let fs := framesIn spec sr hop s e
  let cs ← fs.mapM (frameToChroma M sr fft soft sigma tuning)
  if cs ≠ [] then
    let sum := cs.foldl addVec zero12
    let avg := sum.map (fun v => v / F32.ofNat cs.length)
    pure (unitOrKeep avg, F32.sum (fs.map energy))
  else pure (zero12, 0)

/-- extractor.rs lines 830-922 (`extract_beat_synchronous_chroma`) -/
def beatChroma (M : Libm) (sr fft hop : ℕ) (soft : Bool) (sigma tuning : F32) (spec : List (List F32))
    (beats : List F32) : R (List (List F32) × List F32) :=
  if spec = [] then .ok ([], [])
  else if beats = [] then R.err .invalidInput
  else do
    let cells ← (beats.zip beats.tail).mapM (fun p => beatCell M sr fft hop soft sigma tuning spec p.1 p.2)
    pure (cells.map (·.1), cells.map (·.2))

end Chroma
end Verif
