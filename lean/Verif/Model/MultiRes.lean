/-
Model of src/features/period/multi_resolution.rs.  Log calls and the debug printing (lines 276-280, 303-405, 707-717,
734-744, 845-857) are dropped; the argument `structural_discount` is read by that printing only, so it does not appear.
-/
import Verif.Model.Tempogram
import Verif.Model.KeyDet

namespace Verif.MultiRes
open Verif Novelty Tempogram

/-! ### `multi_resolution_analysis` -/

/-- multi_resolution.rs line 97 -/
def hops : List ℕ := [256, 512, 1024]

/-- multi_resolution.rs lines 98-123: errors are skipped, panics and endless loops are not -/
def collect : List (R Period.Est) → R (List Period.Est)
  | [] => .ok []
  | .ok e :: rs => do
    let es ← collect rs
    pure (e :: es)
  | .error (.err _) :: rs => collect rs
  | .error f :: _ => .error f

/-- multi_resolution.rs lines 125-196 -/
def combine (rs : List Period.Est) : R Period.Est :=
  match rs with
  | [] => R.err .processing
  | [e] => .ok e
  | first :: rest =>
    if rs.all (fun e => decide ((e.bpm - first.bpm).abs < 2)) then
      .ok ⟨F32.sum (rs.map Period.Est.bpm) / F32.ofNat rs.length,
        F32.min (F32.sum (rs.map Period.Est.conf) / F32.ofNat rs.length * 1.2) 1, rs.length⟩
    else
      let best := KeyDet.maxByE Period.Est.conf first rest
      .ok ⟨best.bpm, best.conf * 0.9, 1⟩

/-- multi_resolution.rs lines 76-197 (`multi_resolution_analysis`; the base hop size is only logged) -/
def analysis (M : Libm) (fft : List F32 → ℕ → F32 × F32) (fuel : ℕ) (spec : List (List F32)) (sr : ℕ) (minB maxB res : F32) :
    R Period.Est := do
  let rs ← collect (hops.map (fun h => estimate M fft fuel spec ⟨sr, h, minB, maxB, res⟩ none))
  combine rs

/-! ### `multi_resolution_tempogram_from_samples` -/

/-- the candidates found at each resolution and the tolerance of line 235 -/
structure Trio where
  c256 : List CandDbg
  c512 : List CandDbg
  c1024 : List CandDbg
  tol : F32
deriving DecidableEq

/-- multi_resolution.rs lines 213-219: the arguments that steer the fusion -/
structure Weights where
  w512 : F32
  w256 : F32
  w1024 : F32
  factor : F32
  margin : F32
  prior : Bool
deriving DecidableEq

/-- multi_resolution.rs lines 282-293 (`lookup_nearest`, the same scan as in tempogram.rs) -/
def near (cs : List CandDbg) (bpm tol : F32) : F32 := Tempogram.lookup (cs.map (fun c => (c.bpm, c.score))) bpm tol

/-- multi_resolution.rs lines 296-299 -/
structure Hyp where
  bpm : F32
  score : F32
deriving DecidableEq

/-- multi_resolution.rs line 459 -/
def EPS : F32 := 1e-6

/-- multi_resolution.rs line 430 -/
def scoreT (W : Weights) (c : Trio) (t : F32) : F32 :=
  W.w512 * near c.c512 t c.tol + W.w256 * near c.c256 t c.tol + W.w1024 * near c.c1024 t c.tol

/-- multi_resolution.rs lines 436-439 and 442-445 before the penalties, for the related tempo `u` -/
def scoreRel (W : Weights) (c : Trio) (t u : F32) : F32 :=
  W.w512 * (W.factor * near c.c512 t c.tol + (1 - W.factor) * near c.c512 u c.tol) + W.w256 * near c.c256 u c.tol
    + W.w1024 * near c.c1024 u c.tol

/-- multi_resolution.rs lines 460-466 and 468-474: the two steps against a weak ratio -/
def damp (ratio s : F32) : F32 :=
  let s1 := if ratio < 1.10 then s * 0.75 else s
  if ratio < 1 then s1 * 0.75 else s1

/-- multi_resolution.rs lines 436-439, 453-455, 460-466 -/
def score2T (W : Weights) (c : Trio) (t : F32) : F32 :=
  let s := scoreRel W c t (t * 2)
  let s1 := if near c.c1024 (t * 2) c.tol * 1.02 < near c.c1024 t c.tol then s * 0.90 else s
  damp ((near c.c256 (t * 2) c.tol + EPS) / (near c.c256 t c.tol + EPS)) s1

/-- multi_resolution.rs lines 442-445, 450-452, 468-474 -/
def scoreHalf (W : Weights) (c : Trio) (t : F32) : F32 :=
  let s := scoreRel W c t (t * 0.5)
  let s1 := if near c.c1024 (t * 0.5) c.tol * 1.02 < near c.c1024 t c.tol then s * 0.90 else s
  damp ((near c.c1024 (t * 0.5) c.tol + EPS) / (near c.c1024 t c.tol + EPS)) s1

/-- multi_resolution.rs lines 482-490 -/
def prior (b s : F32) : F32 :=
  if 210 < b then s * 0.80 else if 180 < b then s * 0.90 else if b < 60 then s * 0.92 else s

/-- multi_resolution.rs lines 477-492 -/
def locals (minB maxB : F32) (W : Weights) (c : Trio) (t : F32) : List Hyp :=
  sortDesc Hyp.score
    ((([⟨t, scoreT W c t⟩, ⟨t * 2, score2T W c t⟩, ⟨t * 0.5, scoreHalf W c t⟩] : List Hyp).filter
      (fun h => decide (minB ≤ h.bpm) && decide (h.bpm ≤ maxB))).map (fun h => ⟨h.bpm, prior h.bpm h.score⟩))

/-- multi_resolution.rs lines 497-517 -/
def choose (W : Weights) (c : Trio) (t : F32) (best : Hyp) (rest : List Hyp) : Hyp :=
  let margin := best.score - ((rest.head?).map Hyp.score).getD 0
  let h : Hyp := if 1e-3 < (best.bpm - t).abs ∧ margin < W.margin then ⟨t, scoreT W c t⟩ else best
  if margin < W.margin ∧ W.prior = true ∧ (70 ≤ h.bpm ∧ h.bpm ≤ 180) ∧ margin < 0.05 then ⟨h.bpm, h.score + 0.05⟩ else h

/-- multi_resolution.rs lines 408-522: the hypothesis of one candidate, if any -/
def hypOf (minB maxB : F32) (W : Weights) (c : Trio) (t : F32) : Option Hyp :=
  if t.isFinite && decide (0 < t) then
    match locals minB maxB W c t with
    | [] => none
    | best :: rest => some (choose W c t best rest)
  else none

/-- multi_resolution.rs lines 537-546: `u` has been kept so far -/
def keep8 : List Hyp → List Hyp → List Hyp
  | u, [] => u
  | u, h :: hs =>
    if u.any (fun x => decide ((x.bpm - h.bpm).abs < 0.75)) then keep8 u hs
    else if 8 ≤ (u ++ [h]).length then u ++ [h] else keep8 (u ++ [h]) hs

/-- multi_resolution.rs lines 555-576 (`total_support`) -/
def support (c : Trio) (b : F32) : F32 × ℕ :=
  let s1 := near c.c256 b c.tol
  let s2 := near c.c512 b c.tol
  let s3 := near c.c1024 b c.tol
  (s1 + s2 + s3, (if 0 < s1 then 1 else 0) + (if 0 < s2 then 1 else 0) + (if 0 < s3 then 1 else 0))

/-- multi_resolution.rs lines 703-706 and 732-733: is the tempo `b` supported well enough to replace `cur`? -/
def replaces (c : Trio) (cur b : F32) (agree : ℕ) (thr : F32) : Bool :=
  let s := support c cur
  let t := support c b
  let ratio := if 0 < s.1 then t.1 / s.1 else 0
  decide (agree ≤ t.2) && decide (0 < t.1) && decide (0 < s.1) && decide (thr ≤ ratio)

/-- multi_resolution.rs lines 698-724 -/
def foldDown (c : Trio) (h : Hyp) : Hyp :=
  let half := h.bpm * 0.5
  if 170 ≤ h.bpm ∧ (70 ≤ half ∧ half ≤ 120) ∧ replaces c h.bpm half 3 0.45 = true then ⟨half, (support c half).1⟩ else h

/-- multi_resolution.rs lines 727-751 -/
def foldUp (c : Trio) (h : Hyp) : Hyp :=
  let dbl := h.bpm * 2
  if h.bpm ≤ 80 ∧ (70 ≤ dbl ∧ dbl ≤ 180) ∧ replaces c h.bpm dbl 2 0.55 = true then ⟨dbl, (support c dbl).1⟩ else h

/-- multi_resolution.rs lines 610-615, 623-628 and 639-644: largest value within two frames of `i`, at least 0 -/
def peakNear (nov : List F32) (i : ℕ) : F32 := ((nov.take (i + 3)).drop (i - 2)).foldl F32.max 0

/-- multi_resolution.rs lines 607-608, 651: `phase`, `phase + period`, … below `n` -/
def beats (n period phase : ℕ) : List ℕ :=
  (List.range ((n - phase + period - 1) / period)).map (fun k => phase + k * period)

/-- multi_resolution.rs lines 654-668: mean of the peaks at the places that exist, 0 if there are none -/
def meanPeak (nov : List F32) (places : List ℕ) : F32 :=
  let l := (places.filter (fun j => decide (j < nov.length))).map (peakNear nov)
  if 0 < l.length then F32.sum l / F32.ofNat l.length else 0

/-- multi_resolution.rs lines 597-673: score of one phase.  The three sums are accumulated in one pass there; each adds
its terms in this order. -/
def phaseScore (nov : List F32) (period phase : ℕ) : F32 :=
  let bs := beats nov.length period phase
  let beat := meanPeak nov bs
  let half := if 6 ≤ period then meanPeak nov (bs.map (fun i => i + period / 2)) else 0
  let third := if 9 ≤ period then meanPeak nov (bs.flatMap (fun i => [i + period / 3, i + period * 2 / 3])) else 0
  let contrast := beat - 0.60 * half - 0.40 * third
  let total := F32.max (F32.sum nov) 1e-6
  F32.clamp (contrast / F32.max (total / F32.ofNat nov.length) 1e-6) (-10) 10

/-- multi_resolution.rs lines 580-678 (`beat_contrast_score`; `as isize` of a value of at least 3) -/
def beatContrast (nov : List F32) (sr hop : ℕ) (bpm : F32) : F32 :=
  if nov.length < 16 ∨ !(bpm.isFinite && decide (0 < bpm)) ∨ sr = 0 ∨ hop = 0 then 0
  else
    let fpb := (60 * F32.ofNat sr) / (bpm * F32.ofNat hop)
    if !fpb.isFinite ∨ fpb < 3 then 0
    else
      let period := fpb.round.toUsize
      if 3 ≤ period ∧ period ≤ 512 then ((List.range period).map (phaseScore nov period)).foldl F32.max (-1e9)
      else 0

/-- multi_resolution.rs lines 777-782 without the label -/
structure Fam where
  bpm : F32
  support : F32
  align : F32
deriving DecidableEq

/-- multi_resolution.rs lines 767-773 -/
def family : List F32 := [1, 3 / 2, 2 / 3, 4 / 3, 3 / 4]

/-- multi_resolution.rs lines 784-804 -/
def fams (minB maxB : F32) (sr : ℕ) (c : Trio) (nov : List F32) (best : F32) : List Fam :=
  ((family.map (fun f => best * f)).filter (fun b =>
    (b.isFinite && decide (minB ≤ b) && decide (b ≤ maxB)) && (decide (70 ≤ b) && decide (b ≤ 180)) &&
      !(decide ((support c b).2 < 2) || decide ((support c b).1 ≤ 0)))).map
    (fun b => ⟨b, (support c b).1, beatContrast nov sr 512 b⟩)

/-- multi_resolution.rs lines 826-827 -/
def famScore (top : F32) (f : Fam) : F32 := f.align + 0.35 * F32.clamp (f.support / top) 0 1

/-- multi_resolution.rs lines 823-832: first the best of the family -/
def chooseFam (top : F32) (first : Fam) (fs : List Fam) : Fam :=
  (fs.foldl (fun (acc : Fam × F32) f => if acc.2 < famScore top f then (f, famScore top f) else acc) (first, -1e9)).1

/-- multi_resolution.rs lines 764-867 for a novelty curve (`none` without a band configuration) -/
def triplet (minB maxB : F32) (sr : ℕ) (c : Trio) (nov : Option (List F32)) (best : Hyp) : Hyp :=
  match nov with
  | none => best
  | some nov =>
    if 70 ≤ best.bpm ∧ best.bpm ≤ 180 then
      if nov = [] then best
      else
        let fs := fams minB maxB sr c nov best.bpm
        match fs with
        | [] => best
        | [_] => best
        | first :: _ =>
          let top := F32.max ((fs.map Fam.support).foldl F32.max 0) 1e-6
          let alt := ((fs.filter (fun f => decide (0.75 < (f.bpm - best.bpm).abs))).map (fun f => f.support / top)).foldl
            F32.max 0
          if 0.45 ≤ alt then
            let ch := chooseFam top first fs
            if 0.75 < (ch.bpm - best.bpm).abs ∧ beatContrast nov sr 512 best.bpm + 0.40 ≤ ch.align then
              ⟨ch.bpm, ch.support⟩
            else best
          else best
    else best

/-- multi_resolution.rs lines 869-874 -/
def confOf (best : Hyp) (uniq : List Hyp) : F32 :=
  if 1e-6 < best.score then
    F32.clamp (F32.max (best.score - ((uniq[1]?).map Hyp.score).getD 0) 0 / best.score) 0 1
  else 0

/-- multi_resolution.rs lines 407-900: from the candidates to the result -/
def fuse (minB maxB : F32) (sr topK : ℕ) (W : Weights) (nov : Option (List F32)) (c : Trio) :
    R (Period.Est × List CandDbg) :=
  let hyps := (c.c512.take topK).filterMap (fun t => hypOf minB maxB W c t.bpm)
  match keep8 [] (sortDesc Hyp.score hyps) with
  | [] => R.err .processing
  | top :: rest =>
    let best := triplet minB maxB sr c nov (foldUp c (foldDown c top))
    .ok (⟨best.bpm, confOf best (top :: rest), (support c best.bpm).2⟩,
      c.c512.map (fun x => { x with selected := decide ((x.bpm - best.bpm).abs < 0.75) }))

/-- `unwrap_or_default` on a novelty curve -/
def orEmpty : R (List F32) → R (List F32)
  | .error (.err _) => .ok []
  | r => r

/-- multi_resolution.rs lines 681-695 -/
def novelty512 (M : Libm) (spec : List (List F32)) (sr : ℕ) : Option BandCfg → R (Option (List F32))
  | none => .ok none
  | some c => do
    let s ← orEmpty (superflux M spec c.filter)
    let e ← orEmpty (energyFlux spec)
    let h ← orEmpty (hfc spec sr)
    pure (some (conditioned (some c) s e h))

/-- multi_resolution.rs lines 245-247: the configuration is passed on only if it asks for something -/
def active (cfg : Option BandCfg) : Option BandCfg :=
  cfg.filter (fun c => c.enabled || c.mel || decide (0 < c.bonus))

/-- multi_resolution.rs lines 228-234 (`saturating_mul` saturates far above 200) -/
def auxK (topK : ℕ) : ℕ := Nat.min (Nat.max (Nat.max topK 1 * 4) 25) 200

/-- multi_resolution.rs lines 205-901 (`multi_resolution_tempogram_from_samples`).  `sfft` is the transform used by
`compute_stft`, `fft` the one of the tempogram.  The novelty curve of lines 681-695 is computed after the hypotheses there;
neither depends on the other, but an error (no hypotheses) is returned before a panic there. -/
def fromSamples (M : Libm) (sfft : List F32 → List (F32 × F32)) (fft : List F32 → ℕ → F32 × F32) (fuel : ℕ)
    (samples : List F32) (sr frame : ℕ) (minB maxB res : F32) (topK : ℕ) (W : Weights) (cfg : Option BandCfg) :
    R (Period.Est × List CandDbg) :=
  if samples.length < frame then R.err .invalidInput
  else do
    let h256 ← Chroma.computeStft M sfft samples frame 256
    let h512 ← Chroma.computeStft M sfft samples frame 512
    let h1024 ← Chroma.computeStft M sfft samples frame 1024
    let r256 ← estimateCands M fft fuel h256 ⟨sr, 256, minB, maxB, res⟩ (auxK topK) (active cfg)
    let r512 ← estimateCands M fft fuel h512 ⟨sr, 512, minB, maxB, res⟩ (Nat.max topK 1) (active cfg)
    let r1024 ← estimateCands M fft fuel h1024 ⟨sr, 1024, minB, maxB, res⟩ (auxK topK) (active cfg)
    let nov ← novelty512 M h512 sr cfg
    fuse minB maxB sr (Nat.max topK 1) W nov ⟨r256.2, r512.2, r1024.2, F32.max 2 res⟩

end Verif.MultiRes
