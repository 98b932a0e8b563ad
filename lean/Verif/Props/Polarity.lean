/-
C97: the polarity of the recording does not matter.
-/
import Verif.Model.Analyze
import Verif.F32.Lemmas

namespace Verif.Props
open Verif F32 Analyze

/-! ### Negation and arithmetic -/

theorem rnd_opp (q : ℚ) : rnd (-q) = -rnd q := by
  have hp : (0 : ℚ) < pow2 128 := pow2_pos _
  have e := rndQ_neg q
  unfold rnd
  by_cases h1 : pow2 128 ≤ rndQ q
  · rw [dif_neg (show ¬ pow2 128 ≤ rndQ (-q) by rw [e]; linarith),
      dif_pos (show rndQ (-q) ≤ -pow2 128 by rw [e]; linarith), dif_pos h1]
    rfl
  by_cases h2 : rndQ q ≤ -pow2 128
  · rw [dif_pos (show pow2 128 ≤ rndQ (-q) by rw [e]; linarith), dif_neg h1, dif_pos h2]
    rfl
  · rw [dif_neg (show ¬ pow2 128 ≤ rndQ (-q) by rw [e]; intro h; exact h2 (by linarith)),
      dif_neg (show ¬ rndQ (-q) ≤ -pow2 128 by rw [e]; intro h; exact h1 (by linarith)), dif_neg h1, dif_neg h2, neg_fin]
    congr 1

theorem f_neg_neg (a : F32) : - -a = a := by
  rcases a with _ | s | ⟨v, h⟩
  · rfl
  · rw [neg_inf, neg_inf, Bool.not_not]
  · rw [neg_fin, neg_fin]; congr 1; ring

theorem f_neg_add (a b : F32) : -a + -b = -(a + b) := by
  rcases a with _ | s | ⟨v, h⟩
  · rfl
  · rcases b with _ | t | ⟨w, k⟩
    · rfl
    · rw [neg_inf, neg_inf, inf_add_inf, inf_add_inf]
      cases s <;> cases t <;> rfl
    · rfl
  · rcases b with _ | t | ⟨w, k⟩
    · rfl
    · rfl
    · rw [neg_fin, neg_fin, add_fin, add_fin, ← rnd_opp]; congr 1; ring

theorem f_neg_mul (a b : F32) : -a * b = -(a * b) := by
  rcases a with _ | s | ⟨v, h⟩
  · rfl
  · rcases b with _ | t | ⟨w, k⟩
    · rfl
    · rw [neg_inf, inf_mul_inf, inf_mul_inf, neg_inf]; cases s <;> cases t <;> rfl
    · rw [neg_inf, inf_mul_fin, inf_mul_fin]
      split_ifs
      · rfl
      · rw [neg_inf]; cases s <;> cases decide (w < 0) <;> rfl
  · rcases b with _ | t | ⟨w, k⟩
    · rfl
    · rw [neg_fin, fin_mul_inf, fin_mul_inf]
      by_cases hv : v = 0
      · rw [if_pos hv, if_pos (by rw [hv]; ring)]; rfl
      · rw [if_neg hv, if_neg (by intro h; exact hv (by linarith)), neg_inf]
        rcases lt_or_gt_of_ne hv with l | l
        · rw [decide_eq_true l, decide_eq_false (show ¬ -v < 0 by linarith)]; cases t <;> rfl
        · rw [decide_eq_false (show ¬ v < 0 by linarith), decide_eq_true (show -v < 0 by linarith)]; cases t <;> rfl
    · rw [neg_fin, mul_fin, mul_fin, ← rnd_opp]; congr 1; ring

theorem f_mul_neg (a b : F32) : a * -b = -(a * b) := by rw [F32.mul_comm, f_neg_mul, F32.mul_comm]

theorem f_neg_sub (a b : F32) : -a - -b = -(a - b) := by rw [F32.sub_eq, F32.sub_eq, f_neg_add]

theorem f_neg_sq (a : F32) : -a * -a = a * a := by rw [f_neg_mul, f_mul_neg, f_neg_neg]

theorem f_abs_neg (a : F32) : F32.abs (-a) = F32.abs a := by
  rcases a with _ | s | ⟨v, h⟩
  · rfl
  · rfl
  · rw [neg_fin, abs_fin, abs_fin]; congr 1; exact _root_.abs_neg v

/-! ### The inverted recording -/

/-- specification: the recording with inverted polarity -/
def inverted (s : List F32) : List F32 := s.map (fun x => -x)

/-- a transform that commutes with inversion, as every discrete Fourier transform built from sums and products does -/
def OddFft (fft : List F32 → List (F32 × F32)) : Prop :=
  ∀ x, fft (inverted x) = (fft x).map (fun z => (-z.1, -z.2))

theorem slice_map {α β : Type} (f : α → β) (l : List α) (a b : ℕ) : slice (l.map f) a b = (slice l a b).map (List.map f) := by
  unfold slice
  rw [List.length_map]
  split_ifs
  · rw [← List.map_drop, ← List.map_take]; rfl
  · rfl

theorem length_inverted (s : List F32) : (inverted s).length = s.length := List.length_map _

theorem inverted_nil {s : List F32} : inverted s = [] ↔ s = [] := List.map_eq_nil_iff

theorem squares_inverted (s : List F32) : (inverted s).map (fun x => x * x) = s.map (fun x => x * x) := by
  unfold inverted
  rw [List.map_map]
  exact List.map_congr_left (fun x _ => f_neg_sq x)

theorem abs_inverted (s : List F32) : (inverted s).map F32.abs = s.map F32.abs := by
  unfold inverted
  rw [List.map_map]
  exact List.map_congr_left (fun x _ => f_abs_neg x)

theorem meanSq_inverted (s : List F32) : Norm.meanSq (inverted s) = Norm.meanSq s := by
  unfold Norm.meanSq
  rw [squares_inverted, length_inverted]

theorem peakOf_inverted (s : List F32) : Norm.peakOf (inverted s) = Norm.peakOf s := by
  unfold Norm.peakOf
  rw [abs_inverted]

theorem scaled_inverted (s : List F32) (g : F32) : (inverted s).map (· * g) = inverted (s.map (· * g)) := by
  unfold inverted
  rw [List.map_map, List.map_map]
  exact List.map_congr_left (fun x _ => f_neg_mul x g)

theorem rmsDb_inverted (M : Libm) (s : List F32) : Norm.rmsDbOf M (inverted s) = Norm.rmsDbOf M s := by
  unfold Norm.rmsDbOf
  rw [meanSq_inverted]

/-- inverting the first component of a result -/
def invFst {β : Type} (r : R (List F32 × β)) : R (List F32 × β) := r.map (fun p => (inverted p.1, p.2))

theorem normalizePeak_inverted (M : Libm) (s : List F32) (h : F32) :
    Norm.normalizePeak M (inverted s) h = invFst (Norm.normalizePeak M s h) := by
  unfold Norm.normalizePeak
  by_cases h0 : s = []
  · subst h0; rfl
  rw [if_neg h0, if_neg (fun h => h0 (inverted_nil.1 h)), peakOf_inverted]
  dsimp only
  split_ifs
  · rfl
  · rw [scaled_inverted, rmsDb_inverted]; rfl

theorem normalizeRms_inverted (M : Libm) (s : List F32) (t h : F32) :
    Norm.normalizeRms M (inverted s) t h = invFst (Norm.normalizeRms M s t h) := by
  unfold Norm.normalizeRms
  by_cases h0 : s = []
  · subst h0; rfl
  rw [if_neg h0, if_neg (fun h => h0 (inverted_nil.1 h)), peakOf_inverted, meanSq_inverted]
  dsimp only
  split_ifs
  · rfl
  · rw [scaled_inverted]; rfl
  · rw [scaled_inverted]; rfl

theorem run_inverted : ∀ (s : List F32) (f g : Norm.KFilter), g = { f with x1 := -f.x1, x2 := -f.x2 } →
    g.run (inverted s) = inverted (f.run s) := by
  intro s
  induction s with
  | nil => intro f g _; rfl
  | cons x s ih =>
    intro f g hg
    subst hg
    show _ :: _ = _ :: _
    have ho : f.b0 * -x + -f.x1 = -(f.b0 * x + f.x1) := by rw [f_mul_neg, f_neg_add]
    refine congrArg₂ _ ho (ih _ _ ?_)
    show Norm.KFilter.mk _ _ _ _ _ _ _ = Norm.KFilter.mk _ _ _ _ _ _ _
    dsimp only
    rw [ho, f_mul_neg, f_mul_neg, f_mul_neg, f_mul_neg, f_neg_add, f_neg_sub, f_neg_sub]

theorem calculateLufs_inverted (M : Libm) (s : List F32) (sr : F32) :
    Norm.calculateLufs M (inverted s) sr = Norm.calculateLufs M s sr := by
  unfold Norm.calculateLufs
  by_cases h0 : s = []
  · subst h0; rfl
  rw [if_neg h0, if_neg (fun h => h0 (inverted_nil.1 h))]
  have hr : (Norm.KFilter.new M sr).run (inverted s) = inverted ((Norm.KFilter.new M sr).run s) := by
    refine run_inverted s _ _ ?_
    have z : (-0 : F32) = 0 := by decide +kernel
    unfold Norm.KFilter.new
    dsimp only
    rw [z]
  rw [hr]
  dsimp only
  rw [length_inverted]
  have hseg : ∀ a b, (do let seg ← slice (inverted ((Norm.KFilter.new M sr).run s)) a b
                         pure (Norm.meanSq seg)) =
      (do let seg ← slice ((Norm.KFilter.new M sr).run s) a b
          pure (Norm.meanSq seg)) := by
    intro a b
    unfold inverted
    rw [slice_map]
    rcases slice ((Norm.KFilter.new M sr).run s) a b with e | v
    · rfl
    · show Except.ok (Norm.meanSq (inverted v)) = Except.ok (Norm.meanSq v)
      rw [meanSq_inverted]
  simp only [hseg]

theorem normalizeLufs_inverted (M : Libm) (s : List F32) (t h sr : F32) :
    Norm.normalizeLufs M (inverted s) t h sr = invFst (Norm.normalizeLufs M s t h sr) := by
  unfold Norm.normalizeLufs
  by_cases h0 : s = []
  · subst h0; rfl
  rw [if_neg h0, if_neg (fun h => h0 (inverted_nil.1 h)), peakOf_inverted, calculateLufs_inverted]
  rcases Norm.calculateLufs M s sr with e | m
  · rfl
  simp only [R.ok_bind]
  split_ifs
  · exact normalizePeak_inverted M s h
  · rw [scaled_inverted, rmsDb_inverted]; rfl
  · rw [scaled_inverted, rmsDb_inverted]; rfl

theorem normalized_inverted (L : Lib) (c : Config) (s : List F32) (sr : ℕ) :
    normalized L c (inverted s) sr = (normalized L c s sr).map inverted := by
  unfold normalized
  split_ifs
  · have : ∀ cfg, Norm.normalize L.M (inverted s) cfg (F32.ofNat sr) = invFst (Norm.normalize L.M s cfg (F32.ofNat sr)) := by
      intro cfg
      unfold Norm.normalize
      rcases cfg.method
      · exact normalizePeak_inverted _ _ _
      · exact normalizeRms_inverted _ _ _ _
      · exact normalizeLufs_inverted _ _ _ _ _
    rw [this]
    rcases Norm.normalize L.M s ⟨-14, 1, c.normalization⟩ (F32.ofNat sr) with e | r
    · rfl
    · rfl
  · rfl

theorem frameRms_inverted (s : List F32) : Silence.frameRms (inverted s) = Silence.frameRms s := by
  unfold Silence.frameRms
  rw [squares_inverted, length_inverted]

theorem trimmed_inverted (L : Lib) (c : Config) (s : List F32) (sr : ℕ) :
    trimmed L c (inverted s) sr = (trimmed L c s sr).map inverted := by
  unfold trimmed
  split_ifs
  swap
  · rfl
  generalize (⟨c.minAmplitudeDb, 500, c.frame⟩ : Silence.Detector) = det
  have : Silence.detectAndTrim L.M (inverted s) sr det = invFst (Silence.detectAndTrim L.M s sr det) := by
    unfold Silence.detectAndTrim
    by_cases h0 : s = []
    · subst h0; rfl
    rw [if_neg h0, if_neg (fun h => h0 (inverted_nil.1 h))]
    have hf : Silence.frameRmsAt (inverted s) det.frameSize (det.frameSize / 2) = Silence.frameRmsAt s det.frameSize (det.frameSize / 2) := by
      funext i
      unfold Silence.frameRmsAt
      rw [length_inverted]
      dsimp only
      unfold inverted
      rw [slice_map]
      rcases slice s _ _ with e | v
      · rfl
      · show Except.ok (Silence.frameRms (inverted v)) = Except.ok (Silence.frameRms v)
        rw [frameRms_inverted]
    dsimp only
    rw [hf, length_inverted]
    split_ifs
    · rfl
    · rfl
    · rfl
    rcases (List.range (Silence.numFrames s.length det.frameSize (det.frameSize / 2))).mapM
      (Silence.frameRmsAt s det.frameSize (det.frameSize / 2)) with e | rms
    · rfl
    simp only [R.ok_bind]
    rcases Silence.regionsOf s.length _ _ _ _ with e | regions
    · rfl
    simp only [R.ok_bind]
    split_ifs
    · unfold inverted
      rw [slice_map]
      rcases slice s _ _ with e | v
      · rfl
      · rfl
    · rfl
  rw [this]
  rcases Silence.detectAndTrim L.M s sr det with e | r
  · rfl
  · rfl

theorem energyFlux_inverted (M : Libm) (s : List F32) (frame hop : ℕ) (t : F32) :
    Onset.energyFluxOnsets M (inverted s) frame hop t = Onset.energyFluxOnsets M s frame hop t := by
  unfold Onset.energyFluxOnsets
  by_cases h0 : s = []
  · subst h0; rfl
  rw [if_neg h0, if_neg (fun h => h0 (inverted_nil.1 h)), length_inverted]
  have hf : Onset.frameEnergy (inverted s) frame hop = Onset.frameEnergy s frame hop := by
    funext i
    unfold Onset.frameEnergy
    rw [length_inverted]
    dsimp only
    unfold inverted
    rw [slice_map]
    rcases slice s _ _ with e | v
    · rfl
    · show Except.ok _ = Except.ok _
      have := squares_inverted v
      unfold inverted at this
      rw [this]
  rw [hf]

theorem stftRow_inverted {fft : List F32 → List (F32 × F32)} (hf : OddFft fft) (M : Libm) (s : List F32) (frame start : ℕ) :
    Chroma.stftRow M fft (inverted s) frame start = Chroma.stftRow M fft s frame start := by
  unfold Chroma.stftRow
  unfold inverted
  rw [slice_map]
  rcases slice s start (start + frame) with e | v
  · rfl
  show (do let b ← slice (fft (List.zipWith (fun s w => s * w) (v.map (fun x => -x)) (Chroma.hann M frame))) 0 (frame / 2 + 1)
           pure (b.map Chroma.mag)) = (do
           let b ← slice (fft (List.zipWith (fun s w => s * w) v (Chroma.hann M frame))) 0 (frame / 2 + 1)
           pure (b.map Chroma.mag))
  have hz : List.zipWith (fun s w => s * w) (v.map (fun x => -x)) (Chroma.hann M frame) =
      inverted (List.zipWith (fun s w => s * w) v (Chroma.hann M frame)) := by
    unfold inverted
    rw [List.zipWith_map_left, List.map_zipWith]
    congr 1
    funext a b
    exact f_neg_mul a b
  rw [hz, hf, slice_map]
  rcases slice (fft (List.zipWith (fun s w => s * w) v (Chroma.hann M frame))) 0 (frame / 2 + 1) with e | b
  · rfl
  show Except.ok _ = Except.ok _
  rw [List.map_map]
  congr 1
  refine List.map_congr_left (fun z _ => ?_)
  show F32.sqrt (-z.1 * -z.1 + -z.2 * -z.2) = F32.sqrt (z.1 * z.1 + z.2 * z.2)
  rw [f_neg_sq, f_neg_sq]

theorem stftRows_inverted {fft : List F32 → List (F32 × F32)} (hf : OddFft fft) (M : Libm) (s : List F32) (frame hop : ℕ) :
    ∀ n k, Chroma.stftRows M fft (inverted s) frame hop n k = Chroma.stftRows M fft s frame hop n k := by
  intro n
  induction n with
  | zero => intro k; rfl
  | succ n ih =>
    intro k
    unfold Chroma.stftRows
    rw [length_inverted, stftRow_inverted hf, ih]

theorem stft_inverted {fft : List F32 → List (F32 × F32)} (hf : OddFft fft) (M : Libm) (s : List F32) (frame hop : ℕ) :
    Chroma.computeStft M fft (inverted s) frame hop = Chroma.computeStft M fft s frame hop := by
  unfold Chroma.computeStft
  rw [length_inverted, stftRows_inverted hf]

theorem fromSamples_inverted {L : Lib} (hf : OddFft L.sfft) (s : List F32) (sr frame : ℕ) (a b r : F32) (k : ℕ)
    (W : MultiRes.Weights) (cfg : Option Tempogram.BandCfg) :
    MultiRes.fromSamples L.M L.sfft L.fft L.fuel (inverted s) sr frame a b r k W cfg =
      MultiRes.fromSamples L.M L.sfft L.fft L.fuel s sr frame a b r k W cfg := by
  unfold MultiRes.fromSamples
  rw [length_inverted, stft_inverted hf, stft_inverted hf, stft_inverted hf]

/-- **C97, polarity.** The analysis of the inverted recording is the analysis of the recording: the same result, bit by
bit, or the same error, for every configuration and every library whose spectrum transform commutes with inversion. -/
theorem C97_polarity (L : Lib) (hL : OddFft L.sfft) (c : Config) (audio : List F32) (sr : ℕ) :
    analyze L c (inverted audio) sr = analyze L c audio sr := by
  have hT : ∀ x, analyzeTrimmed L c (inverted x) sr = analyzeTrimmed L c x sr := by
    intro x
    have e1 : ∀ spec, tempo L c (inverted x) spec sr = tempo L c x spec sr := by
      intro spec
      unfold tempo tempoMulti afterMulti
      simp only [fromSamples_inverted hL]
    have e2 : ∀ spec bts, keyPart L c (inverted x) spec sr bts = keyPart L c x spec sr bts := by
      intro spec bts
      unfold keyPart keySpec
      rw [length_inverted, stft_inverted hL]
    unfold analyzeTrimmed
    rw [energyFlux_inverted, stft_inverted hL, length_inverted]
    simp only [e1, e2]
  unfold analyze
  by_cases h0 : audio = []
  · subst h0; rfl
  rw [if_neg h0, if_neg (fun h => h0 (inverted_nil.1 h)), normalized_inverted]
  split_ifs
  · rfl
  rcases normalized L c audio sr with e | y
  · rfl
  show (do let x ← trimmed L c (inverted y) sr
           if x = [] then R.err .processing else analyzeTrimmed L c x sr) = (do
           let x ← trimmed L c y sr
           if x = [] then R.err .processing else analyzeTrimmed L c x sr)
  rw [trimmed_inverted]
  rcases trimmed L c y sr with e | x
  · rfl
  show (if inverted x = [] then R.err .processing else analyzeTrimmed L c (inverted x) sr) =
    (if x = [] then R.err .processing else analyzeTrimmed L c x sr)
  by_cases hx : x = []
  · rw [if_pos hx, if_pos (inverted_nil.2 hx)]
  · rw [if_neg hx, if_neg (fun h => hx (inverted_nil.1 h)), hT]

/-! ### The hypothesis is met by every textbook transform -/

/-- the discrete Fourier transform by its definition, for any tables of cosines and sines -/
def tableDft (co si : ℕ → ℕ → F32) (x : List F32) : List (F32 × F32) := (List.range x.length).map (fun k =>
  (F32.sum (List.zipWith (fun a n => a * co k n) x (List.range x.length)),
    F32.sum (List.zipWith (fun a n => a * si k n) x (List.range x.length))))

theorem sum_inverted (l : List F32) : F32.sum (inverted l) = -F32.sum l := by
  have h : ∀ (l : List F32) (a : F32), (inverted l).foldl (· + ·) (-a) = -(l.foldl (· + ·) a) := by
    intro l
    induction l with
    | nil => intro a; rfl
    | cons x l ih =>
      intro a
      show (inverted l).foldl (· + ·) (-a + -x) = _
      rw [f_neg_add, ih]
      rfl
  have z : (0 : F32) = -0 := by decide +kernel
  unfold F32.sum
  conv_lhs => rw [z]
  exact h l 0

theorem tableDft_odd (co si : ℕ → ℕ → F32) : OddFft (tableDft co si) := by
  intro x
  have h : ∀ (t : ℕ → F32) (l : List ℕ), F32.sum (List.zipWith (fun a n => a * t n) (inverted x) l) =
      -F32.sum (List.zipWith (fun a n => a * t n) x l) := by
    intro t l
    rw [← sum_inverted]
    unfold inverted
    rw [List.zipWith_map_left, List.map_zipWith]
    congr 2
    funext a b
    exact f_neg_mul a _
  unfold tableDft
  rw [List.map_map, length_inverted]
  refine List.map_congr_left (fun k _ => ?_)
  rw [h, h]
  rfl

-- a transform that rectifies its input would not do
example : OddFft (tableDft (fun k n => if (k * n) % 2 = 0 then 1 else -1) (fun _ _ => 0)) ∧
    ¬ OddFft (fun l => l.map (fun x => (F32.abs x, 0))) := by
  refine ⟨tableDft_odd _ _, fun h => ?_⟩
  have := h [1]
  revert this
  decide +kernel

-- two samples of a tone and their inversion have the same spectrum, though not the same transform
example : tableDft (fun k n => if (k * n) % 2 = 0 then 1 else -1) (fun _ _ => 0) [1, 0.5] ≠
      tableDft (fun k n => if (k * n) % 2 = 0 then 1 else -1) (fun _ _ => 0) (inverted [1, 0.5]) ∧
    (tableDft (fun k n => if (k * n) % 2 = 0 then 1 else -1) (fun _ _ => 0) [1, 0.5]).map Chroma.mag = [1.5, 0.5] ∧
    (tableDft (fun k n => if (k * n) % 2 = 0 then 1 else -1) (fun _ _ => 0) (inverted [1, 0.5])).map Chroma.mag = [1.5, 0.5] := by
  decide +kernel

end Verif.Props
