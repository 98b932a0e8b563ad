/-
Property theorems C08-C10: onset detectors and thresholds (src/features/onset).
-/
import Verif.Lemmas.Onset

namespace Verif.Props
open Verif Verif.Onset Verif.F32

/-! ### C08 -/

/-- Specification: RMS energy of the samples `[start, start + frame)`. -/
def Energy (samples : List F32) (frame start : ℕ) : F32 :=
  F32.sqrt (F32.sum (((samples.drop start).take frame).map (fun x => x * x)) / F32.ofNat frame)

/-- Specification: `f` lists the positive parts of the rises of `e 0, e 1, ..., e n`. -/
def IsRise (e : ℕ → F32) (n : ℕ) (f : List F32) : Prop :=
  f.length = n ∧ ∀ i, i < n → f[i]? = some (F32.max (e (i + 1) - e i) 0)

/-- Specification: `m` is the largest element of `f` and zero. -/
def IsMax0 (f : List F32) (m : F32) : Prop := (∀ x ∈ f, x ≤ m) ∧ 0 ≤ m ∧ (m = 0 ∨ m ∈ f)

theorem frameEnergy_ok {samples : List F32} {frame hop i : ℕ} (h : samples.length ≥ frame)
    (hi : i < (samples.length - frame) / hop + 1) :
    frameEnergy samples frame hop i = .ok (Energy samples frame (i * hop)) := by
  have h1 : i * hop ≤ samples.length - frame := by
    have : i ≤ (samples.length - frame) / hop := by omega
    exact (Nat.mul_le_mul_right hop this).trans (Nat.div_mul_le_self _ _)
  unfold frameEnergy
  dsimp only
  have h2 : Nat.min (i * hop + frame) samples.length = i * hop + frame :=
    Nat.min_eq_left (by omega)
  rw [h2, slice_ok (by omega) (by omega)]
  simp only [R.ok_bind, Nat.add_sub_cancel_left]
  rfl

theorem diffFlux_isRise (e : ℕ → F32) (n : ℕ) :
    IsRise e n (diffFlux ((List.range (n + 1)).map e)) := by
  refine ⟨by simp, fun i hi => ?_⟩
  apply diffFlux_getElem? <;> rw [List.getElem?_map, List.getElem?_range (by omega)] <;> rfl

/-- **C08.** Energy-flux onset detection.  It fails (with an error, never a panic) exactly for a zero
frame or hop size on a non-empty signal.  On success the onsets are positive multiples of the hop size
inside the signal, strictly increasing and at least one hop apart; and they are exactly the flux
peaks above the threshold, unless there is no frame transition or no flux above `1e-10`, in which case
the result is empty. -/
theorem C08_energy_flux_onsets (M : Libm) (samples : List F32) (frame hop : ℕ) (thrDb : F32) :
    (samples ≠ [] ∧ (frame = 0 ∨ hop = 0) →
      energyFluxOnsets M samples frame hop thrDb = R.err .invalidInput) ∧
    (¬ (samples ≠ [] ∧ (frame = 0 ∨ hop = 0)) →
      ∃ out, energyFluxOnsets M samples frame hop thrDb = .ok out ∧
        out.Pairwise (fun a b => a < b ∧ a + hop ≤ b) ∧
        (∀ o ∈ out, 0 < o ∧ o + frame ≤ samples.length ∧ hop ∣ o) ∧
        ∃ f m, IsRise (fun i => Energy samples frame (i * hop))
            (if frame ≤ samples.length then (samples.length - frame) / hop else 0) f ∧ IsMax0 f m ∧
          ((m ≤ 1e-10 → out = []) ∧ (¬ m ≤ 1e-10 →
            ∀ o, o ∈ out ↔ ∃ k, o = k * hop ∧ FluxPeak f (m * M.powf 10 (thrDb / 20)) k))) := by
  constructor
  · rintro ⟨h0, h1⟩
    unfold energyFluxOnsets
    rw [if_neg h0]
    rcases h1 with h | h
    · rw [if_pos h]
    · split_ifs <;> rfl
  · intro hok
    have hempty : (if frame ≤ samples.length then (samples.length - frame) / hop else 0) = 0 →
        ([] : List ℕ).Pairwise (fun a b => a < b ∧ a + hop ≤ b) ∧
        (∀ o ∈ ([] : List ℕ), 0 < o ∧ o + frame ≤ samples.length ∧ hop ∣ o) ∧
        ∃ f m, IsRise (fun i => Energy samples frame (i * hop))
            (if frame ≤ samples.length then (samples.length - frame) / hop else 0) f ∧ IsMax0 f m ∧
          ((m ≤ 1e-10 → ([] : List ℕ) = []) ∧ (¬ m ≤ 1e-10 →
            ∀ o, o ∈ ([] : List ℕ) ↔ ∃ k, o = k * hop ∧ FluxPeak f (m * M.powf 10 (thrDb / 20)) k)) := by
      intro hz
      rw [hz]
      refine ⟨List.Pairwise.nil, by simp, [], 0, ⟨rfl, by simp⟩, ⟨by simp, le_refl zero_ne_nan, .inl rfl⟩,
        fun _ => rfl, fun hm => ?_⟩
      exact absurd (by decide +kernel) hm
    unfold energyFluxOnsets
    by_cases h0 : samples = []
    · rw [if_pos h0]
      refine ⟨[], rfl, hempty ?_⟩
      subst h0
      simp
    · rw [if_neg h0]
      have h1 : frame ≠ 0 := fun h => hok ⟨h0, .inl h⟩
      have h2 : hop ≠ 0 := fun h => hok ⟨h0, .inr h⟩
      rw [if_neg h1, if_neg h2]
      by_cases h3 : samples.length < frame
      · rw [if_pos h3]
        exact ⟨[], rfl, hempty (by rw [if_neg (by omega)])⟩
      · rw [if_neg h3]
        dsimp only
        by_cases h4 : (samples.length - frame) / hop + 1 < 2
        · rw [if_pos h4]
          exact ⟨[], rfl, hempty (by rw [if_pos (by omega)]; have := Nat.zero_le ((samples.length - frame) / hop); exact Nat.lt_one_iff.1 (by exact Nat.lt_of_succ_lt_succ h4))⟩
        · rw [if_neg h4, if_pos (by omega : frame ≤ samples.length)]
          rw [Silence.mapM_ok (g := fun i => Energy samples frame (i * hop)) (fun i hi =>
            frameEnergy_ok (by omega) (by simpa using hi))]
          simp only [R.ok_bind]
          have hrise := diffFlux_isRise (fun i => Energy samples frame (i * hop)) ((samples.length - frame) / hop)
          have hnn : ∀ x ∈ diffFlux (List.map (fun i => Energy samples frame (i * hop))
              (List.range ((samples.length - frame) / hop + 1))), x ≠ nan :=
            fun x hx => ne_nan_right (diffFlux_nonneg x hx)
          generalize diffFlux (List.map (fun i => Energy samples frame (i * hop))
              (List.range ((samples.length - frame) / hop + 1))) = f at hrise hnn ⊢
          have hfl := hrise.1
          have hf0 : f ≠ [] := by intro h; rw [h] at hfl; simp at hfl; omega
          rw [if_neg hf0]
          obtain ⟨m1, m2, m3, m4⟩ := foldMax_spec (l := f) zero_ne_nan
          have hmax : IsMax0 f (foldMax 0 f) := ⟨fun x hx => m3 x hx (hnn x hx), m1, m4⟩
          generalize foldMax 0 f = m at hmax
          by_cases h5 : m ≤ EPS
          · rw [if_pos h5]
            exact ⟨[], rfl, List.Pairwise.nil, by simp, f, m, hrise, hmax, fun _ => rfl, fun h => absurd h5 h⟩
          · rw [if_neg h5]
            have hin : ∀ k, FluxPeak f (m * M.powf 10 (thrDb / 20)) k →
                0 < k * hop ∧ k * hop + frame ≤ samples.length := by
              intro k hk
              have := hk.range
              have h6 : k * hop ≤ samples.length - frame :=
                (Nat.mul_le_mul_right hop (by omega : k ≤ (samples.length - frame) / hop)).trans
                  (Nat.div_mul_le_self _ _)
              exact ⟨Nat.mul_pos (by omega) (by omega), by omega⟩
            generalize hthr : m * M.powf 10 (thrDb / 20) = thr at hin
            -- filtering changes nothing
            have hfilter : ((rawPeaks f thr).map (· * hop)).filter (fun o => decide (o < samples.length)) =
                (rawPeaks f thr).map (· * hop) := by
              rw [List.filter_eq_self]
              intro o ho
              obtain ⟨k, hk, rfl⟩ := List.mem_map.1 ho
              have := hin k (mem_rawPeaks.1 hk)
              simp only [decide_eq_true_eq]; omega
            rw [hfilter]
            have hnd : ((rawPeaks f thr).map (· * hop)).Nodup :=
              (rawPeaks_nodup f thr).map (fun a b h => Nat.eq_of_mul_eq_mul_right (by omega) h)
            have hsn : (sortNat ((rawPeaks f thr).map (· * hop))).Pairwise (· < ·) := by
              have hnd' : (sortNat ((rawPeaks f thr).map (· * hop))).Nodup := (sortNat_perm _).nodup_iff.2 hnd
              have := (sortNat_pairwise ((rawPeaks f thr).map (· * hop))).and hnd'
              exact this.imp (fun h => by omega)
            have hgap : (sortNat ((rawPeaks f thr).map (· * hop))).Pairwise (fun a b => a < b ∧ a + hop ≤ b) := by
              refine List.Pairwise.imp_of_mem ?_ hsn
              intro a b ha hb hab
              rw [mem_sortNat] at ha hb
              obtain ⟨j, _, rfl⟩ := List.mem_map.1 ha
              obtain ⟨k, _, rfl⟩ := List.mem_map.1 hb
              have hab' : j * hop < k * hop := hab
              have : j < k := Nat.lt_of_mul_lt_mul_right hab'
              have : (j + 1) * hop ≤ k * hop := Nat.mul_le_mul_right _ this
              exact ⟨hab, by rw [Nat.add_mul] at this; simpa using this⟩
            rw [spreadAll_eq_self (hgap.imp (fun h => by omega))]
            refine ⟨_, rfl, hgap, ?_, f, m, hrise, hmax, fun h => absurd h h5, ?_⟩
            · intro o ho
              rw [mem_sortNat] at ho
              obtain ⟨k, hk, rfl⟩ := List.mem_map.1 ho
              have := hin k (mem_rawPeaks.1 hk)
              exact ⟨this.1, this.2, Dvd.intro_left k rfl⟩
            · intro _ o
              rw [mem_sortNat, List.mem_map]
              constructor
              · rintro ⟨k, hk, rfl⟩; exact ⟨k, rfl, hthr ▸ mem_rawPeaks.1 hk⟩
              · rintro ⟨k, rfl, hk⟩; exact ⟨k, mem_rawPeaks.2 (hthr ▸ hk), rfl⟩

/-- Non-vacuity: a burst in the third and seventh sample (frame 1, hop 1), `10^(dB/20) = 0.01`. -/
example : energyFluxOnsets Libm.demo [0, 0, 1, 1, 0, 0, 3, 3] 2 1 (-40) = .ok [1, 5] := by decide +kernel

/-! ### C09 -/

/-- Specification: what a frame-based detector must return for flux `f` and percentile threshold
`thr`: strictly increasing frame indices, exactly the flux peaks above the threshold. -/
def PicksPeaks (frames : ℕ) (f : List F32) (thr : F32) (out : List ℕ) : Prop :=
  out.Pairwise (· < ·) ∧ (∀ k ∈ out, 1 ≤ k ∧ k < frames) ∧ ∀ k, k ∈ out ↔ FluxPeak f thr k

/-- Specification: `thr` is the value of rank `⌊n·p⌋` (at most `n - 1`) of `f`. -/
def IsPercentile (f : List F32) (p thr : F32) : Prop :=
  thr ∈ f ∧
    Nat.min (F32.ofNat f.length * p).toUsize (f.length - 1) + 1 ≤ f.countP (fun x => decide (x ≤ thr)) ∧
    f.length - Nat.min (F32.ofNat f.length * p).toUsize (f.length - 1) ≤ f.countP (fun x => decide (thr ≤ x))

theorem pctValue_isPercentile {l : List F32} (p : F32) (h : l ≠ []) (hn : ∀ x ∈ l, x ≠ nan) :
    ∃ v, pctValue l p = .ok v ∧ IsPercentile l p v := by
  obtain ⟨hi, e⟩ := pctValue_ok p h
  refine ⟨_, e, ?_, ?_⟩
  · have := List.getElem_mem hi
    rw [mem_sortAsc] at this; exact this
  · have hs := countP_le_sorted (sortAsc_pairwise (key := id) hn)
      (fun x hx => hn x (mem_sortAsc.1 hx)) hi
    rw [(sortAsc_perm l).countP_eq, (sortAsc_perm l).countP_eq, length_sortAsc] at hs
    exact hs

theorem pickFrames_spec {f : List F32} {p : F32} {n : ℕ} (h : f ≠ []) (hl : f.length = n - 1)
    (hn : ∀ x ∈ f, x ≠ nan) :
    ∃ out thr, pickFrames f p = .ok out ∧ IsPercentile f p thr ∧ PicksPeaks n f thr out := by
  obtain ⟨v, e, hv⟩ := pctValue_isPercentile p h hn
  refine ⟨dedupAdj (sortNat (rawPeaks f v)), v, ?_, hv, pick_strict f v, ?_, fun k => mem_pick⟩
  · unfold pickFrames; rw [e]; rfl
  · intro k hk
    have := (mem_pick.1 hk).range
    have h0 : 0 < f.length := List.length_pos_iff.2 h
    omega

/-- Specification of a rectangular, non-degenerate spectrogram. -/
def Rect (mags : List (List F32)) : Prop := ∃ n, 0 < n ∧ ∀ fr ∈ mags, fr.length = n

theorem framesOk_none {mags : List (List F32)} {p : F32} (h0 : mags ≠ []) :
    framesOk mags p = none ↔ (0 ≤ p ∧ p ≤ 1) ∧ Rect mags := by
  obtain ⟨fr, rest, rfl⟩ := List.exists_cons_of_ne_nil h0
  have e : framesOk (fr :: rest) p = if ¬ inUnit p = true then some .invalidInput
      else if fr.length = 0 then some .invalidInput
      else if (fr :: rest).any (fun f => f.length != fr.length) = true then some .invalidInput
      else none := rfl
  rw [e]
  unfold Rect
  constructor
  · intro h
    split_ifs at h with h1 h2 h3
    refine ⟨inUnit_iff.1 h1, fr.length, by omega, ?_⟩
    intro g hg
    simp only [List.any_eq_true, not_exists, not_and, bne_iff_ne, ne_eq, not_not] at h3
    exact h3 g hg
  · rintro ⟨h1, n, hn, hr⟩
    have hfr := hr fr (by simp)
    rw [if_neg (not_not.2 (inUnit_iff.2 h1)), if_neg (by omega), if_neg]
    simp only [List.any_eq_true, not_exists, not_and, bne_iff_ne, ne_eq, not_not]
    intro g hg; rw [hr g hg, hfr]

theorem framesOk_some {mags : List (List F32)} {p : F32} {e : ErrKind} (h : framesOk mags p = some e) :
    e = .invalidInput := by
  unfold framesOk at h
  split_ifs at h <;> simpa using h.symm

/-- Specification of the L2 norm of the positive parts of the rises from one frame to the next. -/
def RiseNorm (a b : List F32) : F32 :=
  F32.sqrt (F32.sum ((a.zip b).map (fun p => F32.max (p.2 - p.1) 0 * F32.max (p.2 - p.1) 0)))

/-- Specification of peak-normalised frames. -/
def IsPeakNormalised (fr g : List F32) : Prop :=
  ∃ m, 0 ≤ m ∧ (∀ x ∈ fr, x ≠ nan → x ≤ m) ∧ (m = 0 ∨ m ∈ fr) ∧
    ((1e-10 < m ∧ g = fr.map (· / m)) ∨ (¬ 1e-10 < m ∧ g = fr.map (fun _ => 0)))

theorem normFrame_spec (fr : List F32) : IsPeakNormalised fr (normFrame fr) := by
  obtain ⟨m1, m2, m3, m4⟩ := foldMax_spec (l := fr) zero_ne_nan
  refine ⟨foldMax 0 fr, m1, m3, m4, ?_⟩
  unfold normFrame
  dsimp only
  split_ifs with h
  · exact .inl ⟨h, rfl⟩
  · exact .inr ⟨h, rfl⟩

/-- **C09 (spectral flux).** On a non-empty spectrogram the detector returns an error exactly when the
percentile is not in [0,1] (NaN included) or the rows are ragged or empty - whatever the values - and
otherwise the frame indices of the peaks of the L2 flux above the percentile threshold. -/
theorem C09_spectral_flux (mags : List (List F32)) (p : F32) (h0 : mags ≠ []) :
    (¬ ((0 ≤ p ∧ p ≤ 1) ∧ Rect mags) → spectralFluxOnsets mags p = R.err .invalidInput) ∧
    ((0 ≤ p ∧ p ≤ 1) ∧ Rect mags → ∃ out, spectralFluxOnsets mags p = .ok out ∧
      ((mags.length = 1 ∧ out = []) ∨ ∃ (norm : List (List F32)) (f : List F32) (thr : F32),
        (norm.length = mags.length ∧ ∀ (i : ℕ) (fr g : List F32), mags[i]? = some fr → norm[i]? = some g → IsPeakNormalised fr g) ∧
        (f.length = mags.length - 1 ∧ ∀ (i : ℕ) (a b : List F32), norm[i]? = some a → norm[i + 1]? = some b →
          f[i]? = some (RiseNorm a b)) ∧
        IsPercentile f p thr ∧ PicksPeaks mags.length f thr out)) := by
  unfold spectralFluxOnsets
  rw [if_neg h0]
  constructor
  · intro h
    cases hf : framesOk mags p with
    | none => exact absurd ((framesOk_none h0).1 hf) h
    | some e => dsimp only; rw [framesOk_some hf]
  · intro h
    rw [(framesOk_none h0).2 h]
    dsimp only
    have hl := List.length_pos_iff.2 h0
    by_cases h2 : mags.length < 2
    · rw [if_pos h2]; exact ⟨[], rfl, .inl ⟨by omega, rfl⟩⟩
    · rw [if_neg h2]
      have hf0 : spectralFlux mags ≠ [] := by
        rw [← List.length_pos_iff, length_spectralFlux]; omega
      rw [if_neg hf0]
      obtain ⟨out, thr, e, hp, hk⟩ := pickFrames_spec (p := p) hf0 (length_spectralFlux mags)
        (fun x hx => ne_nan_right (spectralFlux_nonneg x hx))
      refine ⟨out, e, .inr ⟨mags.map normFrame, spectralFlux mags, thr, ⟨by simp, ?_⟩, ⟨by simp, ?_⟩, hp, hk⟩⟩
      · intro i fr g hfr hg
        rw [List.getElem?_map, hfr] at hg
        obtain rfl := Option.some.inj hg
        exact normFrame_spec fr
      · intro i a b ha hb
        have : i + 1 < (mags.map normFrame).length := (List.getElem?_eq_some_iff.1 hb).1
        unfold spectralFlux
        dsimp only
        rw [List.getElem?_map, List.getElem?_range (by omega)]
        simp only [Option.map_some, List.getD_eq_getElem?_getD, ha, hb, Option.getD_some]
        rfl

/-- Specification of the high-frequency content of a frame: `Σ k·x_k²`, summed from bin 0 up. -/
def HfcSum : ℕ → F32 → List F32 → F32
  | _, acc, [] => acc
  | k, acc, x :: xs => HfcSum (k + 1) (acc + F32.ofNat k * x * x) xs

theorem hfcOf_eq (fr : List F32) : hfcOf fr = HfcSum 0 0 fr := by
  have : ∀ (l : List F32) (k : ℕ) (acc : F32),
      (l.zipIdx k).foldl (fun acc p => acc + F32.ofNat p.2 * p.1 * p.1) acc = HfcSum k acc l := by
    intro l
    induction l with
    | nil => intro k acc; rfl
    | cons x l ih => intro k acc; rw [List.zipIdx_cons, List.foldl_cons, ih]; rfl
  exact this fr 0 0

/-- **C09 (high-frequency content).** As `C09_spectral_flux`, for the rises of `Σ k·x_k²`; the sample
rate must be positive. -/
theorem C09_hfc (mags : List (List F32)) (sr : ℕ) (p : F32) (h0 : mags ≠ []) :
    (¬ (0 < sr ∧ (0 ≤ p ∧ p ≤ 1) ∧ Rect mags) → hfcOnsets mags sr p = R.err .invalidInput) ∧
    (0 < sr ∧ (0 ≤ p ∧ p ≤ 1) ∧ Rect mags → ∃ out, hfcOnsets mags sr p = .ok out ∧
      ((mags.length = 1 ∧ out = []) ∨ ∃ f thr,
        IsRise (fun i => HfcSum 0 0 (mags.getD i [])) (mags.length - 1) f ∧
        IsPercentile f p thr ∧ PicksPeaks mags.length f thr out)) := by
  unfold hfcOnsets
  rw [if_neg h0]
  constructor
  · intro h
    by_cases hs : sr = 0
    · rw [if_pos hs]
    · rw [if_neg hs]
      cases hf : framesOk mags p with
      | none => exact absurd ⟨by omega, (framesOk_none h0).1 hf⟩ h
      | some e => dsimp only; rw [framesOk_some hf]
  · rintro ⟨hs, h⟩
    rw [if_neg (by omega), (framesOk_none h0).2 h]
    dsimp only
    have hl := List.length_pos_iff.2 h0
    by_cases h2 : mags.length < 2
    · rw [if_pos h2]; exact ⟨[], rfl, .inl ⟨by omega, rfl⟩⟩
    · rw [if_neg h2]
      have hf0 : diffFlux (mags.map hfcOf) ≠ [] := by
        rw [← List.length_pos_iff, length_diffFlux]; simp; omega
      rw [if_neg hf0]
      obtain ⟨out, thr, e, hp, hk⟩ := pickFrames_spec (p := p) (n := mags.length) hf0 (by simp)
        (fun x hx => ne_nan_right (diffFlux_nonneg x hx))
      refine ⟨out, e, .inr ⟨_, thr, ⟨by simp, ?_⟩, hp, hk⟩⟩
      intro i hi
      have h1 : i < mags.length := by omega
      have h2 : i + 1 < mags.length := by omega
      apply diffFlux_getElem? <;> rw [List.getElem?_map] <;> simp [h1, h2, hfcOf_eq]

/-- **C09 (percussive energy).** The detector accepts every spectrogram, ragged or not, and returns an
error only for a percentile outside [0,1]. -/
theorem C09_hpss (perc : List (List F32)) (p : F32) (h0 : perc ≠ []) :
    (¬ (0 ≤ p ∧ p ≤ 1) → hpssOnsets perc p = R.err .invalidInput) ∧
    (0 ≤ p ∧ p ≤ 1 → ∃ out, hpssOnsets perc p = .ok out ∧
      ((perc.length = 1 ∧ out = []) ∨ ∃ f thr,
        IsRise (fun i => F32.sum ((perc.getD i []).map (fun x => x * x))) (perc.length - 1) f ∧
        IsPercentile f p thr ∧ PicksPeaks perc.length f thr out)) := by
  unfold hpssOnsets
  rw [if_neg h0]
  constructor
  · intro h
    rw [if_pos (by rw [inUnit_iff]; exact h)]
  · intro h
    rw [if_neg (by rw [inUnit_iff]; exact not_not.2 h)]
    have hl := List.length_pos_iff.2 h0
    by_cases h2 : perc.length < 2
    · rw [if_pos h2]; exact ⟨[], rfl, .inl ⟨by omega, rfl⟩⟩
    · rw [if_neg h2]
      dsimp only
      have hf0 : diffFlux (perc.map (fun fr => F32.sum (fr.map (fun x => x * x)))) ≠ [] := by
        rw [← List.length_pos_iff, length_diffFlux]; simp; omega
      rw [if_neg hf0]
      obtain ⟨out, thr, e, hp, hk⟩ := pickFrames_spec (p := p) (n := perc.length) hf0 (by simp)
        (fun x hx => ne_nan_right (diffFlux_nonneg x hx))
      refine ⟨out, e, .inr ⟨_, thr, ⟨by simp, ?_⟩, hp, hk⟩⟩
      intro i hi
      have h1 : i < perc.length := by omega
      have h2 : i + 1 < perc.length := by omega
      apply diffFlux_getElem? <;> rw [List.getElem?_map] <;> simp [h1, h2]

/-- **C09 (no frames).** Without frames every detector returns no onsets. -/
theorem C09_empty (sr : ℕ) (p : F32) : spectralFluxOnsets [] p = .ok [] ∧ hfcOnsets [] sr p = .ok [] ∧
    hpssOnsets [] p = .ok [] := ⟨rfl, rfl, rfl⟩

/-! Non-vacuity. -/
example : Rect [[0, 0], [1, 2], [1, F32.nan], [0, 0], [4, 4]] := ⟨2, by decide, by decide +kernel⟩
example : spectralFluxOnsets [[0, 0], [1, 2], [1, 2], [0, 0], [4, 4]] 0.5 = .ok [4] := by decide +kernel
example : hfcOnsets [[0, 0], [1, 2], [1, F32.nan], [0, 0], [4, 5]] 44100 0.4 = .ok [1, 4] := by decide +kernel
example : hpssOnsets [[0], [1, 2], [1], [0, 0], [4, 5]] 0.4 = .ok [1, 4] := by decide +kernel

/-! ### C10 -/

/-- **C10 (percentile).** `percentile_threshold` fails exactly on empty input or a percentile outside
[0,1]; otherwise it returns one of the values, and for NaN-free values the one of the requested rank. -/
theorem C10_percentile (values : List F32) (p : F32) :
    (values = [] ∨ ¬ (0 ≤ p ∧ p ≤ 1) → percentileThreshold values p = R.err .invalidInput) ∧
    (¬ (values = [] ∨ ¬ (0 ≤ p ∧ p ≤ 1)) → ∃ v, percentileThreshold values p = .ok v ∧ v ∈ values ∧
      ((∀ x ∈ values, x ≠ nan) → IsPercentile values p v)) := by
  unfold percentileThreshold
  constructor
  · rintro (h | h)
    · rw [if_pos h]
    · split_ifs with h1 h2
      · rfl
      · exact absurd (inUnit_iff.1 h2) h
      · rfl
  · intro h
    push Not at h
    rw [if_neg h.1, if_neg (by rw [inUnit_iff]; exact not_not.2 h.2)]
    obtain ⟨hi, e⟩ := pctValue_ok p h.1
    refine ⟨_, e, ?_, ?_⟩
    · have := List.getElem_mem hi
      rw [mem_sortAsc] at this; exact this
    · intro hn
      obtain ⟨v, e', hv⟩ := pctValue_isPercentile p h.1 hn
      rw [e] at e'
      obtain rfl := Except.ok.inj e'
      exact hv

/-- **C10 (percentile is order-independent).** -/
theorem C10_percentile_perm (values values' : List F32) (p : F32) (hp : values.Perm values')
    (hn : ∀ x ∈ values, x ≠ nan) : percentileThreshold values p = percentileThreshold values' p := by
  have h0 : values = [] ↔ values' = [] := by
    rw [← List.length_eq_zero_iff, ← List.length_eq_zero_iff, hp.length_eq]
  simp only [percentileThreshold, pctValue, h0, sortAsc_eq_of_perm hp hn, hp.length_eq]

/-- Specification: `m` is the median of `l` (middle element, or half the sum of the middle two). -/
def IsMedian (l : List F32) (m : F32) : Prop :=
  ∃ s : List F32, s.Perm l ∧ s.Pairwise (· ≤ ·) ∧
    ((l.length % 2 = 1 ∧ s[l.length / 2]? = some m) ∨
     (l.length % 2 = 0 ∧ ∃ x y, s[l.length / 2 - 1]? = some x ∧ s[l.length / 2]? = some y ∧ m = (x + y) * 0.5))

theorem medianSorted_spec {l : List F32} (h0 : l ≠ []) (hn : ∀ x ∈ l, x ≠ nan) :
    IsMedian l (medianSorted (sortAsc id l)) := by
  have hl := List.length_pos_iff.2 h0
  refine ⟨sortAsc id l, sortAsc_perm l, sortAsc_pairwise (key := id) hn, ?_⟩
  have hs0 : sortAsc id l ≠ [] := by
    rw [← List.length_pos_iff, length_sortAsc]; exact hl
  unfold medianSorted
  rw [if_neg hs0, length_sortAsc]
  split_ifs with h
  · right
    exact ⟨h, _, _, at'_getElem? (by rw [length_sortAsc]; omega), at'_getElem? (by rw [length_sortAsc]; omega), rfl⟩
  · left
    exact ⟨by omega, at'_getElem? (by rw [length_sortAsc]; omega)⟩

theorem le_add_nonneg {a b : F32} (hb : 0 ≤ b) (hn : a + b ≠ nan) : a ≤ a + b := by
  have ha : a ≠ nan := by rintro rfl; simp at hn
  rcases a with _ | s | ⟨v, hv⟩
  · exact absurd rfl ha
  · rcases nonneg_cases hb with rfl | ⟨w, hw, rfl, _⟩
    · rw [inf_add_inf] at hn ⊢
      split_ifs at hn ⊢ with h
      · subst h; simp
      · simp at hn
    · rw [inf_add_fin]; exact le_refl (by simp)
  · rcases nonneg_cases hb with rfl | ⟨w, hw, rfl, hw0⟩
    · rw [fin_add_inf]; simp
    · rw [add_fin]; exact fin_le_rnd (by linarith)

/-- A median of finite values of magnitude at most `2^126` is finite and within the same bound. -/
theorem median_finite {l : List F32} {m : F32} (hm : IsMedian l m) {b : ℚ}
    (hb : OnGrid b ∧ |b| < pow2 128) (hb2 : OnGrid (2 * b) ∧ |2 * b| < pow2 128)
    (h : ∀ x ∈ l, x.abs ≤ fin b hb) : ∃ v hv, m = fin v hv ∧ |v| ≤ b := by
  have hfin : ∀ x ∈ l, ∃ v hv, x = fin v hv ∧ |v| ≤ b := by
    intro x hx
    have := h x hx
    rcases x with _ | s | ⟨v, hv⟩
    · simp at this
    · simp [F32.abs] at this
    · rw [abs_fin, fin_le_fin] at this; exact ⟨v, hv, rfl, this⟩
  obtain ⟨s, hp, _, h1 | ⟨_, x, y, hx, hy, rfl⟩⟩ := hm
  · exact hfin m (hp.mem_iff.1 (List.mem_of_getElem? h1.2))
  · obtain ⟨v, hv, rfl, hvb⟩ := hfin x (hp.mem_iff.1 (List.mem_of_getElem? hx))
    obtain ⟨w, hw, rfl, hwb⟩ := hfin y (hp.mem_iff.1 (List.mem_of_getElem? hy))
    have hsum : |v + w| ≤ 2 * b := by
      have := _root_.abs_add_le v w; linarith
    obtain ⟨hq, e, hle⟩ := rnd_finite_of_abs_le hb2 hsum
    have hhalf : (0.5 : F32) = fin (1 / 2) (by decide +kernel) := by decide +kernel
    rw [add_fin, e, hhalf, mul_fin]
    have hh : |rndQ (v + w) * (1 / 2)| ≤ b := by
      rw [_root_.abs_mul, abs_of_pos (by norm_num : (0:ℚ) < 1 / 2)]; linarith
    obtain ⟨hq2, e2, hle2⟩ := rnd_finite_of_abs_le hb hh
    exact ⟨_, hq2, e2, hle2⟩

theorem median_nonneg {l : List F32} {m : F32} (hm : IsMedian l m) (h : ∀ x ∈ l, 0 ≤ x) : 0 ≤ m := by
  obtain ⟨s, hp, _, h1 | ⟨_, x, y, hx, hy, rfl⟩⟩ := hm
  · exact h m (hp.mem_iff.1 (List.mem_of_getElem? h1.2))
  · have hs := add_nonneg (h x (hp.mem_iff.1 (List.mem_of_getElem? hx)))
      (h y (hp.mem_iff.1 (List.mem_of_getElem? hy)))
    refine mul_nonneg hs (by decide +kernel) ?_
    have hhalf : (0.5 : F32) = fin (1 / 2) (by decide +kernel) := by decide +kernel
    rw [hhalf]
    rcases nonneg_cases hs with e | ⟨v, hv, e, _⟩
    · rw [e, inf_mul_fin, if_neg (by norm_num)]; simp
    · rw [e, mul_fin]; simp

/-- **C10 (median + k·MAD).** Fails exactly on empty input or a negative multiplier.  Otherwise, for
NaN-free values with a finite median, it is `median + k * MAD` with `MAD` the median of the absolute
deviations, it does not depend on the order of the values, and (when it is a number) it is not below the
median.  For values of magnitude at most `2^125` and finite `k` the median is finite and the threshold a
number. -/
theorem C10_median_mad (values : List F32) (k : F32) (hn : ∀ x ∈ values, x ≠ nan) :
    (values = [] ∨ k < 0 → medianMad values k = R.err .invalidInput) ∧
    (¬ (values = [] ∨ k < 0) → ∃ t med, medianMad values k = .ok t ∧ IsMedian values med ∧
      (med.isFinite = true →
        (∀ values', values.Perm values' → medianMad values' k = .ok t) ∧
        (∃ mad, IsMedian (values.map (fun v => (v - med).abs)) mad ∧ t = med + k * mad) ∧
        (t ≠ nan → med ≤ t)) ∧
      ((∀ x ∈ values, x.abs ≤ rnd (pow2 125)) → med.isFinite = true ∧ (k.isFinite = true → t ≠ nan))) := by
  constructor
  · intro h
    unfold medianMad
    rcases h with h | h
    · rw [if_pos h]
    · split_ifs <;> rfl
  · intro h
    push Not at h
    obtain ⟨h0, hk⟩ := h
    have hmed := medianSorted_spec h0 hn
    generalize hmd : medianSorted (sortAsc id values) = med at hmed
    have hval : ∀ values', values.Perm values' → medianMad values' k =
        .ok (med + k * medianSorted (sortAsc id (values'.map (fun v => (v - med).abs)))) := by
      intro values' hp
      have h0' : values' ≠ [] := by
        rw [← List.length_pos_iff, ← hp.length_eq, List.length_pos_iff]; exact h0
      unfold medianMad
      rw [if_neg h0', if_neg hk]
      dsimp only
      rw [← sortAsc_eq_of_perm hp hn, hmd]
    have hvn : med.isFinite = true → ∀ x ∈ values, x - med ≠ nan := by
      intro hf x hx hxm
      obtain ⟨m, hm, rfl⟩ := isFinite_iff.1 hf
      have := hn x hx
      rw [sub_eq, F32.add_comm] at hxm
      exact add_fin_ne_nan (by rw [neg_fin]; rfl) this hxm
    have hdn : med.isFinite = true → ∀ x ∈ values.map (fun v => (v - med).abs), 0 ≤ x := by
      intro hf x hx
      obtain ⟨v, hv, rfl⟩ := List.mem_map.1 hx
      exact abs_nonneg (hvn hf v hv)
    have hd0 : values.map (fun v => (v - med).abs) ≠ [] := by simpa using h0
    have hmad : med.isFinite = true → IsMedian (values.map (fun v => (v - med).abs))
        (medianSorted (sortAsc id (values.map (fun v => (v - med).abs)))) := fun hf =>
      medianSorted_spec hd0 (fun x hx => ne_nan_right (hdn hf x hx))
    refine ⟨_, med, hval values (List.Perm.refl _), hmed, ?_, ?_⟩
    · intro hf
      refine ⟨?_, ⟨_, hmad hf, rfl⟩, ?_⟩
      · intro values' hp
        rw [hval values' hp, sortAsc_eq_of_perm (hp.map _) (fun x hx => ne_nan_right (hdn hf x hx))]
      · intro ht
        have h1 := median_nonneg (hmad hf) (hdn hf)
        generalize medianSorted (sortAsc id (values.map (fun v => (v - med).abs))) = mad at ht h1
        have hkm : k * mad ≠ nan := by intro e; rw [e] at ht; simp at ht
        have hk0 : 0 ≤ k := by
          refine le_of_not_lt zero_ne_nan ?_ hk
          rintro rfl; simp at hkm
        exact le_add_nonneg (mul_nonneg hk0 h1 hkm) ht
    · intro hb
      have g125 : OnGrid (pow2 125) ∧ |pow2 125| < pow2 128 := by decide +kernel
      have g126 : OnGrid (2 * pow2 125) ∧ |2 * pow2 125| < pow2 128 := by decide +kernel
      have g127 : OnGrid (2 * (2 * pow2 125)) ∧ |2 * (2 * pow2 125)| < pow2 128 := by decide +kernel
      rw [rnd_val g125] at hb
      obtain ⟨v, hv, rfl, hvb⟩ := median_finite hmed g125 g126 hb
      refine ⟨rfl, fun hkf => ?_⟩
      have hdev : ∀ x ∈ values.map (fun w => (w - fin v hv).abs), x.abs ≤ fin _ g126 := by
        intro x hx
        obtain ⟨w, hw, rfl⟩ := List.mem_map.1 hx
        have h2 := hb w hw
        rcases w with _ | s | ⟨w, hw'⟩
        · simp at h2
        · simp [F32.abs] at h2
        · rw [abs_fin, fin_le_fin] at h2
          have h3 : |w - v| ≤ 2 * pow2 125 := by
            have := _root_.abs_sub w v; linarith
          obtain ⟨hq, e, hle⟩ := rnd_finite_of_abs_le g126 h3
          rw [sub_fin, e, abs_fin, abs_fin, fin_le_fin, abs_abs]
          exact hle
      obtain ⟨m, hm, e, _⟩ := median_finite (hmad rfl) g126 g127 hdev
      rw [e]
      obtain ⟨c, hc, rfl⟩ := isFinite_iff.1 hkf
      rw [mul_fin]
      exact add_fin_ne_nan rfl (rnd_ne_nan _)

/-! Non-vacuity. -/
example : percentileThreshold [3, 1, 2, 5, 4] 0.5 = .ok 3 := by decide +kernel
example : medianMad [3, 1, 2, 5, 4, 100] 2 = .ok 6.5 := by decide +kernel
example : ∀ x ∈ ([3, 1, 2, 5, 4, 100] : List F32), x ≠ nan ∧ x.abs ≤ rnd (pow2 125) := by decide +kernel

end Verif.Props
