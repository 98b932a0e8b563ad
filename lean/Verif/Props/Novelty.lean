/-
Novelty curves (C26).
-/
import Verif.Lemmas.Novelty
import Verif.Lemmas.KeyRank

namespace Verif.Props
open Verif F32 Novelty

/-- a spectrogram with at least one bin whose frames all have the same number of bins -/
def Valid (spec : List (List F32)) : Prop :=
  0 < (spec.headD []).length ∧ ∀ fr ∈ spec, fr.length = (spec.headD []).length

/-- The contract of a novelty curve: nothing for fewer than two frames, otherwise one value per frame transition, each
satisfying `P`; zero-bin and ragged spectrograms are rejected. -/
def IsNovelty (P : F32 → Prop) (spec : List (List F32)) (r : R (List F32)) : Prop :=
  (spec.length < 2 → r = .ok []) ∧
  (2 ≤ spec.length → Valid spec → ∃ c, r = .ok c ∧ c.length = spec.length - 1 ∧ ∀ x ∈ c, P x) ∧
  (2 ≤ spec.length → ¬ Valid spec → r = R.err .invalidInput)

/-- in `[0,1]`, or not a number -/
def UnitOrNaN (x : F32) : Prop := x = nan ∨ (0 ≤ x ∧ x ≤ 1)

/-- in `[0,1]` -/
def InUnit (x : F32) : Prop := 0 ≤ x ∧ x ≤ 1

theorem check_valid {spec : List (List F32)} (h : Valid spec) : Novelty.checkSpec spec = .ok () := by
  unfold Novelty.checkSpec
  have h2 : Novelty.ragged spec = false := by
    unfold Novelty.ragged
    rw [List.any_eq_false]
    intro x hx
    simp [h.2 x hx]
  rw [if_neg (by have := h.1; omega), if_neg (by rw [h2]; simp)]

theorem check_invalid {spec : List (List F32)} (h : ¬ Valid spec) : Novelty.checkSpec spec = R.err .invalidInput := by
  unfold Novelty.checkSpec
  by_cases h0 : (spec.headD []).length = 0
  · rw [if_pos h0]
  · rw [if_neg h0, if_pos]
    unfold Novelty.ragged
    rw [List.any_eq_true]
    by_contra hc
    push Not at hc
    refine h ⟨by omega, fun fr hfr => ?_⟩
    have := hc fr hfr
    simpa using this

theorem isNovelty_of {P : F32 → Prop} {spec : List (List F32)} {c : List F32}
    (hl : c.length = spec.length - 1) (hp : 2 ≤ spec.length → Valid spec → ∀ x ∈ peakNorm c, P x) (h0 : ∀ x ∈ c, 0 ≤ x) :
    IsNovelty P spec (if spec.length < 2 then .ok [] else do Novelty.checkSpec spec; .ok (peakNorm c)) := by
  refine ⟨fun h => by rw [if_pos h], fun h hv => ?_, fun h hv => ?_⟩
  · rw [if_neg (by omega), check_valid hv]
    exact ⟨_, rfl, by rw [(peakNorm_spec h0).1, hl], hp h hv⟩
  · rw [if_neg (by omega), check_invalid hv]; rfl

/-- **C26 (all inputs)**: energy-flux, HFC, spectral-flux and superflux novelty return one value per frame transition,
each in `[0,1]` or NaN, for every spectrogram (NaN and infinite magnitudes included) and every parameter; invalid
spectrograms are rejected. -/
theorem C26_curves (M : Libm) (spec : List (List F32)) (sr k : ℕ) :
    IsNovelty UnitOrNaN spec (energyFlux spec) ∧ (0 < sr → IsNovelty UnitOrNaN spec (hfc spec sr)) ∧
    IsNovelty UnitOrNaN spec (spectralFlux spec) ∧ IsNovelty UnitOrNaN spec (superflux M spec k) := by
  refine ⟨?_, fun hs => ?_, ?_, ?_⟩
  · exact isNovelty_of (by rw [rise_length]; simp) (fun _ _ => (peakNorm_spec (rise_nonneg _)).2.1) (rise_nonneg _)
  · unfold hfc
    by_cases he : spec = []
    · subst he
      refine ⟨fun _ => rfl, fun h => ?_, fun h => ?_⟩ <;> simp at h
    · rw [if_neg he, if_neg (by omega)]
      exact isNovelty_of (by rw [rise_length]; simp) (fun _ _ => (peakNorm_spec (rise_nonneg _)).2.1) (rise_nonneg _)
  · have h0 := pairs_all (f := spectralStep) (frames := spec.map Novelty.normFrame) (P := (0 ≤ ·))
      (fun a b _ _ => spectralStep_nonneg a b)
    exact isNovelty_of (by rw [pairs_length]; simp) (fun _ _ => (peakNorm_spec h0).2.1) h0
  · have h0 := pairs_all (f := superStep (Nat.max k 1) 0 (spec.headD []).length)
      (frames := spec.map (fun fr => fr.map (logMag M))) (P := (0 ≤ ·)) (fun a b _ _ => superStep_nonneg _ _ _ a b)
    exact isNovelty_of (by rw [pairs_length]; simp) (fun _ _ => (peakNorm_spec h0).2.1) h0

theorem le_finite {x B : F32} (h0 : 0 ≤ x) (h : x ≤ B) (hB : B.isFinite = true) : x.isFinite = true :=
  isFinite_of_between (lo := 0) (hi := B) (by decide +kernel) hB h0 h

/-- **C26 (range, partial)**: all values are in `[0,1]` when every magnitude is NaN or between 0 and `2^30` (and the
frames have at most `2^32` bins).  Missing: larger magnitudes, whose squares overflow (`C26_violated`). -/
theorem C26_range_partial (M : Libm) (hM : LnSane M) (spec : List (List F32)) (sr k : ℕ) (hs : 0 < sr)
    (hv : ∀ fr ∈ spec, ∀ x ∈ fr, Plain x) (hb : ∀ fr ∈ spec, fr.length ≤ 2 ^ 32) :
    IsNovelty InUnit spec (energyFlux spec) ∧ IsNovelty InUnit spec (hfc spec sr) ∧
    IsNovelty InUnit spec (spectralFlux spec) ∧ IsNovelty InUnit spec (superflux M spec k) := by
  have g126 : (rnd (pow2 126)).isFinite = true := by decide +kernel
  have z126 : (0 : F32) ≤ rnd (pow2 126) := by decide +kernel
  refine ⟨?_, ?_, ?_, ?_⟩
  · refine isNovelty_of (by rw [rise_length]; simp) (fun _ _ => (peakNorm_spec (rise_nonneg _)).2.2 ?_) (rise_nonneg _)
    intro x hx
    refine le_finite (rise_nonneg _ x hx) (rise_bound g126 z126 ?_ x hx) g126
    intro e he
    obtain ⟨fr, hfr, rfl⟩ := List.mem_map.1 he
    exact energy_bound (hv fr hfr)
  · unfold hfc
    by_cases he : spec = []
    · subst he
      refine ⟨fun _ => rfl, fun h => ?_, fun h => ?_⟩ <;> simp at h
    · rw [if_neg he, if_neg (by omega)]
      refine isNovelty_of (by rw [rise_length]; simp) (fun _ _ => (peakNorm_spec (rise_nonneg _)).2.2 ?_) (rise_nonneg _)
      intro x hx
      refine le_finite (rise_nonneg _ x hx) (rise_bound g126 z126 ?_ x hx) g126
      intro e he
      obtain ⟨fr, hfr, rfl⟩ := List.mem_map.1 he
      exact hfcFrom_bound (hv fr hfr) (by have := hb fr hfr; omega)
  · have h0 := pairs_all (f := spectralStep) (frames := spec.map Novelty.normFrame) (P := (0 ≤ ·))
      (fun a b _ _ => spectralStep_nonneg a b)
    refine isNovelty_of (by rw [pairs_length]; simp) (fun _ _ => (peakNorm_spec h0).2.2 (pairs_all ?_)) h0
    intro a b ha hb'
    obtain ⟨fa, hfa, rfl⟩ := List.mem_map.1 ha
    obtain ⟨fb, hfb, rfl⟩ := List.mem_map.1 hb'
    exact spectralStep_finite (normFrame_small fun x hx => plain_finite (hv fa hfa x hx))
      (normFrame_small fun x hx => plain_finite (hv fb hfb x hx))
  · have h0 := pairs_all (f := superStep (Nat.max k 1) 0 (spec.headD []).length)
      (frames := spec.map (fun fr => fr.map (logMag M))) (P := (0 ≤ ·)) (fun a b _ _ => superStep_nonneg _ _ _ a b)
    refine isNovelty_of (by rw [pairs_length]; simp) (fun _ _ => (peakNorm_spec h0).2.2 (pairs_all ?_)) h0
    intro a b ha hb'
    obtain ⟨fa, hfa, rfl⟩ := List.mem_map.1 ha
    obtain ⟨fb, hfb, rfl⟩ := List.mem_map.1 hb'
    exact superStep_finite (logFrame_small hM (hv fa hfa)) (logFrame_small hM (hv fb hfb))

/-- a library whose `ln x` is `min (x - 1) 88` -/
def rampLibm : Libm := { Libm.demo with ln := fun x => F32.min (F32.max (x - 1) 0) 88 }

theorem ramp_sane : LnSane rampLibm := by
  intro x h1 hf
  have h0 : 0 ≤ F32.max (x - 1) 0 := le_max_right zero_ne_nan
  refine ⟨?_, F32.le_trans (min_le_right (by decide +kernel)) (by decide +kernel)⟩
  exact le_min h0 (by decide +kernel)

/-- the hypotheses hold for a spectrogram with a NaN, and the curve is not trivial -/
example : Valid [[0, 1], [nan, 4], [3, 4]] ∧ (∀ fr ∈ [[0, 1], [nan, 4], [3, (4 : F32)]], ∀ x ∈ fr, Plain x) ∧
    spectralFlux [[0, 1], [nan, 4], [3, 4]] = .ok [0, 0] ∧ energyFlux [[0, 1], [1, 1], [1, 2]] = .ok [rnd (1 / 3), 1] ∧
    superflux rampLibm [[0, 1], [1, 1], [1, 6]] 1 = .ok [0, 1] := by
  unfold Valid Plain; decide +kernel

/-- **C26 is violated**: finite magnitudes of `2^64` overflow the energy and the novelty value is NaN; the high-frequency
content and an infinite magnitude in superflux do the same. -/
theorem C26_violated : energyFlux [[0], [rnd (pow2 64)]] = .ok [nan] ∧ hfc [[0, 0], [0, rnd (pow2 64)]] 44100 = .ok [nan] ∧
    ∀ M : Libm, M.ln (inf false) = inf false → M.ln 1 = 0 → superflux M [[0], [inf false]] 1 = .ok [nan] := by
  refine ⟨by decide +kernel, by decide +kernel, fun M h1 h2 => ?_⟩
  have e1 : logMag M 0 = 0 := by
    unfold logMag; rw [show (1 : F32) + F32.max 0 0 = 1 by decide +kernel, h2]
  have e2 : logMag M (inf false) = inf false := by
    unfold logMag; rw [show (1 : F32) + F32.max (inf false) 0 = inf false by decide +kernel, h1]
  have e3 : superflux M [[0], [inf false]] 1 =
      .ok (peakNorm (pairs (superStep 1 0 1) [[logMag M 0], [logMag M (inf false)]])) := rfl
  rw [e3, e1, e2]
  decide +kernel

end Verif.Props
