/-
A stricter threshold never adds onsets (C119).
-/
import Verif.Props.Onset
import Verif.Props.TempoScan

namespace Verif.Props
open Verif Verif.Onset Verif.F32

/-- a higher threshold leaves fewer peaks -/
theorem fluxPeak_lower {f : List F32} {thr thr' : F32} {k : ℕ} (h : FluxPeak f thr' k) (hle : thr ≤ thr') : FluxPeak f thr k := by
  obtain ⟨h1, h2, x, hx, hlt, h3, h4⟩ := h
  exact ⟨h1, h2, x, hx, F32.lt_of_le_of_lt hle hlt, h3, h4⟩

theorem toUsize_mono {x y : F32} (h : x ≤ y) : x.toUsize ≤ y.toUsize := by
  rcases x with _ | (_ | _) | ⟨x, hx⟩ <;> rcases y with _ | (_ | _) | ⟨y, hy⟩ <;> simp_all [toUsize]
  exact .inl (.inl (Int.floor_le_floor h))

theorem ofNat_nonnan (n : ℕ) : F32.ofNat n ≠ nan := ne_nan_right (ofNat_nonneg n)

theorem rank_mono {n : ℕ} {p p' : F32} (hp : 0 ≤ p) (h : p ≤ p') (hp' : p' ≤ 1) :
    Nat.min (F32.ofNat n * p).toUsize (n - 1) ≤ Nat.min (F32.ofNat n * p').toUsize (n - 1) := by
  have key : (F32.ofNat n * p).toUsize ≤ (F32.ofNat n * p').toUsize := by
    by_cases h1 : F32.ofNat n * p = nan
    · rw [h1]; exact Nat.zero_le _
    · by_cases h2 : F32.ofNat n * p' = nan
      · exfalso
        have hp0 := F32.le_trans hp h
        obtain ⟨v, hv, rfl, v0, v1⟩ := unit_cases hp0 hp'
        rcases nonneg_cases (ofNat_nonneg n) with e | ⟨w, hw, e, _⟩
        · rw [e] at h1 h2
          rw [inf_mul_fin] at h2
          split_ifs at h2 with hz
          have hz' : (fin v hv : F32) = 0 := by rw [zero_def]; congr
          rw [hz'] at h
          rw [F32.le_antisymm h hp] at h1
          exact h1 (by rw [zero_def, inf_mul_fin, if_pos rfl])
        · rw [e, mul_fin] at h2
          exact rnd_ne_nan _ h2
      · exact toUsize_mono (mul_le_mul_of_nonneg_left h (ofNat_nonneg n) h1 h2)
  exact Nat.le_min.2 ⟨(Nat.min_le_left _ _).trans key, Nat.min_le_right _ _⟩

/-- the percentile value grows with the percentile -/
theorem percentile_mono {f : List F32} {p p' thr thr' : F32} (h0 : f ≠ []) (hn : ∀ x ∈ f, x ≠ nan) (hp : 0 ≤ p) (h : p ≤ p') (hp' : p' ≤ 1)
    (h1 : IsPercentile f p thr) (h2 : IsPercentile f p' thr') : thr ≤ thr' := by
  by_contra hc
  have hlt := F32.lt_of_not_le (hn _ h2.1) (hn _ h1.1) hc
  have hr := rank_mono (n := f.length) hp h hp'
  have hcount : f.countP (fun x => decide (x ≤ thr')) + f.countP (fun x => decide (thr ≤ x)) ≤ f.length := by
    have e := List.length_eq_countP_add_countP (l := f) (fun x => decide (x ≤ thr'))
    have : f.countP (fun x => decide (thr ≤ x)) ≤ f.countP (fun x => ¬ (decide (x ≤ thr') = true)) := by
      apply List.countP_mono_left
      intro x _ hx
      simp only [decide_eq_true_iff] at *
      exact fun hx' => F32.lt_irrefl _ (F32.lt_of_lt_of_le hlt (F32.le_trans hx hx'))
    omega
  have := h1.2.2
  have := h2.2.1
  have hl := List.length_pos_iff.2 h0
  have : Nat.min (F32.ofNat f.length * p).toUsize (f.length - 1) ≤ f.length - 1 := Nat.min_le_right _ _
  omega

theorem pick_mono {f : List F32} {p p' : F32} {out out' : List ℕ} (h0 : f ≠ []) (hn : ∀ x ∈ f, x ≠ nan) (hp : 0 ≤ p) (h : p ≤ p')
    (hp' : p' ≤ 1) (h1 : pickFrames f p = .ok out) (h2 : pickFrames f p' = .ok out') : ∀ k ∈ out', k ∈ out := by
  obtain ⟨o, thr, e, i1, q1⟩ := pickFrames_spec (p := p) (n := f.length + 1) h0 rfl hn
  obtain ⟨o', thr', e', i2, q2⟩ := pickFrames_spec (p := p') (n := f.length + 1) h0 rfl hn
  rw [h1] at e
  rw [h2] at e'
  obtain rfl := Except.ok.inj e
  obtain rfl := Except.ok.inj e'
  intro k hk
  exact (q1.2.2 k).2 (fluxPeak_lower ((q2.2.2 k).1 hk) (percentile_mono h0 hn hp h hp' i1 i2))

theorem ok_nil {out : List ℕ} {l : List ℕ} (h : (Except.ok l : R (List ℕ)) = .ok out) : out = l := (Except.ok.inj h).symm

/-- **C119, spectral flux.** Raising the percentile never adds an onset. -/
theorem C119_spectral_flux {mags : List (List F32)} {p p' : F32} {out out' : List ℕ} (h : p ≤ p')
    (h1 : spectralFluxOnsets mags p = .ok out) (h2 : spectralFluxOnsets mags p' = .ok out') : ∀ k ∈ out', k ∈ out := by
  unfold spectralFluxOnsets at h1 h2
  by_cases h0 : mags = []
  · rw [if_pos h0] at h2; rw [ok_nil h2]; simp
  rw [if_neg h0] at h1 h2
  cases f1 : framesOk mags p with
  | some e => rw [f1] at h1; cases h1
  | none =>
    cases f2 : framesOk mags p' with
    | some e => rw [f2] at h2; cases h2
    | none =>
      rw [f1] at h1
      rw [f2] at h2
      dsimp only at h1 h2
      have u1 := ((framesOk_none h0).1 f1).1
      have u2 := ((framesOk_none h0).1 f2).1
      by_cases hl : mags.length < 2
      · rw [if_pos hl] at h2; rw [ok_nil h2]; simp
      rw [if_neg hl] at h1 h2
      by_cases hf : spectralFlux mags = []
      · rw [if_pos hf] at h2; rw [ok_nil h2]; simp
      rw [if_neg hf] at h1 h2
      exact pick_mono hf (fun x hx => ne_nan_right (spectralFlux_nonneg x hx)) u1.1 h u2.2 h1 h2

/-- **C119, high-frequency content.** -/
theorem C119_hfc {mags : List (List F32)} {sr : ℕ} {p p' : F32} {out out' : List ℕ} (h : p ≤ p')
    (h1 : hfcOnsets mags sr p = .ok out) (h2 : hfcOnsets mags sr p' = .ok out') : ∀ k ∈ out', k ∈ out := by
  unfold hfcOnsets at h1 h2
  by_cases h0 : mags = []
  · rw [if_pos h0] at h2; rw [ok_nil h2]; simp
  rw [if_neg h0] at h1 h2
  by_cases hs : sr = 0
  · rw [if_pos hs] at h1; cases h1
  rw [if_neg hs] at h1 h2
  cases f1 : framesOk mags p with
  | some e => rw [f1] at h1; cases h1
  | none =>
    cases f2 : framesOk mags p' with
    | some e => rw [f2] at h2; cases h2
    | none =>
      rw [f1] at h1
      rw [f2] at h2
      dsimp only at h1 h2
      have u1 := ((framesOk_none h0).1 f1).1
      have u2 := ((framesOk_none h0).1 f2).1
      by_cases hl : mags.length < 2
      · rw [if_pos hl] at h2; rw [ok_nil h2]; simp
      rw [if_neg hl] at h1 h2
      by_cases hf : diffFlux (mags.map hfcOf) = []
      · rw [if_pos hf] at h2; rw [ok_nil h2]; simp
      rw [if_neg hf] at h1 h2
      exact pick_mono hf (fun x hx => ne_nan_right (diffFlux_nonneg x hx)) u1.1 h u2.2 h1 h2

/-- **C119, percussive energy.** -/
theorem C119_hpss {perc : List (List F32)} {p p' : F32} {out out' : List ℕ} (h : p ≤ p')
    (h1 : hpssOnsets perc p = .ok out) (h2 : hpssOnsets perc p' = .ok out') : ∀ k ∈ out', k ∈ out := by
  unfold hpssOnsets at h1 h2
  by_cases h0 : perc = []
  · rw [if_pos h0] at h2; rw [ok_nil h2]; simp
  rw [if_neg h0] at h1 h2
  by_cases u1 : inUnit p = true
  swap
  · rw [if_pos u1] at h1; cases h1
  by_cases u2 : inUnit p' = true
  swap
  · rw [if_pos u2] at h2; cases h2
  rw [if_neg (not_not.2 u1)] at h1
  rw [if_neg (not_not.2 u2)] at h2
  rw [inUnit_iff] at u1 u2
  by_cases hl : perc.length < 2
  · rw [if_pos hl] at h2; rw [ok_nil h2]; simp
  rw [if_neg hl] at h1 h2
  dsimp only at h1 h2
  by_cases hf : diffFlux (perc.map (fun fr => F32.sum (fr.map (fun x => x * x)))) = []
  · rw [if_pos hf] at h2; rw [ok_nil h2]; simp
  rw [if_neg hf] at h1 h2
  exact pick_mono hf (fun x hx => ne_nan_right (diffFlux_nonneg x hx)) u1.1 h u2.2 h1 h2

/-- **C119, energy flux.** Raising the threshold never adds an onset (`10^(dB/20)` growing with the dB). -/
theorem C119_energy_flux (M : Libm) {samples : List F32} {frame hop : ℕ} {db db' : F32} {out out' : List ℕ}
    (hp : 0 ≤ M.powf 10 (db / 20)) (h : M.powf 10 (db / 20) ≤ M.powf 10 (db' / 20))
    (h1 : energyFluxOnsets M samples frame hop db = .ok out) (h2 : energyFluxOnsets M samples frame hop db' = .ok out') :
    ∀ k ∈ out', k ∈ out := by
  have hok : ¬ (samples ≠ [] ∧ (frame = 0 ∨ hop = 0)) := by
    intro hc
    have := (C08_energy_flux_onsets M samples frame hop db).1 hc
    rw [h1] at this; cases this
  obtain ⟨o, e, _, _, f, m, r1, m1, l1, g1⟩ := (C08_energy_flux_onsets M samples frame hop db).2 hok
  obtain ⟨o', e', _, _, f', m', r2, m2, l2, g2⟩ := (C08_energy_flux_onsets M samples frame hop db').2 hok
  rw [h1] at e
  rw [h2] at e'
  obtain rfl := Except.ok.inj e
  obtain rfl := Except.ok.inj e'
  have hf : f = f' := by
    apply List.ext_getElem?
    intro i
    by_cases hi : i < (if frame ≤ samples.length then (samples.length - frame) / hop else 0)
    · rw [r1.2 i hi, r2.2 i hi]
    · rw [List.getElem?_eq_none (by rw [r1.1]; omega), List.getElem?_eq_none (by rw [r2.1]; omega)]
  subst hf
  have hm : m = m' := by
    have : ∀ {a b : F32}, IsMax0 f a → IsMax0 f b → a ≤ b := by
      intro a b ha hb
      rcases ha.2.2 with rfl | h'
      · exact hb.2.1
      · exact hb.1 _ h'
    exact F32.le_antisymm (this m1 m2) (this m2 m1)
  subst hm
  intro k hk
  by_cases hz : m ≤ 1e-10
  · rw [l2 hz] at hk; simp at hk
  · obtain ⟨j, rfl, hj⟩ := (g2 hz k).1 hk
    refine (g1 hz _).2 ⟨j, rfl, ?_⟩
    by_cases hnan : m * M.powf 10 (db / 20) = nan
    · exfalso
      obtain ⟨_, _, x, _, hlt, _⟩ := hj
      rcases nonneg_cases m1.2.1 with rfl | ⟨v, hv, rfl, v0⟩
      · rcases nonneg_cases (F32.le_trans hp h) with e | ⟨w, hw, e, w0⟩
        · rw [e, inf_mul_inf] at hlt
          rcases x with _ | (_ | _) | ⟨x, hx⟩ <;> simp at hlt
        · rw [e, inf_mul_fin] at hlt
          split_ifs at hlt with hw0
          · simp at hlt
          · rw [decide_eq_false (not_lt.2 w0)] at hlt
            rcases x with _ | (_ | _) | ⟨x, hx⟩ <;> simp at hlt
      · have hv0 : 0 < v := by
          by_contra hc
          exact hz (by
            rw [show (fin v hv : F32) = 0 by rw [zero_def]; congr; linarith]
            decide +kernel)
        rcases nonneg_cases hp with e | ⟨w, hw, e, w0⟩
        · rw [e, fin_mul_inf, if_neg (ne_of_gt hv0)] at hnan
          cases hnan
        · rw [e, mul_fin] at hnan
          exact rnd_ne_nan _ hnan
    · by_cases hnan' : m * M.powf 10 (db' / 20) = nan
      · obtain ⟨_, _, x, _, hlt, _⟩ := hj
        rw [hnan'] at hlt
        simp at hlt
      · exact fluxPeak_lower hj (mul_le_mul_of_nonneg_left h m1.2.1 hnan hnan')

/-- non-vacuity: raising the percentile drops the weaker of two attacks -/
example : hfcOnsets [[0, 0], [0, 2], [0, 2], [0, 0], [0, 5], [0, 5], [0, 5]] 44100 0.5 = .ok [1, 4] ∧
    hfcOnsets [[0, 0], [0, 2], [0, 2], [0, 0], [0, 5], [0, 5], [0, 5]] 44100 0.7 = .ok [4] ∧ (0.5 : F32) ≤ 0.7 := by decide +kernel
example : spectralFluxOnsets [[0, 0], [1, 2], [1, 2], [0, 0], [4, 4], [4, 4]] 0.4 = .ok [1, 4] ∧
    spectralFluxOnsets [[0, 0], [1, 2], [1, 2], [0, 0], [4, 4], [4, 4]] 0.6 = .ok [4] := by decide +kernel
example : hpssOnsets [[0], [2], [2], [0], [5], [5], [5]] 0.5 = .ok [1, 4] ∧ hpssOnsets [[0], [2], [2], [0], [5], [5], [5]] 0.7 = .ok [4] := by
  decide +kernel

/-- a library whose `powf` grows with the exponent -/
def stepLibm : Libm := { Libm.demo with powf := fun _ x => if x < -1 then 0.01 else 0.5 }

example : energyFluxOnsets stepLibm [0, 0, 1, 1, 0, 0, 3, 3] 2 1 (-40) = .ok [1, 5] ∧
    energyFluxOnsets stepLibm [0, 0, 1, 1, 0, 0, 3, 3] 2 1 (-6) = .ok [5] ∧
    stepLibm.powf 10 (-40 / 20) ≤ stepLibm.powf 10 (-6 / 20) := by decide +kernel
