import Verif.Model.Prior
import Verif.Props.TempoFit
import Verif.Props.FrameWeights
import Verif.Props.NoveltyRise
import Verif.Props.KeyEvidence

/-! Property theorems for claim C110: does the Bayesian tempo update weigh the evidence against the previous estimate? -/

namespace Verif.Props

open Verif Verif.Beat F32

/-! ### specification -/

/-- what the documentation promises (bayesian.rs lines 12-13 and 86-88): the tempo after the update is the current one or a
tried one, and no tried tempo has a greater product of likelihood and prior -/
def MaxPosterior (M : Libm) (onsets : List F32) (bpm bpm' : F32) : Prop :=
  ∀ l', likelihood M onsets bpm' = .ok l' →
    ∀ c, Tried (F32.max (bpm - 5) 60) (F32.min (bpm + 5) 180) c → ∀ l, likelihood M onsets c = .ok l →
      ¬ l' * prior M bpm bpm' < l * prior M bpm c

/-- what is needed of `exp`: 1 at zero, between 0 and 1 for negative arguments -/
structure DecayExp (M : Libm) : Prop where
  zero : M.exp 0 = 1
  nonneg : ∀ x, ¬ M.exp x < 0
  le_one : ∀ x, x ≤ 0 → M.exp x ≤ 1

/-! ### onsets at one instant -/

theorem logProb_same {s T : F32} (hs : s.isFinite = true) (hT : 0 < T) (hTf : T.isFinite = true) : logProb s T s = 0 := by
  have h0 : s - s = 0 := by
    obtain ⟨v, hv, rfl⟩ := isFinite_iff.1 hs
    rw [sub_fin, _root_.sub_self, rnd_zero, zero_def]
  have hz : (0 : F32) * T = 0 := by
    obtain ⟨v, hv, rfl⟩ := isFinite_iff.1 hTf
    rw [zero_def, mul_fin, zero_mul, rnd_zero, zero_def]
  unfold logProb
  rw [h0, zero_div_pos hT]
  have e : F32.ofInt (F32.round 0).toI32 = 0 := by decide +kernel
  dsimp only
  rw [e, hz, add_zero_right, h0]
  decide +kernel

theorem interval_pos {c : F32} (h1 : 60 ≤ c) (h2 : c ≤ 180) : 0 < 60 / c ∧ (60 / c).isFinite = true := by
  have hf := isFinite_of_between (by decide +kernel) (by decide +kernel) h1 h2
  obtain ⟨v, hv, rfl⟩ := isFinite_iff.1 hf
  obtain ⟨h60, e60⟩ := lit60
  obtain ⟨h180, e180⟩ := lit180
  rw [e60] at h1 ⊢
  rw [e180] at h2
  have v1 := fin_le_fin.1 h1
  have v2 := fin_le_fin.1 h2
  have hvp : 0 < v := by linarith
  rw [div_fin (by linarith : v ≠ 0)]
  have hq1 : 1 / 3 ≤ 60 / v := by rw [le_div_iff₀ hvp]; linarith
  have hq2 : 60 / v ≤ 1 := by rw [div_le_iff₀ hvp]; linarith
  obtain ⟨hq, e⟩ := fin_of_le (q := 60 / v) (by rw [_root_.abs_of_nonneg (by linarith)]; norm_num at hq2 ⊢; linarith)
  rw [e]
  refine ⟨?_, rfl⟩
  have he := abs_le.1 (err_pow (60 / v))
  rw [_root_.abs_of_nonneg (by linarith : 0 ≤ 60 / v)] at he
  rw [zero_def, fin_lt_fin]
  have := he.1
  norm_num at this hq1 ⊢
  linarith

theorem likelihood_same {M : Libm} (h0 : M.exp 0 = 1) {onsets : List F32} {o c : F32} (hne : onsets ≠ [])
    (ho : o.isFinite = true) (hall : ∀ x ∈ onsets, x = o) (h1 : 60 ≤ c) (h2 : c ≤ 180) : likelihood M onsets c = .ok 1 := by
  unfold likelihood
  have hE : ¬ c ≤ EPS := fun hc => absurd (F32.le_trans h1 hc) (by decide +kernel)
  rw [if_neg hE]
  obtain ⟨s, rest, rfl⟩ : ∃ s l, onsets = s :: l := by
    cases onsets with
    | nil => exact absurd rfl hne
    | cons s l => exact ⟨s, l, rfl⟩
  have hs : s = o := hall s (by simp)
  subst hs
  obtain ⟨i1, i2⟩ := interval_pos h1 h2
  simp only [List.head?_cons]
  rw [if_neg (by decide +kernel), sum_zeros, zero_div_pos, h0]
  · have : (1 : F32) ≤ F32.ofNat (s :: rest).length := by
      have := ofNat_mono (show 1 ≤ (s :: rest).length by simp)
      exact F32.le_trans (by decide +kernel) this
    exact F32.lt_of_lt_of_le (by decide +kernel) this
  · intro x hx
    obtain ⟨y, hy, rfl⟩ := List.mem_map.1 hx
    rw [hall y hy]
    exact logProb_same ho i1 i2

theorem bestCand_const {M : Libm} {onsets : List F32} : ∀ {cs : List F32} {b : F32},
    (∀ c ∈ cs, likelihood M onsets c = .ok 1) → bestCand M onsets cs (b, 1) = .ok (b, 1)
  | [], b, _ => rfl
  | c :: cs, b, h => by
    rw [bestCand, h c (by simp), R.ok_bind, if_neg (by show ¬ (1 : F32) < 1; decide +kernel)]
    exact bestCand_const (fun d hd => h d (by simp [hd]))

/-- **C110** (violated, for every tempo and every instant): onsets that all fall on one instant say nothing about the tempo,
yet the update moves the tempo down by 5 BPM (to 60 at the lowest), and again with every further such update. -/
theorem C110_drifts (M : Libm) (hM : M.exp 0 = 1) (fuel : ℕ) (hf : 256 ≤ fuel) (b : Bayes) (onsets : List F32) (o : F32)
    (hne : onsets ≠ []) (ho : o.isFinite = true) (hall : ∀ x ∈ onsets, x = o) (hb0 : 60 ≤ b.bpm) (hb1 : b.bpm ≤ 180) :
    ∃ b' q cf, b.update M fuel onsets = .ok (b', q, cf) ∧ b'.bpm = F32.max (b.bpm - 5) 60 := by
  have hv : ¬ (b.bpm ≤ EPS ∨ 300 < b.bpm) := by
    rintro (h | h)
    · exact absurd (F32.le_trans hb0 h) (by decide +kernel)
    · exact absurd (F32.lt_of_lt_of_le h hb1) (by decide +kernel)
  obtain ⟨cs, hcs⟩ := bpmCandidates_ok hf hv
  have hlo := (cand_start hv).1
  have hhi : F32.min (b.bpm + 5) 180 ≤ 180 := min_le_right (by decide +kernel)
  have hmem := candLoop_mem fuel _ cs hlo (ne_nan_right hlo) hhi hcs
  have hl : ∀ c ∈ cs, likelihood M onsets c = .ok 1 := fun c hc =>
    likelihood_same hM hne ho hall (F32.le_trans hlo (hmem c hc).1) (F32.le_trans (hmem c hc).2 hhi)
  have hfirst : ∃ rest, cs = F32.max (b.bpm - 5) 60 :: rest := by
    have hbf := isFinite_of_between (by decide +kernel) (by decide +kernel) hb0 hb1
    have h5 : b.bpm - 5 ≤ b.bpm := by
      obtain ⟨v, hv, e⟩ := isFinite_iff.1 hbf
      rw [e, show (5 : F32) = fin 5 (by decide +kernel) by decide +kernel, sub_fin]
      refine F32.le_trans (rnd_mono (show v - 5 ≤ v by linarith)) ?_
      rw [rnd_val hv]
      exact F32.le_refl (by simp)
    have hle : F32.max (b.bpm - 5) 60 ≤ F32.min (b.bpm + 5) 180 :=
      F32.le_trans (max_le h5 hb0) (le_min (le_add_right (F32.le_trans (by decide +kernel) hb0) (by decide +kernel)) hb1)
    unfold bpmCandidates at hcs
    obtain ⟨k, rfl⟩ : ∃ k, fuel = k + 1 := ⟨fuel - 1, by omega⟩
    rw [candLoop, if_pos hle] at hcs
    obtain ⟨r, _, e⟩ := R.bind_eq_ok.1 hcs
    exact ⟨r, (Except.ok.inj e).symm⟩
  obtain ⟨rest, rfl⟩ := hfirst
  unfold Bayes.update
  rw [if_neg hne, if_neg hv, hcs, R.ok_bind, bestCand, hl _ (by simp), R.ok_bind,
    if_pos (show (0 : F32) < 1 by decide +kernel), bestCand_const (fun c hc => hl c (by simp [hc]))]
  exact ⟨_, _, _, rfl, rfl⟩

/-- **C110** (violated): a single onset moves the tempo from 120 to 115 BPM although the posterior of 120 BPM is greater. -/
theorem C110_violated : ∃ (M : Libm), DecayExp M ∧ ∃ b', (Bayes.new 120 0.8).update M 256 [0.5] = .ok (b', 115, 0.5) ∧
    b'.bpm = 115 ∧ ¬ MaxPosterior M [0.5] 120 115 := by
  refine ⟨{ Libm.demo with exp := fun x => if x < 0 then 0.5 else 1 }, ⟨by decide +kernel, ?_, ?_⟩,
    ⟨115, 0.5, [120, 115]⟩, by decide +kernel, rfl, ?_⟩
  · intro x
    show ¬ (if x < 0 then (0.5 : F32) else 1) < 0
    split_ifs <;> decide +kernel
  · intro x _
    show (if x < 0 then (0.5 : F32) else 1) ≤ 1
    split_ifs <;> decide +kernel
  · intro h
    have := h 1 (by decide +kernel) 120 ⟨10, by decide +kernel, by decide +kernel⟩ 1 (by decide +kernel)
    exact this (by decide +kernel)

theorem prior_unit {M : Libm} (hM : DecayExp M) {b c : F32} (hb0 : 60 ≤ b) (hb1 : b ≤ 180) (hc0 : 60 ≤ c) (hc1 : c ≤ 180) :
    0 ≤ prior M b c ∧ prior M b c ≤ 1 := by
  obtain ⟨h60, e60⟩ := lit60
  obtain ⟨h180, e180⟩ := lit180
  obtain ⟨v, hv, rfl⟩ := isFinite_iff.1 (isFinite_of_between (by decide +kernel) (by decide +kernel) hb0 hb1)
  obtain ⟨w, hw, rfl⟩ := isFinite_iff.1 (isFinite_of_between (by decide +kernel) (by decide +kernel) hc0 hc1)
  rw [e60] at hb0 hc0
  rw [e180] at hb1 hc1
  have b0 := fin_le_fin.1 hb0
  have b1 := fin_le_fin.1 hb1
  have c0 := fin_le_fin.1 hc0
  have c1 := fin_le_fin.1 hc1
  have hd : |w - v| ≤ 120 := abs_le.2 ⟨by linarith, by linarith⟩
  obtain ⟨h1, e1⟩ := fin_of_le (q := w - v) (_root_.le_trans hd (by norm_num))
  have hz : |rndQ (w - v)| ≤ 121 := by
    have he := err_pow (w - v)
    have := abs_add_le (rndQ (w - v) - (w - v)) (w - v)
    rw [sub_add_cancel] at this
    norm_num at he ⊢
    linarith
  generalize rndQ (w - v) = z at *
  have hz0 := _root_.abs_nonneg z
  obtain ⟨h2, e2⟩ := fin_of_le (q := |z| * |z|) (by
    rw [_root_.abs_of_nonneg (_root_.mul_nonneg hz0 hz0)]
    exact _root_.le_trans (mul_self_le_mul_self hz0 hz) (by norm_num))
  have hy : 0 ≤ rndQ (|z| * |z|) := rndQ_nonneg (_root_.mul_nonneg hz0 hz0)
  have hx : -((fin w hw - fin v hv).abs * (fin w hw - fin v hv).abs) / (2 * (2 * 2)) ≤ 0 := by
    rw [sub_fin, e1, abs_fin, mul_fin, e2, neg_fin, show (2 * (2 * 2) : F32) = fin 8 (by decide +kernel) by decide +kernel,
      div_fin (by norm_num)]
    refine F32.le_trans (rnd_mono (show -rndQ (|z| * |z|) / 8 ≤ 0 by linarith)) ?_
    rw [rnd_zero]
    decide +kernel
  unfold prior
  dsimp only
  rw [if_neg (by decide +kernel)]
  have := hM.le_one _ hx
  exact ⟨F32.le_of_not_lt (by decide +kernel) (ne_nan_left this) (hM.nonneg _), this⟩

theorem likelihood_nonneg {M : Libm} (hM : DecayExp M) {onsets : List F32} {c l : F32} (h : likelihood M onsets c = .ok l) :
    ¬ l < 0 := by
  unfold likelihood at h
  by_cases hc : c ≤ EPS
  · rw [if_pos hc] at h; cases h
  · rw [if_neg hc] at h
    cases hh : onsets.head? with
    | none => rw [hh] at h; have := Except.ok.inj h; rw [← this]; decide +kernel
    | some s =>
      rw [hh] at h
      dsimp only at h
      split_ifs at h
      have := Except.ok.inj h; rw [← this]; exact hM.nonneg _

/-- **C110** (partial): where the current tempo is tried and is strictly more likely than every other tried tempo, the update
keeps it, and it has the greatest posterior.  Missing: the prior plays no part in any other case (see `C110_drifts`). -/
theorem C110_partial (M : Libm) (hM : DecayExp M) (fuel : ℕ) (b b' : Bayes) (onsets : List F32) (q cf l : F32)
    (h : b.update M fuel onsets = .ok (b', q, cf))
    (ht : Tried (F32.max (b.bpm - 5) 60) (F32.min (b.bpm + 5) 180) b.bpm) (hl : likelihood M onsets b.bpm = .ok l)
    (hbest : ∀ c, Tried (F32.max (b.bpm - 5) 60) (F32.min (b.bpm + 5) 180) c → c ≠ b.bpm → ∀ lc, likelihood M onsets c = .ok lc → lc < l) :
    b'.bpm = b.bpm ∧ MaxPosterior M onsets b.bpm b'.bpm := by
  have hrange : ∀ c, Tried (F32.max (b.bpm - 5) 60) (F32.min (b.bpm + 5) 180) c → 60 ≤ c ∧ c ≤ 180 := by
    unfold Bayes.update at h
    by_cases h1 : onsets = []
    · rw [if_pos h1] at h; cases h
    rw [if_neg h1] at h
    by_cases hv : b.bpm ≤ EPS ∨ 300 < b.bpm
    · rw [if_pos hv] at h; cases h
    rw [if_neg hv] at h
    obtain ⟨cs, hcs, -⟩ := R.bind_eq_ok.1 h
    have hlo := (cand_start hv).1
    have hhi : F32.min (b.bpm + 5) 180 ≤ 180 := min_le_right (by decide +kernel)
    intro c hc
    have := candLoop_mem fuel _ cs hlo (ne_nan_right hlo) hhi hcs c ((candLoop_tried fuel _ cs hcs c).2 hc)
    exact ⟨F32.le_trans hlo this.1, F32.le_trans this.2 hhi⟩
  obtain ⟨hb0, hb1⟩ := hrange _ ht
  have e : b'.bpm = b.bpm := by
    obtain ⟨m, h1, _, h3, _⟩ := C109_choice M fuel b b' onsets q cf h
    rcases h1 with ⟨_, e⟩ | ⟨t, hm⟩
    · exact e
    · by_contra hne
      have := hbest _ t hne m hm
      obtain ⟨lc, hlc, hnot⟩ := h3 _ ht
      rw [hl] at hlc
      have := Except.ok.inj hlc
      subst this
      exact hnot (by assumption)
  refine ⟨e, ?_⟩
  rw [e]
  intro l' hl' c hc lc hlc
  rw [hl] at hl'
  have := Except.ok.inj hl'
  subst this
  by_cases hcb : c = b.bpm
  · subst hcb
    rw [hl] at hlc
    have := Except.ok.inj hlc
    subst this
    exact F32.lt_irrefl _
  · have hlt := hbest c hc hcb lc hlc
    have hp1 : prior M b.bpm b.bpm = 1 := by
      obtain ⟨v, hv, e⟩ := isFinite_iff.1 (isFinite_of_between (by decide +kernel) (by decide +kernel) hb0 hb1)
      have h0 : b.bpm - b.bpm = 0 := by rw [e, sub_fin, _root_.sub_self, rnd_zero, zero_def]
      unfold prior
      dsimp only
      rw [h0, if_neg (by decide +kernel), show (-(F32.abs 0 * F32.abs 0) / (2 * (2 * 2)) : F32) = 0 by decide +kernel, hM.zero]
    obtain ⟨hc0, hc1⟩ := hrange c hc
    obtain ⟨p0, p1⟩ := prior_unit hM hb0 hb1 hc0 hc1
    have hlcn : lc ≠ nan := ne_nan_left (F32.le_of_lt hlt)
    have hlc0 : 0 ≤ lc := F32.le_of_not_lt (by decide +kernel) hlcn (likelihood_nonneg hM hlc)
    have hf : lc.isFinite = true := by
      rcases nonneg_cases hlc0 with rfl | ⟨v, hv, rfl, _⟩
      · cases l with
        | nan => exact absurd hlt (by decide +kernel)
        | inf s => cases s <;> exact absurd hlt (by decide +kernel)
        | fin q h => exact absurd hlt (by simp [F32.lt_def, F32.toW])
      · rfl
    rw [hp1, mul_one']
    intro hcon
    exact F32.not_le_of_lt (F32.lt_of_lt_of_le hcon (mul_le_of_le_one hlc0 p0 p1 hf).2) (F32.le_of_lt hlt)

/-- non-vacuity: four clicks at 120 BPM, tracked from 120 BPM, meet the hypotheses -/
example : ∃ M : Libm, DecayExp M ∧ (match (Bayes.new 120 0.8).update M 256 [0, 0.5, 1, 1.5] with
      | .ok r => decide (r.1.bpm = 120 ∧ r.1.conf = 1) | .error _ => false) = true ∧
    Tried (F32.max (120 - 5) 60) (F32.min (120 + 5) 180) 120 := by
  refine ⟨{ Libm.demo with exp := fun x => if x < 0 then 0.5 else 1 }, ⟨by decide +kernel, ?_, ?_⟩, by decide +kernel,
    ⟨10, by decide +kernel, by decide +kernel⟩⟩
  · intro x
    show ¬ (if x < 0 then (0.5 : F32) else 1) < 0
    split_ifs <;> decide +kernel
  · intro x _
    show (if x < 0 then (0.5 : F32) else 1) ≤ 1
    split_ifs <;> decide +kernel

end Verif.Props
