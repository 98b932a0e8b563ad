/-
Spectral-flux novelty (C112): it compares each frame's spectrum relative to the frame's own loudest bin, so it does not
tell onsets from decays.
-/
import Verif.Props.NoveltyFlux

namespace Verif.Props
open Verif F32 Novelty

/-- a scaled frame holds the rounded shares of its loudest bin -/
theorem normFrame_share {fr : List F32} (hfr : ∀ x ∈ fr, x.isFinite = true ∧ 0 ≤ x.val)
    (hp : exactPeak fr = 0 ∨ 1 / 10 ^ 9 ≤ exactPeak fr) {k : ℕ} (hk : k < fr.length) :
    Novelty.at' (Novelty.normFrame fr) k = rnd (exactShare fr k) := by
  obtain ⟨h, e⟩ := foldMax_peak hfr
  have eE : EPS = fin (rndQ (1 / 10 ^ 10)) (by decide +kernel) := by decide +kernel
  unfold Novelty.normFrame exactShare
  dsimp only
  rw [e]
  rcases hp with hp | hp
  · have hc : ¬ EPS < fin (exactPeak fr) h := by
      rw [eE, fin_lt_fin, hp]
      decide +kernel
    rw [if_neg hc, if_pos hp, map_at hk, rnd_zero]
  · have hc : EPS < fin (exactPeak fr) h := by
      rw [eE, fin_lt_fin]
      exact _root_.lt_of_lt_of_le (by decide +kernel) hp
    have hne : exactPeak fr ≠ 0 := fun h => by rw [h] at hp; norm_num at hp
    rw [if_pos hc, if_neg hne, map_at hk]
    have hmem : fr.getD k 0 ∈ fr := by
      rw [List.getD_eq_getElem?_getD, List.getElem?_eq_getElem hk]
      exact List.getElem_mem hk
    obtain ⟨v, hv, ev⟩ := isFinite_iff.1 (hfr _ hmem).1
    unfold Novelty.at'
    rw [ev, div_fin hne]
    rfl

/-- **C112** (what decides): where no bin's share of the loudest bin of its frame grows, the spectral-flux novelty is
exactly 0. -/
theorem C112_shares (spec : List (List F32)) (hv : Valid spec) (h2 : 2 ≤ spec.length)
    (hx : ∀ fr ∈ spec, ∀ x ∈ fr, x.isFinite = true ∧ 0 ≤ x.val)
    (hp : ∀ fr ∈ spec, exactPeak fr = 0 ∨ 1 / 10 ^ 9 ≤ exactPeak fr) :
    ∃ c, spectralFlux spec = .ok c ∧ c.length = spec.length - 1 ∧ ∀ i, i + 1 < spec.length →
      (∀ b < (spec.headD []).length, exactShare (spec.getD (i + 1) []) b ≤ exactShare (spec.getD i []) b) →
      c.getD i 0 = 0 := by
  have getmem : ∀ j, j < spec.length → (spec.getD j []) ∈ spec := by
    intro j hj
    rw [List.getD_eq_getElem?_getD, List.getElem?_eq_getElem hj]
    exact List.getElem_mem hj
  have hl : ∀ fr : List F32, (Novelty.normFrame fr).length = fr.length := fun fr => by
    unfold Novelty.normFrame; dsimp only; split_ifs <;> rw [List.length_map]
  refine ⟨_, by unfold spectralFlux; rw [if_neg (by omega), check_valid hv]; rfl, ?_, fun i hi hb => ?_⟩
  · have : ∀ l : List F32, (peakNorm l).length = l.length := fun l => by
      unfold peakNorm; dsimp only; split_ifs <;> simp
    rw [this]
    unfold pairs
    rw [List.length_map, List.length_range, List.length_map]
  · apply peakNorm_zero
    unfold pairs
    rw [range_map_get _ _ (by simp; omega), map_getD_list (by decide +kernel), map_getD_list (by decide +kernel)]
    unfold spectralStep
    have m1 := getmem i (by omega)
    have m2 := getmem (i + 1) hi
    rw [zip_range (n := (spec.headD []).length) (by rw [hl, hv.2 _ m1]) (by rw [hl, hv.2 _ m2]), sum_zeros, F32.sqrt_zero]
    intro x hx'
    obtain ⟨b, hbm, rfl⟩ := List.mem_map.1 hx'
    rw [List.mem_range] at hbm
    dsimp only
    rw [normFrame_share (hx _ m1) (hp _ m1) (by rw [hv.2 _ m1]; exact hbm),
      normFrame_share (hx _ m2) (hp _ m2) (by rw [hv.2 _ m2]; exact hbm), rectified_zero (rnd_mono (hb b hbm))]
    decide +kernel

/-- **C112_partial**: where no bin gets louder *and the loudest bin keeps its level*, the spectral-flux novelty is exactly 0.
Missing: decays that reach the loudest bin, see `C112_violated`. -/
theorem C112_partial (spec : List (List F32)) (hv : Valid spec) (h2 : 2 ≤ spec.length)
    (hx : ∀ fr ∈ spec, ∀ x ∈ fr, x.isFinite = true ∧ 0 ≤ x.val)
    (hp : ∀ fr ∈ spec, exactPeak fr = 0 ∨ 1 / 10 ^ 9 ≤ exactPeak fr) :
    ∃ c, spectralFlux spec = .ok c ∧ ∀ i, i + 1 < spec.length →
      (∀ b < (spec.headD []).length, ((spec.getD (i + 1) []).getD b 0).val ≤ ((spec.getD i []).getD b 0).val) →
      exactPeak (spec.getD (i + 1) []) = exactPeak (spec.getD i []) → c.getD i 0 = 0 := by
  obtain ⟨c, e, _, h⟩ := C112_shares spec hv h2 hx hp
  refine ⟨c, e, fun i hi hb hpk => h i hi (fun b hbn => ?_)⟩
  unfold exactShare
  rw [hpk]
  split_ifs with h0
  · exact _root_.le_refl _
  · exact div_le_div_of_nonneg_right (hb b hbn) (exactPeak_spec _).1

/-- non-vacuity: the quieter bin fades under a sustained one, then returns -/
example : Valid [[4, 2], [4, 1], [4, 3]] ∧ exactPeak [4, 1] = exactPeak [4, 2] ∧
    spectralFlux [[4, 2], [4, 1], [4, 3]] = .ok [0, 1] := by
  unfold Valid; decide +kernel

/-- **C112 is violated**: the loud bin fades and the other sustains; nothing gets louder, yet the spectral-flux novelty
is at its maximum there, above that of the frame where both bins do get louder. -/
theorem C112_violated : ∃ spec : List (List F32), Valid spec ∧
    (∀ b < 2, ((spec.getD 1 []).getD b 0) ≤ ((spec.getD 0 []).getD b 0)) ∧
    (∀ b < 2, ((spec.getD 1 []).getD b 0) < ((spec.getD 2 []).getD b 0)) ∧
    ∃ c, spectralFlux spec = .ok c ∧ c.getD 0 0 = 1 ∧ c.getD 1 0 = 0 :=
  ⟨[[4, 2], [1, 2], [2, 4]], by unfold Valid; decide +kernel, by decide +kernel, by decide +kernel,
    [1, 0], by decide +kernel, by decide +kernel, by decide +kernel⟩

/-- **C112** (the other half): wherever every bin grows by one and the same factor — the same sound, struck louder — the
spectral-flux novelty is exactly 0. -/
theorem C112_misses (spec : List (List F32)) (hv : Valid spec) (h2 : 2 ≤ spec.length)
    (hx : ∀ fr ∈ spec, ∀ x ∈ fr, x.isFinite = true ∧ 0 ≤ x.val)
    (hp : ∀ fr ∈ spec, exactPeak fr = 0 ∨ 1 / 10 ^ 9 ≤ exactPeak fr) :
    ∃ c, spectralFlux spec = .ok c ∧ ∀ i, i + 1 < spec.length → ∀ g : ℚ, 0 < g →
      (∀ b < (spec.headD []).length, ((spec.getD (i + 1) []).getD b 0).val = g * ((spec.getD i []).getD b 0).val) →
      c.getD i 0 = 0 := by
  obtain ⟨c, e, _, h⟩ := C112_shares spec hv h2 hx hp
  refine ⟨c, e, fun i hi g hg hb => h i hi (fun b hbn => ?_)⟩
  have getmem : ∀ j, j < spec.length → (spec.getD j []) ∈ spec := by
    intro j hj
    rw [List.getD_eq_getElem?_getD, List.getElem?_eq_getElem hj]
    exact List.getElem_mem hj
  have m1 := getmem i (by omega)
  have m2 := getmem (i + 1) hi
  have at1 : ∀ fr ∈ spec, ∀ x ∈ fr, ∃ k < (spec.headD []).length, fr.getD k 0 = x := fun fr hfr x hxm => by
    obtain ⟨k, hk, ek⟩ := List.mem_iff_getElem.1 hxm
    refine ⟨k, by rw [← hv.2 _ hfr]; exact hk, ?_⟩
    rw [List.getD_eq_getElem?_getD, List.getElem?_eq_getElem hk]
    exact ek
  have mem1 : ∀ fr ∈ spec, ∀ k < (spec.headD []).length, fr.getD k 0 ∈ fr := fun fr hfr k hk => by
    have hk' : k < fr.length := by rw [hv.2 _ hfr]; exact hk
    rw [List.getD_eq_getElem?_getD, List.getElem?_eq_getElem hk']
    exact List.getElem_mem hk'
  obtain ⟨p0, p1, p2⟩ := exactPeak_spec (spec.getD i [])
  obtain ⟨q0, q1, q2⟩ := exactPeak_spec (spec.getD (i + 1) [])
  have hpk : exactPeak (spec.getD (i + 1) []) = g * exactPeak (spec.getD i []) := by
    apply _root_.le_antisymm
    · rcases q2 with q2 | ⟨x, hxm, ex⟩
      · rw [q2]; exact _root_.mul_nonneg hg.le p0
      · obtain ⟨k, hk, ek⟩ := at1 _ m2 x hxm
        rw [← ex, ← ek, hb k hk]
        exact _root_.mul_le_mul_of_nonneg_left (p1 _ (mem1 _ m1 k hk)) hg.le
    · rcases p2 with p2 | ⟨x, hxm, ex⟩
      · rw [p2, mul_zero]; exact q0
      · obtain ⟨k, hk, ek⟩ := at1 _ m1 x hxm
        rw [← ex, ← ek, ← hb k hk]
        exact q1 _ (mem1 _ m2 k hk)
  unfold exactShare
  rw [hpk, hb b hbn]
  by_cases h0 : exactPeak (spec.getD i []) = 0
  · rw [if_pos (by rw [h0, mul_zero]), if_pos h0]
  · rw [if_neg (mul_ne_zero hg.ne' h0), if_neg h0, mul_div_mul_left _ _ hg.ne']

/-- non-vacuity: a beat four times as loud goes unnoticed, a new partial does not -/
example : Valid [[1, 2], [4, 8], [4, 4]] ∧ spectralFlux [[1, 2], [4, 8], [4, 4]] = .ok [0, 1] := by
  unfold Valid; decide +kernel

end Verif.Props
