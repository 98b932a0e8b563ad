/-
Property theorems C143: the highest point of a signal and its list of peaks (src/features/period/peak_picking.rs).
-/
import Verif.Props.Peaks

namespace Verif.Props
open Verif Verif.Period F32

/-- Specification: sample `k` of the signal has the value `v`, and every other sample is lower. -/
def SoleMax (s : List F32) (k : ℕ) (v : F32) : Prop :=
  s[k]? = some v ∧ ∀ j w, j ≠ k → s[j]? = some w → w < v

theorem sole_foldMax {s : List F32} {k : ℕ} {v : F32} (h : SoleMax s k v) (hv : 0 < v) : F32.foldMax 0 s = v := by
  obtain ⟨_, _, h3, h4⟩ := foldMax_spec (l := s) (a := 0) (by decide +kernel)
  have hvn : v ≠ nan := ne_nan_right' hv
  have hle := h3 v (List.mem_of_getElem? h.1) hvn
  rcases h4 with h4 | h4
  · rw [h4] at hle
    exact absurd hv (not_lt_of_le hle)
  · obtain ⟨j, hj⟩ := List.mem_iff_getElem?.1 h4
    by_cases e : j = k
    · subst e
      rw [h.1] at hj
      exact (Option.some.inj hj).symm
    · exact absurd (h.2 j _ e hj) (not_lt_of_le hle)

theorem mul_below {v t : F32} (hv : 0 < v) (h0 : 0 < t) (h1 : t < 1) : v * t ≤ v := by
  have e1 : (1 : F32) = fin 1 (by decide +kernel) := by decide +kernel
  obtain ⟨q, hq, rfl, q0⟩ : ∃ q hq, t = fin q hq ∧ 0 < q := by
    rcases nonneg_cases (le_of_lt h0) with rfl | ⟨q, hq, rfl, _⟩
    · simp at h1
    · exact ⟨q, hq, rfl, by simpa [zero_def] using h0⟩
  rw [e1, fin_lt_fin] at h1
  rcases nonneg_cases (le_of_lt hv) with rfl | ⟨w, hw, rfl, w0⟩
  · have : inf false * fin q hq = inf false := by
      show (if q = 0 then nan else inf (xor false (decide (q < 0)))) = _
      rw [if_neg (_root_.ne_of_gt q0), decide_eq_false (_root_.not_lt.2 (_root_.le_of_lt q0))]
      rfl
    rw [this]
    exact le_refl (by simp)
  · rw [mul_fin]
    exact rnd_le_fin (by nlinarith)

/-- **C143 (partial)**: a sample that is higher than all others (and at least 1e-10) is the first peak that is reported, for every
relative threshold (strictly between 0 and 1), every absolute threshold that it reaches, and every minimum distance below `2^31`.
Missing: maxima that are attained twice in a row, which are no peaks at all (`C143_violated`). -/
theorem C143_top_partial (s : List F32) (threshold : F32) (d k : ℕ) (v : F32) (h3 : 3 ≤ s.length) (hs : s.length < 2 ^ 31)
    (hd : d < 2 ^ 31) (hmax : SoleMax s k v) (hv : 1e-10 ≤ v) (ht : (0 < threshold ∧ threshold < 1) ∨ threshold ≤ v) :
    ∃ rest, findPeaks s threshold d = .ok ((k, v) :: rest) := by
  have v0 : 0 < v := lt_of_lt_of_le (by decide +kernel) hv
  have hf := sole_foldMax hmax v0
  obtain ⟨ps, e, _, hg⟩ := C14_find_peaks_partial s threshold d hs hd
  rw [hf] at hg
  have hg := hg h3 hv
  have good : ∃ thr, thr ≤ v ∧ GoodPeaks s thr d ps := by
    by_cases hr : 0 < threshold ∧ threshold < 1
    · exact ⟨_, mul_below v0 hr.1 hr.2, hg.1 hr.1 hr.2⟩
    · exact ⟨_, ht.resolve_left hr, hg.2 hr⟩
  obtain ⟨thr, hthr, gp⟩ := good
  have uniq : ∀ p ∈ ps, v ≤ p.2 → p = (k, v) := by
    intro p hp hle
    have hpk := gp.genuine p hp
    by_cases ek : p.1 = k
    · have := hpk.1
      rw [ek, hmax.1] at this
      exact Prod.ext ek (Option.some.inj this).symm
    · exact absurd (hmax.2 _ _ ek hpk.1) (not_lt_of_le hle)
  have hpeak : IsPeak s thr k v := ⟨hmax.1, hthr, fun w h0 hw => hmax.2 _ _ (by omega) hw, fun w hw => hmax.2 _ _ (by omega) hw⟩
  have hmem : (k, v) ∈ ps := by
    by_contra hn
    obtain ⟨q, hq, _, hle⟩ := gp.maximal k v hpeak hn
    exact hn (uniq q hq hle ▸ hq)
  rcases ps with _ | ⟨p, rest⟩
  · simp at hmem
  · rcases List.mem_cons.1 hmem with h | h
    · exact ⟨rest, by rw [e, h]⟩
    · have hle := (List.pairwise_cons.1 gp.ranked).1 _ h
      have := uniq p (by simp) hle
      exact ⟨rest, by rw [e, this]⟩

/-- non-vacuity of `C143_top_partial` -/
example : SoleMax [0, 0.5, 0, 1, (0.75 : F32)] 3 1 ∧ findPeaks [0, 0.5, 0, 1, (0.75 : F32)] 0.4 2 = .ok [(3, 1), (1, 0.5)] := by
  refine ⟨⟨rfl, ?_⟩, by decide +kernel⟩
  intro j w hj hw
  match j, hj, hw with
  | 0, _, hw => rw [← Option.some.inj hw]; decide +kernel
  | 1, _, hw => rw [← Option.some.inj hw]; decide +kernel
  | 2, _, hw => rw [← Option.some.inj hw]; decide +kernel
  | 3, hj, _ => exact absurd rfl hj
  | 4, _, hw => rw [← Option.some.inj hw]; decide +kernel

/-- **C143 violated**: if the highest value is attained by two or more neighbouring samples wherever it occurs (a flat top, as a
saturated or sustained pulse gives), it is not among the peaks, whatever the threshold and the minimum distance. -/
theorem C143_violated (s : List F32) (threshold : F32) (d : ℕ) (v : F32) (hs : s.length < 2 ^ 31) (hd : d < 2 ^ 31)
    (hflat : ∀ k : ℕ, s[k]? = some v → (0 < k ∧ s[k - 1]? = some v) ∨ s[k + 1]? = some v) :
    ∃ ps, findPeaks s threshold d = .ok ps ∧ ∀ p ∈ ps, p.2 ≠ v := by
  obtain ⟨ps, e, h1, h2⟩ := C14_find_peaks_partial s threshold d hs hd
  refine ⟨ps, e, ?_⟩
  have key : ∀ thr, GoodPeaks s thr d ps → ∀ p ∈ ps, p.2 ≠ v := by
    intro thr gp p hp hv
    obtain ⟨a, _, b, c⟩ := gp.genuine p hp
    rw [hv] at a b c
    rcases hflat _ a with ⟨h0, h⟩ | h
    · exact absurd (b v h0 h) (lt_irrefl v)
    · exact absurd (c v h) (lt_irrefl v)
  by_cases hl : s.length < 3
  · rw [h1 (Or.inl hl)]; simp
  · by_cases hm : F32.foldMax 0 s < 1e-10
    · rw [h1 (Or.inr hm)]; simp
    · have hm' : 1e-10 ≤ F32.foldMax 0 s :=
        le_of_not_lt (by decide +kernel) (foldMax_spec (l := s) (a := 0) (by decide +kernel)).2.1 hm
      by_cases hr : 0 < threshold ∧ threshold < 1
      · exact key _ ((h2 (by omega) hm').1 hr.1 hr.2)
      · exact key _ ((h2 (by omega) hm').2 hr)

/-- the flat top of height 1 is missed and a peak half as high is reported -/
example : findPeaks [0, 0.5, 0, 1, 1, (0 : F32)] 0.4 2 = .ok [(1, 0.5)] := by decide +kernel

end Verif.Props
