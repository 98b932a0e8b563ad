/-
C74 (continued): the high-frequency content of a band is that of the spectrogram silenced outside the band.
-/
import Verif.Props.NoveltyRise
import Verif.Props.ChromaMap

namespace Verif.Props
open Verif F32 Novelty

/-- the spectrogram with every bin outside `[s, e)` set to zero -/
def silenceOutside (s e : ℕ) (spec : List (List F32)) : List (List F32) :=
  spec.map (fun fr => fr.mapIdx (fun i x => if s ≤ i ∧ i < e then x else 0))

theorem silence_eq {s e : ℕ} (hse : s ≤ e) (fr : List F32) (he : e ≤ fr.length) :
    fr.mapIdx (fun i x => if s ≤ i ∧ i < e then x else 0) =
      List.replicate s 0 ++ (band s e fr ++ List.replicate (fr.length - e) 0) := by
  have hb : (band s e fr).length = e - s := by unfold band; rw [List.length_drop, List.length_take]; omega
  apply List.ext_getElem
  · rw [List.length_mapIdx, List.length_append, List.length_append, hb, List.length_replicate, List.length_replicate]; omega
  · intro i h1 h2
    rw [List.getElem_mapIdx]
    by_cases c1 : i < s
    · rw [if_neg (by omega), List.getElem_append_left (by rw [List.length_replicate]; exact c1), List.getElem_replicate]
    · rw [List.getElem_append_right (by rw [List.length_replicate]; omega)]
      simp only [List.length_replicate]
      by_cases c2 : i < e
      · rw [if_pos ⟨by omega, c2⟩, List.getElem_append_left (by rw [hb]; omega)]
        unfold band
        rw [List.getElem_drop, List.getElem_take]
        congr 1; omega
      · rw [if_neg (by omega), List.getElem_append_right (by rw [hb]; omega), List.getElem_replicate]

theorem hfc_zeros : ∀ (n t : ℕ) (v : F32), t + n ≤ 2 ^ 127 →
    ((List.replicate n (0 : F32)).zipIdx t).foldl (fun v p => v + F32.ofNat p.2 * p.1 * p.1) v = v
  | 0, t, v, _ => rfl
  | n + 1, t, v, h => by
    rw [List.replicate_succ, List.zipIdx_cons, List.foldl_cons]
    have hz : F32.ofNat t * 0 * 0 = 0 := by
      obtain ⟨q, hq, e⟩ := isFinite_iff.1 (ofNat_finite (n := t) (by omega))
      rw [e, zero_def, mul_fin, MulZeroClass.mul_zero, rnd_zero, zero_def, mul_fin, MulZeroClass.mul_zero, rnd_zero, zero_def]
    have hv : v + 0 = v := add_zero_right v
    dsimp only
    rw [hz, hv]
    exact hfc_zeros n (t + 1) v (by omega)

theorem hfcFrom_silent {s e : ℕ} (hse : s ≤ e) (fr : List F32) (he : e ≤ fr.length) (hl : fr.length ≤ 2 ^ 64) :
    hfcFrom 0 (fr.mapIdx (fun i x => if s ≤ i ∧ i < e then x else 0)) = hfcFrom s (band s e fr) := by
  have hb : (band s e fr).length = e - s := by unfold band; rw [List.length_drop, List.length_take]; omega
  rw [silence_eq hse fr he]
  unfold hfcFrom F32.sum
  rw [List.foldl_map, List.foldl_map, List.zipIdx_append, List.zipIdx_append, List.foldl_append, List.foldl_append,
    hfc_zeros s 0 _ (by omega), hfc_zeros (fr.length - e) _ _ (by simp only [List.length_replicate, hb]; omega)]
  simp only [List.length_replicate, Nat.zero_add]

/-- C74: the band-limited high-frequency content over `[s, e)` is the high-frequency content of the spectrogram silenced
    outside that band: the weight of a bin is its index in the whole spectrum, not in the band. -/
theorem C74_hfc (spec : List (List F32)) (sr s e : ℕ) (hs : 0 < sr) (hv : Valid spec) (h2 : 2 ≤ spec.length) (h : s + 1 < e)
    (he : e ≤ (spec.headD []).length) (hl : (spec.headD []).length ≤ 2 ^ 64) :
    hfcBand spec s e = hfc (silenceOutside s e spec) sr := by
  have hlen : (silenceOutside s e spec).length = spec.length := by unfold silenceOutside; rw [List.length_map]
  have hv' : Valid (silenceOutside s e spec) := by
    have hh : ((silenceOutside s e spec).headD []).length = (spec.headD []).length := by
      rcases spec with _ | ⟨f, l⟩
      · simp at h2
      · simp [silenceOutside]
    refine ⟨by rw [hh]; exact hv.1, ?_⟩
    intro fr hfr
    obtain ⟨g, hg, rfl⟩ := List.mem_map.1 hfr
    rw [hh, List.length_mapIdx, hv.2 g hg]
  have hne : silenceOutside s e spec ≠ [] := by intro e; rw [e] at hlen; simp at hlen; omega
  unfold hfcBand hfc
  have k1 : ¬ spec.length < 2 := by omega
  have k2 : ¬ sr = 0 := by omega
  have k3 : ¬ (silenceOutside s e spec).length < 2 := by omega
  rw [if_neg k1, if_neg hne, if_neg k2, if_neg k3, check_valid hv, check_valid hv']
  show (if Nat.min e (spec.headD []).length ≤ Nat.min s (spec.headD []).length + 1 then (.ok [] : R (List F32)) else _) = _
  rw [show Nat.min s (spec.headD []).length = s from Nat.min_eq_left (by omega),
    show Nat.min e (spec.headD []).length = e from Nat.min_eq_left he, if_neg (by omega)]
  show Except.ok (peakNorm (rise _)) = Except.ok (peakNorm (rise _))
  congr 3
  unfold silenceOutside
  rw [List.map_map]
  apply List.map_congr_left
  intro fr hfr
  exact (hfcFrom_silent (by omega) fr (by rw [hv.2 fr hfr]; exact he) (by rw [hv.2 fr hfr]; exact hl)).symm

example : Valid [[1, 2, 3], [4, 5, 6], [1, 9, 9]] ∧
    hfcBand [[1, 2, 3], [4, 5, 6], [1, 9, 9]] 1 3 = hfc [[0, 2, 3], [0, 5, 6], [0, 9, 9]] 44100 ∧
    hfcBand [[1, 2, 3], [4, 5, 6], [1, 9, 9]] 1 3 ≠ hfc [[2, 3], [5, 6], [9, 9]] 44100 := by
  unfold Valid; decide +kernel

end Verif.Props
