/-
Rounding facts behind the normalisation theorems.
-/
import Verif.Model.Normalization
import Verif.F32.More

namespace Verif
namespace Norm
open F32

theorem peakOf_spec (l : List F32) :
    0 ≤ peakOf l ∧ (∀ x ∈ l, x ≠ F32.nan → x.abs ≤ peakOf l) ∧
      (peakOf l = 0 ∨ ∃ x ∈ l, peakOf l = x.abs) := by
  obtain ⟨h1, h2, h3, h4⟩ := foldMax_spec (l := l.map F32.abs) (a := 0) (by simp)
  refine ⟨h1, fun x hx hn => h3 _ (List.mem_map_of_mem hx) (abs_ne_nan hn), ?_⟩
  rcases h4 with h | h
  · exact .inl h
  · obtain ⟨x, hx, e⟩ := List.mem_map.1 h
    exact .inr ⟨x, hx, e.symm⟩

theorem EPS_lt_one : EPS ≤ 1 := by decide +kernel
theorem EPS_pos : 0 < EPS := by decide +kernel
theorem EPS_ge : rnd (pow2 (-100)) ≤ EPS := by decide +kernel
theorem EPS_ne_nan : EPS ≠ F32.nan := by decide +kernel

/-- Squares of values below `2^-76` underflow to zero. -/
theorem sq_underflow {x : F32} (hx : x ≠ F32.nan) (h : x.abs ≤ rnd (pow2 (-76))) : x * x = 0 := by
  have hA : OnGrid (pow2 (-76)) ∧ |pow2 (-76)| < pow2 128 :=
    ⟨onGrid_pow2 (by norm_num), by rw [abs_of_pos (pow2_pos _)]; exact pow2_lt (by norm_num)⟩
  rw [rnd_val hA] at h
  rcases x with _ | s | ⟨a, ha⟩
  · exact absurd rfl hx
  · simp [F32.abs] at h
  · rw [abs_fin] at h
    have h' := fin_le_fin.1 h
    rw [mul_fin]
    have h0 : 0 ≤ a * a := mul_self_nonneg a
    have h1 : a * a ≤ pow2 (-152) := by
      rw [← abs_mul_abs_self]
      have : pow2 (-152) = pow2 (-76) * pow2 (-76) := by rw [← pow2_add]; norm_num
      rw [this]
      exact _root_.mul_le_mul h' h' (_root_.abs_nonneg _) (pow2_pos _).le
    have h2 : rnd (a * a) ≤ 0 := le_trans (rnd_mono h1) (by decide +kernel)
    exact le_antisymm h2 (rnd_nonneg h0)

/-- Squares of values from `2^64` on overflow. -/
theorem sq_overflow {x : F32} (h : rnd (pow2 64) ≤ x.abs) : x * x = F32.inf false := by
  have hA : OnGrid (pow2 64) ∧ |pow2 64| < pow2 128 :=
    ⟨onGrid_pow2 (by norm_num), by rw [abs_of_pos (pow2_pos _)]; exact pow2_lt (by norm_num)⟩
  rw [rnd_val hA] at h
  rcases x with _ | s | ⟨a, ha⟩
  · simp at h
  · rw [inf_mul_inf]; simp
  · rw [abs_fin] at h
    have h' := fin_le_fin.1 h
    rw [mul_fin]
    have h1 : pow2 128 ≤ a * a := by
      rw [← abs_mul_abs_self]
      have : pow2 128 = pow2 64 * pow2 64 := by rw [← pow2_add]; norm_num
      rw [this]
      exact _root_.mul_le_mul h' h' (pow2_pos _).le (_root_.abs_nonneg _)
    have h2 := rnd_mono h1
    have h3 : rnd (pow2 128) = F32.inf false := by decide +kernel
    rw [h3] at h2
    rcases hr : rnd (a * a) with _ | s | _
    · rw [hr] at h2; simp at h2
    · rw [hr] at h2
      cases s
      · rfl
      · simp at h2
    · rw [hr] at h2; simp at h2

theorem sq_nonneg (x : F32) (h : x ≠ F32.nan) : 0 ≤ x * x := by
  rcases x with _ | s | ⟨a, ha⟩
  · exact absurd rfl h
  · rw [inf_mul_inf]; simp [zero_def]
  · rw [mul_fin]; exact rnd_nonneg (mul_self_nonneg a)

/-- When the RMS is a number and its gain would clip, the peak is in the normal range. -/
theorem peak_range_of_clip {l : List F32} {t : F32} (hl : l ≠ []) (ht : t ≠ F32.nan)
    (hrms : ¬ F32.sqrt (meanSq l) ≤ EPS) (h : 1 < peakOf l * (t / F32.sqrt (meanSq l))) :
    rnd (pow2 (-100)) ≤ peakOf l ∧ peakOf l ≤ rnd (pow2 126) := by
  have hlen : 0 < l.length := List.length_pos_iff.2 hl
  have hnan : ∀ x ∈ l, x ≠ F32.nan := by
    rintro x hx rfl
    have : F32.nan ∈ l.map (fun x => x * x) := List.mem_map.2 ⟨_, hx, rfl⟩
    have h1 : meanSq l = F32.nan := by unfold meanSq; rw [sum_nan this]; rfl
    rw [h1] at h
    simp at h
  obtain ⟨p0, pub, pmem⟩ := peakOf_spec l
  have hpn : peakOf l ≠ F32.nan := ne_nan_right p0
  constructor
  · by_contra hc
    have hlt := lt_of_not_le hpn (by simp) hc
    have hle : peakOf l ≤ rnd (pow2 (-76)) :=
      le_trans (le_of_lt hlt) (rnd_mono (pow2_le (by norm_num)))
    have hz : ∀ y ∈ l.map (fun x => x * x), y = 0 := by
      intro y hy
      obtain ⟨x, hx, rfl⟩ := List.mem_map.1 hy
      exact sq_underflow (hnan x hx) (le_trans (pub x hx (hnan x hx)) hle)
    have hs : F32.sum (l.map (fun x => x * x)) = 0 := by
      unfold F32.sum
      generalize l.map (fun x => x * x) = L at hz
      induction L with
      | nil => rfl
      | cons y L ih =>
        rw [List.foldl_cons, hz y (by simp)]
        have : (0 : F32) + 0 = 0 := by decide +kernel
        rw [this]
        exact ih (fun z hz' => hz z (by simp [hz']))
    have hm : meanSq l = 0 := by
      unfold meanSq
      rw [hs]
      have hpos := ofNat_pos hlen
      rcases hN : F32.ofNat l.length with _ | s | ⟨v, hv⟩
      · exact absurd hN (ofNat_ne_nan _)
      · exact (by rw [zero_def]; exact fin_div_inf.trans zero_def)
      · rw [hN, zero_def] at hpos
        have := fin_lt_fin.1 hpos
        rw [zero_def, div_fin this.ne', zero_div, rnd_zero_eq]
    rw [hm, sqrt_zero] at hrms
    exact hrms (le_of_lt EPS_pos)
  · by_contra hc
    have hlt := lt_of_not_le (by simp) hpn hc
    have hbig : rnd (pow2 64) ≤ peakOf l :=
      le_trans (rnd_mono (pow2_le (by norm_num))) (le_of_lt hlt)
    obtain ⟨x, hx, e⟩ : ∃ x ∈ l, peakOf l = x.abs := by
      rcases pmem with h0 | h0
      · rw [h0] at hbig
        exact absurd hbig (by decide +kernel)
      · exact h0
    have hsq := sq_overflow (e ▸ hbig)
    have hnn : ∀ y ∈ l.map (fun x => x * x), 0 ≤ y := by
      intro y hy
      obtain ⟨z, hz, rfl⟩ := List.mem_map.1 hy
      exact sq_nonneg z (hnan z hz)
    have hle := le_sum hnn (x := F32.inf false) (List.mem_map.2 ⟨x, hx, hsq⟩)
    have hs : F32.sum (l.map (fun x => x * x)) = F32.inf false := by
      rcases hr : F32.sum (l.map (fun x => x * x)) with _ | s | _
      · rw [hr] at hle; simp at hle
      · rw [hr] at hle
        cases s
        · rfl
        · simp at hle
      · rw [hr] at hle; simp at hle
    have hm : meanSq l = F32.inf false ∨ meanSq l = F32.nan := by
      unfold meanSq
      rw [hs]
      have hpos := ofNat_pos hlen
      rcases hN : F32.ofNat l.length with _ | s | ⟨v, hv⟩
      · exact absurd hN (ofNat_ne_nan _)
      · right; rfl
      · rw [hN, zero_def] at hpos
        have := fin_lt_fin.1 hpos
        left
        rw [inf_div_fin]; simp [not_lt.2 this.le]
    rcases hm with hm | hm
    · rw [hm] at h
      have e1 : F32.sqrt (F32.inf false) = F32.inf false := rfl
      rw [e1] at h
      rcases t with _ | s | ⟨v, hv⟩
      · exact ht rfl
      · rw [inf_div_inf] at h; simp at h
      · rw [fin_div_inf] at h
        rcases hp : peakOf l with _ | s | ⟨w, hw⟩
        · exact hpn hp
        · rw [hp, zero_def, inf_mul_fin] at h; simp at h
        · rw [hp, zero_def, mul_fin, mul_zero, rnd_zero] at h
          exact absurd h (by decide +kernel)
    · rw [hm] at h; simp at h

end Norm
end Verif
