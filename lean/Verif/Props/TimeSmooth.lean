/-
Smoothing a spectrogram over time (C71).
-/
import Mathlib.Algebra.BigOperators.Intervals
import Mathlib.Algebra.BigOperators.Ring.Finset
import Mathlib.Algebra.Order.BigOperators.Group.Finset
import Verif.Props.Mask

namespace Verif.Props
open Verif F32 Chroma Mask

/-- the frames within `margin` of frame `t`, of `n` frames -/
def nearby (n margin t : ℕ) : Finset ℕ := (Finset.range n).filter (fun s => t ≤ s + margin ∧ s ≤ t + margin)

/-- the values of `spec` are whole multiples `K t b` of one power of two `2^e`, at most `2^24` of them per bin -/
def Quantised (spec : List (List F32)) (n m : ℕ) (K : ℕ → ℕ → ℕ) (e : ℤ) : Prop :=
  (-149 ≤ e ∧ e ≤ 103) ∧
  (∀ t < n, ∀ b < m, ((spec.getD t []).getD b 0).isFinite = true ∧
    ((spec.getD t []).getD b 0).val = (K t b : ℚ) * pow2 e) ∧
  ∀ b < m, ∑ t ∈ Finset.range n, K t b ≤ 2 ^ 24

theorem grid_unit {e : ℤ} (h1 : -149 ≤ e) (h2 : e ≤ 103) {k : ℕ} (hk : k ≤ 2 ^ 24) :
    OnGrid ((k : ℚ) * pow2 e) ∧ |(k : ℚ) * pow2 e| < pow2 128 := by
  refine ⟨by
    have := onGrid_of_scaled (m := k) (e := e) (by rw [abs_of_nonneg (by omega)]; exact_mod_cast hk) h1
    simpa using this, ?_⟩
  have hp := pow2_pos e
  rw [abs_of_nonneg (by positivity)]
  have h3 : (k : ℚ) * pow2 e ≤ 2 ^ 24 * pow2 e := by
    apply _root_.mul_le_mul_of_nonneg_right _ hp.le; exact_mod_cast hk
  have h4 : pow2 e ≤ pow2 103 := pow2_le h2
  have h5 : (2 : ℚ) ^ 24 * pow2 103 < pow2 128 := by decide +kernel
  linarith [show (2 : ℚ) ^ 24 * pow2 e ≤ 2 ^ 24 * pow2 103 from _root_.mul_le_mul_of_nonneg_left h4 (by norm_num)]

theorem nearby_eq {n margin t : ℕ} : nearby n margin t = Finset.Ico (t - margin) (Nat.min (t + margin + 1) n) := by
  ext s
  simp only [nearby, Finset.mem_filter, Finset.mem_range, Finset.mem_Ico]
  have : s < Nat.min (t + margin + 1) n ↔ s < t + margin + 1 ∧ s < n := Nat.lt_min
  rw [this]; omega

theorem prefix_exact {spec : List (List F32)} {n m : ℕ} {K : ℕ → ℕ → ℕ} {u : ℤ} (hs : Shape spec n m)
    (hq : Quantised spec n m K u) {b : ℕ} (hb : b < m) : ∀ k ≤ n,
    ∃ h, prefixAt (column spec b) k = fin (((∑ t ∈ Finset.range k, K t b : ℕ) : ℚ) * pow2 u) h := by
  intro k
  induction k with
  | zero => intro _; refine ⟨by simpa using grid_zero, ?_⟩; simp [prefixAt, F32.sum, zero_def]
  | succ k ih =>
    intro hk
    obtain ⟨h, e⟩ := ih (by omega)
    have hle : ∑ t ∈ Finset.range (k + 1), K t b ≤ 2 ^ 24 :=
      (Finset.sum_le_sum_of_subset (Finset.range_subset_range.2 hk)).trans (hq.2.2 b hb)
    refine ⟨grid_unit hq.1.1 hq.1.2 hle, ?_⟩
    have hk' : k < (column spec b).length := by simp only [column, List.length_map, hs.1]; omega
    unfold prefixAt F32.sum at e ⊢
    rw [List.take_succ_eq_append_getElem hk', List.foldl_append, e]
    have hc : (column spec b)[k] = (spec.getD k []).getD b 0 := by
      simp only [column, List.getElem_map]
      rw [List.getD_eq_getElem?_getD (l := spec), List.getElem?_eq_getElem (by rw [hs.1]; omega)]; rfl
    obtain ⟨f, v⟩ := hq.2.1 k (by omega) b hb
    obtain ⟨w, hw, ew⟩ := isFinite_iff.1 f
    rw [hc, ew]
    rw [ew] at v
    have v' : w = (K k b : ℚ) * pow2 u := v
    subst v'
    simp only [List.foldl_cons, List.foldl_nil]
    have e2 : ((∑ t ∈ Finset.range k, K t b : ℕ) : ℚ) * pow2 u + (K k b : ℚ) * pow2 u =
        ((∑ t ∈ Finset.range (k + 1), K t b : ℕ) : ℚ) * pow2 u := by
      rw [Finset.sum_range_succ]; push_cast; ring
    rw [add_fin]
    simp only [e2]
    exact rnd_val _

/-- **C71 (partial): smoothing returns the average of the neighbouring frames.** For magnitudes that are whole multiples
of one unit, at most `2^24` units in each bin, the result has the shape of the input, and each value is the correctly
rounded mean of the same bin over the frames within `margin`.  Missing: other magnitudes, for which the difference of two
running sums loses the small ones (`C71_violated`). -/
theorem C71_mean_partial (spec : List (List F32)) (n m margin : ℕ) (K : ℕ → ℕ → ℕ) (u : ℤ) (hs : Shape spec n m)
    (hn : 0 < n) (hn' : n ≤ 2 ^ 24) (hm : 0 < m) (hmar : 0 < margin) (hq : Quantised spec n m K u) :
    ∃ out, smoothTime spec margin = .ok out ∧ Shape out n m ∧ ∀ t < n, ∀ b < m,
      (out.getD t []).getD b 0 =
        rnd ((∑ s ∈ nearby n margin t, ((spec.getD s []).getD b 0).val) / ((nearby n margin t).card : ℚ)) := by
  have hne : spec ≠ [] := by intro h; have := hs.1; rw [h] at this; simp at this; omega
  obtain ⟨hc, hh⟩ := check_ok hs hne hm
  have e : smoothTime spec margin = .ok (grid n m (fun t b => smoothCell (column spec b) margin t)) := by
    unfold smoothTime
    rw [if_neg (by push Not; exact ⟨hne, by omega⟩), hc, hh, hs.1]; rfl
  refine ⟨_, e, length_grid _ _ _, fun t ht b hb => ?_⟩
  rw [grid_get _ ht hb]
  have hlen : (column spec b).length = n := by simp only [column, List.length_map, hs.1]
  have hcard : (nearby n margin t).card = Nat.min (t + margin + 1) n - (t - margin) := by rw [nearby_eq, Nat.card_Ico]
  have hlt : t - margin < Nat.min (t + margin + 1) n := by rw [Nat.lt_min]; omega
  have hsn : Nat.min (t + margin + 1) n ≤ n := Nat.min_le_right _ _
  unfold smoothCell
  dsimp only
  rw [hlen]
  obtain ⟨h1, e1⟩ := prefix_exact hs hq hb (Nat.min (t + margin + 1) n) hsn
  obtain ⟨h2, e2⟩ := prefix_exact hs hq hb (t - margin) (by omega)
  have hmax : Nat.max (Nat.min (t + margin + 1) n - (t - margin)) 1 = (nearby n margin t).card := by
    rw [hcard]; exact Nat.max_eq_left (by omega)
  rw [e1, e2, hmax, sub_fin, ← sub_mul]
  have hsum : (∑ s ∈ nearby n margin t, ((spec.getD s []).getD b 0).val) =
      ((∑ s ∈ nearby n margin t, K s b : ℕ) : ℚ) * pow2 u := by
    push_cast
    rw [Finset.sum_mul]
    refine Finset.sum_congr rfl (fun s hs' => (hq.2.1 s ?_ b hb).2)
    simp only [nearby, Finset.mem_filter, Finset.mem_range] at hs'; exact hs'.1
  have hdiff : (((∑ s ∈ Finset.range (Nat.min (t + margin + 1) n), K s b : ℕ) : ℚ) -
      ((∑ s ∈ Finset.range (t - margin), K s b : ℕ) : ℚ)) = ((∑ s ∈ nearby n margin t, K s b : ℕ) : ℚ) := by
    rw [nearby_eq, ← Finset.sum_range_add_sum_Ico (fun s => K s b) hlt.le]; push_cast; ring
  rw [hdiff, hsum]
  have hk : ∑ s ∈ nearby n margin t, K s b ≤ 2 ^ 24 :=
    (Finset.sum_le_sum_of_subset (Finset.filter_subset _ _)).trans (hq.2.2 b hb)
  have hg := grid_unit hq.1.1 hq.1.2 hk
  rw [show rnd (((∑ s ∈ nearby n margin t, K s b : ℕ) : ℚ) * pow2 u) = fin _ hg from rnd_val _]
  have hcn : (nearby n margin t).card ≤ 2 ^ 24 := by rw [hcard]; omega
  have hw : F32.ofNat (nearby n margin t).card = fin _ (grid_nat hcn) := rnd_val _
  rw [hw, div_fin (by rw [hcard]; exact_mod_cast (by omega))]

/-- hence every smoothed value lies between the smallest and the largest magnitude of its window -/
theorem C71_between_partial (spec : List (List F32)) (n m margin : ℕ) (K : ℕ → ℕ → ℕ) (u : ℤ) (hs : Shape spec n m)
    (hn : 0 < n) (hn' : n ≤ 2 ^ 24) (hm : 0 < m) (hmar : 0 < margin) (hq : Quantised spec n m K u) :
    ∃ out, smoothTime spec margin = .ok out ∧ Shape out n m ∧ ∀ t < n, ∀ b < m, ∀ lo hi : F32,
      (∀ s < n, t ≤ s + margin → s ≤ t + margin →
        lo ≤ (spec.getD s []).getD b 0 ∧ (spec.getD s []).getD b 0 ≤ hi) → lo.isFinite = true → hi.isFinite = true →
      lo ≤ (out.getD t []).getD b 0 ∧ (out.getD t []).getD b 0 ≤ hi := by
  obtain ⟨out, e, hsh, hv⟩ := C71_mean_partial spec n m margin K u hs hn hn' hm hmar hq
  refine ⟨out, e, hsh, fun t ht b hb lo hi hw hl hh => ?_⟩
  rw [hv t ht b hb]
  obtain ⟨l, gl, rfl⟩ := isFinite_iff.1 hl
  obtain ⟨h, gh, rfl⟩ := isFinite_iff.1 hh
  have hpos : 0 < (nearby n margin t).card := by
    apply Finset.card_pos.2; exact ⟨t, by simp [nearby, ht]⟩
  have hposq : (0 : ℚ) < ((nearby n margin t).card : ℚ) := by exact_mod_cast hpos
  have key : ∀ s ∈ nearby n margin t, l ≤ ((spec.getD s []).getD b 0).val ∧ ((spec.getD s []).getD b 0).val ≤ h := by
    intro s hs'
    simp only [nearby, Finset.mem_filter, Finset.mem_range] at hs'
    obtain ⟨a, c⟩ := hw s hs'.1 hs'.2.1 hs'.2.2
    obtain ⟨w, gw, ew⟩ := isFinite_iff.1 (hq.2.1 s hs'.1 b hb).1
    rw [ew, fin_le_fin] at a c
    rw [ew]; exact ⟨a, c⟩
  constructor
  · apply fin_le_rnd
    rw [le_div_iff₀ hposq]
    have := Finset.card_nsmul_le_sum _ _ _ (fun s hs' => (key s hs').1)
    rw [nsmul_eq_mul] at this; linarith
  · apply rnd_le_fin
    rw [div_le_iff₀ hposq]
    have := Finset.sum_le_card_nsmul _ _ _ (fun s hs' => (key s hs').2)
    rw [nsmul_eq_mul] at this; linarith

example : Shape [[1, 0.5], [2, 8], [3, 1.5]] 3 2 ∧
    Quantised [[1, 0.5], [2, 8], [3, 1.5]] 3 2 (fun t b => ([[2, 1], [4, 16], [6, 3]].getD t []).getD b 0) (-1) := by
  refine ⟨by unfold Shape; decide +kernel, by norm_num, by decide +kernel, by decide +kernel⟩

/-- a margin of zero leaves the spectrogram as it is, whatever its values -/
theorem C71_zero (spec : List (List F32)) : smoothTime spec 0 = .ok spec := by
  unfold smoothTime; rw [if_pos (Or.inr rfl)]

/-- **C71 is violated**: after one loud frame the running sum swallows quiet frames, and the average of frames that are all
1 comes out as 0. -/
theorem C71_violated : ∃ out, smoothTime [[rnd (pow2 30)], [1], [1], [1]] 1 = .ok out ∧ (out.getD 3 []).getD 0 0 = 0 := by
  refine ⟨grid 4 1 (fun t b => smoothCell (column [[rnd (pow2 30)], [1], [1], [1]] b) 1 t), by decide +kernel, by decide +kernel⟩

end Verif.Props
