/-
Property theorems C147: what the combined novelty curve keeps of its three inputs (src/features/period/novelty.rs).
-/
import Verif.Props.NoveltyMore
import Verif.Props.NoveltyRise

namespace Verif.Props
open Verif F32 Novelty

theorem mem_around {x : List F32} {half i : ℕ} {y : F32} (h : y ∈ around x half i) :
    ∃ j, j < x.length ∧ i ≤ j + half ∧ j ≤ i + half ∧ y = x.getD j 0 := by
  unfold around band at h
  obtain ⟨k, hk, rfl⟩ := List.getElem_of_mem h
  rw [List.length_drop, List.length_take] at hk
  have hle : Nat.min (i + half + 1) x.length = min (i + half + 1) x.length := rfl
  rw [hle] at hk
  refine ⟨i - half + k, by omega, by omega, by omega, ?_⟩
  rw [List.getElem_drop, List.getElem_take, List.getD_eq_getElem?_getD, List.getElem?_eq_getElem (by omega), Option.getD_some]

theorem zero_over_pos {b : F32} (h : 0 < b) : (0 : F32) / b = 0 := by
  rcases nonneg_cases (F32.le_of_lt h) with e | ⟨v, hv, e, v0⟩
  · rw [e, zero_def, fin_div_inf]; exact zero_def
  · rw [e] at h ⊢
    rw [zero_def, fin_lt_fin] at h
    rw [zero_def, div_fin h.ne', zero_div]; exact rnd_val grid_zero

theorem zero_times_fin {v : ℚ} {hv} : (0 : F32) * fin v hv = 0 := by
  rw [zero_def, mul_fin, zero_mul]; exact rnd_val grid_zero

theorem unit_mul_zero {x : F32} (h : InUnit x) : x * 0 = 0 := by
  have h0 := h.1
  have h1 := h.2
  rw [zero_def] at h0; rw [one_def] at h1
  obtain ⟨v, hv, rfl, -, -⟩ := between_cases h0 h1
  rw [zero_def, mul_fin, mul_zero]; exact rnd_val grid_zero

theorem mix_zero {ws we wh : F32} (h1 : Weight ws) (h2 : Weight we) (h3 : Weight wh) : mix ws we wh 0 0 0 = 0 := by
  obtain ⟨a, ha, ea, -⟩ := weight_range h1
  obtain ⟨b, hb, eb, -⟩ := weight_range h2
  obtain ⟨c, hc, ec, -⟩ := weight_range h3
  unfold mix
  dsimp only
  rw [ea, eb, ec, zero_times_fin, zero_times_fin, zero_times_fin]
  rw [show (0 + 0 + 0 : F32) = 0 by decide +kernel]
  exact zero_over_pos (F32.lt_of_lt_of_le (by decide +kernel) (le_max_right (by decide +kernel)))

/-- local mean subtraction keeps zeros -/
theorem subtract_zero {c : List F32} (h : ∀ x ∈ c, InUnit x) (hl : c.length ≤ 2 ^ 64) (w : ℕ) {i : ℕ} (hi : i < c.length)
    (h0 : c.getD i 0 = 0) : (meanSubtract c w).getD i 0 = 0 := by
  unfold meanSubtract
  split_ifs with hc
  · exact h0
  · rw [range_map_get _ _ hi]
    apply rectified_zero
    have e : Novelty.at' c i = 0 := h0
    rw [e]
    exact (localMean_range h (w / 2) i hi hl).1

theorem average_zero {c : List F32} (w : ℕ) {i : ℕ} (hi : i < c.length)
    (h0 : ∀ j < c.length, i ≤ j + w / 2 → j ≤ i + w / 2 → c.getD j 0 = 0) : (movingAverage c w).getD i 0 = 0 := by
  unfold movingAverage
  split_ifs with hc
  · exact h0 i hi (by omega) (by omega)
  · rw [range_map_get _ _ hi]
    unfold localMean
    rw [sum_zeros (fun y hy => by
      obtain ⟨j, hj, a, b, rfl⟩ := mem_around hy
      exact h0 j hj a b)]
    have hmin : i - w / 2 < Nat.min (i + w / 2 + 1) c.length := Nat.lt_min.2 ⟨by omega, by omega⟩
    exact zero_over_pos (F32.lt_of_lt_of_le (by decide +kernel) (one_le_ofNat (by omega)))

/-- **C147 (silence)**: where all three methods are silent within the smoothing window, the combined curve is exactly zero, for all
weights and both windows. -/
theorem C147_silence (s e h : List F32) (ws we wh : F32) (lw sw : ℕ) (hs : ∀ x ∈ s, InUnit x) (he : ∀ x ∈ e, InUnit x)
    (hh : ∀ x ∈ h, InUnit x) (h1 : Weight ws) (h2 : Weight we) (h3 : Weight wh) (hl : s.length ≤ 2 ^ 64) (i : ℕ)
    (h0 : ∀ j, i ≤ j + sw / 2 → j ≤ i + sw / 2 → s.getD j 0 = 0 ∧ e.getD j 0 = 0 ∧ h.getD j 0 = 0) :
    (combined s e h ws we wh lw sw).getD i 0 = 0 := by
  by_cases hi : i < min (min s.length e.length) h.length
  swap
  · have := (C26_combined_partial s e h ws we wh lw sw hs he hh h1 h2 h3 hl).1
    rw [List.getD_eq_getElem?_getD, List.getElem?_eq_none (by omega)]; rfl
  unfold combined
  dsimp only
  have en : Nat.min (Nat.min s.length e.length) h.length = Min.min (Min.min s.length e.length) h.length := rfl
  rw [en, if_neg (by omega)]
  have hm : ∀ x ∈ (List.range (min (min s.length e.length) h.length)).map (fun i =>
      mix ws we wh (Novelty.at' s i) (Novelty.at' e i) (Novelty.at' h i)), 0 ≤ x ∧ x.isFinite = true := by
    intro x hx
    obtain ⟨i, hi, rfl⟩ := List.mem_map.1 hx
    rw [List.mem_range] at hi
    exact mix_range h1 h2 h3 (hs _ (Novelty.mem_getD (by omega))) (he _ (Novelty.mem_getD (by omega)))
      (hh _ (Novelty.mem_getD (by omega)))
  obtain ⟨l, -, r⟩ := peakNorm_spec (fun x hx => (hm x hx).1)
  have hz : ∀ j < min (min s.length e.length) h.length, i ≤ j + sw / 2 → j ≤ i + sw / 2 →
      (peakNorm ((List.range (min (min s.length e.length) h.length)).map (fun i =>
        mix ws we wh (Novelty.at' s i) (Novelty.at' e i) (Novelty.at' h i)))).getD j 0 = 0 := by
    intro j hj a b
    apply peakNorm_zero
    rw [range_map_get _ _ hj]
    unfold Novelty.at'
    obtain ⟨z1, z2, z3⟩ := h0 j a b
    rw [z1, z2, z3, mix_zero h1 h2 h3]
  have hu := r fun x hx => (hm x hx).2
  rw [List.length_map, List.length_range] at l
  generalize peakNorm ((List.range (min (min s.length e.length) h.length)).map (fun i =>
        mix ws we wh (Novelty.at' s i) (Novelty.at' e i) (Novelty.at' h i))) = c at *
  unfold condition
  dsimp only
  apply peakNorm_zero
  have a1 : (if 1 < lw then meanSubtract c lw else c).length = c.length ∧
      ∀ j < c.length, i ≤ j + sw / 2 → j ≤ i + sw / 2 → (if 1 < lw then meanSubtract c lw else c).getD j 0 = 0 := by
    split_ifs
    · refine ⟨?_, fun j hj a b => subtract_zero hu (by omega) lw hj (hz j (by omega) a b)⟩
      unfold meanSubtract; split_ifs <;> simp
    · exact ⟨rfl, fun j hj a b => hz j (by omega) a b⟩
  generalize (if 1 < lw then meanSubtract c lw else c) = d at *
  split_ifs
  · exact average_zero sw (by omega) (fun j hj a b => a1.2 j (by omega) a b)
  · exact a1.2 i (by omega) (by omega) (by omega)

/-- non-vacuity: silence up to the third value, with a smoothing window of three values -/
example : (∀ x ∈ ([0, 0, 0, 1, 0, 0, 0] : List F32), InUnit x) ∧ Weight 0.5 ∧
    (∀ j, 1 ≤ j + 3 / 2 → j ≤ 1 + 3 / 2 → ([0, 0, 0, 1, 0, 0, 0] : List F32).getD j 0 = 0) ∧
    (combined [0, 0, 0, 1, 0, 0, 0] [0, 0, 0, 0.5, 0, 0, 0] [0, 0, 0, 0, 1, 0, 0] 0.5 0.3 0.2 0 3).getD 3 0 = 1 := by
  refine ⟨by unfold InUnit; decide +kernel, Or.inr (by decide +kernel), fun j _ hj => ?_, by decide +kernel⟩
  have : j = 0 ∨ j = 1 ∨ j = 2 := by omega
  rcases this with rfl | rfl | rfl <;> rfl

/-- Specification: the curves `a` and `b` are the same as far as a method of weight `w` is concerned: equal, or the weight is zero or
less and both are curves of the same length. -/
def SameFor (w : F32) (a b : List F32) : Prop :=
  a = b ∨ (w ≤ 0 ∧ a.length = b.length ∧ (∀ x ∈ a, InUnit x) ∧ ∀ x ∈ b, InUnit x)

theorem SameFor.length {w : F32} {a b : List F32} (h : SameFor w a b) : a.length = b.length := by
  rcases h with rfl | h
  · rfl
  · exact h.2.1

theorem SameFor.term {w : F32} {a b : List F32} (h : SameFor w a b) {i : ℕ} (hi : i < b.length) :
    Novelty.at' a i * F32.max w 0 = Novelty.at' b i * F32.max w 0 := by
  rcases h with rfl | ⟨hw, hl, ha, hb⟩
  · rfl
  · have hz : F32.max w 0 = 0 := F32.le_antisymm (F32.max_le hw (by decide +kernel)) (le_max_right zero_ne_nan)
    rw [hz, unit_mul_zero (ha _ (Novelty.mem_getD (by omega))), unit_mul_zero (hb _ (Novelty.mem_getD hi))]

/-- **C147 (unweighted methods)**: a method with weight zero or less has no influence on the combined curve, whichever it is. -/
theorem C147_unweighted (s s' e e' h h' : List F32) (ws we wh : F32) (lw sw : ℕ) (h1 : SameFor ws s s') (h2 : SameFor we e e')
    (h3 : SameFor wh h h') : combined s e h ws we wh lw sw = combined s' e' h' ws we wh lw sw := by
  unfold combined
  rw [h1.length, h2.length, h3.length]
  dsimp only
  split_ifs with h0
  · rfl
  · congr 2
    apply List.map_congr_left
    intro i hi
    rw [List.mem_range] at hi
    have hi' : i < min (min s'.length e'.length) h'.length := hi
    unfold mix
    dsimp only
    rw [h1.term (by omega), h2.term (by omega), h3.term (by omega)]

example : SameFor (-1) [1, 0, 1] [0, 1, 1] := Or.inr (by unfold InUnit; decide +kernel)

example : combined [0, 1, 0] [1, 1, 0] [1, 0, 1] 0.5 0.3 (-1) 0 0 = combined [0, 1, 0] [1, 1, 0] [0, 1, 1] 0.5 0.3 (-1) 0 0 ∧
    combined [0, 1, 0] [1, 1, 0] [1, 0, 1] 0.5 0.3 0.2 0 0 ≠ combined [0, 1, 0] [1, 1, 0] [0, 1, 1] 0.5 0.3 0.2 0 0 := by
  decide +kernel

/-- a curve that is constant up to one part in a million -/
def nearlyFlat : List F32 := (List.range 24).map (fun i => if i % 8 = 4 then 1 else 0.999999)

/-- **C147 violated**: with the default weights and windows, three curves that are constant up to one part in a million combine to a
curve with full-scale peaks and zeros: what is left after subtracting the mean is scaled up again. -/
theorem C147_violated :
    ∃ c : List F32, (∀ x ∈ c, x.isFinite = true ∧ |x.val - 1| ≤ 11 / 10 ^ 7) ∧
      1 ∈ combined c c c 0.5 0.3 0.2 16 5 ∧ 0 ∈ combined c c c 0.5 0.3 0.2 16 5 :=
  ⟨nearlyFlat, by decide +kernel⟩

end Verif.Props
