/-
C95, whitening: the curve on which peaks are picked when `enable_whitening` is set.
-/
import Verif.Props.HpcpPeaks
import Mathlib.Algebra.BigOperators.Intervals

namespace Verif.Props
open Verif F32 Chroma Hpcp

theorem getD_elem {α : Type} {l : List α} {d : α} {i : ℕ} (h : i < l.length) : l.getD i d = l[i] := by
  rw [List.getD_eq_getElem?_getD, List.getElem?_eq_getElem h, Option.getD_some]

theorem whitePrefix_nonneg (frame : List F32) (k : ℕ) : 0 ≤ whitePrefix frame k := by
  refine sum_nonneg (fun x hx => ?_)
  obtain ⟨y, _, rfl⟩ := List.mem_map.1 hx
  exact le_max_right (by decide +kernel)

theorem foldl_add_le {l : List F32} (h : ∀ x ∈ l, 0 ≤ x) : ∀ {a : F32}, 0 ≤ a → a ≤ l.foldl (· + ·) a := by
  induction l with
  | nil => intro a ha; exact F32.le_refl (ne_nan_right ha)
  | cons x l ih =>
    intro a ha
    have hx := h x List.mem_cons_self
    exact F32.le_trans (le_add_right ha hx) (ih (fun y hy => h y (List.mem_cons_of_mem _ hy)) (F32.add_nonneg ha hx))

theorem whitePrefix_mono (frame : List F32) {k l : ℕ} (h : k ≤ l) : whitePrefix frame k ≤ whitePrefix frame l := by
  obtain ⟨d, rfl⟩ := Nat.exists_eq_add_of_le h
  have h0 := whitePrefix_nonneg frame k
  unfold whitePrefix F32.sum at *
  rw [List.take_add, List.map_append, List.foldl_append]
  refine foldl_add_le (fun x hx => ?_) h0
  obtain ⟨y, _, rfl⟩ := List.mem_map.1 hx
  exact le_max_right (by decide +kernel)

theorem whiteCell_range (frame : List F32) (half i : ℕ) : 0 ≤ whiteCell frame half i ∧ whiteCell frame half i ≤ 20 := by
  unfold whiteCell
  dsimp only
  have h20 : (20 : F32) ≠ nan := by decide +kernel
  refine ⟨?_, min_le_right h20⟩
  generalize hm : (whitePrefix frame (Nat.min (i + half) (frame.length - 1) + 1) - whitePrefix frame (i - half)) /
    F32.max (F32.ofNat (Nat.min (i + half) (frame.length - 1) + 1 - (i - half))) 1 = mean
  have hx : (0 : F32) ≤ F32.max (frame.getD i 0) 0 := le_max_right (by decide +kernel)
  generalize F32.max (frame.getD i 0) 0 = x at hx
  by_cases hq : x / (mean + 1e-12) = nan
  · rw [hq, show F32.min nan 20 = 20 from by decide +kernel]; decide +kernel
  refine le_min (F32.div_nonneg hx ?_ hq) (by decide +kernel)
  refine F32.add_nonneg ?_ (by decide +kernel)
  have hmn : mean ≠ nan := by rintro rfl; rw [nan_add, div_nan] at hq; exact hq rfl
  subst hm
  have hd : (0 : F32) ≤ F32.max (F32.ofNat (Nat.min (i + half) (frame.length - 1) + 1 - (i - half))) 1 :=
    F32.le_trans (by decide +kernel) (le_max_right (by decide +kernel))
  refine F32.div_nonneg ?_ hd hmn
  have hs : whitePrefix frame (Nat.min (i + half) (frame.length - 1) + 1) - whitePrefix frame (i - half) ≠ nan := by
    intro h; rw [h, nan_div] at hmn; exact hmn rfl
  by_cases hi : i < frame.length
  · exact sub_nonneg_of_le (whitePrefix_mono frame (by
      have : Nat.min (i + half) (frame.length - 1) = min (i + half) (frame.length - 1) := rfl
      omega)) hs
  · -- past the end both prefixes are taken of a list that has ended, or the window is empty
    by_cases hl : i - half ≤ Nat.min (i + half) (frame.length - 1) + 1
    · exact sub_nonneg_of_le (whitePrefix_mono frame hl) hs
    · have e : ∀ k, frame.length ≤ k → whitePrefix frame k = whitePrefix frame frame.length := by
        intro k hk
        unfold whitePrefix
        rw [List.take_of_length_le hk, List.take_length]
      have hm2 : Nat.min (i + half) (frame.length - 1) = min (i + half) (frame.length - 1) := rfl
      have h1 := e (Nat.min (i + half) (frame.length - 1) + 1) (by omega)
      have h2 := e (i - half) (by omega)
      rw [h1, h2] at hs ⊢
      exact sub_nonneg_of_le (F32.le_refl (ne_nan_right (whitePrefix_nonneg _ _))) hs

/-- **C95, whitening is bounded.** With whitening on, whatever the magnitudes (infinite and NaN ones included), every
value of the curve lies between 0 and 20; the curve has one value per bin. -/
theorem C95_range (g : Cfg) (hw : g.white = true) (hb : 3 ≤ g.bins) (frame : List F32) :
    (Curve g frame).length = frame.length ∧ ∀ x ∈ Curve g frame, 0 ≤ x ∧ x ≤ 20 := by
  refine ⟨length_curve g frame, fun x hx => ?_⟩
  unfold Curve scoreCurve at hx
  rw [if_pos (by simp [hw, hb])] at hx
  obtain ⟨i, _, rfl⟩ := List.mem_map.1 hx
  exact whiteCell_range _ _ _

theorem foldl_nat : ∀ (ns : List ℕ) (a : ℕ), a + ns.sum ≤ 2 ^ 24 →
    (ns.map (fun n => F32.max (F32.ofNat n) 0)).foldl (· + ·) (F32.ofNat a) = F32.ofNat (a + ns.sum) := by
  intro ns
  induction ns with
  | nil => intro a _; rfl
  | cons n ns ih =>
    intro a h
    rw [List.sum_cons] at h
    have e : F32.max (F32.ofNat n) 0 = F32.ofNat n := by
      rcases max_eq_left_or_right (F32.ofNat n) 0 with e | e
      · exact e
      · exact F32.le_antisymm (by rw [e]; exact F32.ofNat_nonneg n) (le_max_left (ofNat_ne_nan n))
    rw [List.map_cons, List.foldl_cons, e]
    have : F32.ofNat a + F32.ofNat n = F32.ofNat (a + n) := by
      rw [ofNat_exact (by omega : a ≤ 2 ^ 24), ofNat_exact (by omega : n ≤ 2 ^ 24), add_fin]
      unfold F32.ofNat
      push_cast
      rfl
    rw [this, ih (a + n) (by omega), List.sum_cons, Nat.add_assoc]

theorem sum_take_le (ns : List ℕ) (k : ℕ) : (ns.take k).sum ≤ ns.sum := by
  conv_rhs => rw [← List.take_append_drop k ns, List.sum_append]
  omega

theorem sum_take_range (ns : List ℕ) : ∀ k ≤ ns.length, (ns.take k).sum = ∑ j ∈ Finset.range k, ns.getD j 0 := by
  intro k
  induction k with
  | zero => intro _; rfl
  | succ k ih =>
    intro h
    rw [Finset.sum_range_succ, ← ih (by omega), List.take_succ_eq_append_getElem (by omega), List.sum_append,
      List.sum_singleton, getD_elem (by omega : k < ns.length)]

theorem whitePrefix_nat {ns : List ℕ} (h : ns.sum ≤ 2 ^ 24) (k : ℕ) :
    whitePrefix (ns.map F32.ofNat) k = F32.ofNat (ns.take k).sum := by
  unfold whitePrefix F32.sum
  rw [← List.map_take, List.map_map]
  have := foldl_nat (ns.take k) 0 (by have := sum_take_le ns k; omega)
  rw [F32.ofNat_zero, Nat.zero_add] at this
  exact this

/-- **C95, whitening divides by the local mean.** For magnitudes that are whole numbers adding up to at most `2^24` (so
that no sum rounds), bin `i` of the whitened curve is its magnitude divided by the mean magnitude of the bins at most
`whitening_smooth_bins / 2` away from it (those that exist), guarded by `1e-12` and limited to 20. -/
theorem C95_mean_partial (g : Cfg) (hw : g.white = true) (hb : 3 ≤ g.bins) (ns : List ℕ) (hs : ns.sum ≤ 2 ^ 24)
    (hl : ns.length ≤ 2 ^ 24) {i : ℕ} (hi : i < ns.length) :
    (Curve g (ns.map F32.ofNat)).getD i 0 = F32.min (F32.ofNat (ns.getD i 0) /
      (F32.rnd ((∑ j ∈ Finset.Ico (i - g.bins / 2) (min (i + g.bins / 2 + 1) ns.length), ns.getD j 0 : ℕ) /
        (min (i + g.bins / 2 + 1) ns.length - (i - g.bins / 2) : ℕ)) + 1e-12)) 20 := by
  have hhalf : (if g.bins % 2 = 0 then g.bins + 1 else g.bins) / 2 = g.bins / 2 := by split_ifs <;> omega
  unfold Curve scoreCurve
  rw [if_pos (by simp [hw, hb]), hhalf, List.length_map, getD_elem (by simp [hi]), List.getElem_map,
    List.getElem_range]
  generalize g.bins / 2 = h
  unfold whiteCell
  dsimp only
  have hr : Nat.min (i + h) ((ns.map F32.ofNat).length - 1) + 1 = min (i + h + 1) ns.length := by
    rw [List.length_map, show Nat.min (i + h) (ns.length - 1) = min (i + h) (ns.length - 1) from rfl]; omega
  have hx : F32.max ((ns.map F32.ofNat).getD i 0) 0 = F32.ofNat (ns.getD i 0) := by
    rw [getD_elem (by simpa using hi), List.getElem_map, getD_elem hi]
    rcases max_eq_left_or_right (F32.ofNat ns[i]) 0 with e | e
    · exact e
    · exact F32.le_antisymm (by rw [e]; exact F32.ofNat_nonneg _) (le_max_left (ofNat_ne_nan _))
  rw [hx, hr, whitePrefix_nat hs, whitePrefix_nat hs]
  have hlr : i - h < min (i + h + 1) ns.length := by omega
  have hrn : min (i + h + 1) ns.length ≤ ns.length := by omega
  generalize min (i + h + 1) ns.length = r at hlr hrn
  generalize i - h = l at hlr
  have hsum : (ns.take r).sum = (ns.take l).sum + ∑ j ∈ Finset.Ico l r, ns.getD j 0 := by
    rw [sum_take_range ns r hrn, sum_take_range ns l (by omega), Finset.sum_range_add_sum_Ico _ (by omega)]
  have hT := sum_take_le ns r
  have hD : F32.ofNat (ns.take r).sum - F32.ofNat (ns.take l).sum = F32.ofNat (∑ j ∈ Finset.Ico l r, ns.getD j 0) := by
    rw [ofNat_exact (by omega : (ns.take r).sum ≤ 2 ^ 24), ofNat_exact (by omega : (ns.take l).sum ≤ 2 ^ 24), sub_fin,
      hsum]
    unfold F32.ofNat
    push_cast
    congr 1
    ring
  have hM : F32.max (F32.ofNat (r - l)) 1 = F32.ofNat (r - l) := by
    rcases max_eq_left_or_right (F32.ofNat (r - l)) 1 with e | e
    · exact e
    · exact F32.le_antisymm (by rw [e]; exact one_le_ofNat (by omega)) (le_max_left (ofNat_ne_nan _))
  rw [hD, hM, ofNat_exact (by omega : (∑ j ∈ Finset.Ico l r, ns.getD j 0) ≤ 2 ^ 24),
    ofNat_exact (by omega : r - l ≤ 2 ^ 24), div_fin (by
      have : r - l ≠ 0 := by omega
      exact_mod_cast this)]

/-- beside `C95_mean_partial`: a tone of magnitude 9 over a background of 1 and 3 with a window of 3 bins -/
example : ([1, 9, 1, 3, 1] : List ℕ).sum ≤ 2 ^ 24 ∧
    Curve { demoCfg with white := true, bins := 3 } (([1, 9, 1, 3, 1] : List ℕ).map F32.ofNat) =
      [1 / (5 + 1e-12), 9 / (11 / 3 + 1e-12), 1 / (13 / 3 + 1e-12), 3 / (5 / 3 + 1e-12), 1 / (2 + 1e-12)] := by
  refine ⟨by decide, by decide +kernel⟩

/-- **C95, whitening is not local (finding).** The running mean is a difference of two prefix sums, so a loud bin far
outside the window changes the whitened value of quiet bins: with a window of three bins, the curve at bins 6 and 7 is
about 0.86 and 1.5 on its own, and 20 at both when bin 0 is `2^26`, so the local maximum at bin 7 disappears. -/
theorem C95_violated : ∃ (g : Cfg) (quiet loud : List F32), g.white = true ∧ g.bins = 3 ∧
    quiet.length = loud.length ∧ (∀ j, 1 ≤ j → quiet.getD j 0 = loud.getD j 0) ∧
    PeakAt (Curve g quiet) 7 ∧ (Curve g loud).getD 6 0 = 20 ∧ (Curve g loud).getD 7 0 = 20 ∧ ¬ PeakAt (Curve g loud) 7 := by
  refine ⟨{ demoCfg with white := true, bins := 3 }, [0, 0, 0, 0, 0, 1, 1, 2, 1, 1],
    [67108864, 0, 0, 0, 0, 1, 1, 2, 1, 1], rfl, rfl, rfl, ?_, ?_, ?_, ?_, ?_⟩
  · intro j hj
    obtain ⟨k, rfl⟩ := Nat.exists_eq_add_of_le' hj
    rfl
  all_goals (try unfold PeakAt); decide +kernel

end Verif.Props
