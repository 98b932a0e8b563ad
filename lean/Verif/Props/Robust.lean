/-
Property theorems C138: the median + MAD threshold against a minority of outliers (src/features/onset/threshold.rs).
-/
import Verif.Props.Attacks
import Verif.Lemmas.Merge

namespace Verif.Props
open Verif Verif.Onset F32

/-- Specification: more than half of the values lie between `lo` and `hi`. -/
def MostWithin (values : List F32) (lo hi : F32) : Prop :=
  values.length < 2 * values.countP (fun v => decide (lo ≤ v ∧ v ≤ hi))

theorem sorted_below {s : List F32} (hs : s.Pairwise (· ≤ ·)) {lo hi x : F32} {i : ℕ} (hx : s[i]? = some x)
    (h : ¬ lo ≤ x) : s.countP (fun v => decide (lo ≤ v ∧ v ≤ hi)) + (i + 1) ≤ s.length := by
  obtain ⟨hi', rfl⟩ := List.getElem?_eq_some_iff.1 hx
  have h0 : (s.take (i + 1)).countP (fun v => decide (lo ≤ v ∧ v ≤ hi)) = 0 := by
    rw [List.countP_eq_zero]
    intro y hy
    obtain ⟨k, hk, rfl⟩ := List.mem_iff_getElem.1 hy
    rw [List.length_take] at hk
    rw [List.getElem_take]
    simp only [decide_eq_true_eq, not_and]
    intro hlo
    refine absurd ?_ h
    rcases Nat.lt_or_ge k i with hki | hki
    · exact F32.le_trans hlo (List.pairwise_iff_getElem.1 hs k i (by omega) hi' hki)
    · have : k = i := by omega
      subst this; exact hlo
  have h1 := List.countP_append (p := fun v => decide (lo ≤ v ∧ v ≤ hi)) (l₁ := s.take (i + 1)) (l₂ := s.drop (i + 1))
  rw [List.take_append_drop, h0] at h1
  have h2 := List.countP_le_length (p := fun v => decide (lo ≤ v ∧ v ≤ hi)) (l := s.drop (i + 1))
  rw [List.length_drop] at h2
  omega

theorem sorted_above {s : List F32} (hs : s.Pairwise (· ≤ ·)) {lo hi x : F32} {i : ℕ} (hx : s[i]? = some x)
    (h : ¬ x ≤ hi) : s.countP (fun v => decide (lo ≤ v ∧ v ≤ hi)) ≤ i := by
  obtain ⟨hi', rfl⟩ := List.getElem?_eq_some_iff.1 hx
  have h0 : (s.drop i).countP (fun v => decide (lo ≤ v ∧ v ≤ hi)) = 0 := by
    rw [List.countP_eq_zero]
    intro y hy
    obtain ⟨k, hk, rfl⟩ := List.mem_iff_getElem.1 hy
    rw [List.length_drop] at hk
    rw [List.getElem_drop]
    simp only [decide_eq_true_eq, not_and]
    intro _ hlo
    refine absurd ?_ h
    rcases Nat.eq_zero_or_pos k with hk0 | hk0
    · subst hk0; exact hlo
    · exact F32.le_trans (List.pairwise_iff_getElem.1 hs i (i + k) hi' (by omega) (by omega)) hlo
  have h1 := List.countP_append (p := fun v => decide (lo ≤ v ∧ v ≤ hi)) (l₁ := s.take i) (l₂ := s.drop i)
  rw [List.take_append_drop, h0] at h1
  have h2 := List.countP_le_length (p := fun v => decide (lo ≤ v ∧ v ≤ hi)) (l := s.take i)
  rw [List.length_take] at h2
  omega

theorem between_fin {a b : ℚ} {ha hb} {x : F32} (h1 : fin a ha ≤ x) (h2 : x ≤ fin b hb) :
    ∃ v hv, x = fin v hv ∧ a ≤ v ∧ v ≤ b := by
  rcases x with _ | (_ | _) | ⟨v, hv⟩
  · simp at h1
  · simp at h2
  · simp at h1
  · rw [fin_le_fin] at h1 h2; exact ⟨v, hv, rfl, h1, h2⟩

/-- The median of values most of which lie between two bounds lies between them. -/
theorem median_between {l : List F32} {m : F32} {a b : ℚ} (hm : IsMedian l m)
    (ha : OnGrid a ∧ |a| < pow2 128) (hb : OnGrid b ∧ |b| < pow2 128)
    (ha2 : OnGrid (2 * a) ∧ |2 * a| < pow2 128) (hb2 : OnGrid (2 * b) ∧ |2 * b| < pow2 128)
    (h : MostWithin l (fin a ha) (fin b hb)) : ∃ v hv, m = fin v hv ∧ a ≤ v ∧ v ≤ b := by
  unfold MostWithin at h
  obtain ⟨s, hp, hs, h1⟩ := hm
  rw [← hp.countP_eq, ← hp.length_eq] at h
  have key : ∀ i x, s[i]? = some x → s.length ≤ 2 * (i + 1) → 2 * i ≤ s.length →
      ∃ v hv, x = fin v hv ∧ a ≤ v ∧ v ≤ b := by
    intro i x hx hi1 hi2
    refine between_fin (ha := ha) (hb := hb) ?_ ?_
    · by_contra hc
      have := sorted_below (hi := fin b hb) hs hx hc
      omega
    · by_contra hc
      have := sorted_above (lo := fin a ha) hs hx hc
      omega
  rw [← hp.length_eq] at h1
  rcases h1 with ⟨ho, h1⟩ | ⟨he, x, y, hx, hy, rfl⟩
  · exact key _ _ h1 (by omega) (by omega)
  · obtain ⟨v, hv, rfl, v1, v2⟩ := key _ _ hx (by omega) (by omega)
    obtain ⟨w, hw, rfl, w1, w2⟩ := key _ _ hy (by omega) (by omega)
    obtain ⟨hq, e, l1, l2⟩ := rnd_between (x := v + w) ha2 hb2 (by linarith) (by linarith)
    have hhalf : (0.5 : F32) = fin (1 / 2) (by decide +kernel) := by decide +kernel
    rw [add_fin, e, hhalf, mul_fin]
    obtain ⟨hq2, e2, l3, l4⟩ := rnd_between (x := rndQ (v + w) * (1 / 2)) ha hb (by linarith) (by linarith)
    exact ⟨_, hq2, e2, l3, l4⟩

/-- **C138 (a minority of outliers does not move the threshold).** Whatever the other values are, as long as more than half of
them lie between `lo` and `hi` the threshold is at least `lo` and at most `hi` plus `k` times the spread `hi - lo`. -/
theorem C138_robust (values : List F32) (k lo hi : F32) (hn : ∀ x ∈ values, x ≠ nan) (hk : 0 ≤ k) (hkf : k.isFinite = true)
    (hlo : lo.abs ≤ rnd (pow2 125)) (hhi : hi.abs ≤ rnd (pow2 125)) (hm : MostWithin values lo hi) :
    ∃ t, medianMad values k = .ok t ∧ lo ≤ t ∧ t ≤ hi + k * (hi - lo) := by
  have g125 : OnGrid (pow2 125) ∧ |pow2 125| < pow2 128 := by decide +kernel
  have g126 : OnGrid (2 * pow2 125) ∧ |2 * pow2 125| < pow2 128 := by decide +kernel
  have g127 : 2 * (2 * pow2 125) < pow2 128 := by decide +kernel
  rw [rnd_val g125] at hlo hhi
  obtain ⟨a, ha, rfl, ha'⟩ : ∃ v hv, lo = fin v hv ∧ |v| ≤ pow2 125 := by
    rcases lo with _ | s | ⟨v, hv⟩
    · simp at hlo
    · simp [F32.abs] at hlo
    · rw [abs_fin, fin_le_fin] at hlo; exact ⟨v, hv, rfl, hlo⟩
  obtain ⟨b, hb, rfl, hb'⟩ : ∃ v hv, hi = fin v hv ∧ |v| ≤ pow2 125 := by
    rcases hi with _ | s | ⟨v, hv⟩
    · simp at hhi
    · simp [F32.abs] at hhi
    · rw [abs_fin, fin_le_fin] at hhi; exact ⟨v, hv, rfl, hhi⟩
  obtain ⟨c, hc, rfl⟩ := isFinite_iff.1 hkf
  have hp := pow2_pos 125
  have two : ∀ q : ℚ, OnGrid q → |q| ≤ 2 * pow2 125 → OnGrid (2 * q) ∧ |2 * q| < pow2 128 := by
    intro q h1 h2
    refine ⟨Period.onGrid_double h1, ?_⟩
    rw [_root_.abs_mul, abs_of_pos (by norm_num : (0:ℚ) < 2)]; linarith
  have h0 : values ≠ [] := by rintro rfl; simp [MostWithin] at hm
  obtain ⟨t, med, e, hmed, h1, _⟩ := (C10_median_mad values (fin c hc) hn).2 (by
    push Not
    exact ⟨h0, F32.not_lt_of_le hk⟩)
  obtain ⟨m, hmv, rfl, m1, m2⟩ := median_between hmed ha hb (two a ha.1 (by linarith)) (two b hb.1 (by linarith)) hm
  obtain ⟨_, ⟨mad, hmad, rfl⟩, h3⟩ := h1 rfl
  have hd : |b - a| ≤ 2 * pow2 125 := by
    have := abs_le.1 ha'; have := abs_le.1 hb'
    rw [_root_.abs_le]; constructor <;> linarith
  obtain ⟨hq, ed, hdb⟩ := rnd_finite_of_abs_le g126 hd
  have hmost : MostWithin (values.map (fun v => (v - fin m hmv).abs)) (fin 0 grid_zero) (fin _ hq) := by
    unfold MostWithin at hm ⊢
    rw [List.length_map, List.countP_map]
    refine lt_of_lt_of_le hm (Nat.mul_le_mul_left 2 (List.countP_mono_left ?_))
    intro x _ hx
    simp only [decide_eq_true_eq, Function.comp] at hx ⊢
    obtain ⟨v, hv, rfl, v1, v2⟩ := between_fin hx.1 hx.2
    rw [sub_fin, abs_rnd, ← ed]
    exact ⟨fin_le_rnd (_root_.abs_nonneg _), rnd_mono (by rw [_root_.abs_le]; constructor <;> linarith)⟩
  obtain ⟨d, hdv, rfl, d1, d2⟩ := median_between hmad grid_zero hq (by rw [mul_zero]; exact grid_zero) (two _ hq.1 hdb) hmost
  have hkn : fin c hc * fin d hdv ≠ nan := by rw [mul_fin]; exact rnd_ne_nan _
  have hkn' : fin c hc * (fin b hb - fin a ha) ≠ nan := by rw [sub_fin, ed, mul_fin]; exact rnd_ne_nan _
  have hs : ∀ (z : ℚ) (hz) (y : F32), y ≠ nan → fin z hz + y ≠ nan := by
    intro z hz y hy
    rcases y with _ | s | ⟨y, hy'⟩
    · exact absurd rfl hy
    · rw [fin_add_inf]; simp
    · rw [add_fin]; exact rnd_ne_nan _
  refine ⟨_, e, ?_, ?_⟩
  · exact F32.le_trans (fin_le_fin.2 m1) (h3 (hs _ _ _ hkn))
  · refine F32.add_le_add (fin_le_fin.2 m2) ?_ (hs _ _ _ hkn) (hs _ _ _ hkn')
    refine F32.mul_le_mul_of_nonneg_left ?_ hk hkn hkn'
    rw [sub_fin, ed]; exact fin_le_fin.2 d2

/-- The hypotheses are satisfiable: three values between 1 and 2, one enormous and one infinite outlier. -/
example : (∀ x ∈ [(1 : F32), inf false, 2, 1e30, 1.5], x ≠ nan) ∧ MostWithin [(1 : F32), inf false, 2, 1e30, 1.5] 1 2 ∧
    medianMad [(1 : F32), inf false, 2, 1e30, 1.5] 2.5 = .ok 4.5 := by
  unfold MostWithin
  decide +kernel

/-- **C138 (the percentile threshold follows them).** When one in five values is at or above some level, however high,
so is the 80 % percentile threshold. -/
theorem C138_percentile (values : List F32) (b : F32) (hn : ∀ x ∈ values, x ≠ nan) (h0 : values ≠ [])
    (hl : values.length ≤ 2 ^ 20) (hb : b ≠ nan)
    (hq : values.length ≤ 5 * values.countP (fun v => decide (b ≤ v))) :
    ∃ t, percentileThreshold values 0.8 = .ok t ∧ b ≤ t := by
  obtain ⟨t, e, htm, hp⟩ := (C10_percentile values 0.8).2 (by
    push Not
    exact ⟨h0, by decide +kernel, by decide +kernel⟩)
  refine ⟨t, e, ?_⟩
  by_contra hc
  have hlt : t < b := F32.lt_of_not_le (hn t htm) hb hc
  obtain ⟨_, h1, _⟩ := hp hn
  have hsum : values.countP (fun x => decide (x ≤ t)) + values.countP (fun v => decide (b ≤ v)) ≤ values.length := by
    have hle := List.countP_mono_left (l := values) (p := fun v => decide (b ≤ v)) (q := fun x => !decide (x ≤ t)) (by
      intro x _ hx
      simp only [decide_eq_true_eq, Bool.not_eq_true', decide_eq_false_iff_not] at hx ⊢
      intro hxt
      exact F32.not_lt_of_le (F32.le_trans hx hxt) hlt)
    have := List.length_eq_countP_add_countP (fun x => decide (x ≤ t)) (l := values)
    have e2 : values.countP (fun x => !decide (x ≤ t)) = values.countP (fun a => ¬ (decide (a ≤ t)) = true) :=
      List.countP_congr (by intro x _; simp)
    omega
  have hpos : 0 < values.length := List.length_pos_iff.2 h0
  set n := values.length with hnn
  have : n - values.countP (fun v => decide (b ≤ v)) ≤ Nat.min (F32.ofNat n * 0.8).toUsize (n - 1) :=
    rank_ge hl (by omega) (by omega)
  omega

example : percentileThreshold [(1 : F32), 1, 1, 1e30] 0.8 = .ok 1e30 ∧ medianMad [(1 : F32), 1, 1, 1e30] 2.5 = .ok 1 := by
  decide +kernel

end Verif.Props
