/-
C50: confidence scores.
-/
import Verif.Model.Confidence
import Verif.F32.Bounds
import Mathlib.Tactic.Linarith
import Mathlib.Tactic.NormNum

namespace Verif.Props
open Verif Verif.Confidence F32

theorem lit04 : ∃ h, (0.4 : F32) = fin (13421773 / 33554432) h := ⟨by decide +kernel, by decide +kernel⟩
theorem lit03 : ∃ h, (0.3 : F32) = fin (10066330 / 33554432) h := ⟨by decide +kernel, by decide +kernel⟩
theorem unit06 : (0 : F32) ≤ 0.6 ∧ (0.6 : F32) ≤ 1 := by decide +kernel
theorem unit07 : (0 : F32) ≤ 0.7 ∧ (0.7 : F32) ≤ 1 := by decide +kernel
theorem unit085 : (0 : F32) ≤ 0.85 ∧ (0.85 : F32) ≤ 1 := by decide +kernel
theorem unit1 : (0 : F32) ≤ 1 ∧ (1 : F32) ≤ 1 := by decide +kernel
theorem unit0 : (0 : F32) ≤ 0 ∧ (0 : F32) ≤ 1 := by decide +kernel

theorem bpmConfidence_unit {r : Result} (h : r.bpmConf ≠ nan) : 0 ≤ bpmConfidence r ∧ bpmConfidence r ≤ 1 := by
  unfold bpmConfidence
  dsimp only
  have hc := clamp01 h
  split_ifs
  · exact unit0
  · exact unit_mul hc.1 hc.2 unit07.1 unit07.2
  · exact hc

theorem keyConfidence_unit {r : Result} (h : r.keyConf ≠ nan) : 0 ≤ keyConfidence r ∧ keyConfidence r ≤ 1 := by
  unfold keyConfidence
  dsimp only
  split_ifs
  · exact unit0
  all_goals
    refine unit_mul (unit_mul (clamp01 h).1 (clamp01 h).2 ?_ ?_).1 (unit_mul (clamp01 h).1 (clamp01 h).2 ?_ ?_).2 ?_ ?_
    all_goals first | exact unit07.1 | exact unit07.2 | exact unit06.1 | exact unit06.2 | exact unit085.1
                    | exact unit085.2 | exact unit1.1 | exact unit1.2

/-- the weighted sum in exact arithmetic with rounding: between the extremes up to 2^-21 -/
theorem weighted_bounds {b k g lo hi : ℚ} (hlo : 0 ≤ lo) (hb : lo ≤ b ∧ b ≤ hi) (hk : lo ≤ k ∧ k ≤ hi)
    (hg : lo ≤ g ∧ g ≤ hi) :
    lo * (1 - 1 / 2 ^ 21) - 1 / 2 ^ 140 ≤
      rndQ (rndQ (rndQ (b * (13421773 / 33554432)) + rndQ (k * (10066330 / 33554432))) +
        rndQ (g * (10066330 / 33554432))) ∧
    rndQ (rndQ (rndQ (b * (13421773 / 33554432)) + rndQ (k * (10066330 / 33554432))) +
        rndQ (g * (10066330 / 33554432))) ≤ hi * (1 + 1 / 2 ^ 21) + 1 / 2 ^ 140 := by
  have hb0 : 0 ≤ b := by linarith
  have hk0 : 0 ≤ k := by linarith
  have hg0 : 0 ≤ g := by linarith
  have hh0 : 0 ≤ hi := by linarith
  have n1 : 0 ≤ b * (13421773 / 33554432) := by positivity
  have n2 : 0 ≤ k * (10066330 / 33554432) := by positivity
  have n3 : 0 ≤ g * (10066330 / 33554432) := by positivity
  have u1 := rndQ_up n1
  have u2 := rndQ_up n2
  have u3 := rndQ_up n3
  have d1 := rndQ_down n1
  have d2 := rndQ_down n2
  have d3 := rndQ_down n3
  have p1 := rndQ_nonneg n1
  have p2 := rndQ_nonneg n2
  have p3 := rndQ_nonneg n3
  generalize rndQ (b * (13421773 / 33554432)) = x at *
  generalize rndQ (k * (10066330 / 33554432)) = y at *
  generalize rndQ (g * (10066330 / 33554432)) = z at *
  have n4 : 0 ≤ x + y := by linarith
  have u4 := rndQ_up n4
  have d4 := rndQ_down n4
  have p4 := rndQ_nonneg n4
  generalize rndQ (x + y) = w at *
  have n5 : 0 ≤ w + z := by linarith
  have u5 := rndQ_up n5
  have d5 := rndQ_down n5
  generalize rndQ (w + z) = t at *
  unfold eps eta at *
  norm_num at *
  constructor <;> linarith

/-- the overall score in terms of its three components -/
theorem overall_bounds {b k g : F32} (hb : 0 ≤ b ∧ b ≤ 1) (hk : 0 ≤ k ∧ k ≤ 1) (hg : 0 ≤ g ∧ g ≤ 1) :
    b * 0.4 + k * 0.3 + g * 0.3 ≠ nan ∧
    ∀ lo hi : ℚ, 0 ≤ lo → hi ≤ 1 → (lo ≤ b.val ∧ b.val ≤ hi) → (lo ≤ k.val ∧ k.val ≤ hi) →
      (lo ≤ g.val ∧ g.val ≤ hi) →
      lo * (1 - 1 / 2 ^ 21) - 1 / 2 ^ 140 ≤ (F32.clamp (b * 0.4 + k * 0.3 + g * 0.3) 0 1).val ∧
      (F32.clamp (b * 0.4 + k * 0.3 + g * 0.3) 0 1).val ≤ hi * (1 + 1 / 2 ^ 21) + 1 / 2 ^ 140 := by
  obtain ⟨bv, hbv, rfl, hb0, hb1⟩ := unit_cases hb.1 hb.2
  obtain ⟨kv, hkv, rfl, hk0, hk1⟩ := unit_cases hk.1 hk.2
  obtain ⟨gv, hgv, rfl, hg0, hg1⟩ := unit_cases hg.1 hg.2
  obtain ⟨h4, e4⟩ := lit04
  obtain ⟨h3, e3⟩ := lit03
  rw [e4, e3, mul_fin, mul_fin, mul_fin]
  have g1 := grid_one
  have two : OnGrid (2:ℚ) ∧ |(2:ℚ)| < pow2 128 := by simpa using grid_nat (n := 2) (by norm_num)
  obtain ⟨ha, ea, ba⟩ := rnd_finite_of_abs_le (q := bv * (13421773 / 33554432)) g1
    (by rw [abs_of_nonneg (by positivity)]; linarith)
  obtain ⟨hc, ec, bc⟩ := rnd_finite_of_abs_le (q := kv * (10066330 / 33554432)) g1
    (by rw [abs_of_nonneg (by positivity)]; linarith)
  obtain ⟨hd, ed, bd⟩ := rnd_finite_of_abs_le (q := gv * (10066330 / 33554432)) g1
    (by rw [abs_of_nonneg (by positivity)]; linarith)
  have n1 := rndQ_nonneg (q := bv * (13421773 / 33554432)) (by positivity)
  have n2 := rndQ_nonneg (q := kv * (10066330 / 33554432)) (by positivity)
  have n3 := rndQ_nonneg (q := gv * (10066330 / 33554432)) (by positivity)
  rw [ea, ec, ed, add_fin]
  have up1 := rndQ_up (q := bv * (13421773 / 33554432)) (by positivity)
  have up2 := rndQ_up (q := kv * (10066330 / 33554432)) (by positivity)
  have hs : |rndQ (bv * (13421773 / 33554432)) + rndQ (kv * (10066330 / 33554432))| ≤ 1 := by
    rw [abs_of_nonneg (by linarith)]
    unfold eps eta at *
    norm_num at *
    linarith
  obtain ⟨he, ee, be⟩ := rnd_finite_of_abs_le g1 hs
  have n4 := rndQ_nonneg (q := rndQ (bv * (13421773 / 33554432)) + rndQ (kv * (10066330 / 33554432))) (by linarith)
  rw [ee, add_fin]
  rw [abs_of_nonneg n4] at be
  rw [abs_of_nonneg n3] at bd
  have hs2 : |rndQ (rndQ (bv * (13421773 / 33554432)) + rndQ (kv * (10066330 / 33554432))) +
      rndQ (gv * (10066330 / 33554432))| ≤ 2 := by
    rw [abs_of_nonneg (by linarith)]
    linarith
  obtain ⟨hf, ef, bf⟩ := rnd_finite_of_abs_le two hs2
  rw [ef]
  refine ⟨by simp, ?_⟩
  intro lo hi hlo hhi b1 b2 b3
  have key := weighted_bounds hlo b1 b2 b3
  simp only [val] at key
  have n5 := rndQ_nonneg (q := rndQ (rndQ (bv * (13421773 / 33554432)) + rndQ (kv * (10066330 / 33554432))) +
      rndQ (gv * (10066330 / 33554432))) (by linarith)
  rw [clamp01_val n5]
  have hlo1 : lo ≤ 1 := by linarith [b1.1, b1.2]
  refine ⟨_root_.le_min key.1 ?_, _root_.le_trans (_root_.min_le_left _ _) key.2⟩
  norm_num
  linarith

/-- Which of the three classes a score belongs to, on the documented thresholds. -/
def ClassOf (x : F32) (name : List Char) : Prop :=
  (name = "High".toList ∧ (0.7 : F32) ≤ x) ∨ (name = "Medium".toList ∧ (0.5 : F32) ≤ x ∧ x < 0.7) ∨
  (name = "Low".toList ∧ x < 0.5)

/-- **C50** -/
theorem C50_scores (r : Result) (hb : r.bpmConf ≠ nan) (hk : r.keyConf ≠ nan) (hg : r.gridStab ≠ nan) :
    let s := computeConfidence r
    (0 ≤ s.bpm ∧ s.bpm ≤ 1) ∧ (0 ≤ s.key ∧ s.key ≤ 1) ∧ (0 ≤ s.grid ∧ s.grid ≤ 1) ∧
    (0 ≤ s.overall ∧ s.overall ≤ 1) ∧
    -- failed estimates contribute nothing
    (r.bpm ≤ 0 → s.bpm = 0) ∧ (r.keyConf ≤ 0 → s.key = 0) ∧ (s.bpm = 0 → s.key = 0 → s.overall = 0) ∧
    -- exactly one class, and the level names it
    (s.isHigh.toNat + s.isMedium.toNat + s.isLow.toNat = 1) ∧
    (∀ name, s.level = name ↔ ClassOf s.overall name) ∧
    -- never above the best component (up to rounding)
    s.overall.val ≤ max s.bpm.val (max s.key.val s.grid.val) * (1 + 1 / 2 ^ 21) + 1 / 2 ^ 140 ∧
    -- with both estimates available it is not below the worst component either
    (0 < s.bpm → 0 < s.key →
      min s.bpm.val (min s.key.val s.grid.val) * (1 - 1 / 2 ^ 21) - 1 / 2 ^ 140 ≤ s.overall.val) := by
  have ub := bpmConfidence_unit hb
  have uk := keyConfidence_unit hk
  have ug := clamp01 hg
  obtain ⟨hnn, hov⟩ := overall_bounds ub uk ug
  have hclass : ∀ s : Scores, s.overall ≠ nan →
      (s.isHigh.toNat + s.isMedium.toNat + s.isLow.toNat = 1) ∧ (∀ name, s.level = name ↔ ClassOf s.overall name) := by
    intro s hs
    have n7 : (0.7 : F32) ≠ nan := by decide +kernel
    have n5 : (0.5 : F32) ≠ nan := by decide +kernel
    have l57 : (0.5 : F32) < 0.7 := by decide +kernel
    unfold Scores.level Scores.isHigh Scores.isMedium Scores.isLow ClassOf
    by_cases h7 : (0.7 : F32) ≤ s.overall
    · have a1 : ¬ s.overall < 0.5 := not_lt_of_le (le_trans (le_of_lt l57) h7)
      have a2 : ¬ s.overall < 0.7 := not_lt_of_le h7
      simp [h7, a1, a2, eq_comm]
    · have a2 := lt_of_not_le hs n7 h7
      by_cases h5 : s.overall < 0.5
      · have a1 := not_le_of_lt h5
        simp [h7, h5, a1, eq_comm]
      · have a1 := le_of_not_lt n5 hs h5
        simp [h7, h5, a1, a2, eq_comm]
  intro s
  have e1 : s.bpm = bpmConfidence r := rfl
  have e2 : s.key = keyConfidence r := rfl
  have e3 : s.grid = F32.clamp r.gridStab 0 1 := rfl
  have e4 : s.overall = if 0 < s.bpm ∧ 0 < s.key then F32.clamp (s.bpm * 0.4 + s.key * 0.3 + s.grid * 0.3) 0 1
    else if 0 < s.bpm then s.bpm * 0.6 else if 0 < s.key then s.key * 0.6 else 0 := rfl
  clear_value s
  rw [← e1, ← e2, ← e3] at hnn hov
  rw [← e1] at ub
  rw [← e2] at uk
  rw [← e3] at ug
  have vb : 0 ≤ s.bpm.val ∧ s.bpm.val ≤ 1 := by
    obtain ⟨v, hv, e, h0, h1⟩ := unit_cases ub.1 ub.2
    rw [e]; exact ⟨h0, h1⟩
  have vk : 0 ≤ s.key.val ∧ s.key.val ≤ 1 := by
    obtain ⟨v, hv, e, h0, h1⟩ := unit_cases uk.1 uk.2
    rw [e]; exact ⟨h0, h1⟩
  have vg : 0 ≤ s.grid.val ∧ s.grid.val ≤ 1 := by
    obtain ⟨v, hv, e, h0, h1⟩ := unit_cases ug.1 ug.2
    rw [e]; exact ⟨h0, h1⟩
  have uo : 0 ≤ s.overall ∧ s.overall ≤ 1 := by
    rw [e4]
    split_ifs
    · exact clamp01 hnn
    · exact unit_mul ub.1 ub.2 unit06.1 unit06.2
    · exact unit_mul uk.1 uk.2 unit06.1 unit06.2
    · exact unit0
  have vle : ∀ {a b : F32}, 0 ≤ a → a ≤ b → b ≤ 1 → a.val ≤ b.val := by
    intro a b h0 h1 h2
    obtain ⟨v, hv, rfl, _, _⟩ := unit_cases h0 (le_trans h1 h2)
    obtain ⟨w, hw, rfl, _, _⟩ := unit_cases (le_trans h0 h1) h2
    exact fin_le_fin.1 h1
  have m6 : ∀ {a : F32}, 0 ≤ a → a ≤ 1 → (a * 0.6).val ≤ a.val := by
    intro a h0 h1
    have := mul_le_of_le_one h0 unit06.1 unit06.2 (isFinite_of_unit h0 h1)
    exact vle this.1 this.2 h1
  have hmax : ∀ x : ℚ, 0 ≤ x → x ≤ x * (1 + 1 / 2 ^ 21) + 1 / 2 ^ 140 := by
    intro x hx
    norm_num
    linarith
  refine ⟨ub, uk, ug, uo, ?_, ?_, ?_, (hclass s (ne_nan_left uo.2)).1, (hclass s (ne_nan_left uo.2)).2, ?_, ?_⟩
  · intro h
    rw [e1]; unfold bpmConfidence; rw [if_pos h]
  · intro h
    rw [e2]; unfold keyConfidence; rw [if_pos h]
  · intro h1 h2
    rw [e4, h1, h2]
    simp [F32.lt_irrefl]
  · rw [e4]
    have m0 : 0 ≤ max s.bpm.val (max s.key.val s.grid.val) := _root_.le_trans vb.1 (_root_.le_max_left _ _)
    have mb : s.bpm.val ≤ max s.bpm.val (max s.key.val s.grid.val) := _root_.le_max_left _ _
    have mk : s.key.val ≤ max s.bpm.val (max s.key.val s.grid.val) :=
      _root_.le_trans (_root_.le_max_left _ _) (_root_.le_max_right _ _)
    have mg : s.grid.val ≤ max s.bpm.val (max s.key.val s.grid.val) :=
      _root_.le_trans (_root_.le_max_right _ _) (_root_.le_max_right _ _)
    split_ifs
    · exact (hov 0 _ (_root_.le_refl _) (_root_.max_le vb.2 (_root_.max_le vk.2 vg.2)) ⟨vb.1, mb⟩ ⟨vk.1, mk⟩ ⟨vg.1, mg⟩).2
    · exact _root_.le_trans (_root_.le_trans (m6 ub.1 ub.2) mb) (hmax _ m0)
    · exact _root_.le_trans (_root_.le_trans (m6 uk.1 uk.2) mk) (hmax _ m0)
    · rw [zero_def]; exact _root_.le_trans m0 (hmax _ m0)
  · intro h1 h2
    rw [e4, if_pos ⟨h1, h2⟩]
    exact (hov _ 1 (_root_.le_min vb.1 (_root_.le_min vk.1 vg.1)) (_root_.le_refl _)
      ⟨_root_.min_le_left _ _, vb.2⟩ ⟨_root_.le_trans (_root_.min_le_right _ _) (_root_.min_le_left _ _), vk.2⟩
      ⟨_root_.le_trans (_root_.min_le_right _ _) (_root_.min_le_right _ _), vg.2⟩).1

/-- **C50**, flags: the incoming flags are kept and each low score adds its flag. -/
theorem C50_flags (r : Result) (f : Flag) :
    let s := computeConfidence r
    r.flags <+: s.flags ∧
    (f ∈ s.flags ↔ f ∈ r.flags ∨ (f = .multimodalBpm ∧ s.bpm < 0.3) ∨ (f = .weakTonality ∧ s.key < 0.2) ∨
      (f = .tempoVariation ∧ s.grid < 0.3)) := by
  intro s
  have e : s.flags = r.flags ++ (if s.bpm < 0.3 then [.multimodalBpm] else []) ++
    (if s.key < 0.2 then [.weakTonality] else []) ++ (if s.grid < 0.3 then [.tempoVariation] else []) := rfl
  clear_value s
  rw [e]
  constructor
  · simp only [List.append_assoc]; exact List.prefix_append _ _
  · by_cases h1 : s.bpm < 0.3 <;> by_cases h2 : s.key < 0.2 <;> by_cases h3 : s.grid < 0.3 <;>
      simp [h1, h2, h3]

/-- Why NaN fields are excluded: with a NaN grid stability the result is in no class although the level
reads "Medium". -/
theorem C50_nan :
    let s := computeConfidence ⟨120, 1, 1, 1, nan, [], []⟩
    s.overall = nan ∧ s.isHigh = false ∧ s.isMedium = false ∧ s.isLow = false ∧ s.level = "Medium".toList := by
  decide +kernel

/-- non-vacuity -/
example : let s := computeConfidence ⟨128, 0.9, 0.8, 0.3, 0.6, ["Low key clarity".toList], []⟩
    0 < s.bpm ∧ 0 < s.key ∧ s.key < 0.6 ∧ s.level = "Medium".toList := by decide +kernel

end Verif.Props
