/-
Two-sided error bounds for rounding and for products/sums of values in the unit interval.
-/
import Verif.F32.More

namespace Verif.F32
open Verif

/-- relative rounding unit -/
def eps : ℚ := 1 / 2 ^ 24
/-- absolute rounding unit in the subnormal range -/
def eta : ℚ := 1 / 2 ^ 150

theorem pow2_m24' : pow2 (-24) = eps := by rw [pow2_eq]; unfold eps; norm_num [zpow_neg]
theorem pow2_m150' : pow2 (-150) = eta := by rw [pow2_eq]; unfold eta; norm_num [zpow_neg]

theorem rndQ_up {q : ℚ} (h : 0 ≤ q) : rndQ q ≤ q * (1 + eps) + eta := by
  have he : (0:ℚ) ≤ eps := by unfold eps; norm_num
  have ht : (0:ℚ) ≤ eta := by unfold eta; norm_num
  have hm := _root_.mul_nonneg h he
  rcases _root_.le_total (pow2 (-126)) |q| with h1 | h1
  · have := abs_rndQ_sub_le_rel h1
    rw [abs_of_nonneg h, pow2_m24', _root_.abs_le] at this
    linarith [this.2]
  · have := abs_rndQ_sub_le_sub h1
    rw [pow2_m150', _root_.abs_le] at this
    linarith [this.2]

theorem rndQ_down {q : ℚ} (h : 0 ≤ q) : q * (1 - eps) - eta ≤ rndQ q := by
  have he : (0:ℚ) ≤ eps := by unfold eps; norm_num
  have ht : (0:ℚ) ≤ eta := by unfold eta; norm_num
  have hm := _root_.mul_nonneg h he
  rcases _root_.le_total (pow2 (-126)) |q| with h1 | h1
  · have := abs_rndQ_sub_le_rel h1
    rw [abs_of_nonneg h, pow2_m24', _root_.abs_le] at this
    linarith [this.1]
  · have := abs_rndQ_sub_le_sub h1
    rw [pow2_m150', _root_.abs_le] at this
    linarith [this.1]

theorem unit_mul {a b : F32} (ha0 : 0 ≤ a) (ha1 : a ≤ 1) (hb0 : 0 ≤ b) (hb1 : b ≤ 1) :
    0 ≤ a * b ∧ a * b ≤ 1 := by
  have hf := isFinite_of_unit ha0 ha1
  have hg := isFinite_of_unit hb0 hb1
  exact ⟨mul_nonneg ha0 hb0 (mul_fin_ne_nan hf hg), le_trans (mul_le_of_le_one ha0 hb0 hb1 hf).2 ha1⟩

/-- clamping a non-negative value to the unit interval, on rationals -/
theorem clamp01_val {t : ℚ} {h} (h0 : 0 ≤ t) : (F32.clamp (fin t h) 0 1).val = Min.min t 1 := by
  unfold F32.clamp
  rw [zero_def, one_def]
  have h1 : ¬ (fin t h < fin 0 grid_zero) := by
    rw [fin_lt_fin]; exact not_lt.2 h0
  rw [if_neg h1]
  rcases _root_.le_or_gt t 1 with h2 | h2
  · rw [if_neg (by rw [fin_lt_fin]; exact not_lt.2 h2), min_eq_left h2]; rfl
  · rw [if_pos (by rw [fin_lt_fin]; exact h2), min_eq_right (_root_.le_of_lt h2)]; rfl

theorem clamp_eq_hi {x lo hi : F32} (h : lo ≤ hi) (hx : hi ≤ x) : F32.clamp x lo hi = hi := by
  unfold F32.clamp
  rw [if_neg (not_lt_of_le (le_trans h hx))]
  dsimp only
  split_ifs with h1
  · rfl
  · exact (le_antisymm hx (le_of_not_lt (ne_nan_right hx) (ne_nan_left hx) h1)).symm

/-- rounding goes to a nearest grid point -/
theorem rndQ_nearest (q : ℚ) {g : ℚ} (hg : OnGrid g) : |rndQ q - q| ≤ |g - q| := by
  rcases eq_or_ne q 0 with rfl | hne
  · simp
  have hp := pow2_pos (ulpExp q)
  have key : ∀ m : ℤ, |rndQ q - q| ≤ |(m : ℚ) * pow2 (ulpExp q) - q| := by
    intro m
    by_cases h : 1 / 2 ≤ |(m : ℚ) - q / pow2 (ulpExp q)|
    · have e : (m : ℚ) * pow2 (ulpExp q) - q = ((m : ℚ) - q / pow2 (ulpExp q)) * pow2 (ulpExp q) := by field_simp
      rw [e, _root_.abs_mul, abs_of_pos hp]
      have := abs_rndQ_sub_le q
      have := _root_.mul_le_mul_of_nonneg_right h hp.le
      linarith
    · have h1 := abs_lt.1 (not_le.1 h)
      have h2 := _root_.abs_le.1 (abs_roundEven_sub_le (q / pow2 (ulpExp q)))
      have h3 : roundEven (q / pow2 (ulpExp q)) = m := by
        have a1 : ((roundEven (q / pow2 (ulpExp q)) : ℤ) : ℚ) < m + 1 := by linarith [h1.1, h2.2]
        have a2 : (m : ℚ) < (roundEven (q / pow2 (ulpExp q)) : ℤ) + 1 := by linarith [h1.2, h2.1]
        have b1 : roundEven (q / pow2 (ulpExp q)) < m + 1 := by exact_mod_cast a1
        have b2 : m < roundEven (q / pow2 (ulpExp q)) + 1 := by exact_mod_cast a2
        omega
      unfold rndQ; rw [h3]
  obtain ⟨m, e, hm, he, rfl⟩ := (onGrid_iff g).1 hg
  by_cases hle : ulpExp q ≤ e
  · obtain ⟨k, hk⟩ : ∃ k : ℕ, e = ulpExp q + k := ⟨(e - ulpExp q).toNat, by omega⟩
    have := key (m * 2 ^ k)
    have e2 : ((m * 2 ^ k : ℤ) : ℚ) * pow2 (ulpExp q) = m * pow2 e := by
      rw [hk, pow2_add, pow2_nat]; push_cast; ring
    rwa [e2] at this
  · have hlog : ulpExp q = Int.log 2 |q| - 23 := by
      unfold ulpExp at hle ⊢
      rcases max_choice (Int.log 2 |q| - 23) (-149) with h | h
      · exact h
      · rw [h] at hle; omega
    have hq0 : 0 < |q| := abs_pos.2 hne
    have h23 : 2 ^ 23 * pow2 (ulpExp q) ≤ |q| := by
      have h1 : ((2 : ℕ) : ℚ) ^ Int.log 2 |q| ≤ |q| := Int.zpow_log_le_self (by norm_num) hq0
      push_cast at h1
      rw [← pow2_eq] at h1
      have h2 : Int.log 2 |q| = (23 : ℕ) + ulpExp q := by push_cast; omega
      rw [h2, pow2_add, pow2_nat] at h1
      exact h1
    have hg' : |(m : ℚ) * pow2 e| ≤ 2 ^ 23 * pow2 (ulpExp q) := by
      rw [_root_.abs_mul, abs_of_pos (pow2_pos e)]
      have h1 : |(m : ℚ)| ≤ 2 ^ 24 := by exact_mod_cast hm
      have h2 : 2 * pow2 e ≤ pow2 (ulpExp q) := by
        have : pow2 (1 + e) ≤ pow2 (ulpExp q) := pow2_le (by omega)
        rw [pow2_add] at this
        simpa [pow2_eq] using this
      have h3 := _root_.mul_le_mul_of_nonneg_right h1 (pow2_pos e).le
      linarith
    have h4 : |q| - |(m : ℚ) * pow2 e| ≤ |(m : ℚ) * pow2 e - q| := by
      rw [abs_sub_comm]; exact abs_sub_abs_le_abs_sub _ _
    rcases _root_.le_total 0 q with hq | hq
    · have := key (2 ^ 23)
      norm_num at this h23
      rw [abs_of_nonneg hq] at h23 h4
      rw [abs_sub_comm (8388608 * pow2 (ulpExp q)), abs_of_nonneg (by linarith : (0:ℚ) ≤ q - 8388608 * pow2 (ulpExp q))] at this
      linarith
    · have := key (-2 ^ 23)
      norm_num at this h23
      rw [abs_of_nonpos hq] at h23 h4
      rw [abs_of_nonneg (by linarith : (0:ℚ) ≤ -(8388608 * pow2 (ulpExp q)) - q)] at this
      linarith

end Verif.F32
