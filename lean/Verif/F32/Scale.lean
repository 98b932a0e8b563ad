import Verif.F32.Bounds

/-! Scaling by a power of two commutes with rounding, upwards, for sums of grid values. -/

namespace Verif


theorem log_scale {q : ℚ} (hq : q ≠ 0) (k : ℤ) : Int.log 2 |pow2 k * q| = k + Int.log 2 |q| := by
  have hp : 0 < |q| := abs_pos.2 hq
  have h1 : pow2 (Int.log 2 |q|) ≤ |q| := by rw [pow2_eq]; exact_mod_cast Int.zpow_log_le_self (by norm_num) hp
  have h2 : |q| < pow2 (Int.log 2 |q| + 1) := by rw [pow2_eq]; exact_mod_cast Int.lt_zpow_succ_log_self (by norm_num) |q|
  have hk := pow2_pos k
  have ha : |pow2 k * q| = pow2 k * |q| := by rw [abs_mul, abs_of_pos hk]
  apply le_antisymm
  · refine log_le_of_lt (mul_ne_zero hk.ne' hq) ?_
    rw [ha, add_assoc, pow2_add]
    exact mul_lt_mul_of_pos_left h2 hk
  · apply le_log_of_le
    rw [ha, pow2_add]
    exact mul_le_mul_of_nonneg_left h1 hk.le

theorem rndQ_scale {q : ℚ} (hq : pow2 (-126) ≤ |q|) {k : ℤ} (hk : 0 ≤ k) : rndQ (pow2 k * q) = pow2 k * rndQ q := by
  have hq0 : q ≠ 0 := by
    rintro rfl
    rw [abs_zero] at hq
    exact absurd hq (not_le.2 (pow2_pos _))
  have hl := le_log_of_le hq
  have e : ulpExp (pow2 k * q) = k + ulpExp q := by
    unfold ulpExp
    rw [log_scale hq0]
    omega
  unfold rndQ
  rw [e, pow2_add, mul_div_mul_left _ _ (pow2_pos k).ne']
  ring

/-- sums of grid values that are tiny are on the grid -/
theorem grid_tiny_sum {a b : ℚ} (ha : OnGrid a) (hb : OnGrid b) (h : |a + b| < pow2 (-126)) : ∃ m : ℤ, |m| ≤ 2 ^ 24 ∧
    a + b = m * pow2 (-149) := by
  have key : ∀ x, OnGrid x → ∃ m : ℤ, x = m * pow2 (-149) := by
    intro x hx
    obtain ⟨m, e, _, he, rfl⟩ := (onGrid_iff x).1 hx
    obtain ⟨n, hn⟩ := Int.eq_ofNat_of_zero_le (by omega : 0 ≤ e + 149)
    refine ⟨m * 2 ^ n, ?_⟩
    have : pow2 e = 2 ^ n * pow2 (-149) := by
      rw [← pow2_nat, ← pow2_add]; congr 1; omega
    rw [this]; push_cast; ring
  obtain ⟨m, hm⟩ := key a ha
  obtain ⟨n, hn⟩ := key b hb
  refine ⟨m + n, ?_, by rw [hm, hn]; push_cast; ring⟩
  have h2 : (|((m + n : ℤ) : ℚ)|) * pow2 (-149) < pow2 23 * pow2 (-149) := by
    rw [← pow2_add]
    have : a + b = ((m + n : ℤ) : ℚ) * pow2 (-149) := by rw [hm, hn]; push_cast; ring
    rw [this, abs_mul, abs_of_pos (pow2_pos (-149))] at h
    exact h
  have h3 := lt_of_mul_lt_mul_right h2 (pow2_pos (-149)).le
  have h4 : |((m + n : ℤ) : ℚ)| ≤ ((2 ^ 24 : ℤ) : ℚ) := by
    refine le_trans h3.le ?_
    rw [show (23 : ℤ) = ((23 : ℕ) : ℤ) from rfl, pow2_nat]; norm_num
  exact_mod_cast h4

theorem rndQ_scale_add {a b : ℚ} (ha : OnGrid a) (hb : OnGrid b) {k : ℤ} (hk : 0 ≤ k) :
    rndQ (pow2 k * (a + b)) = pow2 k * rndQ (a + b) := by
  by_cases h : pow2 (-126) ≤ |a + b|
  · exact rndQ_scale h hk
  · obtain ⟨m, hm, e⟩ := grid_tiny_sum ha hb (not_le.1 h)
    have g1 : OnGrid (a + b) := (onGrid_iff _).2 ⟨m, -149, hm, le_refl _, e⟩
    have g2 : OnGrid (pow2 k * (a + b)) := (onGrid_iff _).2 ⟨m, k + -149, hm, by omega, by rw [e, pow2_add]; ring⟩
    rw [show rndQ (a + b) = a + b from g1, show rndQ (pow2 k * (a + b)) = pow2 k * (a + b) from g2]

theorem grid_scale {a : ℚ} (ha : OnGrid a) {k : ℤ} (hk : 0 ≤ k) : OnGrid (pow2 k * a) := by
  obtain ⟨m, e, hm, he, rfl⟩ := (onGrid_iff a).1 ha
  exact (onGrid_iff _).2 ⟨m, k + e, hm, by omega, by rw [pow2_add]; ring⟩

end Verif
