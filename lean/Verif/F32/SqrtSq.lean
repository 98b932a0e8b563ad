/-
The square root of a rounded square is not below the number itself, outside the underflow range:
`|x| ≤ sqrt(fl(x·x))` for `2^-60 ≤ |x|`.
-/
import Verif.F32.Sqrt
import Verif.F32.Bounds

namespace Verif
namespace F32

theorem roundEven_of_near {z : ℚ} {m : ℤ} (h : |z - m| < 1 / 2) : roundEven z = m := by
  have h1 := abs_roundEven_sub_le z
  have h2 : |((roundEven z - m : ℤ) : ℚ)| < 1 := by
    push_cast
    have := abs_add_le ((roundEven z : ℚ) - z) (z - m)
    rw [show ((roundEven z : ℚ) - z) + (z - m) = (roundEven z : ℚ) - m by ring] at this
    linarith
  have h3 : |roundEven z - m| < 1 := by exact_mod_cast h2
  rw [Int.abs_lt_one_iff] at h3
  omega

theorem sqrtQ_sq_lower {x : ℚ} (hx : OnGrid x) (h : pow2 (-60) ≤ x) : x ≤ rndQ (sqrtQ (rndQ (x * x))) := by
  have hx0 : 0 < x := _root_.lt_of_lt_of_le (pow2_pos _) h
  have habs : |x| = x := abs_of_pos hx0
  have hlog : -60 ≤ Int.log 2 |x| := le_log_of_le (by rw [habs]; exact h)
  have hE : ulpExp x = Int.log 2 |x| - 23 := by unfold ulpExp; omega
  have hE' : -83 ≤ ulpExp x := by omega
  obtain ⟨m, hm⟩ : ∃ m : ℤ, x = m * pow2 (ulpExp x) := ⟨_, hx.symm⟩
  have hp := pow2_pos (ulpExp x)
  have hlo : pow2 (Int.log 2 |x|) ≤ x := by
    have : ((2 : ℕ) : ℚ) ^ Int.log 2 |x| ≤ |x| := Int.zpow_log_le_self (by norm_num) (abs_pos.2 hx0.ne')
    rw [habs] at this
    rw [pow2_eq, habs]
    exact_mod_cast this
  have hlo' : pow2 (Int.log 2 |x|) = 2 ^ 23 * pow2 (ulpExp x) := by
    rw [hE, show Int.log 2 |x| = 23 + (Int.log 2 |x| - 23) by ring, pow2_add]
    congr 1
    ring_nf
  have hm1 : (2 : ℤ) ^ 23 ≤ m := by
    have : (2 : ℚ) ^ 23 * pow2 (ulpExp x) ≤ m * pow2 (ulpExp x) := by rw [← hlo', ← hm]; exact hlo
    have := le_of_mul_le_mul_right this hp
    exact_mod_cast this
  have hm2 : m ≤ 2 ^ 24 - 1 := by
    have := abs_lt_ulp x
    rw [habs] at this
    have : (m : ℚ) * pow2 (ulpExp x) < 2 ^ 24 * pow2 (ulpExp x) := by rw [← hm]; exact this
    have := lt_of_mul_lt_mul_right this hp.le
    have : m < 2 ^ 24 := by exact_mod_cast this
    omega
  rcases eq_or_lt_of_le hm1 with heq | hgt
  · -- a power of two: everything is exact
    have hxp : x = pow2 (Int.log 2 |x|) := by
      have e : ((2 : ℚ) ^ 23) = m := by rw [← heq]; norm_num
      rw [hlo', e]; exact hm
    generalize Int.log 2 |x| = L at hxp hlog
    have hsq : x * x = pow2 (L + L) := by rw [pow2_add, ← hxp]
    have hg : rndQ (x * x) = x * x := by rw [hsq]; exact onGrid_pow2 (by omega)
    rw [hg]
    exact le_rndQ_of_onGrid hx (le_sqrtQ hx hx0.le (_root_.le_refl _))
  · have hmq1 : (2 : ℚ) ^ 23 + 1 ≤ m := by exact_mod_cast hgt
    have hmq2 : (m : ℚ) ≤ 2 ^ 24 - 1 := by exact_mod_cast hm2
    set c : ℚ := 1 / 2 ^ 25 + 1 / 2 ^ 50 with hc
    have hy : x * (1 - c) = ((m.toNat * 2 ^ (ulpExp x + 150).toNat * (2 ^ 50 - 2 ^ 25 - 1) : ℕ) : ℚ) / 2 ^ 200 := by
      have e1 : pow2 (ulpExp x) = (2 : ℚ) ^ (ulpExp x + 150).toNat / 2 ^ 150 := by
        rw [eq_div_iff (by positivity), ← pow2_nat, ← pow2_nat, ← pow2_add]
        congr 1
        push_cast
        rw [Int.toNat_of_nonneg (by omega)]
      have e2 : ((m.toNat : ℕ) : ℚ) = m := by
        have : ((m.toNat : ℕ) : ℤ) = m := Int.toNat_of_nonneg (by omega)
        exact_mod_cast this
      have e3 : ((2 ^ 50 - 2 ^ 25 - 1 : ℕ) : ℚ) = 2 ^ 50 * (1 - c) := by
        rw [hc]; norm_num
      rw [Nat.cast_mul, Nat.cast_mul, e2, e3, Nat.cast_pow, Nat.cast_ofNat]
      conv_lhs => rw [hm, e1]
      ring
    have hv : x * x * (1 - 1 / 2 ^ 24) ≤ rndQ (x * x) := by
      have hge : pow2 (-126) ≤ |x * x| := by
        rw [abs_of_pos (by positivity)]
        have h1 : pow2 (-120) = pow2 (-60) * pow2 (-60) := by rw [← pow2_add]; norm_num
        have h2 : pow2 (-60) * pow2 (-60) ≤ x * x :=
          _root_.mul_le_mul h h (pow2_pos _).le hx0.le
        have h3 : pow2 (-126) ≤ pow2 (-120) := pow2_le (by norm_num)
        linarith
      have := abs_rndQ_sub_le_rel hge
      rw [abs_of_pos (by positivity : 0 < x * x), pow2_m24'] at this
      have h4 := (abs_le.1 this).1
      unfold eps at h4
      linarith
    have hsqy : (x * (1 - c)) * (x * (1 - c)) ≤ rndQ (x * x) := by
      have : (1 - c) * (1 - c) ≤ 1 - 1 / 2 ^ 24 := by rw [hc]; norm_num
      have hxx : 0 ≤ x * x := by positivity
      calc _ = x * x * ((1 - c) * (1 - c)) := by ring
        _ ≤ x * x * (1 - 1 / 2 ^ 24) := _root_.mul_le_mul_of_nonneg_left this hxx
        _ ≤ _ := hv
    have hle : x * (1 - c) ≤ sqrtQ (rndQ (x * x)) := by
      rw [hy] at hsqy ⊢
      apply le_sqrtQ_scaled
      rw [div_mul_div_comm, div_le_iff₀ (by positivity)] at hsqy
      refine hsqy.trans (le_of_eq ?_)
      rw [← pow_add]
    have hc0 : 0 < 1 - c := by rw [hc]; norm_num
    have hy0 : 0 < x * (1 - c) := by positivity
    -- the same binade
    have hlogy : Int.log 2 |x * (1 - c)| = Int.log 2 |x| := by
      have hya : |x * (1 - c)| = x * (1 - c) := abs_of_pos hy0
      apply _root_.le_antisymm
      · apply log_le_of_lt hy0.ne'
        rw [hya]
        have h1 : x < pow2 (Int.log 2 |x| + 1) := by
          have : |x| < ((2 : ℕ) : ℚ) ^ (Int.log 2 |x| + 1) := Int.lt_zpow_succ_log_self (by norm_num) |x|
          rw [pow2_eq]
          calc x = |x| := habs.symm
            _ < _ := by exact_mod_cast this
        have h2 : x * (1 - c) ≤ x * 1 := _root_.mul_le_mul_of_nonneg_left (by rw [hc]; norm_num) hx0.le
        linarith
      · apply le_log_of_le
        rw [hya, hlo']
        have h1 : (2 : ℚ) ^ 23 ≤ m * (1 - c) := by
          have : ((2 : ℚ) ^ 23 + 1) * (1 - c) ≤ m * (1 - c) := _root_.mul_le_mul_of_nonneg_right hmq1 hc0.le
          have h3 : (2 : ℚ) ^ 23 ≤ (2 ^ 23 + 1) * (1 - c) := by rw [hc]; norm_num
          linarith
        calc (2 : ℚ) ^ 23 * pow2 (ulpExp x) ≤ (m * (1 - c)) * pow2 (ulpExp x) := _root_.mul_le_mul_of_nonneg_right h1 hp.le
          _ = (m * pow2 (ulpExp x)) * (1 - c) := by ring
          _ = _ := by rw [← hm]
    have hulp : ulpExp (x * (1 - c)) = ulpExp x := by unfold ulpExp; rw [hlogy]
    have hr : rndQ (x * (1 - c)) = x := by
      unfold rndQ
      rw [hulp]
      have hz : roundEven (x * (1 - c) / pow2 (ulpExp x)) = m := by
        apply roundEven_of_near
        have : x * (1 - c) / pow2 (ulpExp x) = m * (1 - c) := by
          rw [div_eq_iff hp.ne']
          conv_lhs => rw [hm]
          ring
        rw [this, show (m : ℚ) * (1 - c) - m = -(m * c) by ring, abs_neg, abs_of_nonneg (by rw [hc]; positivity)]
        have : (m : ℚ) * c ≤ (2 ^ 24 - 1) * c := _root_.mul_le_mul_of_nonneg_right hmq2 (by rw [hc]; norm_num)
        refine _root_.lt_of_le_of_lt this ?_
        rw [hc]; norm_num
      rw [hz, ← hm]
    have := rndQ_mono hle
    rwa [hr] at this

/-- `x ≤ (x * x).sqrt()` for `x ≥ 2^-60` -/
theorem le_sqrt_sq {x : F32} (h : rnd (pow2 (-60)) ≤ x) : x ≤ F32.sqrt (x * x) := by
  have e : rnd (pow2 (-60)) = fin (pow2 (-60)) (by decide +kernel) := by decide +kernel
  rw [e] at h
  rcases x with _ | s | ⟨v, hv⟩
  · simp at h
  · cases s
    · decide +kernel
    · simp at h
  · rw [fin_le_fin] at h
    have hv0 : 0 ≤ v := (pow2_pos _).le.trans h
    rw [mul_fin]
    by_cases hov : pow2 128 ≤ rndQ (v * v)
    · have : rnd (v * v) = inf false := by unfold rnd; rw [dif_pos hov]
      rw [this]
      show _ ≤ inf false
      simp
    · have hlt : |rndQ (v * v)| < pow2 128 := by
        rw [abs_of_nonneg (rndQ_nonneg (mul_self_nonneg v))]; exact not_le.1 hov
      rw [rnd_of_lt hlt, sqrt_fin (rndQ_nonneg (mul_self_nonneg v))]
      have hq := sqrtQ_sq_lower hv.1 h
      have := rnd_mono (_root_.le_refl (sqrtQ (rndQ (v * v))))
      by_cases ho : pow2 128 ≤ rndQ (sqrtQ (rndQ (v * v)))
      · have : rnd (sqrtQ (rndQ (v * v))) = inf false := by unfold rnd; rw [dif_pos ho]
        rw [this]; simp
      · rw [rnd_of_lt (by rw [abs_of_nonneg (hv0.trans hq)]; exact not_le.1 ho), fin_le_fin]
        exact hq

end F32
end Verif
