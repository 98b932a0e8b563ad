import Verif.Props.Bayesian
import Verif.Props.Transpose
import Verif.Props.LogSpec
import Verif.Props.Polarity
import Mathlib.Algebra.Order.Round

/-! Property theorems for claim C109: what the Bayesian tempo update measures. -/

namespace Verif.Props

open Verif Verif.Beat F32

/-! ### specification -/

/-- distance of the time `o` from the nearest beat of a grid with beats `start + m·T`, in exact arithmetic -/
def beatDist (start T o : ℚ) : ℚ := |o - start - round ((o - start) / T) * T|

/-- no beat of the grid is nearer -/
theorem beatDist_le (start T o : ℚ) (hT : 0 < T) (m : ℤ) : beatDist start T o ≤ |o - (start + m * T)| := by
  have h := round_le ((o - start) / T) m
  unfold beatDist
  have e : ∀ z : ℤ, |o - start - z * T| = |(o - start) / T - z| * T := fun z => by
    rw [← abs_of_pos hT, ← _root_.abs_mul, abs_of_pos hT]
    congr 1; field_simp
  have e2 : o - (start + m * T) = o - start - m * T := by ring
  rw [e2, e, e]
  exact _root_.mul_le_mul_of_nonneg_right h hT.le

/-! ### rounding of one onset's distance -/

/-- error of one rounding of a number that is at least 2^-126 or so small that 2^-150 covers it; in units of 2^-24 -/
theorem err_D {q B D : ℚ} (hD : 1 ≤ D) (hq : |q| ≤ B * D) : |rndQ q - q| ≤ (B + 1 / 100) * D / 2 ^ 24 := by
  have h := err_pow q
  refine _root_.le_trans h ?_
  have : (1 : ℚ) / 2 ^ 150 ≤ 1 / 100 * D / 2 ^ 24 := by
    norm_num at hD ⊢; linarith
  have e : (B + 1 / 100) * D / 2 ^ 24 = B * D / 2 ^ 24 + 1 / 100 * D / 2 ^ 24 := by ring
  rw [e]
  have : |q| / 2 ^ 24 ≤ B * D / 2 ^ 24 := by gcongr
  linarith

theorem fin_of_le {q : ℚ} (h : |q| ≤ 2 ^ 60) : ∃ hq, rnd q = fin (rndQ q) hq := by
  have he := err_pow q
  have h3 : |rndQ q| ≤ |rndQ q - q| + |q| := by
    have := abs_add_le (rndQ q - q) q
    simpa using this
  have hlt : |rndQ q| < pow2 128 := by
    rw [pow2_eq]
    refine _root_.lt_of_le_of_lt h3 ?_
    norm_num at he h ⊢
    linarith
  exact ⟨⟨onGrid_rndQ q, hlt⟩, rnd_of_lt hlt⟩

theorem round_toI32 {v : ℚ} {hv} (h : |v| ≤ 2 ^ 20) : (F32.round (fin v hv)).toI32 = roundAway v ∧ |roundAway v| ≤ 2 ^ 24 := by
  have hn := abs_le.1 (roundAway_near v)
  have hb := abs_le.1 h
  have hz : |roundAway v| ≤ 2 ^ 24 := by
    have a1 : ((roundAway v : ℤ) : ℚ) ≤ ((2 ^ 24 : ℤ) : ℚ) := by push_cast; norm_num at hb ⊢; linarith [hn.1, hb.2]
    have a2 : ((-2 ^ 24 : ℤ) : ℚ) ≤ ((roundAway v : ℤ) : ℚ) := by push_cast; norm_num at hb ⊢; linarith [hn.2, hb.1]
    rw [abs_le]
    exact ⟨by exact_mod_cast a2, by exact_mod_cast a1⟩
  refine ⟨?_, hz⟩
  show (rnd ((roundAway v : ℤ) : ℚ)).toI32 = _
  obtain ⟨hg, e⟩ := ofInt_exact hz
  rw [e]
  show Max.max (-2 ^ 31) (Min.min (truncQ ((roundAway v : ℤ) : ℚ)) (2 ^ 31 - 1)) = _
  have ht : truncQ ((roundAway v : ℤ) : ℚ) = roundAway v := by
    unfold truncQ
    split_ifs
    · exact Int.floor_intCast _
    · exact Int.ceil_intCast _
  rw [ht]
  have := abs_le.1 hz
  omega

/-- nearest beat found with a slightly wrong period `T'` and quotient `q` -/
theorem near_beat {x T T' q D : ℚ} (k : ℤ) (hD : 1 ≤ D) (hx : |x| ≤ D) (hT0 : 1 / 5 ≤ T) (hT2 : T ≤ 2)
    (hT' : |T' - T| ≤ T / 2 ^ 24 + 1 / 2 ^ 150) (hQ : |q * T' - x| ≤ 21 / 10 * D / 2 ^ 24) (hk : |q - k| ≤ 1 / 2) :
    |k * T'| ≤ 3 * D ∧ |x - round (x / T) * T| ≤ |x - k * T'| + 32 / 10 * D / 2 ^ 24 ∧
      |x - k * T'| ≤ |x - round (x / T) * T| + 63 / 10 * D / 2 ^ 24 ∧ |x - k * T'| ≤ 11 / 10 + D / 2 ^ 20 := by
  have hTpos : 0 < T := by linarith
  have hdT : |T' - T| ≤ T * (1001 / 1000 / 2 ^ 24) := by
    refine _root_.le_trans hT' ?_
    norm_num at hT0 ⊢
    linarith
  have hT'lo : T * (999 / 1000) ≤ T' := by have := (abs_le.1 hdT).1; norm_num at this ⊢; linarith
  have hT'hi : T' ≤ T * (1001 / 1000) := by have := (abs_le.1 hdT).2; norm_num at this ⊢; linarith
  have hT'pos : 0 < T' := by linarith
  set m := round (x / T) with hm
  have hdist : |x - m * T| ≤ 1 := by
    have h1 := abs_sub_round (x / T)
    have e : x - m * T = (x / T - m) * T := by field_simp
    rw [e, _root_.abs_mul, abs_of_pos hTpos]
    have := _root_.mul_le_mul_of_nonneg_right h1 hTpos.le
    linarith
  have hmT : |(m : ℚ)| * T ≤ 2 * D := by
    have e : |(m : ℚ)| * T = |m * T| := by rw [_root_.abs_mul, abs_of_pos hTpos]
    rw [e]
    have : |(m : ℚ) * T| ≤ |x| + |x - m * T| := by
      have := abs_sub x (x - m * T)
      rwa [show x - (x - m * T) = m * T by ring] at this
    linarith
  have hmd : |(m : ℚ) * T' - m * T| ≤ 21 / 10 * D / 2 ^ 24 := by
    rw [← mul_sub, _root_.abs_mul]
    calc |(m : ℚ)| * |T' - T| ≤ |(m : ℚ)| * (T * (1001 / 1000 / 2 ^ 24)) :=
          _root_.mul_le_mul_of_nonneg_left hdT (_root_.abs_nonneg _)
      _ = (|(m : ℚ)| * T) * (1001 / 1000 / 2 ^ 24) := by ring
      _ ≤ (2 * D) * (1001 / 1000 / 2 ^ 24) := _root_.mul_le_mul_of_nonneg_right hmT (by norm_num)
      _ ≤ _ := by norm_num; linarith
  have hqk : |q * T' - k * T'| ≤ 1001 / 1000 := by
    rw [← sub_mul, _root_.abs_mul, abs_of_pos hT'pos]
    have := mul_le_mul hk hT'hi hT'pos.le (by norm_num)
    linarith
  have hK : |k * T'| ≤ |x| + 1002 / 1000 * D := by
    have h1 : |k * T'| ≤ |x| + |q * T' - x| + |q * T' - k * T'| := by
      have h2 := abs_sub (x + (q * T' - x)) (q * T' - k * T')
      rw [show x + (q * T' - x) - (q * T' - k * T') = k * T' by ring] at h2
      have := abs_add_le x (q * T' - x)
      linarith
    have : 21 / 10 * D / 2 ^ 24 ≤ 1 / 1000 * D := by norm_num; linarith
    linarith
  have hkd : |(k : ℚ) * T' - k * T| ≤ 32 / 10 * D / 2 ^ 24 := by
    rw [← mul_sub, _root_.abs_mul]
    have hkT : |(k : ℚ)| * T ≤ 3 * D := by
      have h1 : |(k : ℚ)| * (T * (999 / 1000)) ≤ |(k : ℚ)| * T' := _root_.mul_le_mul_of_nonneg_left hT'lo (_root_.abs_nonneg _)
      have h2 : |(k : ℚ)| * T' = |k * T'| := by rw [_root_.abs_mul, abs_of_pos hT'pos]
      rw [h2] at h1
      have e : |(k : ℚ)| * (T * (999 / 1000)) = |(k : ℚ)| * T * (999 / 1000) := by ring
      rw [e] at h1
      linarith
    calc |(k : ℚ)| * |T' - T| ≤ |(k : ℚ)| * (T * (1001 / 1000 / 2 ^ 24)) :=
          _root_.mul_le_mul_of_nonneg_left hdT (_root_.abs_nonneg _)
      _ = (|(k : ℚ)| * T) * (1001 / 1000 / 2 ^ 24) := by ring
      _ ≤ (3 * D) * (1001 / 1000 / 2 ^ 24) := _root_.mul_le_mul_of_nonneg_right hkT (by norm_num)
      _ ≤ _ := by norm_num; linarith
  have hnear : |q - k| ≤ |q - m| := by
    by_cases hkm : k = m
    · rw [hkm]
    · have h1 : (1 : ℚ) ≤ |((k - m : ℤ) : ℚ)| := by
        have : (1 : ℤ) ≤ |k - m| := Int.one_le_abs (sub_ne_zero.2 hkm)
        rw [← Int.cast_abs]; exact_mod_cast this
      have h2 : |((k - m : ℤ) : ℚ)| ≤ |q - m| + |q - k| := by
        have e : ((k - m : ℤ) : ℚ) = (q - m) - (q - k) := by push_cast; ring
        rw [e]; exact abs_sub _ _
      linarith
  have up : |x - k * T'| ≤ |x - m * T| + 63 / 10 * D / 2 ^ 24 := by
    have h1 : |x - k * T'| ≤ |q * T' - x| + |q * T' - k * T'| := by
      have e : x - k * T' = (q * T' - k * T') - (q * T' - x) := by ring
      rw [e]
      have := abs_sub (q * T' - k * T') (q * T' - x)
      linarith
    have h2 : |q * T' - k * T'| ≤ |q * T' - m * T'| := by
      rw [← sub_mul, ← sub_mul, _root_.abs_mul, _root_.abs_mul]
      exact _root_.mul_le_mul_of_nonneg_right hnear (_root_.abs_nonneg _)
    have h3 : |q * T' - m * T'| ≤ |q * T' - x| + |x - m * T| + |(m : ℚ) * T' - m * T| := by
      have e : q * T' - m * T' = (q * T' - x) + (x - m * T) - (m * T' - m * T) := by ring
      rw [e]
      refine _root_.le_trans (abs_sub _ _) ?_
      have := abs_add_le (q * T' - x) (x - m * T)
      linarith
    have e : 63 / 10 * D / 2 ^ 24 = 21 / 10 * D / 2 ^ 24 + 21 / 10 * D / 2 ^ 24 + 21 / 10 * D / 2 ^ 24 := by ring
    rw [e]
    linarith
  refine ⟨by linarith, ?_, up, ?_⟩
  · have h1 : |x - m * T| ≤ |x - k * T| := by
      have h := round_le (x / T) k
      have e : ∀ z : ℤ, |x - z * T| = |x / T - z| * T := fun z => by
        rw [← abs_of_pos hTpos, ← _root_.abs_mul, abs_of_pos hTpos]
        congr 1; field_simp
      rw [e, e]
      exact _root_.mul_le_mul_of_nonneg_right h hTpos.le
    have h2 : |x - k * T| ≤ |x - k * T'| + |(k : ℚ) * T' - k * T| := by
      have e : x - k * T = (x - k * T') + (k * T' - k * T) := by ring
      rw [e]; exact abs_add_le _ _
    linarith
  · have : 63 / 10 * D / 2 ^ 24 ≤ D / 2 ^ 20 := by norm_num; linarith
    linarith

theorem lit_sigma : ∃ h, (2 * (0.05 * 0.05) : F32) = fin (2 * (0.05 * 0.05) : F32).val h ∧
    0 < (2 * (0.05 * 0.05) : F32).val ∧ |1 / (2 * (0.05 * 0.05) : F32).val - 200| ≤ 200 / 2 ^ 22 :=
  ⟨by decide +kernel, by decide +kernel, by decide +kernel, by decide +kernel⟩

/-- the distance computed for one onset -/
theorem dist_spec {o s b D : ℚ} {ho hs hb} (hD : 1 ≤ D) (hD2 : D ≤ 2 ^ 12) (ho0 : 0 ≤ o) (hoD : o ≤ D) (hs0 : 0 ≤ s)
    (hsD : s ≤ D) (hb0 : 30 ≤ b) (hb1 : b ≤ 300) :
    ∃ d hd, (fin o ho - (fin s hs + F32.ofInt (F32.round ((fin o ho - fin s hs) / (60 / fin b hb))).toI32 *
        (60 / fin b hb))).abs = fin d hd ∧ 0 ≤ d ∧ d ≤ 2 ∧ |d - beatDist s (60 / b) o| ≤ D / 2 ^ 20 := by
  obtain ⟨h60, e60⟩ := lit60
  have hbpos : 0 < b := by linarith
  have hT0 : 1 / 5 ≤ 60 / b := by rw [le_div_iff₀ hbpos]; linarith
  have hT2 : 60 / b ≤ 2 := by rw [div_le_iff₀ hbpos]; linarith
  have hTpos : 0 < 60 / b := by linarith
  rw [e60, div_fin hbpos.ne', sub_fin]
  unfold beatDist
  generalize 60 / b = T at *
  have hx : |o - s| ≤ D := by rw [abs_le]; constructor <;> linarith
  -- x
  obtain ⟨hx', ex⟩ := fin_of_le (q := o - s) (_root_.le_trans hx (by norm_num at hD2 ⊢; linarith))
  have dx := err_D (q := o - s) (B := 1) hD (by linarith)
  -- T
  obtain ⟨hT', eT⟩ := fin_of_le (q := T) (by rw [abs_of_pos hTpos]; norm_num; linarith)
  have dT := err_pow T
  rw [abs_of_pos hTpos] at dT
  rw [ex, eT]
  generalize rndQ (o - s) = x' at *
  generalize rndQ T = T' at *
  have hT'lo : 19 / 100 ≤ T' := by have := (abs_le.1 dT).1; norm_num at this ⊢; linarith
  have hT'hi : T' ≤ 21 / 10 := by have := (abs_le.1 dT).2; norm_num at this ⊢; linarith
  have hT'pos : 0 < T' := by linarith
  rw [div_fin hT'pos.ne']
  have hx'D : |x'| ≤ 101 / 100 * D := by
    have h1 := abs_add_le (o - s) (x' - (o - s))
    rw [show o - s + (x' - (o - s)) = x' by ring] at h1
    have : (1 + 1 / 100) * D / 2 ^ 24 ≤ 1 / 100 * D := by norm_num; linarith
    linarith
  have hq : |x' / T'| ≤ 6 * D := by
    rw [abs_div, abs_of_pos hT'pos, div_le_iff₀ hT'pos]
    have : 6 * D * (19 / 100) ≤ 6 * D * T' := _root_.mul_le_mul_of_nonneg_left hT'lo (by linarith)
    linarith
  obtain ⟨hq', eq⟩ := fin_of_le (q := x' / T') (_root_.le_trans hq (by norm_num at hD2 ⊢; linarith))
  rw [eq]
  have dq := err_pow (x' / T')
  have hQ : |rndQ (x' / T') * T' - (o - s)| ≤ 21 / 10 * D / 2 ^ 24 := by
    have h1 : |(rndQ (x' / T') - x' / T') * T'| ≤ (|x' / T'| / 2 ^ 24 + 1 / 2 ^ 150) * T' := by
      rw [_root_.abs_mul, abs_of_pos hT'pos]; exact _root_.mul_le_mul_of_nonneg_right dq hT'pos.le
    have h2 : (|x' / T'| / 2 ^ 24 + 1 / 2 ^ 150) * T' = |x'| / 2 ^ 24 + T' / 2 ^ 150 := by
      rw [abs_div, abs_of_pos hT'pos]; field_simp
    rw [h2] at h1
    have e : rndQ (x' / T') * T' - (o - s) = (rndQ (x' / T') - x' / T') * T' + (x' - (o - s)) := by
      field_simp; ring
    rw [e]
    refine _root_.le_trans (abs_add_le _ _) ?_
    have h3 : |x'| / 2 ^ 24 ≤ 101 / 100 * D / 2 ^ 24 := by gcongr
    have h4 : T' / 2 ^ 150 ≤ 1 / 100 * D / 2 ^ 24 := by norm_num; linarith
    have e2 : 21 / 10 * D / 2 ^ 24 = 101 / 100 * D / 2 ^ 24 + 1 / 100 * D / 2 ^ 24 + (1 + 1 / 100) * D / 2 ^ 24 +
      7 / 100 * D / 2 ^ 24 := by ring
    have h5 : 0 ≤ 7 / 100 * D / 2 ^ 24 := by positivity
    rw [e2]; linarith
  have hq'D : |rndQ (x' / T')| ≤ 2 ^ 20 := by
    have h1 := abs_add_le (x' / T') (rndQ (x' / T') - x' / T')
    rw [show x' / T' + (rndQ (x' / T') - x' / T') = rndQ (x' / T') by ring] at h1
    norm_num at dq hD2 ⊢; linarith
  generalize rndQ (x' / T') = q at *
  obtain ⟨ek, hk24⟩ := round_toI32 (hv := hq') hq'D
  rw [ek]
  obtain ⟨hkf, ekf⟩ := ofInt_exact hk24
  have ekf' : F32.ofInt (roundAway q) = fin (roundAway q : ℚ) hkf := ekf
  rw [ekf', mul_fin]
  have hk := roundAway_near q
  generalize roundAway q = k at *
  obtain ⟨n1, n2, n3, n4⟩ := near_beat k hD hx hT0 hT2 dT hQ hk
  -- p
  obtain ⟨hp', ep⟩ := fin_of_le (q := k * T') (_root_.le_trans n1 (by norm_num at hD2 ⊢; linarith))
  have dp := err_D (q := k * T') (B := 3) hD n1
  rw [ep, add_fin]
  generalize rndQ (k * T') = p at *
  have hpD : |p| ≤ 31 / 10 * D := by
    have h1 := abs_add_le (k * T') (p - k * T')
    rw [show k * T' + (p - k * T') = p by ring] at h1
    have : (3 + 1 / 100) * D / 2 ^ 24 ≤ 1 / 10 * D := by norm_num; linarith
    linarith
  -- g
  have hg : |s + p| ≤ 41 / 10 * D := by
    refine _root_.le_trans (abs_add_le _ _) ?_
    rw [abs_of_nonneg hs0]; linarith
  obtain ⟨hg', eg⟩ := fin_of_le (q := s + p) (_root_.le_trans hg (by norm_num at hD2 ⊢; linarith))
  have dg := err_D (q := s + p) (B := 41 / 10) hD hg
  rw [eg, sub_fin]
  generalize rndQ (s + p) = g at *
  -- difference
  have hog : |(o - g) - (o - s - k * T')| ≤ 72 / 10 * D / 2 ^ 24 := by
    have e : (o - g) - (o - s - k * T') = -((g - (s + p)) + (p - k * T')) := by ring
    rw [e, _root_.abs_neg]
    refine _root_.le_trans (abs_add_le _ _) ?_
    have e2 : 72 / 10 * D / 2 ^ 24 = (41 / 10 + 1 / 100) * D / 2 ^ 24 + (3 + 1 / 100) * D / 2 ^ 24 + 8 / 100 * D / 2 ^ 24 := by
      ring
    have h5 : 0 ≤ 8 / 100 * D / 2 ^ 24 := by positivity
    rw [e2]; linarith
  have hogb : |o - g| ≤ 12 / 10 := by
    have h1 := abs_add_le ((o - g) - (o - s - k * T')) (o - s - k * T')
    rw [show (o - g) - (o - s - k * T') + (o - s - k * T') = o - g by ring] at h1
    norm_num at hD2 hog n4 ⊢; linarith
  obtain ⟨hd', ed⟩ := fin_of_le (q := o - g) (_root_.le_trans hogb (by norm_num))
  have dd := err_D (q := o - g) (B := 12 / 10) hD (by linarith)
  rw [ed, abs_fin]
  generalize rndQ (o - g) = r at *
  refine ⟨|r|, _, rfl, _root_.abs_nonneg _, ?_, ?_⟩
  · have h1 := abs_add_le (o - g) (r - (o - g))
    rw [show o - g + (r - (o - g)) = r by ring] at h1
    have : (12 / 10 + 1 / 100) * D / 2 ^ 24 ≤ 1 / 10 := by norm_num at hD2 ⊢; linarith
    linarith
  · have h1 : |(|r| - |o - s - k * T'|)| ≤ |r - (o - g)| + |(o - g) - (o - s - k * T')| := by
      refine _root_.le_trans (abs_abs_sub_abs_le _ _) ?_
      have := abs_add_le (r - (o - g)) ((o - g) - (o - s - k * T'))
      rwa [show r - (o - g) + ((o - g) - (o - s - k * T')) = r - (o - s - k * T') by ring] at this
    have e2 : D / 2 ^ 20 = (12 / 10 + 1 / 100) * D / 2 ^ 24 + 72 / 10 * D / 2 ^ 24 + 63 / 10 * D / 2 ^ 24 +
      129 / 100 * D / 2 ^ 24 := by ring
    have h5 : 0 ≤ 129 / 100 * D / 2 ^ 24 := by positivity
    have h6 : 32 / 10 * D / 2 ^ 24 ≤ 63 / 10 * D / 2 ^ 24 := by gcongr; norm_num
    rw [abs_le] at h1 ⊢
    rw [e2]
    constructor <;> linarith [h1.1, h1.2]

/-- the log-probability of one onset: minus 200 times the square of its distance -/
theorem logProb_spec {o s b D : ℚ} {ho hs hb} (hD : 1 ≤ D) (hD2 : D ≤ 2 ^ 12) (ho0 : 0 ≤ o) (hoD : o ≤ D) (hs0 : 0 ≤ s)
    (hsD : s ≤ D) (hb0 : 30 ≤ b) (hb1 : b ≤ 300) :
    ∃ d y hy, logProb (fin s hs) (60 / fin b hb) (fin o ho) = -fin y hy ∧ 0 ≤ d ∧ |d - beatDist s (60 / b) o| ≤ D / 2 ^ 20 ∧
      0 ≤ y ∧ y ≤ 2 ^ 12 ∧ |y - 200 * (d * d)| ≤ 200 * (d * d) * (1 / 2 ^ 21) + 1 / 2 ^ 140 := by
  obtain ⟨d, hd, ed, d0, d2, herr⟩ := dist_spec (ho := ho) (hs := hs) (hb := hb) hD hD2 ho0 hoD hs0 hsD hb0 hb1
  obtain ⟨hc, ec, c0, hc200⟩ := lit_sigma
  show ∃ d y hy, -((fin o ho - (fin s hs + F32.ofInt (F32.round ((fin o ho - fin s hs) / (60 / fin b hb))).toI32 *
        (60 / fin b hb))).abs * (fin o ho - (fin s hs + F32.ofInt (F32.round ((fin o ho - fin s hs) / (60 / fin b hb))).toI32 *
        (60 / fin b hb))).abs) / (2 * (0.05 * 0.05)) = -fin y hy ∧ _
  rw [ed, ec, mul_fin]
  generalize (2 * (0.05 * 0.05) : F32).val = c at *
  have hdd : 0 ≤ d * d := _root_.mul_nonneg d0 d0
  have hdd4 : d * d ≤ 4 := by nlinarith
  obtain ⟨hr, er⟩ := fin_of_le (q := d * d) (by rw [abs_of_nonneg hdd]; norm_num; linarith)
  have dr := err_pow (d * d)
  rw [abs_of_nonneg hdd] at dr
  have hr0 := rndQ_nonneg hdd
  rw [er, neg_fin, div_fin c0.ne', neg_div]
  generalize rndQ (d * d) = r at *
  have hinv : r / c = r * (1 / c) := by ring
  have hcl := abs_le.1 hc200
  have hz0 : 0 ≤ r / c := _root_.div_nonneg hr0 c0.le
  have hzlo : r * (200 - 200 / 2 ^ 22) ≤ r / c := by rw [hinv]; exact _root_.mul_le_mul_of_nonneg_left (by linarith [hcl.1]) hr0
  have hzhi : r / c ≤ r * (200 + 200 / 2 ^ 22) := by rw [hinv]; exact _root_.mul_le_mul_of_nonneg_left (by linarith [hcl.2]) hr0
  have hr5 : r ≤ 5 := by have := (abs_le.1 dr).2; norm_num at this ⊢; linarith
  have hz1 : r / c ≤ 1001 := by norm_num at hzhi ⊢; linarith
  obtain ⟨hy, ey⟩ := fin_of_le (q := r / c) (by rw [abs_of_nonneg hz0]; norm_num; linarith)
  have dy := err_pow (r / c)
  rw [abs_of_nonneg hz0] at dy
  have hy0 := rndQ_nonneg hz0
  refine ⟨d, rndQ (r / c), hy, ?_, d0, herr, hy0, ?_, ?_⟩
  · rw [← ey]
    obtain ⟨hyn, eyn⟩ := fin_of_le (q := -(r / c)) (by rw [_root_.abs_neg, abs_of_nonneg hz0]; norm_num; linarith)
    rw [ey, eyn, neg_fin]
    congr 1
    exact rndQ_neg _
  · have := (abs_le.1 dy).2; norm_num at this ⊢; linarith
  · have h1 := abs_le.1 dy
    have h2 := abs_le.1 dr
    generalize rndQ (r / c) = y at *
    generalize r / c = z at *
    generalize d * d = w at *
    rw [abs_le]
    constructor <;> norm_num at h1 h2 hzlo hzhi ⊢ <;> linarith [h1.1, h1.2, h2.1, h2.2]

theorem sum_scaled {α} (L : List α) (f : α → ℚ) (c : ℚ) : (L.map (fun a => f a * c)).sum = (L.map f).sum * c := by
  induction L with
  | nil => simp
  | cons a L ih => simp only [List.map_cons, List.sum_cons, ih]; ring

theorem sum_negs (l : List F32) : F32.sum (l.map (fun x => -x)) = -F32.sum l := by
  induction l using List.reverseRecOn with
  | nil => decide +kernel
  | append_singleton l x ih =>
    unfold F32.sum at ih ⊢
    rw [List.map_append, List.foldl_append, List.foldl_append, ih]
    exact f_neg_add _ _

/-- **C109**: the likelihood of a tempo is `exp(-a)`, where `a` is the mean, over the onsets, of the squared distance to the
nearest beat of the grid that starts at the first onset and has the period `60/bpm`, divided by `2·0.05²`; the distances are
computed to `D/2^20` in a recording of `D` seconds, the mean to one part in 2^22 per onset.  In particular it does not
depend on how many onsets there are, only on how well they fit. -/
theorem C109_fit (M : Libm) (onsets : List F32) (b D : ℚ) (hb) (hD : 1 ≤ D) (hD2 : D ≤ 2 ^ 12) (hne : onsets ≠ [])
    (hlen : onsets.length ≤ 2 ^ 20) (hons : ∀ o ∈ onsets, o.isFinite = true ∧ 0 ≤ o.val ∧ o.val ≤ D)
    (hb0 : 30 ≤ b) (hb1 : b ≤ 300) :
    ∃ start a ha, onsets.head? = some start ∧ likelihood M onsets (fin b hb) = .ok (M.exp (-fin a ha)) ∧
      a ≤ (onsets.map (fun o : F32 => (beatDist start.val (60 / b) o.val + D / 2 ^ 20) ^ 2)).sum / onsets.length * 200 *
        (1 + (onsets.length + 4) / 2 ^ 22) + 1 / 2 ^ 130 ∧
      (onsets.map (fun o : F32 => (Max.max (beatDist start.val (60 / b) (F32.val o) - D / 2 ^ 20) 0) ^ 2)).sum / onsets.length * 200 *
        (1 - (onsets.length + 4) / 2 ^ 22) - 1 / 2 ^ 130 ≤ a := by
  obtain ⟨start, rest, rfl⟩ : ∃ s l, onsets = s :: l := by
    cases onsets with
    | nil => exact absurd rfl hne
    | cons s l => exact ⟨s, l, rfl⟩
  generalize hL : start :: rest = L at *
  have hsm : start ∈ L := by rw [← hL]; simp
  obtain ⟨hsf, hs0, hsD⟩ := hons start hsm
  obtain ⟨sv, hsv, rfl⟩ := isFinite_iff.1 hsf
  simp only [F32.val] at hs0 hsD
  have hex : ∀ o : F32, ∃ d : ℚ, o ∈ L → ∃ y hy, logProb (fin sv hsv) (60 / fin b hb) o = -fin y hy ∧ 0 ≤ d ∧
      |d - beatDist sv (60 / b) o.val| ≤ D / 2 ^ 20 ∧ 0 ≤ y ∧ y ≤ 2 ^ 12 ∧
      |y - 200 * (d * d)| ≤ 200 * (d * d) * (1 / 2 ^ 21) + 1 / 2 ^ 140 := by
    intro o
    by_cases ho : o ∈ L
    · obtain ⟨hof, ho0, hoD⟩ := hons o ho
      obtain ⟨ov, hov, rfl⟩ := isFinite_iff.1 hof
      simp only [F32.val] at ho0 hoD
      obtain ⟨d, y, hy, h⟩ := logProb_spec (ho := hov) (hs := hsv) (hb := hb) hD hD2 ho0 hoD hs0 hsD hb0 hb1
      exact ⟨d, fun _ => ⟨y, hy, h⟩⟩
    · exact ⟨0, fun h => absurd h ho⟩
  choose dist hdist using hex
  have hneg : ∀ y hy, -(-fin y hy : F32) = fin y hy := fun y hy => by
    rw [neg_fin, neg_fin]; simp
  obtain ⟨S, hS, h1, h2, h3⟩ := sum_terms L (fun o => -logProb (fin sv hsv) (60 / fin b hb) o)
    (fun o => 200 * (dist o * dist o)) (1 / 2 ^ 21) (1 / 2 ^ 140) (by norm_num) (by norm_num)
    (fun o _ => _root_.mul_nonneg (by norm_num) (mul_self_nonneg _))
    (fun o ho => by
      obtain ⟨y, hy, e, _, _, y0, _, ye⟩ := hdist o ho
      rw [e, hneg]
      exact ⟨rfl, y0, ye⟩)
    (by
      rw [List.map_map]
      refine _root_.le_trans (sum_map_le _ _ (2 ^ 12) (fun o ho => ?_)) ?_
      · obtain ⟨y, hy, e, _, _, _, y1, _⟩ := hdist o ho
        show (-logProb (fin sv hsv) (60 / fin b hb) o).val ≤ _
        rw [e, hneg]; exact y1
      · have : (L.length : ℚ) ≤ 2 ^ 20 := by exact_mod_cast hlen
        have h' : (L.length : ℚ) * 2 ^ 12 ≤ 2 ^ 20 * 2 ^ 12 := _root_.mul_le_mul_of_nonneg_right this (by norm_num)
        exact _root_.le_trans h' (by norm_num)) hlen
  have hsum : F32.sum (L.map (logProb (fin sv hsv) (60 / fin b hb))) = -fin S hS := by
    rw [← h1, ← sum_negs, List.map_map]
    congr 1
    apply List.map_congr_left
    intro o ho
    obtain ⟨y, hy, e, _⟩ := hdist o ho
    show _ = -(-logProb (fin sv hsv) (60 / fin b hb) o)
    rw [e, hneg]
  have hn1 : 1 ≤ L.length := List.length_pos_iff.2 hne
  obtain ⟨hnf, enf⟩ : ∃ h, F32.ofNat L.length = fin (L.length : ℚ) h := ⟨_, ofNat_exact (by omega)⟩
  have hn1q : (1 : ℚ) ≤ L.length := by exact_mod_cast hn1
  have hnq : (L.length : ℚ) ≤ 2 ^ 20 := by exact_mod_cast hlen
  have hn0 : (0 : ℚ) < L.length := by linarith
  have hup : (L.map (fun o => 200 * (dist o * dist o))).sum ≤
      (L.map (fun o : F32 => (beatDist sv (60 / b) o.val + D / 2 ^ 20) ^ 2)).sum * 200 := by
    rw [← sum_scaled]
    apply List.sum_le_sum
    intro o ho
    obtain ⟨_, _, _, d0, he, _⟩ := hdist o ho
    have := (abs_le.1 he).2
    nlinarith
  have hlo : (L.map (fun o : F32 => (Max.max (beatDist sv (60 / b) o.val - D / 2 ^ 20) 0) ^ 2)).sum * 200 ≤
      (L.map (fun o => 200 * (dist o * dist o))).sum := by
    rw [← sum_scaled]
    apply List.sum_le_sum
    intro o ho
    obtain ⟨_, _, _, d0, he, _⟩ := hdist o ho
    have h4 : Max.max (beatDist sv (60 / b) o.val - D / 2 ^ 20) 0 ≤ dist o := max_le (by linarith [(abs_le.1 he).1]) d0
    have h5 : 0 ≤ Max.max (beatDist sv (60 / b) o.val - D / 2 ^ 20) 0 := le_max_right _ _
    have h6 := mul_le_mul h4 h4 h5 d0
    nlinarith
  have hlik : likelihood M L (fin b hb) = .ok (M.exp (-fin S hS / fin (L.length : ℚ) hnf)) := by
    unfold likelihood
    rw [if_neg]
    · have hhead : L.head? = some (fin sv hsv) := by rw [← hL]; rfl
      rw [hhead]
      dsimp only
      rw [if_neg (by decide +kernel), hsum, enf]
    · intro hc
      have h30 : fin 30 (by decide +kernel) ≤ EPS := F32.le_trans (fin_le_fin.2 hb0) hc
      exact absurd h30 (by decide +kernel)
  have hG0 : 0 ≤ (L.map (fun o => 200 * (dist o * dist o))).sum := by
    apply List.sum_nonneg
    intro q hq
    obtain ⟨o, _, rfl⟩ := List.mem_map.1 hq
    exact _root_.mul_nonneg (by norm_num) (mul_self_nonneg _)
  have hS0 : 0 ≤ S / L.length := _root_.div_nonneg h2 hn0.le
  have hGb : (L.map (fun o => 200 * (dist o * dist o))).sum ≤ L.length * 2 ^ 13 := by
    apply sum_map_le
    intro o ho
    obtain ⟨y, _, _, _, _, _, y1, ye⟩ := hdist o ho
    have := (abs_le.1 ye).1
    norm_num at this y1 ⊢
    linarith
  rw [neg_fin, div_fin hn0.ne', neg_div] at hlik
  generalize (L.map (fun o => 200 * (dist o * dist o))).sum = G at *
  have hSG : |S / L.length - G / L.length| ≤ G / L.length * ((L.length + 2) / 2 ^ 22) + 1 / 2 ^ 137 := by
    rw [← sub_div, abs_div, abs_of_pos hn0, div_le_iff₀ hn0]
    refine _root_.le_trans h3 ?_
    have e : (G / L.length * ((L.length + 2) / 2 ^ 22) + 1 / 2 ^ 137) * L.length =
        G * (1 / 2 ^ 21 + L.length / 2 ^ 22) + L.length * (1 / 2 ^ 137) := by field_simp; ring
    rw [e]
    have : (L.length : ℚ) * (2 * (1 / 2 ^ 140) + 1 / 2 ^ 149) ≤ L.length * (1 / 2 ^ 137) :=
      _root_.mul_le_mul_of_nonneg_left (by norm_num) hn0.le
    linarith
  have hm0 : 0 ≤ G / L.length := _root_.div_nonneg hG0 hn0.le
  have hmb : G / L.length ≤ 2 ^ 13 := by rw [div_le_iff₀ hn0]; linarith
  have hm1 : G / L.length ≤ (L.map (fun o : F32 => (beatDist sv (60 / b) o.val + D / 2 ^ 20) ^ 2)).sum / L.length * 200 := by
    rw [div_mul_eq_mul_div]; gcongr
  have hm2 : (L.map (fun o : F32 => (Max.max (beatDist sv (60 / b) o.val - D / 2 ^ 20) 0) ^ 2)).sum / L.length * 200 ≤
      G / L.length := by
    rw [div_mul_eq_mul_div]; gcongr
  generalize hU : (L.map (fun o : F32 => (beatDist sv (60 / b) o.val + D / 2 ^ 20) ^ 2)).sum / (L.length : ℚ) * 200 = U at *
  have hρ0 : 0 ≤ ((L.length : ℚ) + 2) / 2 ^ 22 := by positivity
  have hρ1 : ((L.length : ℚ) + 2) / 2 ^ 22 ≤ 1 / 2 := by
    rw [div_le_div_iff₀ (by norm_num) (by norm_num)]; linarith
  have hρ : ((L.length : ℚ) + 4) / 2 ^ 22 = (L.length + 2) / 2 ^ 22 + 2 / 2 ^ 22 := by ring
  have hlow := (abs_le.1 hSG).1
  have hupp := (abs_le.1 hSG).2
  generalize hρd : ((L.length : ℚ) + 2) / 2 ^ 22 = ρ at *
  generalize G / L.length = m at *
  generalize S / L.length = z at *
  have hmρ : m * ρ ≤ m * (1 / 2) := _root_.mul_le_mul_of_nonneg_left hρ1 hm0
  have hmρ0 : 0 ≤ m * ρ := _root_.mul_nonneg hm0 hρ0
  have hzb : z ≤ 2 ^ 14 := by norm_num at hmb hupp ⊢; linarith
  obtain ⟨hz, ez⟩ := fin_of_le (q := z) (by rw [abs_of_nonneg hS0]; norm_num at hzb ⊢; linarith)
  obtain ⟨hzn, ezn⟩ := fin_of_le (q := -z) (by rw [_root_.abs_neg, abs_of_nonneg hS0]; norm_num at hzb ⊢; linarith)
  have dz := err_pow z
  rw [abs_of_nonneg hS0] at dz
  refine ⟨fin sv hsv, rndQ z, hz, by rw [← hL]; rfl, ?_, ?_, ?_⟩
  · rw [hlik, ezn, neg_fin]
    congr 3
    exact rndQ_neg _
  · show _ ≤ (L.map (fun o : F32 => (beatDist sv (60 / b) o.val + D / 2 ^ 20) ^ 2)).sum / (L.length : ℚ) * 200 *
      (1 + ((L.length : ℚ) + 4) / 2 ^ 22) + 1 / 2 ^ 130
    rw [hU]
    have h7 : rndQ z ≤ m * (1 + (L.length + 4) / 2 ^ 22) + 1 / 2 ^ 130 := by
      have := (abs_le.1 dz).2
      rw [hρ]
      have e : m * (1 + (ρ + 2 / 2 ^ 22)) = m + m * ρ + m * (2 / 2 ^ 22) := by ring
      rw [e]
      norm_num at this hupp ⊢
      linarith
    have h8 : m * (1 + (L.length + 4) / 2 ^ 22) ≤ U * (1 + ((L.length : ℚ) + 4) / 2 ^ 22) :=
      _root_.mul_le_mul_of_nonneg_right hm1 (by positivity)
    linarith
  · show (L.map (fun o : F32 => (Max.max (beatDist sv (60 / b) o.val - D / 2 ^ 20) 0) ^ 2)).sum / L.length * 200 *
        (1 - ((L.length : ℚ) + 4) / 2 ^ 22) - 1 / 2 ^ 130 ≤ _
    have h7 : m * (1 - (L.length + 4) / 2 ^ 22) - 1 / 2 ^ 130 ≤ rndQ z := by
      have := (abs_le.1 dz).1
      rw [hρ]
      have e : m * (1 - (ρ + 2 / 2 ^ 22)) = m - m * ρ - m * (2 / 2 ^ 22) := by ring
      rw [e]
      norm_num at this hlow hupp ⊢
      linarith
    have h8 := _root_.mul_le_mul_of_nonneg_right hm2 (show 0 ≤ 1 - ((L.length : ℚ) + 4) / 2 ^ 22 by
      rw [hρ]; norm_num at hρ1 ⊢; linarith)
    linarith

/-- non-vacuity: four clicks at 120 BPM in a recording of two seconds meet the hypotheses, and lie on the beats -/
example : ([0, 0.5, 1, 1.5] : List F32) ≠ [] ∧
    (∀ o ∈ ([0, 0.5, 1, 1.5] : List F32), o.isFinite = true ∧ 0 ≤ o.val ∧ o.val ≤ 2 ∧ beatDist 0 (60 / 120) o.val = 0) ∧
    beatDist 0 (60 / 120) 0.6 = 0.1 := by
  unfold beatDist; decide +kernel

/-! ### the update -/

/-- the tempi an update tries: half-BPM steps (in f32) from `lo`, as long as they stay below `hi` -/
def Tried (lo hi c : F32) : Prop := ∃ j : ℕ, c = (fun x => x + 0.5)^[j] lo ∧ ∀ i ≤ j, (fun x => x + 0.5)^[i] lo ≤ hi

theorem candLoop_tried {hi : F32} : ∀ (fuel : ℕ) (lo : F32) (l : List F32), candLoop hi fuel lo = .ok l →
    ∀ c, c ∈ l ↔ Tried lo hi c
  | 0, lo, l, h => by simp [candLoop] at h
  | fuel + 1, lo, l, h => by
    rw [candLoop] at h
    by_cases hc : lo ≤ hi
    · rw [if_pos hc] at h
      obtain ⟨r, hr, e⟩ := R.bind_eq_ok.1 h
      rw [R.pure_eq_ok] at e
      have := Except.ok.inj e
      subst this
      have ih := candLoop_tried fuel _ r hr
      intro c
      rw [List.mem_cons, ih]
      constructor
      · rintro (rfl | ⟨j, e, h⟩)
        · exact ⟨0, rfl, fun i hi => by rw [Nat.le_zero.1 hi]; exact hc⟩
        · refine ⟨j + 1, e, fun i hi => ?_⟩
          cases i with
          | zero => exact hc
          | succ i => exact h i (by omega)
      · rintro ⟨j, e, h⟩
        cases j with
        | zero => exact Or.inl e
        | succ j => exact Or.inr ⟨j, e, fun i hi => h (i + 1) (by omega)⟩
    · rw [if_neg hc] at h
      have := Except.ok.inj h
      subst this
      intro c
      simp only [List.not_mem_nil, false_iff]
      rintro ⟨j, _, h⟩
      exact hc (h 0 (by omega))

theorem bestCand_best {M : Libm} {onsets : List F32} : ∀ {cs : List F32} {b r : F32 × F32},
    bestCand M onsets cs b = .ok r → b.2 ≠ nan →
    (r = b ∨ r.1 ∈ cs ∧ likelihood M onsets r.1 = .ok r.2) ∧ b.2 ≤ r.2 ∧
      ∀ c ∈ cs, ∃ l, likelihood M onsets c = .ok l ∧ ¬ r.2 < l
  | [], b, r, h, h0 => by
    have := Except.ok.inj h; subst this; exact ⟨Or.inl rfl, F32.le_refl h0, by simp⟩
  | c :: cs, b, r, h, h0 => by
    rw [bestCand] at h
    obtain ⟨l, hl, h⟩ := R.bind_eq_ok.1 h
    by_cases hlt : b.2 < l
    · rw [if_pos hlt] at h
      have hln : l ≠ nan := ne_nan_right (F32.le_of_lt hlt)
      obtain ⟨i1, i2, i3⟩ := bestCand_best h hln
      refine ⟨?_, F32.le_trans (F32.le_of_lt hlt) i2, ?_⟩
      · rcases i1 with rfl | i1
        · exact Or.inr ⟨by simp, hl⟩
        · exact Or.inr ⟨by simp [i1.1], i1.2⟩
      · intro d hd
        rcases List.mem_cons.1 hd with rfl | hd
        · exact ⟨l, hl, fun hc => F32.not_le_of_lt hc i2⟩
        · exact i3 d hd
    · rw [if_neg hlt] at h
      obtain ⟨i1, i2, i3⟩ := bestCand_best h h0
      refine ⟨i1.imp id (fun i => ⟨by simp [i.1], i.2⟩), i2, ?_⟩
      intro d hd
      rcases List.mem_cons.1 hd with rfl | hd
      · exact ⟨l, hl, fun hc => hlt (F32.lt_of_le_of_lt i2 hc)⟩
      · exact i3 d hd

/-- **C109** (choice): the tempo after an update is a tried one whose likelihood no other tried tempo exceeds (the tempi from 5 BPM below
to 5 BPM above the current one inside [60,180], in steps of half a BPM); it stays as it was, with confidence 0, only if no
tried tempo has a positive likelihood.  The confidence is that likelihood, times 1, 0.8 or 0.5 according to how far the
tempo moved, at most 1. -/
theorem C109_choice (M : Libm) (fuel : ℕ) (b b' : Bayes) (onsets : List F32) (q cf : F32)
    (h : b.update M fuel onsets = .ok (b', q, cf)) :
    ∃ l : F32, ((l = 0 ∧ b'.bpm = b.bpm) ∨ (Tried (F32.max (b.bpm - 5) 60) (F32.min (b.bpm + 5) 180) b'.bpm ∧
        likelihood M onsets b'.bpm = .ok l)) ∧ 0 ≤ l ∧
      (∀ c, Tried (F32.max (b.bpm - 5) 60) (F32.min (b.bpm + 5) 180) c →
        ∃ lc, likelihood M onsets c = .ok lc ∧ ¬ l < lc) ∧
      b'.conf = F32.min (l * (if (b'.bpm - b.bpm).abs < 1 then 1 else if (b'.bpm - b.bpm).abs < 3 then 0.8 else 0.5)) 1 := by
  unfold Bayes.update at h
  by_cases h1 : onsets = []
  · rw [if_pos h1] at h; simp at h
  rw [if_neg h1] at h
  by_cases h2 : b.bpm ≤ EPS ∨ 300 < b.bpm
  · rw [if_pos h2] at h; simp at h
  rw [if_neg h2] at h
  obtain ⟨cs, hc, h⟩ := R.bind_eq_ok.1 h
  obtain ⟨r, hr, h⟩ := R.bind_eq_ok.1 h
  dsimp only at h
  rw [R.pure_eq_ok] at h
  have h' := Except.ok.inj h
  obtain ⟨i1, i2, i3⟩ := bestCand_best hr (show (0 : F32) ≠ nan by decide +kernel)
  have ht := candLoop_tried fuel _ cs hc
  have e1 : b' = ⟨r.1, F32.min (r.2 * (if (r.1 - b.bpm).abs < 1 then 1 else if (r.1 - b.bpm).abs < 3 then 0.8 else 0.5)) 1,
      b.history ++ [r.1]⟩ := (Prod.ext_iff.1 h').1.symm
  subst e1
  refine ⟨r.2, ?_, i2, fun c hcT => i3 c ((ht c).2 hcT), rfl⟩
  rcases i1 with rfl | i1
  · exact Or.inl ⟨rfl, rfl⟩
  · exact Or.inr ⟨(ht _).1 i1.1, i1.2⟩

/-- non-vacuity: an update on four clicks at 120 BPM, from 118 BPM (with an `exp` that is 1 at 0 and 0.01 below) -/
example : (match (Bayes.new 118 0.5).update { Libm.demo with exp := fun x => if x < 0 then 0.01 else 1 } 256 [0, 0.5, 1, 1.5] with
    | .ok r => decide (r.1.bpm = 120 ∧ r.1.conf = 0.8) | .error _ => false) = true := by decide +kernel

end Verif.Props
