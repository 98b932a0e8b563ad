import Verif.Props.Stft
import Verif.Props.Transpose
import Mathlib.Analysis.Real.Pi.Bounds

/-! Property theorem for claim C48: the analysis window of the short-time Fourier transform. -/

namespace Verif.Props

open Verif Verif.Chroma F32

/-- the platform's `cosf` on [0, 7]: finite and within 2^-20 of the cosine -/
def GoodCos (M : Libm) : Prop :=
  ∀ x : F32, 0 ≤ x → x ≤ 7 → (M.cos x).isFinite = true ∧ |((M.cos x).val : ℝ) - Real.cos (x.val : ℝ)| ≤ 1 / 2 ^ 20

/-- the angle at which the window is evaluated -/
theorem hann_angle {i n : ℕ} (hi : i ≤ n) (hn : 0 < n) (hn' : n ≤ 2 ^ 20) :
    ∃ a ha, 2 * PI * F32.ofNat i / F32.ofNat n = fin a ha ∧ 0 ≤ a ∧ a ≤ 7 ∧
      |(a : ℝ) - 2 * Real.pi * i / n| ≤ 1 / 2 ^ 19 := by
  obtain ⟨h2, e2⟩ : ∃ h, (2 * PI : F32) = fin (13176795 / 2 ^ 21) h := ⟨by decide +kernel, by decide +kernel⟩
  obtain ⟨hi', ei⟩ : ∃ h, F32.ofNat i = fin (i : ℚ) h := ⟨_, ofNat_exact (by omega)⟩
  obtain ⟨hnn, en⟩ : ∃ h, F32.ofNat n = fin (n : ℚ) h := ⟨_, ofNat_exact (by omega)⟩
  rw [e2, ei, en, mul_fin]
  have hn0 : (0 : ℚ) < n := by exact_mod_cast hn
  have hn1 : (1 : ℚ) ≤ n := by exact_mod_cast hn
  have hin : (i : ℚ) ≤ n := by exact_mod_cast hi
  have hi0 : (0 : ℚ) ≤ i := by positivity
  have hnb : (n : ℚ) ≤ 2 ^ 20 := by exact_mod_cast hn'
  have hp0 : (0 : ℚ) ≤ 13176795 / 2 ^ 21 * i := by positivity
  have hp1 : (13176795 / 2 ^ 21 * i : ℚ) ≤ 6.2832 * n := by
    calc (13176795 / 2 ^ 21 * i : ℚ) ≤ 13176795 / 2 ^ 21 * n := by gcongr
      _ ≤ 6.2832 * n := by apply _root_.mul_le_mul_of_nonneg_right _ hn0.le; norm_num
  have he := err_pow (13176795 / 2 ^ 21 * i)
  rw [abs_of_nonneg hp0] at he
  have hr0 := rndQ_nonneg hp0
  have hr1 : rndQ (13176795 / 2 ^ 21 * i) ≤ 6.2833 * n := by
    have := (abs_le.1 he).2
    norm_num at this hp1 ⊢
    linarith
  have hlt : |rndQ (13176795 / 2 ^ 21 * i)| < pow2 128 := by
    rw [abs_of_nonneg hr0, pow2_eq]
    refine _root_.lt_of_le_of_lt hr1 ?_
    refine _root_.lt_of_le_of_lt (_root_.mul_le_mul_of_nonneg_left hnb (by norm_num)) (by norm_num)
  rw [rnd_of_lt hlt, div_fin hn0.ne']
  generalize rndQ (13176795 / 2 ^ 21 * i) = p at *
  have hq0 : 0 ≤ p / n := _root_.div_nonneg hr0 hn0.le
  have hq1 : p / n ≤ 6.2833 := by rw [div_le_iff₀ hn0]; exact hr1
  have he2 := err_pow (p / n)
  rw [abs_of_nonneg hq0] at he2
  have ha0 := rndQ_nonneg hq0
  have ha1 : rndQ (p / n) ≤ 6.2834 := by
    have := (abs_le.1 he2).2
    norm_num at *
    linarith
  have hlt2 : |rndQ (p / n)| < pow2 128 := by
    rw [abs_of_nonneg ha0, pow2_eq]
    exact _root_.lt_of_le_of_lt ha1 (by norm_num)
  refine ⟨_, _, rnd_of_lt hlt2, ha0, _root_.le_trans ha1 (by norm_num), ?_⟩
  generalize rndQ (p / n) = a at *
  -- in ℚ: distance to 13176795/2^21 * i/n
  have hd : |p / n - 13176795 / 2 ^ 21 * (i / n)| ≤ 6.2834 / 2 ^ 24 := by
    have : p / n - 13176795 / 2 ^ 21 * (i / n) = (p - 13176795 / 2 ^ 21 * i) / n := by field_simp
    rw [this, abs_div, abs_of_pos hn0, div_le_iff₀ hn0]
    refine _root_.le_trans he ?_
    norm_num at hp1 ⊢
    linarith
  have hd2 : |a - 13176795 / 2 ^ 21 * (i / n)| ≤ 13 / 2 ^ 24 := by
    have : a - 13176795 / 2 ^ 21 * (i / n) = (a - p / n) + (p / n - 13176795 / 2 ^ 21 * (i / n)) := by ring
    rw [this]
    refine _root_.le_trans (abs_add_le _ _) ?_
    norm_num at he2 hd hq1 ⊢
    linarith
  have hd3 : |(a : ℝ) - 13176795 / 2 ^ 21 * (i / n)| ≤ 13 / 2 ^ 24 := by
    have := (Rat.cast_le (K := ℝ)).2 hd2
    push_cast at this
    exact this
  have hpi : |(13176795 / 2 ^ 21 : ℝ) - 2 * Real.pi| ≤ 1 / 2 ^ 21 := by
    rw [abs_le]
    have h1 := Real.pi_gt_d20
    have h2 := Real.pi_lt_d20
    constructor <;> norm_num at * <;> linarith
  have hfr : (0 : ℝ) ≤ i / n ∧ (i / n : ℝ) ≤ 1 := by
    have hnR : (0 : ℝ) < n := by exact_mod_cast hn
    refine ⟨by positivity, ?_⟩
    rw [_root_.div_le_one hnR]; exact_mod_cast hi
  have e : (a : ℝ) - 2 * Real.pi * i / n =
      ((a : ℝ) - 13176795 / 2 ^ 21 * (i / n)) + (13176795 / 2 ^ 21 - 2 * Real.pi) * (i / n) := by ring
  rw [e]
  refine _root_.le_trans (abs_add_le _ _) ?_
  rw [_root_.abs_mul, abs_of_nonneg hfr.1]
  have : |(13176795 / 2 ^ 21 : ℝ) - 2 * Real.pi| * (i / n) ≤ 1 / 2 ^ 21 * 1 :=
    mul_le_mul hpi hfr.2 hfr.1 (by norm_num)
  norm_num at this hd3 ⊢
  linarith

/-- **C48** (window): on a platform whose cosine is accurate to 2^-20, every frame of 2 to 2^20 samples is weighted by the
Hann window `(1 - cos(2πi/(n-1)))/2`, to 2^-18; in particular the weights rise from 0 at the edges to 1 in the middle. -/
theorem C48_window (M : Libm) (hM : GoodCos M) (frame : ℕ) (h2 : 2 ≤ frame) (hf : frame ≤ 2 ^ 20) (i : ℕ) (hi : i < frame) :
    ∃ w, (hann M frame)[i]? = some w ∧ w.isFinite = true ∧
      |(w.val : ℝ) - (1 - Real.cos (2 * Real.pi * i / (frame - 1 : ℕ))) / 2| ≤ 1 / 2 ^ 18 := by
  obtain ⟨a, ha, e, a0, a7, hang⟩ := hann_angle (i := i) (n := frame - 1) (by omega) (by omega) (by omega)
  obtain ⟨hfin, hcos⟩ := hM (fin a ha) (by rw [zero_def, fin_le_fin]; exact a0) (by
    have e7 : (7 : F32) = fin 7 (by decide +kernel) := by decide +kernel
    rw [e7, fin_le_fin]; exact a7)
  refine ⟨0.5 * (1 - M.cos (fin a ha)), ?_, ?_⟩
  · unfold hann
    rw [List.getElem?_map, List.getElem?_range hi, Option.map_some, e]
  obtain ⟨c, hc, ec⟩ := isFinite_iff.1 hfin
  rw [ec] at hcos ⊢
  simp only [F32.val] at hcos
  have h1f : (1 : F32) = fin 1 (by decide +kernel) := by decide +kernel
  have h5f : (0.5 : F32) = fin (1 / 2) (by decide +kernel) := by decide +kernel
  have hcb : -(1 + 1 / 2 ^ 20 : ℝ) ≤ c ∧ (c : ℝ) ≤ 1 + 1 / 2 ^ 20 := by
    have h1 := Real.cos_le_one (a : ℝ)
    have h2 := Real.neg_one_le_cos (a : ℝ)
    rw [abs_le] at hcos
    constructor <;> linarith [hcos.1, hcos.2]
  have hcq : -(1 + 1 / 2 ^ 20 : ℚ) ≤ c ∧ c ≤ 1 + 1 / 2 ^ 20 := by
    constructor <;> rw [← Rat.cast_le (K := ℝ)] <;> push_cast
    · exact hcb.1
    · exact hcb.2
  have hs : |1 - c| ≤ 2 + 1 / 2 ^ 20 := by rw [abs_le]; constructor <;> linarith [hcq.1, hcq.2]
  have he := err_pow (1 - c)
  have hs2 : |rndQ (1 - c)| ≤ 3 := by
    have := abs_le.1 he
    rw [abs_le] at hs ⊢
    have hh : |1 - c| ≤ 2 + 1 / 2 ^ 20 := by rw [abs_le]; exact hs
    constructor <;> norm_num at * <;> linarith [hs.1, hs.2, this.1, this.2]
  have hlt : |rndQ (1 - c)| < pow2 128 := by
    rw [pow2_eq]; exact _root_.lt_of_le_of_lt hs2 (by norm_num)
  rw [h1f, h5f, sub_fin, rnd_of_lt hlt, mul_fin]
  generalize rndQ (1 - c) = d at *
  have he2 := err_pow (1 / 2 * d)
  have hd2 : |1 / 2 * d| ≤ 3 / 2 := by rw [_root_.abs_mul, abs_of_pos (by norm_num : (0 : ℚ) < 1 / 2)]; linarith
  have hlt2 : |rndQ (1 / 2 * d)| < pow2 128 := by
    rw [pow2_eq]
    have h3 : |rndQ (1 / 2 * d)| ≤ |rndQ (1 / 2 * d) - 1 / 2 * d| + |1 / 2 * d| := by
      have := abs_add_le (rndQ (1 / 2 * d) - 1 / 2 * d) (1 / 2 * d)
      simpa using this
    refine _root_.lt_of_le_of_lt h3 ?_
    norm_num at *
    linarith
  rw [rnd_of_lt hlt2]
  refine ⟨rfl, ?_⟩
  simp only [F32.val]
  generalize rndQ (1 / 2 * d) = w at *
  have hq : |w - (1 - c) / 2| ≤ 1 / 2 ^ 22 := by
    have e1 : w - (1 - c) / 2 = (w - 1 / 2 * d) + 1 / 2 * (d - (1 - c)) := by ring
    rw [e1]
    refine _root_.le_trans (abs_add_le _ _) ?_
    rw [_root_.abs_mul, abs_of_pos (by norm_num : (0 : ℚ) < 1 / 2)]
    norm_num at *
    linarith
  have hqR : |(w : ℝ) - (1 - c) / 2| ≤ 1 / 2 ^ 22 := by
    have := (Rat.cast_le (K := ℝ)).2 hq
    push_cast at this
    exact this
  have hlip : |Real.cos (a : ℝ) - Real.cos (2 * Real.pi * i / (frame - 1 : ℕ))| ≤ 1 / 2 ^ 19 :=
    _root_.le_trans (by
      have := Real.abs_cos_sub_cos_le (a : ℝ) (2 * Real.pi * i / (frame - 1 : ℕ))
      exact this) hang
  generalize Real.cos (2 * Real.pi * i / (frame - 1 : ℕ)) = C at *
  generalize Real.cos (a : ℝ) = C' at *
  rw [abs_le] at *
  constructor <;> norm_num at * <;> linarith [hqR.1, hqR.2, hlip.1, hlip.2, hcos.1, hcos.2]

/-- the real cosine, rounded down to a multiple of 2^-22 -/
noncomputable def refCos (x : F32) : F32 := rnd (⌊Real.cos (x.val : ℝ) * 2 ^ 22⌋ / 2 ^ 22)

/-- non-vacuity: some cosine meets the hypothesis -/
example : GoodCos { Libm.demo with cos := refCos } := by
  intro x _ _
  have hb : -(2 ^ 22) ≤ ⌊Real.cos (x.val : ℝ) * 2 ^ 22⌋ ∧ ⌊Real.cos (x.val : ℝ) * 2 ^ 22⌋ ≤ 2 ^ 22 := by
    constructor
    · apply Int.le_floor.2; push_cast; linarith [Real.neg_one_le_cos (x.val : ℝ)]
    · have h1 := Int.floor_le (Real.cos (x.val : ℝ) * 2 ^ 22)
      have h2 := Real.cos_le_one (x.val : ℝ)
      have : (⌊Real.cos (x.val : ℝ) * 2 ^ 22⌋ : ℝ) ≤ 2 ^ 22 := by linarith
      exact_mod_cast this
  have h1 := Int.floor_le (Real.cos (x.val : ℝ) * 2 ^ 22)
  have h2 := Int.lt_floor_add_one (Real.cos (x.val : ℝ) * 2 ^ 22)
  show (refCos x).isFinite = true ∧ |((refCos x).val : ℝ) - _| ≤ _
  unfold refCos
  generalize ⌊Real.cos (x.val : ℝ) * 2 ^ 22⌋ = m at *
  have hq : |(m / 2 ^ 22 : ℚ)| ≤ 1 := by
    have h3 : (-(2 ^ 22) : ℚ) ≤ m ∧ (m : ℚ) ≤ 2 ^ 22 := ⟨by exact_mod_cast hb.1, by exact_mod_cast hb.2⟩
    rw [abs_le]
    constructor
    · rw [le_div_iff₀ (by norm_num)]; linarith [h3.1]
    · rw [div_le_iff₀ (by norm_num)]; linarith [h3.2]
  have he := err_pow (m / 2 ^ 22 : ℚ)
  have hlt : |rndQ (m / 2 ^ 22 : ℚ)| < pow2 128 := by
    rw [pow2_eq]
    have h3 : |rndQ (m / 2 ^ 22 : ℚ)| ≤ |rndQ (m / 2 ^ 22 : ℚ) - m / 2 ^ 22| + |(m / 2 ^ 22 : ℚ)| := by
      have := abs_add_le (rndQ (m / 2 ^ 22 : ℚ) - m / 2 ^ 22) (m / 2 ^ 22 : ℚ)
      simpa using this
    refine _root_.lt_of_le_of_lt h3 ?_
    norm_num at he hq ⊢
    linarith
  rw [rnd_of_lt hlt]
  refine ⟨rfl, ?_⟩
  show |((rndQ (m / 2 ^ 22 : ℚ) : ℚ) : ℝ) - Real.cos (x.val : ℝ)| ≤ 1 / 2 ^ 20
  have he' : |rndQ (m / 2 ^ 22 : ℚ) - m / 2 ^ 22| ≤ 1 / 2 ^ 23 := by
    norm_num at he hq ⊢
    linarith
  have heR := (Rat.cast_le (K := ℝ)).2 he'
  push_cast at heR
  rw [abs_le] at *
  generalize rndQ (m / 2 ^ 22 : ℚ) = v at *
  generalize Real.cos (x.val : ℝ) = C at *
  constructor <;> norm_num at heR h1 h2 ⊢ <;> linarith [heR.1, heR.2]

end Verif.Props
