/-
Property theorems C107: peak normalisation reaches its target, and doing it twice changes nothing but rounding
(src/preprocessing/normalization.rs).
-/
import Verif.Props.Normalization

namespace Verif.Props
open Verif Verif.Norm Verif.F32

theorem err_any (q : ℚ) : |rndQ q - q| ≤ |q| * pow2 (-24) + pow2 (-150) := by
  have h0 := _root_.abs_nonneg q
  have h1 := pow2_pos (-24)
  have h2 := pow2_pos (-150)
  rcases _root_.le_total (pow2 (-126)) |q| with h | h
  · have := abs_rndQ_sub_le_rel h; linarith
  · have := abs_rndQ_sub_le_sub h
    have h3 := _root_.mul_nonneg h0 h1.le
    linarith

/-- The gain the peak method applies, as a rational number. -/
theorem peak_gain {p t : ℚ} {hp ht} (hp0 : 1 / 2 ^ 34 ≤ p) (hp1 : p ≤ 2 ^ 100) (ht0 : 1 / 2 ^ 20 ≤ t) (ht1 : t ≤ 1) :
    ∃ (g : ℚ) (hg : _), F32.min (fin t ht / fin p hp) (1 / fin p hp) = fin g hg ∧ 0 < g ∧
      |g - t / p| ≤ t / p * (1 / 2 ^ 24) := by
  have hpp : 0 < p := lt_of_lt_of_le (by norm_num) hp0
  have e24 : pow2 (-24) = 1 / 2 ^ 24 := by rw [pow2_eq]; norm_num
  have e126 : pow2 (-126) = 1 / 2 ^ 126 := by rw [pow2_eq]; norm_num
  have hq0 : 1 / 2 ^ 120 ≤ t / p := by
    rw [le_div_iff₀ hpp]
    calc 1 / 2 ^ 120 * p ≤ 1 / 2 ^ 120 * 2 ^ 100 := by gcongr
      _ = 1 / 2 ^ 20 := by norm_num
      _ ≤ t := ht0
  have hq1 : t / p ≤ 2 ^ 34 := by
    rw [div_le_iff₀ hpp]
    calc t ≤ 1 := ht1
      _ = 2 ^ 34 * (1 / 2 ^ 34) := by norm_num
      _ ≤ 2 ^ 34 * p := by gcongr
  have habs : |t / p| = t / p := abs_of_pos (lt_of_lt_of_le (by norm_num) hq0)
  have h34 : pow2 34 = 2 ^ 34 := by rw [pow2_eq]; norm_num
  obtain ⟨hq, e, hle⟩ := rnd_finite_of_abs_le (q := t / p) (b := pow2 34) (by decide +kernel) (by rw [habs, h34]; exact hq1)
  have herr := abs_rndQ_sub_le_rel (q := t / p) (by rw [habs, e126]; exact _root_.le_trans (by norm_num) hq0)
  rw [habs, e24] at herr
  have hgp : 0 < rndQ (t / p) := by
    have h1 := (abs_le.1 herr).1
    have h2 : 0 < t / p := lt_of_lt_of_le (by norm_num) hq0
    have : t / p * (1 / 2 ^ 24) ≤ t / p * (1 / 2) := by gcongr; norm_num
    linarith
  refine ⟨rndQ (t / p), hq, ?_, hgp, herr⟩
  have h1f : (1 : F32) = fin 1 (by decide +kernel) := by decide +kernel
  rw [div_fin hpp.ne', h1f, div_fin hpp.ne', e]
  have h1 : |(1 : ℚ) / p| ≤ pow2 34 := by
    rw [abs_of_pos (by positivity), h34, div_le_iff₀ hpp]
    calc (1 : ℚ) = 2 ^ 34 * (1 / 2 ^ 34) := by norm_num
      _ ≤ 2 ^ 34 * p := by gcongr
  obtain ⟨hq', e', _⟩ := rnd_finite_of_abs_le (q := 1 / p) (b := pow2 34) (by decide +kernel) h1
  rw [e']
  have hm : rndQ (t / p) ≤ rndQ (1 / p) := rndQ_mono (by gcongr)
  have : fin (rndQ (t / p)) hq ≤ fin (rndQ (1 / p)) hq' := fin_le_fin.2 hm
  have hl := F32.min_le_right (a := fin (rndQ (t / p)) hq) (b := fin (rndQ (1 / p)) hq') (by simp)
  have hl' := F32.min_le_left (a := fin (rndQ (t / p)) hq) (b := fin (rndQ (1 / p)) hq') (by simp)
  rcases F32.min_eq_left_or_right (fin (rndQ (t / p)) hq) (fin (rndQ (1 / p)) hq') with h | h
  · exact h
  · rw [h] at hl' ⊢
    have := _root_.le_antisymm (fin_le_fin.1 hl') hm
    congr 1

/-- One pass of peak normalisation over finite samples: every sample times one gain, which brings the peak to the
target. -/
theorem peak_pass {M : Libm} {samples : List F32} {c : Config} {sr : F32} (hc : c.method = .peak)
    (hfin : ∀ x ∈ samples, x.isFinite = true ∧ |x.val| ≤ 2 ^ 100) (hloud : ∃ x ∈ samples, 1e-10 < x.abs)
    {t : ℚ} {ht} (hT : M.powf 10 ((0 - c.headroomDb) / 20) = fin t ht) (ht0 : 1 / 2 ^ 20 ≤ t) (ht1 : t ≤ 1) :
    ∃ m p g hg, normalize M samples c sr = .ok (samples.map (· * fin g hg), m) ∧ 1 / 2 ^ 34 ≤ p ∧ 0 < g ∧
      |g - t / p| ≤ t / p * (1 / 2 ^ 24) ∧ (∀ x ∈ samples, |x.val| ≤ p) ∧ ∃ x ∈ samples, |x.val| = p := by
  obtain ⟨x0, hx0, hx1⟩ := hloud
  have hne : samples ≠ [] := by rintro rfl; simp at hx0
  obtain ⟨p0, pub, pmem⟩ := peakOf_spec samples
  have hnn : ∀ x ∈ samples, x ≠ F32.nan := fun x hx h => by have := (hfin x hx).1; rw [h] at this; simp [F32.isFinite] at this
  have hgt : EPS < peakOf samples := F32.lt_of_lt_of_le hx1 (pub x0 hx0 (hnn x0 hx0))
  obtain ⟨x, hx, e⟩ : ∃ x ∈ samples, peakOf samples = x.abs := by
    rcases pmem with h | h
    · rw [h] at hgt; exact absurd hgt (by decide +kernel)
    · exact h
  obtain ⟨v, hv, rfl⟩ := isFinite_iff.1 (hfin x hx).1
  rw [abs_fin] at e
  have hvp : 1 / 2 ^ 34 ≤ |v| := by
    rw [e] at hgt
    have h1 : rnd (1 / 2 ^ 34) ≤ EPS := by decide +kernel
    have h2 := F32.le_of_lt (F32.lt_of_le_of_lt h1 hgt)
    rw [rnd_val (by decide +kernel)] at h2
    exact fin_le_fin.1 h2
  obtain ⟨g, hg, eg, hg0, herr⟩ := peak_gain (hp := abs_aux hv) (ht := ht) hvp (hfin _ hx).2 ht0 ht1
  unfold normalize
  rw [hc]
  simp only [normalizePeak]
  rw [if_neg hne, if_neg (F32.not_le_of_lt hgt)]
  simp only [hT]
  refine ⟨_, |v|, g, hg, by rw [e, eg], hvp, hg0, herr, fun y hy => ?_, ⟨_, hx, rfl⟩⟩
  obtain ⟨w, hw, rfl⟩ := isFinite_iff.1 (hfin y hy).1
  have := pub _ hy (by simp)
  rw [e, abs_fin] at this
  exact fin_le_fin.1 this

/-- One scaled sample. -/
theorem scaled_sample {w p g t : ℚ} {hw hg} (hp : 1 / 2 ^ 34 ≤ p) (hg0 : 0 < g) (ht0 : 1 / 2 ^ 20 ≤ t) (ht1 : t ≤ 1)
    (herr : |g - t / p| ≤ t / p * (1 / 2 ^ 24)) (hwp : |w| ≤ p) :
    (fin w hw * fin g hg).isFinite = true ∧ |(fin w hw * fin g hg).val| ≤ t * (1 + 1 / 2 ^ 22) ∧
      (|w| = p → t * (1 - 1 / 2 ^ 22) ≤ |(fin w hw * fin g hg).val|) := by
  have hpp : 0 < p := lt_of_lt_of_le (by norm_num) hp
  have e24 : pow2 (-24) = 1 / 2 ^ 24 := by rw [pow2_eq]; norm_num
  have e150 : pow2 (-150) = 1 / 2 ^ 150 := by rw [pow2_eq]; norm_num
  have ha := abs_le.1 herr
  have hpg1 : p * g ≤ t * (1 + 1 / 2 ^ 24) := by
    calc p * g ≤ p * (t / p * (1 + 1 / 2 ^ 24)) := by
          apply mul_le_mul_of_nonneg_left _ hpp.le
          have := ha.2; linarith
      _ = t * (1 + 1 / 2 ^ 24) := by field_simp
  have hpg0 : t * (1 - 1 / 2 ^ 24) ≤ p * g := by
    calc t * (1 - 1 / 2 ^ 24) = p * (t / p * (1 - 1 / 2 ^ 24)) := by field_simp
      _ ≤ p * g := by
          apply mul_le_mul_of_nonneg_left _ hpp.le
          have := ha.1; linarith
  have hwg : |w * g| ≤ p * g := by
    rw [_root_.abs_mul, abs_of_pos hg0]
    exact mul_le_mul_of_nonneg_right hwp hg0.le
  have h2 : pow2 1 = 2 := by rw [pow2_eq]; norm_num
  obtain ⟨hq, e, _⟩ := rnd_finite_of_abs_le (q := w * g) (b := pow2 1) (by decide +kernel) (by
    rw [h2]; linarith)
  rw [mul_fin, e]
  have herr2 := err_any (w * g)
  rw [e24, e150] at herr2
  have h3 := _root_.abs_sub_abs_le_abs_sub (rndQ (w * g)) (w * g)
  have h4 := _root_.abs_sub_abs_le_abs_sub (w * g) (rndQ (w * g))
  rw [abs_sub_comm] at h4
  refine ⟨rfl, ?_, fun hw' => ?_⟩
  · show |rndQ (w * g)| ≤ _
    linarith
  · show _ ≤ |rndQ (w * g)|
    have : |w * g| = p * g := by rw [_root_.abs_mul, abs_of_pos hg0, hw']
    rw [this] at h4 herr2
    linarith

/-- **C107 (the target is reached).** Peak normalisation of finite samples, one of them above `1e-10`, for a target peak
of at most full scale: no sample of the result exceeds the target by more than rounding (one part in `2^22`), and one
sample reaches it up to rounding. -/
theorem C107_target (M : Libm) (samples : List F32) (c : Config) (sr : F32) (hc : c.method = .peak)
    (hfin : ∀ x ∈ samples, x.isFinite = true ∧ |x.val| ≤ 2 ^ 100) (hloud : ∃ x ∈ samples, 1e-10 < x.abs)
    (t : ℚ) (ht) (hT : M.powf 10 ((0 - c.headroomDb) / 20) = fin t ht) (ht0 : 1 / 2 ^ 20 ≤ t) (ht1 : t ≤ 1) :
    ∃ out m, normalize M samples c sr = .ok (out, m) ∧ out.length = samples.length ∧
      (∀ y ∈ out, y.isFinite = true ∧ |y.val| ≤ t * (1 + 1 / 2 ^ 22)) ∧
      ∃ y ∈ out, t * (1 - 1 / 2 ^ 22) ≤ |y.val| := by
  obtain ⟨m, p, g, hg, e, hp, hg0, herr, hall, x, hx, hxp⟩ := peak_pass (M := M) (sr := sr) hc hfin hloud hT ht0 ht1
  refine ⟨_, m, e, by simp, ?_, ?_⟩
  · intro y hy
    obtain ⟨w, hw, rfl⟩ := List.mem_map.1 hy
    obtain ⟨v, hv, rfl⟩ := isFinite_iff.1 (hfin w hw).1
    have hv' := hall (fin v hv) hw
    simp only [F32.val] at hv'
    have := scaled_sample (hw := hv) (hg := hg) hp hg0 ht0 ht1 herr hv'
    exact ⟨this.1, this.2.1⟩
  · refine ⟨x * fin g hg, List.mem_map.2 ⟨x, hx, rfl⟩, ?_⟩
    obtain ⟨v, hv, rfl⟩ := isFinite_iff.1 (hfin x hx).1
    have hv' := hall (fin v hv) hx
    simp only [F32.val] at hv'
    exact (scaled_sample (hw := hv) (hg := hg) hp hg0 ht0 ht1 herr hv').2.2 (by simpa only [F32.val] using hxp)

/-- **C107 (twice is the same as once).** Normalising the result again moves no sample by more than rounding: one part
in `2^20`, or the smallest positive number. -/
theorem C107_twice (M : Libm) (samples : List F32) (c : Config) (sr : F32) (hc : c.method = .peak)
    (hfin : ∀ x ∈ samples, x.isFinite = true ∧ |x.val| ≤ 2 ^ 100) (hloud : ∃ x ∈ samples, 1e-10 < x.abs)
    (t : ℚ) (ht) (hT : M.powf 10 ((0 - c.headroomDb) / 20) = fin t ht) (ht0 : 1 / 2 ^ 20 ≤ t) (ht1 : t ≤ 1) :
    ∃ once m twice m', normalize M samples c sr = .ok (once, m) ∧ normalize M once c sr = .ok (twice, m') ∧
      twice.length = once.length ∧
      ∀ (i : ℕ) (y z : F32), once[i]? = some y → twice[i]? = some z →
        z.isFinite = true ∧ |z.val - y.val| ≤ |y.val| * (1 / 2 ^ 20) + 1 / 2 ^ 149 := by
  obtain ⟨out, m, e, _, hall, y0, hy0, hpk⟩ := C107_target M samples c sr hc hfin hloud t ht hT ht0 ht1
  have e24 : pow2 (-24) = 1 / 2 ^ 24 := by rw [pow2_eq]; norm_num
  have e150 : pow2 (-150) = 1 / 2 ^ 150 := by rw [pow2_eq]; norm_num
  have hfin' : ∀ x ∈ out, x.isFinite = true ∧ |x.val| ≤ 2 ^ 100 := fun x hx => by
    refine ⟨(hall x hx).1, _root_.le_trans (hall x hx).2 ?_⟩
    calc t * (1 + 1 / 2 ^ 22) ≤ 1 * (1 + 1 / 2 ^ 22) := by gcongr
      _ ≤ 2 ^ 100 := by norm_num
  have hloud' : ∃ x ∈ out, 1e-10 < x.abs := by
    refine ⟨y0, hy0, ?_⟩
    obtain ⟨v, hv, rfl⟩ := isFinite_iff.1 (hall _ hy0).1
    rw [abs_fin]
    have h1 : (1e-10 : F32) < rnd (1 / 2 ^ 30) := by decide +kernel
    refine F32.lt_of_lt_of_le h1 ?_
    rw [rnd_val (by decide +kernel), fin_le_fin]
    have : |v| = |(fin v hv).val| := rfl
    rw [this]
    linarith
  obtain ⟨m', p, g, hg, e', hp, hg0, herr, hall', x, hx, hxp⟩ := peak_pass (M := M) (sr := sr) hc hfin' hloud' hT ht0 ht1
  refine ⟨out, m, _, m', e, e', by simp, ?_⟩
  -- the second gain is close to 1
  have hp0 : t * (1 - 1 / 2 ^ 22) ≤ p := _root_.le_trans hpk (hall' _ hy0)
  have hp1 : p ≤ t * (1 + 1 / 2 ^ 22) := hxp ▸ (hall x hx).2
  have hpp : 0 < p := lt_of_lt_of_le (by norm_num) hp
  have ht' : 0 < t := lt_of_lt_of_le (by norm_num) ht0
  have hr1 : t / p ≤ 1 + 1 / 2 ^ 21 := by
    rw [div_le_iff₀ hpp]
    calc t ≤ t * ((1 + 1 / 2 ^ 21) * (1 - 1 / 2 ^ 22)) := by
          have : (1 : ℚ) ≤ (1 + 1 / 2 ^ 21) * (1 - 1 / 2 ^ 22) := by norm_num
          nlinarith
      _ = (1 + 1 / 2 ^ 21) * (t * (1 - 1 / 2 ^ 22)) := by ring
      _ ≤ (1 + 1 / 2 ^ 21) * p := by gcongr
  have hr0 : 1 - 1 / 2 ^ 22 ≤ t / p := by
    rw [le_div_iff₀ hpp]
    calc (1 - 1 / 2 ^ 22) * p ≤ (1 - 1 / 2 ^ 22) * (t * (1 + 1 / 2 ^ 22)) := by
          apply mul_le_mul_of_nonneg_left hp1; norm_num
      _ = t * ((1 - 1 / 2 ^ 22) * (1 + 1 / 2 ^ 22)) := by ring
      _ ≤ t * 1 := by apply mul_le_mul_of_nonneg_left _ ht'.le; norm_num
      _ = t := mul_one t
  have hg1 : |g - 1| ≤ 3 / 2 ^ 22 := by
    have ha := abs_le.1 herr
    rw [abs_le]
    constructor <;> linarith
  intro i y z hy hz
  rw [List.getElem?_map, hy] at hz
  simp only [Option.map_some, Option.some.injEq] at hz
  subst hz
  have hmem := List.mem_of_getElem? hy
  obtain ⟨w, hw, rfl⟩ := isFinite_iff.1 (hall y hmem).1
  have hw' := hall' (fin w hw) hmem
  simp only [F32.val] at hw'
  have hs := scaled_sample (hw := hw) (hg := hg) hp hg0 ht0 ht1 herr hw'
  refine ⟨hs.1, ?_⟩
  obtain ⟨u, hu, eu⟩ := isFinite_iff.1 hs.1
  have hval : (fin w hw * fin g hg).val = rndQ (w * g) := by
    rw [mul_fin] at eu ⊢
    rw [eu]
    unfold rnd at eu
    split_ifs at eu with h1 h2
    injection eu with eu; exact eu.symm
  rw [hval]
  show |rndQ (w * g) - w| ≤ |w| * (1 / 2 ^ 20) + 1 / 2 ^ 149
  have h1 := err_any (w * g)
  rw [e24, e150] at h1
  have h2 : |w * g - w| ≤ |w| * (3 / 2 ^ 22) := by
    rw [show w * g - w = w * (g - 1) by ring, _root_.abs_mul]
    exact mul_le_mul_of_nonneg_left hg1 (_root_.abs_nonneg w)
  have h3 : |w * g| ≤ |w| * 2 := by
    rw [_root_.abs_mul, abs_of_pos hg0]
    apply mul_le_mul_of_nonneg_left _ (_root_.abs_nonneg w)
    have := (abs_le.1 hg1).2
    linarith
  have h4 := _root_.abs_sub_le (rndQ (w * g)) (w * g) w
  have := _root_.abs_nonneg w
  linarith

/-! Non-vacuity: two samples, target 0.01 (40 dB of headroom). -/
example : (∀ x ∈ ([0.5, -0.25] : List F32), x.isFinite = true ∧ |x.val| ≤ 2 ^ 100) ∧
    (∃ x ∈ ([0.5, -0.25] : List F32), 1e-10 < x.abs) ∧
    ∃ t ht, Libm.demo.powf 10 ((0 - 40) / 20) = fin t ht ∧ 1 / 2 ^ 20 ≤ t ∧ t ≤ 1 := by
  exact ⟨by decide +kernel, ⟨0.5, by simp, by decide +kernel⟩, (0.01 : F32).val, by decide +kernel, by decide +kernel,
    by decide +kernel, by decide +kernel⟩

end Verif.Props
