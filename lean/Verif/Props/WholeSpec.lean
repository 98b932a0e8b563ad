/-
Spectrograms of audio in [-1, 1]: the numbers the tempo and the key stages of the whole analysis start from.
-/
import Verif.Props.Stft
import Verif.Props.TempoTotal

namespace Verif.Props
open Verif Verif.Chroma F32

/-- audio after peak normalization: no sample beyond full scale, none NaN -/
def FullScale (x : List F32) : Prop := ∀ v ∈ x, v.abs ≤ 1

theorem fin_of_abs_le {x : F32} {B : ℚ} {hB} (h : x.abs ≤ fin B hB) : ∃ v hv, x = fin v hv ∧ |v| ≤ B := by
  have hn : x ≠ nan := by rintro rfl; exact ne_nan_left h rfl
  have hf : x.abs.isFinite = true := isFinite_of_between (lo := 0) (by decide +kernel) rfl (abs_nonneg hn) h
  rw [isFinite_abs] at hf
  obtain ⟨v, hv, rfl⟩ := isFinite_iff.1 hf
  exact ⟨v, hv, rfl, by rw [abs_fin, fin_le_fin] at h; exact h⟩

/-- the cosine of a finite number is in [-1, 1] -/
def CosUnit (M : Libm) : Prop := ∀ x : F32, x.isFinite = true → -1 ≤ M.cos x ∧ M.cos x ≤ 1

/-- what the transform of `compute_stft` is assumed to do: keep the length, and map up to `2^k` values of size at
most 1 to components of at most `2^(k+1)` (exactly it would be the number of values), for `k ≤ 20` -/
structure SpecFft (sfft : List F32 → List (F32 × F32)) : Prop where
  len : ∀ l, (sfft l).length = l.length
  bound : ∀ k : ℕ, k ≤ 20 → ∀ l, l.length ≤ 2 ^ k → FullScale l → ∀ z ∈ sfft l,
    z.1.abs ≤ rnd (pow2 (k + 1 : ℕ)) ∧ z.2.abs ≤ rnd (pow2 (k + 1 : ℕ))

/-- `n` frames of `m` magnitudes in `[0, 2^B]` -/
def MagsTo (B : ℕ) (s : List (List F32)) (m : ℕ) : Prop := ∀ fr ∈ s, fr.length = m ∧ ∀ x ∈ fr, 0 ≤ x ∧ x ≤ rnd (pow2 B)

theorem mags_fin : ∀ B : ℕ, B < 100 → ∃ h, rnd (pow2 B) = fin (pow2 B) h := by
  intro B hB
  have hg : OnGrid (pow2 B) ∧ |pow2 B| < pow2 128 :=
    ⟨onGrid_pow2 (by omega), by rw [abs_of_pos (pow2_pos _)]; exact pow2_lt (by omega)⟩
  exact ⟨hg, rnd_val hg⟩

theorem MagsTo.mono {A B : ℕ} (h : A ≤ B) {s : List (List F32)} {m : ℕ} (hs : MagsTo A s m) : MagsTo B s m :=
  fun fr hfr => ⟨(hs fr hfr).1, fun x hx => ⟨((hs fr hfr).2 x hx).1,
    F32.le_trans ((hs fr hfr).2 x hx).2 (rnd_mono (pow2_le (by omega)))⟩⟩

theorem hann_angle_finite {i n : ℕ} (hi : i < 2 ^ 20) (hn : 0 < n) (hn' : n ≤ 2 ^ 20) :
    (2 * PI * F32.ofNat i / F32.ofNat n).isFinite = true := by
  obtain ⟨h2, e2⟩ : ∃ h, (2 * PI : F32) = fin (2 * PI : F32).val h := ⟨by decide +kernel, by decide +kernel⟩
  have hv : (0 : ℚ) ≤ (2 * PI : F32).val ∧ (2 * PI : F32).val ≤ 8 := by decide +kernel
  have exact' : ∀ k : ℕ, k ≤ 2 ^ 20 → ∃ h, F32.ofNat k = fin (k : ℚ) h := fun k hk =>
    ⟨_, ofNat_exact (by omega)⟩
  obtain ⟨hi', ei⟩ := exact' i (by omega)
  obtain ⟨hnn, en⟩ := exact' n hn'
  rw [e2, ei, en, mul_fin]
  generalize (2 * PI : F32).val = p at *
  have hb : ∃ h, rnd (pow2 23) = fin (pow2 23) h := ⟨by decide +kernel, by decide +kernel⟩
  obtain ⟨hb, eb⟩ := hb
  have hin : (i : ℚ) ≤ 2 ^ 20 := by exact_mod_cast (by omega : i ≤ 2 ^ 20)
  have h0 : (0 : ℚ) ≤ p * i := mul_nonneg hv.1 (by positivity)
  have hle : p * i ≤ pow2 23 := by
    have : p * i ≤ 8 * 2 ^ 20 := mul_le_mul hv.2 hin (by positivity) (by norm_num)
    refine this.trans ?_
    unfold pow2; norm_num
  have hr : 0 ≤ rnd (p * i) ∧ rnd (p * i) ≤ rnd (pow2 23) := ⟨by rw [zero_def]; exact fin_le_rnd h0, rnd_mono hle⟩
  obtain ⟨v, hv', ev⟩ := isFinite_iff.1 (isFinite_of_between (by decide +kernel) (by decide +kernel) hr.1 hr.2)
  rw [ev] at hr ⊢
  rw [eb, fin_le_fin] at hr
  rw [zero_def, fin_le_fin] at hr
  have hn1 : (1 : ℚ) ≤ n := by exact_mod_cast hn
  rw [div_fin (by positivity)]
  have hq : 0 ≤ v / n ∧ v / n ≤ pow2 23 := ⟨_root_.div_nonneg hr.1 (by positivity), (div_le_self hr.1 hn1).trans hr.2⟩
  exact isFinite_of_between (lo := 0) (hi := rnd (pow2 23)) (by decide +kernel) (by decide +kernel)
    (by rw [zero_def]; exact fin_le_rnd hq.1) (rnd_mono hq.2)

theorem hann_range {M : Libm} (hc : CosUnit M) {frame : ℕ} (h2 : 2 ≤ frame) (hf : frame ≤ 2 ^ 20) :
    ∀ w ∈ hann M frame, ∃ v hv, w = fin v hv ∧ 0 ≤ v ∧ v ≤ 1 := by
  intro w hw
  unfold hann at hw
  obtain ⟨i, hi, rfl⟩ := List.mem_map.1 hw
  rw [List.mem_range] at hi
  obtain ⟨c0, c1⟩ := hc _ (hann_angle_finite (i := i) (n := frame - 1) (by omega) (by omega) (by omega))
  generalize M.cos _ = t at *
  obtain ⟨t, ht, rfl⟩ := isFinite_iff.1 (isFinite_of_between (by decide +kernel) (by decide +kernel) c0 c1)
  obtain ⟨m1, e1⟩ : ∃ h, (-1 : F32) = fin (-1) h := ⟨by decide +kernel, by decide +kernel⟩
  obtain ⟨gh, eh⟩ : ∃ h, (0.5 : F32) = fin (1 / 2) h := ⟨by decide +kernel, by decide +kernel⟩
  rw [e1, fin_le_fin] at c0
  rw [one_def, fin_le_fin] at c1
  rw [one_def, sub_fin, eh]
  have k : 0 ≤ rnd (1 - t) ∧ rnd (1 - t) ≤ rnd 2 := ⟨by rw [zero_def]; exact fin_le_rnd (by linarith), rnd_mono (by linarith)⟩
  obtain ⟨u, hu, eu⟩ := isFinite_iff.1 (isFinite_of_between (by decide +kernel) (by decide +kernel) k.1 k.2)
  obtain ⟨g2, e2⟩ : ∃ h, rnd 2 = fin 2 h := ⟨by decide +kernel, by decide +kernel⟩
  rw [eu, e2, fin_le_fin] at k
  rw [zero_def, fin_le_fin] at k
  rw [eu, mul_fin]
  have q : 0 ≤ rnd (1 / 2 * u) ∧ rnd (1 / 2 * u) ≤ rnd 1 := ⟨by rw [zero_def]; exact fin_le_rnd (by linarith), rnd_mono (by linarith)⟩
  obtain ⟨g1, e1'⟩ : ∃ h, rnd 1 = fin 1 h := ⟨by decide +kernel, by decide +kernel⟩
  obtain ⟨v, hv, ev⟩ := isFinite_iff.1 (isFinite_of_between (by decide +kernel) (by decide +kernel) q.1 q.2)
  rw [ev, e1', fin_le_fin] at q
  rw [zero_def, fin_le_fin] at q
  exact ⟨v, hv, ev, q.1, q.2⟩

theorem mul_fullscale {v w : ℚ} {hv hw} (h1 : |v| ≤ 1) (h2 : 0 ≤ w) (h3 : w ≤ 1) : (fin v hv * fin w hw).abs ≤ 1 := by
  rw [mul_fin, abs_rnd]
  have : rnd |v * w| ≤ rnd 1 := rnd_mono (by
    rw [_root_.abs_mul, abs_of_nonneg h2]
    exact mul_le_one₀ h1 h2 h3)
  exact F32.le_trans this (by decide +kernel)

theorem mag_consts : ∀ k : ℕ, k < 21 → rnd (pow2 (2 * k + 2 : ℕ)) + rnd (pow2 (2 * k + 2 : ℕ)) ≠ nan ∧
    F32.sqrt (rnd (pow2 (2 * k + 2 : ℕ)) + rnd (pow2 (2 * k + 2 : ℕ))) ≤ rnd (pow2 (k + 2 : ℕ)) := by decide +kernel

theorem mag_bound {k : ℕ} (hk : k ≤ 20) {z : F32 × F32} (h1 : z.1.abs ≤ rnd (pow2 (k + 1 : ℕ))) (h2 : z.2.abs ≤ rnd (pow2 (k + 1 : ℕ))) :
    0 ≤ mag z ∧ mag z ≤ rnd (pow2 (k + 2 : ℕ)) := by
  obtain ⟨g, e⟩ := mags_fin (k + 1) (by omega)
  obtain ⟨c1, c2⟩ := mag_consts k (by omega)
  rw [e] at h1 h2
  obtain ⟨a, ha, ea, la⟩ := fin_of_abs_le h1
  obtain ⟨b, hb, eb, lb⟩ := fin_of_abs_le h2
  have hn := mag_nonneg (z := z) (by rw [ea]; simp) (by rw [eb]; simp)
  refine ⟨hn, ?_⟩
  unfold mag
  rw [ea, eb, mul_fin, mul_fin]
  have e2 : pow2 (2 * k + 2 : ℕ) = pow2 (k + 1 : ℕ) * pow2 (k + 1 : ℕ) := by
    rw [← pow2_add]; congr 1; push_cast; ring
  have sq : ∀ {x : ℚ}, |x| ≤ pow2 (k + 1 : ℕ) → 0 ≤ rnd (x * x) ∧ rnd (x * x) ≤ rnd (pow2 (2 * k + 2 : ℕ)) := fun {x} h => by
    refine ⟨by rw [zero_def]; exact fin_le_rnd (mul_self_nonneg x), rnd_mono ?_⟩
    rw [← abs_mul_abs_self x, e2]
    exact mul_le_mul h h (_root_.abs_nonneg x) (pow2_pos _).le
  have hs : 0 ≤ rnd (a * a) + rnd (b * b) := F32.add_nonneg (sq la).1 (sq lb).1
  have hle : rnd (a * a) + rnd (b * b) ≤ rnd (pow2 (2 * k + 2 : ℕ)) + rnd (pow2 (2 * k + 2 : ℕ)) :=
    F32.add_le_add (sq la).2 (sq lb).2 (ne_nan_right hs) c1
  exact F32.le_trans (sqrt_mono hs hle) c2

/-- the spectrogram of full-scale audio: one row per window, `frame/2 + 1` magnitudes each, all in `[0, 2^(k+2)]` for windows of
up to `2^k` samples -/
theorem stft_mags {M : Libm} (hc : CosUnit M) {sfft : List F32 → List (F32 × F32)} (hf : SpecFft sfft) {samples : List F32}
    (hs : FullScale samples) {frame hop : ℕ} (h2 : 2 ≤ frame) {k : ℕ} (hk : k ≤ 20) (hfk : frame ≤ 2 ^ k) (hh : 0 < hop) :
    ∃ rows, computeStft M sfft samples frame hop = .ok rows ∧
      rows.length = (if samples.length < frame then 0 else (samples.length - frame) / hop + 1) ∧
      MagsTo (k + 2) rows (frame / 2 + 1) := by
  have hfr : frame ≤ 2 ^ 20 := hfk.trans (Nat.pow_le_pow_right (by norm_num) hk)
  unfold computeStft
  by_cases hl : samples.length < frame
  · exact ⟨[], by rw [if_pos hl], by rw [if_pos hl]; rfl, fun fr hfr => by cases hfr⟩
  rw [if_neg hl, if_neg (by omega)]
  have hq : ((samples.length - frame) / hop) * hop + frame ≤ samples.length := by
    have := Nat.div_mul_le_self (samples.length - frame) hop
    omega
  refine ⟨_, stftRows_ok hf.len (by omega) _ _ (Or.inr ?_), by rw [if_neg hl]; simp, ?_⟩
  · have : 0 + ((samples.length - frame) / hop + 1) - 1 = (samples.length - frame) / hop := by simp
    rw [this]; exact hq
  · intro fr hr
    obtain ⟨t, ht, rfl⟩ := List.mem_map.1 hr
    rw [List.mem_range'_1] at ht
    have hfit : t * hop + frame ≤ samples.length := by
      have : t * hop ≤ ((samples.length - frame) / hop) * hop := Nat.mul_le_mul_right _ (by omega)
      omega
    refine ⟨(stftRow_ok (M := M) hf.len (by omega) hfit).2, fun x hx => ?_⟩
    unfold rowFn at hx
    obtain ⟨z, hz, rfl⟩ := List.mem_map.1 hx
    have hb := hf.bound k hk _ ?_ ?_ z (List.mem_of_mem_take hz)
    · exact mag_bound hk hb.1 hb.2
    · rw [List.length_zipWith, length_hann]; exact (Nat.min_le_right _ _).trans hfk
    · intro v hv
      obtain ⟨i, hi, rfl⟩ := List.mem_iff_getElem.1 hv
      rw [List.getElem_zipWith]
      rw [List.length_zipWith] at hi
      have hi1 : i < ((samples.drop (t * hop)).take frame).length := by omega
      have hi2 : i < (hann M frame).length := by omega
      have m1 := hs _ (List.mem_of_mem_drop (List.mem_of_mem_take (List.getElem_mem hi1)))
      obtain ⟨w, hw, ew, w0, w1⟩ := hann_range hc h2 hfr _ (List.getElem_mem hi2)
      rw [one_def] at m1
      obtain ⟨u, hu, eu, lu⟩ := fin_of_abs_le m1
      rw [eu, ew]
      exact mul_fullscale lu w0 w1

theorem stft_plain {M : Libm} (hc : CosUnit M) {sfft : List F32 → List (F32 × F32)} (hf : SpecFft sfft) {samples : List F32}
    (hs : FullScale samples) {frame hop : ℕ} (h2 : 2 ≤ frame) (hfr : frame ≤ 2 ^ 20) (hh : 0 < hop) :
    ∃ rows, computeStft M sfft samples frame hop = .ok rows ∧
      rows.length = (if samples.length < frame then 0 else (samples.length - frame) / hop + 1) ∧
      ∀ fr ∈ rows, fr.length = frame / 2 + 1 ∧ ∀ x ∈ fr, 0 ≤ x ∧ x ≤ rnd (pow2 23) := by
  obtain ⟨rows, e, l, h⟩ := stft_mags hc hf hs h2 (le_refl 20) hfr hh
  exact ⟨rows, e, l, h.mono (by norm_num : 22 ≤ 23)⟩

/-- ... and from two rows on it is an ordinary input of the tempogram -/
theorem plain_of_stft {rows : List (List F32)} {frame : ℕ} (h2 : 2 ≤ frame) (hfr : frame ≤ 2 ^ 20)
    (hr : ∀ fr ∈ rows, fr.length = frame / 2 + 1 ∧ ∀ x ∈ fr, 0 ≤ x ∧ x ≤ rnd (pow2 23)) (h : 2 ≤ rows.length)
    (hl : rows.length ≤ 2 ^ 62) : PlainSpec rows := by
  have hne : rows ≠ [] := by rintro rfl; simp at h
  obtain ⟨a, l, rfl⟩ := List.exists_cons_of_ne_nil hne
  have ha := (hr a (by simp)).1
  refine ⟨?_, h, hl, ?_, ?_, ?_⟩
  · refine ⟨by simp only [List.headD_cons]; omega, fun fr hfr => ?_⟩
    rw [(hr fr hfr).1]; simp only [List.headD_cons]; exact ha.symm
  · simp only [List.headD_cons]; omega
  · simp only [List.headD_cons]; omega
  · intro fr hfr x hx
    obtain ⟨x0, x1⟩ := (hr fr hfr).2 x hx
    exact Or.inr ⟨x0, F32.le_trans x1 (by decide +kernel)⟩

end Verif.Props
