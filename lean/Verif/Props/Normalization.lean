/-
Property theorems C04-C06: normalisation (src/preprocessing/normalization.rs).
-/
import Verif.Lemmas.Normalization
import Verif.Lemmas.Silence

namespace Verif.Props
open Verif Verif.Norm Verif.F32

/-- Assumption on the platform's `powf`: powers of ten are not negative (NaN allowed). -/
def PowNonneg (M : Libm) : Prop := ∀ y, ¬ M.powf 10 y < 0

theorem PowNonneg.cases {M : Libm} (h : PowNonneg M) (y : F32) :
    M.powf 10 y = F32.nan ∨ 0 ≤ M.powf 10 y := by
  by_cases hn : M.powf 10 y = F32.nan
  · exact .inl hn
  · exact .inr (le_of_not_lt (by simp) hn (h y))

theorem gain_nonneg {M : Libm} (h : PowNonneg M) {p y : F32} (hp : 0 < p)
    (hn : F32.min (M.powf 10 y / p) (1 / p) ≠ F32.nan) : 0 ≤ F32.min (M.powf 10 y / p) (1 / p) := by
  rcases min_eq_left_or_right (M.powf 10 y / p) (1 / p) with e | e
  · rw [e] at hn ⊢
    rcases h.cases y with h1 | h1
    · rw [h1] at hn; simp at hn
    · exact div_nonneg h1 (le_of_lt hp) hn
  · rw [e] at hn ⊢
    exact div_nonneg zero_le_one (le_of_lt hp) hn

theorem one_div_ne_nan {p : F32} (hp : 0 < p) : (1 : F32) / p ≠ F32.nan :=
  div_fin_ne_nan (by rw [one_def]; rfl) hp

/-- **C04 (partial).** Full claim: after peak normalisation every finite sample is in `[-1, 1]`,
whatever the headroom.  Proved for finite samples of magnitude at most `2^126`; the remaining range is
refuted by `C04_violated`. Infinite and NaN samples may be present in the signal. -/
theorem C04_peak_never_clips_partial (M : Libm) (hM : PowNonneg M) (samples : List F32) (c : Config)
    (sr : F32) (hc : c.method = .peak) (out : List F32) (m : Meta)
    (h : normalize M samples c sr = .ok (out, m))
    (hrange : ∀ x ∈ samples, x.isFinite = true → x.abs ≤ rnd (pow2 126)) :
    out.length = samples.length ∧
    ∀ (i : ℕ) (x y : F32), samples[i]? = some x → out[i]? = some y → x.isFinite = true → y.abs ≤ 1 := by
  unfold normalize at h
  rw [hc] at h
  simp only [normalizePeak] at h
  split_ifs at h with h0 hp
  · simp only [Except.ok.injEq, Prod.mk.injEq] at h
    obtain ⟨rfl, -⟩ := h
    refine ⟨rfl, ?_⟩
    intro i x y hx hy hf
    rw [hx] at hy
    obtain rfl := Option.some.inj hy
    exact le_trans ((peakOf_spec samples).2.1 x (List.mem_of_getElem? hx) (ne_nan_of_isFinite hf))
      (le_trans hp EPS_lt_one)
  · simp only [Except.ok.injEq, Prod.mk.injEq] at h
    obtain ⟨rfl, -⟩ := h
    refine ⟨by simp, ?_⟩
    intro i x y hx hy hf
    obtain ⟨p0, pub, pmem⟩ := peakOf_spec samples
    have hpn : peakOf samples ≠ F32.nan := ne_nan_right p0
    have hEp := lt_of_not_le EPS_ne_nan hpn hp
    have hpos : 0 < peakOf samples := lt_trans EPS_pos hEp
    rw [List.getElem?_map, hx] at hy
    obtain rfl := Option.some.inj hy
    have hmem := List.mem_of_getElem? hx
    have h1 := one_div_ne_nan hpos
    have hgn := min_ne_nan_right (a := M.powf 10 ((0 - c.headroomDb) / 20) / peakOf samples) h1
    refine scaled_le_one hf (pub x hmem (ne_nan_of_isFinite hf)) ?_ (gain_nonneg hM hpos hgn)
      (min_le_right h1)
    rcases pmem with e | ⟨z, hz, e⟩
    · rw [e] at hpos; exact absurd hpos (lt_irrefl _)
    · rcases hzc : z with _ | s | ⟨v, hv⟩
      · rw [hzc] at e; exact absurd e hpn
      · left; rw [e, hzc]; rfl
      · right
        refine ⟨le_trans EPS_ge (le_of_lt hEp), ?_⟩
        rw [e]; exact hrange z hz (by rw [hzc]; rfl)

/-- **C04 (silence).** A signal whose peak is at most `1e-10` is returned unchanged with gain 0 dB. -/
theorem C04_silent_unchanged (M : Libm) (samples : List F32) (c : Config) (sr : F32)
    (hc : c.method = .peak) (h0 : samples ≠ [])
    (hq : ∀ x ∈ samples, x = F32.nan ∨ x.abs ≤ 1e-10) :
    ∃ m, normalize M samples c sr = .ok (samples, m) ∧ m.gainDb = 0 := by
  unfold normalize
  rw [hc]
  simp only [normalizePeak, if_neg h0]
  rw [if_pos]
  · exact ⟨_, rfl, rfl⟩
  · obtain ⟨p0, pub, pmem⟩ := peakOf_spec samples
    rcases pmem with e | ⟨x, hx, e⟩
    · rw [e]; exact le_of_lt EPS_pos
    · rcases hq x hx with h | h
      · subst h; rw [e] at p0; simp at p0
      · rw [e]; exact h

/-- **C04 is violated by the code** for absurdly large samples: a one-sample signal `1.5 * 2^127`,
headroom such that the target is at least full scale, is "normalised" to a value above 1
(because `1 / peak` is subnormal and loses precision). -/
theorem C04_violated (M : Libm) (c : Config) (sr : F32) (hc : c.method = .peak)
    (hT : 1 ≤ M.powf 10 ((0 - c.headroomDb) / 20)) :
    ∃ y m, normalize M [rnd (3 * pow2 126)] c sr = .ok ([y], m) ∧ 1 < y := by
  have hpk : peakOf [rnd (3 * pow2 126)] = rnd (3 * pow2 126) := by decide +kernel
  have h1 : ¬ rnd (3 * pow2 126) ≤ EPS := by decide +kernel
  have h2 : (1 : F32) < rnd (3 * pow2 126) * (1 / rnd (3 * pow2 126)) := by decide +kernel
  have hf : (rnd (3 * pow2 126)).isFinite = true := by decide +kernel
  have hpos : 0 < rnd (3 * pow2 126) := by decide +kernel
  have hmin : F32.min (M.powf 10 ((0 - c.headroomDb) / 20) / rnd (3 * pow2 126))
      (1 / rnd (3 * pow2 126)) = 1 / rnd (3 * pow2 126) := by
    have h3 := one_div_ne_nan hpos
    generalize M.powf 10 ((0 - c.headroomDb) / 20) = T at hT
    have hge : 1 / rnd (3 * pow2 126) ≤ T / rnd (3 * pow2 126) := by
      refine div_le_div_right hT hpos h3 ?_
      obtain ⟨v, hv, e⟩ := isFinite_iff.1 hf
      rw [e] at hpos ⊢
      rcases T with _ | s | ⟨t, ht⟩
      · simp at hT
      · rw [inf_div_fin]; simp
      · exact div_fin_ne_nan rfl hpos
    unfold F32.min
    rw [if_neg (by rw [isNaN_iff]; exact ne_nan_right hge),
      if_neg (by rw [isNaN_iff]; exact h3)]
    split_ifs with h4
    · rfl
    · exact le_antisymm (le_of_not_lt (ne_nan_right hge) h3 h4) hge
  refine ⟨rnd (3 * pow2 126) * (1 / rnd (3 * pow2 126)), 
    ⟨none, 20 * M.log10 (rnd (3 * pow2 126)), rmsDbOf M [rnd (3 * pow2 126) * (1 / rnd (3 * pow2 126))],
      20 * M.log10 (M.powf 10 ((0 - c.headroomDb) / 20) / rnd (3 * pow2 126))⟩, ?_, h2⟩
  · unfold normalize
    rw [hc]
    simp only [normalizePeak, hpk, if_neg h1, hmin]
    rfl

/-- **C05 (RMS).** After RMS normalisation no sample that was finite exceeds 1 in magnitude, except in signals
whose RMS is at most `1e-10`, which are returned unchanged.
(The result can be NaN when the target gain is not a number.) -/
theorem C05_rms_never_clips (M : Libm) (hM : PowNonneg M) (samples : List F32) (c : Config)
    (sr : F32) (hc : c.method = .rms) (out : List F32) (m : Meta)
    (h : normalize M samples c sr = .ok (out, m)) :
    (out = samples ∧ F32.sqrt (F32.sum (samples.map (fun x => x * x)) / F32.ofNat samples.length) ≤ 1e-10) ∨
    (out.length = samples.length ∧
    ∀ (i : ℕ) (x y : F32), samples[i]? = some x → out[i]? = some y → x.isFinite = true → ¬ 1 < y.abs) := by
  unfold normalize at h
  rw [hc] at h
  simp only [normalizeRms] at h
  split_ifs at h with h0 hr hcl
  · simp only [Except.ok.injEq, Prod.mk.injEq] at h
    exact .inl ⟨h.1.symm, hr⟩
  · simp only [Except.ok.injEq, Prod.mk.injEq] at h
    obtain ⟨rfl, -⟩ := h
    right
    refine ⟨by simp, ?_⟩
    intro i x y hx hy hf
    obtain ⟨p0, pub, pmem⟩ := peakOf_spec samples
    rw [List.getElem?_map, hx] at hy
    obtain rfl := Option.some.inj hy
    have ht : M.powf 10 ((c.targetLufs + 3 - c.headroomDb) / 20) ≠ F32.nan := by
      intro e; rw [e] at hcl; simp at hcl
    have hrange := peak_range_of_clip h0 ht hr hcl
    have hpos : 0 < peakOf samples := lt_of_lt_of_le (by decide +kernel) hrange.1
    have h1 := one_div_ne_nan hpos
    exact not_lt_of_le (scaled_le_one hf (pub x (List.mem_of_getElem? hx) (ne_nan_of_isFinite hf))
      (.inr hrange) (div_nonneg zero_le_one (le_of_lt hpos) h1) (le_refl h1))
  · simp only [Except.ok.injEq, Prod.mk.injEq] at h
    obtain ⟨rfl, -⟩ := h
    right
    refine ⟨by simp, ?_⟩
    intro i x y hx hy hf
    obtain ⟨p0, pub, pmem⟩ := peakOf_spec samples
    rw [List.getElem?_map, hx] at hy
    obtain rfl := Option.some.inj hy
    have hxp := pub x (List.mem_of_getElem? hx) (ne_nan_of_isFinite hf)
    -- the gain is NaN or non-negative
    have hg : M.powf 10 ((c.targetLufs + 3 - c.headroomDb) / 20) / F32.sqrt (meanSq samples) = F32.nan ∨
        0 ≤ M.powf 10 ((c.targetLufs + 3 - c.headroomDb) / 20) / F32.sqrt (meanSq samples) := by
      rcases hM.cases ((c.targetLufs + 3 - c.headroomDb) / 20) with e | e
      · left; rw [e]; rfl
      · by_cases hn : M.powf 10 ((c.targetLufs + 3 - c.headroomDb) / 20) / F32.sqrt (meanSq samples) = F32.nan
        · exact .inl hn
        · right
          refine div_nonneg e ?_ hn
          by_cases hs : F32.sqrt (meanSq samples) = F32.nan
          · rw [hs] at hn; simp at hn
          · exact le_of_lt (lt_trans EPS_pos (lt_of_not_le EPS_ne_nan hs hr))
    generalize M.powf 10 ((c.targetLufs + 3 - c.headroomDb) / 20) / F32.sqrt (meanSq samples) = g at hcl hg
    generalize peakOf samples = p at p0 hcl hxp
    dsimp only
    rcases hg with rfl | hg
    · simp
    · obtain ⟨a, ha, rfl⟩ := isFinite_iff.1 hf
      intro hlt
      apply hcl
      rw [F32.abs_mul] at hlt
      have hga : g.abs = g := by
        rcases nonneg_cases hg with rfl | ⟨v, hv, rfl, hv0⟩
        · rfl
        · rw [abs_fin]; congr 1; exact abs_of_nonneg hv0
      rw [hga] at hlt
      refine lt_of_lt_of_le hlt (mul_le_mul_of_nonneg_right hxp hg (ne_nan_right' hlt) ?_)
      intro hn
      rcases nonneg_cases hg with rfl | ⟨v, hv, rfl, hv0⟩
      · -- g infinite: p * inf NaN means p = 0, then x = 0 and x * inf is NaN
        rcases nonneg_cases p0 with rfl | ⟨w, hw, rfl, hw0⟩
        · rw [inf_mul_inf] at hn; simp at hn
        · rw [fin_mul_inf] at hn
          split_ifs at hn with hw'
          · subst hw'
            rw [abs_fin] at hxp hlt
            have := fin_le_fin.1 hxp
            rw [fin_mul_inf, if_pos (_root_.le_antisymm this (_root_.abs_nonneg _))] at hlt
            simp at hlt
      · rcases nonneg_cases p0 with rfl | ⟨w, hw, rfl, hw0⟩
        · rw [inf_mul_fin] at hn
          split_ifs at hn with hv'
          subst hv'
          rw [abs_fin, mul_fin, mul_zero, rnd_zero] at hlt
          exact absurd hlt (by decide +kernel)
        · rw [mul_fin] at hn; simp at hn

/-- **C05 (loudness, partial).** Full claim: after loudness normalisation no sample exceeds the
requested headroom peak `T = 10^(-headroom/20)` by more than rounding.  Proved when the signal peak
and `T` are both within `[2^-60, 2^60]`: every finite sample satisfies `|y| ≤ T` or at worst
`|y| ≤ T * (1 + 2^-22)`.  Outside that range the intermediate gain may leave the normal range. -/
theorem C05_loudness_limit_partial (M : Libm) (samples : List F32) (c : Config)
    (sr : F32) (hc : c.method = .loudness) (out : List F32) (m : Meta) (L : F32)
    (h : normalize M samples c sr = .ok (out, m)) (hL : m.lufs = some L)
    (hg : ∀ y, ¬ M.powf 10 y < 0)
    (T : ℚ) (hT : OnGrid T ∧ |T| < pow2 128)
    (hTe : M.powf 10 ((0 - c.headroomDb) / 20) = fin T hT) (hT1 : pow2 (-60) ≤ T) (hT2 : T ≤ pow2 60)
    (p : ℚ) (hp : OnGrid p ∧ |p| < pow2 128) (hpe : peakOf samples = fin p hp)
    (hp1 : pow2 (-60) ≤ p) (hp2 : p ≤ pow2 60) :
    ∀ (i : ℕ) (x y : F32), samples[i]? = some x → out[i]? = some y → x.isFinite = true →
      y = F32.nan ∨ ∃ v hv, y = fin v hv ∧ |v| ≤ T * (1 + pow2 (-22)) := by
  have hT0 : 0 < T := _root_.lt_of_lt_of_le (pow2_pos _) hT1
  have hp0 : 0 < p := _root_.lt_of_lt_of_le (pow2_pos _) hp1
  have e22 : 0 < pow2 (-22) := pow2_pos _
  obtain ⟨_, pub, _⟩ := peakOf_spec samples
  unfold normalize at h
  rw [hc] at h
  simp only [normalizeLufs] at h
  split_ifs at h with h0
  obtain ⟨meas, hmeas, h⟩ := R.bind_eq_ok.1 h
  split_ifs at h with hinf hcl
  · -- peak fallback reports no measured loudness
    exfalso
    simp only [normalizePeak] at h
    split_ifs at h <;>
    · simp only [Except.ok.injEq, Prod.mk.injEq] at h
      obtain ⟨-, rfl⟩ := h
      simp at hL
  · have h' := (Prod.mk.inj (Except.ok.inj h)).1
    subst h'
    intro i x y hx hy hf
    rw [List.getElem?_map, hx] at hy
    obtain rfl := Option.some.inj hy
    have hxp := pub x (List.mem_of_getElem? hx) (ne_nan_of_isFinite hf)
    obtain ⟨a, ha, rfl⟩ := isFinite_iff.1 hf
    rw [hpe, abs_fin] at hxp
    have hap := fin_le_fin.1 hxp
    right
    dsimp only
    rw [hTe, hpe, div_fin hp0.ne']
    -- the gain is a normal number
    have hq1 : pow2 (-126) ≤ T / p := by
      rw [le_div_iff₀ hp0]
      calc pow2 (-126) * p ≤ pow2 (-126) * pow2 60 :=
            _root_.mul_le_mul_of_nonneg_left hp2 (pow2_pos _).le
        _ = pow2 (-66) := by rw [← pow2_add]; norm_num
        _ ≤ pow2 (-60) := pow2_le (by norm_num)
        _ ≤ T := hT1
    have hq2 : T / p ≤ pow2 120 := by
      rw [div_le_iff₀ hp0]
      calc T ≤ pow2 60 := hT2
        _ = pow2 120 * pow2 (-60) := by rw [← pow2_add]; norm_num
        _ ≤ pow2 120 * p := _root_.mul_le_mul_of_nonneg_left hp1 (pow2_pos _).le
    have hq0 : 0 < T / p := by positivity
    have g120 : OnGrid (pow2 120) ∧ |pow2 120| < pow2 128 :=
      ⟨onGrid_pow2 (by norm_num), by rw [abs_of_pos (pow2_pos _)]; exact pow2_lt (by norm_num)⟩
    obtain ⟨hr, e, _⟩ := rnd_finite_of_abs_le g120 (by rw [abs_of_pos hq0]; exact hq2)
    have hrel := abs_rndQ_sub_le_rel (q := T / p) (by rw [abs_of_pos hq0]; exact hq1)
    rw [abs_of_pos hq0] at hrel
    have hr0 : 0 ≤ rndQ (T / p) := rndQ_nonneg hq0.le
    rw [e, mul_fin]
    have hb : |a * rndQ (T / p)| ≤ T * (1 + pow2 (-24)) := by
      rw [_root_.abs_mul, abs_of_nonneg hr0]
      have h3 := (abs_le.1 hrel).2
      calc |a| * rndQ (T / p) ≤ p * (T / p + T / p * pow2 (-24)) :=
            _root_.mul_le_mul hap (by linarith) hr0 hp0.le
        _ = T * (1 + pow2 (-24)) := by field_simp
    have e24 : pow2 (-24) ≤ 1 := by rw [pow2_eq]; norm_num
    have hbb : |a * rndQ (T / p)| ≤ pow2 120 := by
      refine hb.trans ?_
      calc T * (1 + pow2 (-24)) ≤ pow2 60 * 2 := by
            exact _root_.mul_le_mul hT2 (by linarith) (by have := pow2_pos (-24); linarith) (pow2_pos _).le
        _ = pow2 61 := by
            have : (2 : ℚ) = pow2 1 := by rw [pow2_eq]; norm_num
            rw [this, ← pow2_add]; norm_num
        _ ≤ pow2 120 := pow2_le (by norm_num)
    obtain ⟨hv, e2, _⟩ := rnd_finite_of_abs_le g120 hbb
    refine ⟨_, hv, e2, ?_⟩
    rw [abs_rndQ]
    have hm := rndQ_mono hb
    have hn : pow2 (-126) ≤ |T * (1 + pow2 (-24))| := by
      rw [abs_of_pos (by have := pow2_pos (-24); positivity)]
      have : T * 1 ≤ T * (1 + pow2 (-24)) :=
        _root_.mul_le_mul_of_nonneg_left (by have := pow2_pos (-24); linarith) hT0.le
      have h9 : pow2 (-126) ≤ pow2 (-60) := pow2_le (by norm_num)
      linarith
    have hrel2 := (abs_le.1 (abs_rndQ_sub_le_rel hn)).2
    rw [abs_of_pos (by have := pow2_pos (-24); positivity)] at hrel2
    have e1 : pow2 (-24) = 1 / 2 ^ 24 := by rw [pow2_eq]; norm_num
    have e2 : pow2 (-22) = 1 / 2 ^ 22 := by rw [pow2_eq]; norm_num
    rw [e1] at hrel2 hm
    rw [e2]
    rw [e1]  at *
    nlinarith
  · have h' := (Prod.mk.inj (Except.ok.inj h)).1
    subst h'
    intro i x y hx hy hf
    rw [List.getElem?_map, hx] at hy
    obtain rfl := Option.some.inj hy
    have hxp := pub x (List.mem_of_getElem? hx) (ne_nan_of_isFinite hf)
    obtain ⟨a, ha, rfl⟩ := isFinite_iff.1 hf
    rw [hpe, abs_fin] at hxp
    have hap := fin_le_fin.1 hxp
    have hgain := hg ((c.targetLufs - meas) / 20)
    rw [hTe, hpe] at hcl
    generalize M.powf 10 ((c.targetLufs - meas) / 20) = g at hcl hgain
    dsimp only
    rcases g with _ | s | ⟨g, hgg⟩
    · left; simp
    · exfalso
      rw [fin_mul_inf, if_neg hp0.ne'] at hcl
      cases s
      · simp [not_lt.2 hp0.le] at hcl
      · rw [zero_def] at hgain; simp at hgain
    · right
      rw [zero_def, fin_lt_fin, not_lt] at hgain
      rw [mul_fin] at hcl ⊢
      have hle : rnd (p * g) ≤ fin T hT := le_of_not_lt (by simp) (by simp) hcl
      have hab : rnd |a * g| ≤ fin T hT := by
        refine le_trans (rnd_mono ?_) hle
        rw [_root_.abs_mul, abs_of_nonneg hgain]
        exact _root_.mul_le_mul_of_nonneg_right hap hgain
      rw [← abs_rnd] at hab
      rcases hr : rnd (a * g) with _ | s | ⟨v, hv⟩
      · exact absurd hr (rnd_ne_nan _)
      · rw [hr] at hab; simp [F32.abs] at hab
      · rw [hr, abs_fin, fin_le_fin] at hab
        refine ⟨v, hv, rfl, ?_⟩
        nlinarith

/-- The decibel relation between a linear gain and a reported value, in either direction in which
the code computes it. -/
def DbOf (M : Libm) (g d : F32) : Prop := d = 20 * M.log10 g ∨ g = M.powf 10 (d / 20)

/-- **C05/C06 (one common gain).** Every successful normalisation either returns the signal unchanged
and reports 0 dB, or multiplies every sample by one gain. -/
theorem C05_common_gain (M : Libm) (samples : List F32) (c : Config) (sr : F32) (out : List F32)
    (m : Meta) (h : normalize M samples c sr = .ok (out, m)) :
    out.length = samples.length ∧
    ((out = samples ∧ m.gainDb = 0) ∨ ∃ g, out = samples.map (· * g)) := by
  have hpk : ∀ hd, normalizePeak M samples hd = .ok (out, m) →
      ((out = samples ∧ m.gainDb = 0) ∨ ∃ g, out = samples.map (· * g)) := by
    intro hd h
    simp only [normalizePeak] at h
    split_ifs at h <;> simp only [Except.ok.injEq, Prod.mk.injEq] at h
    · left; obtain ⟨rfl, rfl⟩ := h; exact ⟨rfl, rfl⟩
    · right; exact ⟨_, h.1.symm⟩
  have key : ((out = samples ∧ m.gainDb = 0) ∨ ∃ g, out = samples.map (· * g)) := by
    unfold normalize at h
    split at h
    · exact hpk _ h
    · simp only [normalizeRms] at h
      split_ifs at h <;> simp only [Except.ok.injEq, Prod.mk.injEq] at h
      · left; obtain ⟨rfl, rfl⟩ := h; exact ⟨rfl, rfl⟩
      · right; exact ⟨_, h.1.symm⟩
      · right; exact ⟨_, h.1.symm⟩
    · simp only [normalizeLufs] at h
      split_ifs at h
      obtain ⟨meas, hmeas, h⟩ := R.bind_eq_ok.1 h
      split_ifs at h
      · exact hpk _ h
      · right; exact ⟨_, (Prod.mk.inj (Except.ok.inj h)).1.symm⟩
      · right; exact ⟨_, (Prod.mk.inj (Except.ok.inj h)).1.symm⟩
  refine ⟨?_, key⟩
  rcases key with ⟨rfl, _⟩ | ⟨g, rfl⟩ <;> simp

/-- **C06 (partial).** Full claim: the reported `gain_db` is the decibel value of the gain applied.
Proved for the RMS method always, and for the Peak and Loudness methods (Loudness falls back on Peak)
whenever the requested target peak is at most full scale, i.e. for non-negative headroom.  For the
Peak method with negative headroom it is false: `C06_violated`. -/
theorem C06_reported_gain_partial (M : Libm) (samples : List F32) (c : Config) (sr : F32)
    (out : List F32) (m : Meta) (h : normalize M samples c sr = .ok (out, m))
    (hpeak : c.method = .rms ∨ (0 ≤ M.powf 10 ((0 - c.headroomDb) / 20) ∧
      M.powf 10 ((0 - c.headroomDb) / 20) ≤ 1)) :
    (out = samples ∧ m.gainDb = 0) ∨ ∃ g, out = samples.map (· * g) ∧ DbOf M g m.gainDb := by
  have hpk : 0 ≤ M.powf 10 ((0 - c.headroomDb) / 20) ∧ M.powf 10 ((0 - c.headroomDb) / 20) ≤ 1 →
      normalizePeak M samples c.headroomDb = .ok (out, m) →
      ((out = samples ∧ m.gainDb = 0) ∨ ∃ g, out = samples.map (· * g) ∧ DbOf M g m.gainDb) := by
    rintro ⟨hT0, hT⟩ h
    simp only [normalizePeak] at h
    split_ifs at h with h0 hp <;> simp only [Except.ok.injEq, Prod.mk.injEq] at h
    · left; obtain ⟨rfl, rfl⟩ := h; exact ⟨rfl, rfl⟩
    · right
      obtain ⟨rfl, rfl⟩ := h
      have hpn : peakOf samples ≠ F32.nan := ne_nan_right (peakOf_spec samples).1
      have hpos : 0 < peakOf samples := lt_trans EPS_pos (lt_of_not_le EPS_ne_nan hpn hp)
      have h1 := one_div_ne_nan hpos
      have hfin : (M.powf 10 ((0 - c.headroomDb) / 20)).isFinite = true :=
        isFinite_of_unit hT0 hT
      have hn := div_fin_ne_nan hfin hpos
      have hle := div_le_div_right hT hpos hn h1
      have hmin : F32.min (M.powf 10 ((0 - c.headroomDb) / 20) / peakOf samples) (1 / peakOf samples) =
          M.powf 10 ((0 - c.headroomDb) / 20) / peakOf samples := by
        unfold F32.min
        rw [if_neg (by rw [isNaN_iff]; exact hn), if_neg (by rw [isNaN_iff]; exact h1),
          if_neg (not_lt_of_le hle)]
      rw [hmin]
      exact ⟨_, rfl, .inl rfl⟩
  unfold normalize at h
  split at h
  · rename_i hm
    rcases hpeak with h' | h'
    · rw [hm] at h'; simp at h'
    · exact hpk h' h
  · simp only [normalizeRms] at h
    split_ifs at h <;> simp only [Except.ok.injEq, Prod.mk.injEq] at h
    · left; obtain ⟨rfl, rfl⟩ := h; exact ⟨rfl, rfl⟩
    · right; obtain ⟨rfl, rfl⟩ := h; exact ⟨_, rfl, .inl rfl⟩
    · right; obtain ⟨rfl, rfl⟩ := h; exact ⟨_, rfl, .inl rfl⟩
  · rename_i hm
    simp only [normalizeLufs] at h
    split_ifs at h
    obtain ⟨meas, hmeas, h⟩ := R.bind_eq_ok.1 h
    split_ifs at h
    · rcases hpeak with h' | h'
      · rw [hm] at h'; simp at h'
      · exact hpk h' h
    · right
      obtain ⟨rfl, rfl⟩ := Prod.mk.inj (Except.ok.inj h)
      exact ⟨_, rfl, .inl rfl⟩
    · right
      obtain ⟨rfl, rfl⟩ := Prod.mk.inj (Except.ok.inj h)
      exact ⟨_, rfl, .inr rfl⟩

/-- **C06 is violated by the code** for negative headroom in the Peak method: for a full-scale signal
and a target of twice full scale, the samples are left as they are (gain 1, that is 0 dB) while the
metadata report the decibel value of 2. -/
theorem C06_violated (M : Libm) (c : Config) (sr : F32) (hc : c.method = .peak)
    (hT : M.powf 10 ((0 - c.headroomDb) / 20) = 2) :
    ∃ m, normalize M [1, -1] c sr = .ok ([1, -1], m) ∧ m.gainDb = 20 * M.log10 2 := by
  have hpk : peakOf [1, -1] = 1 := by decide +kernel
  refine ⟨⟨none, 20 * M.log10 1, rmsDbOf M [1, -1], 20 * M.log10 2⟩, ?_, rfl⟩
  unfold normalize
  rw [hc]
  have h1 : ¬ (1 : F32) ≤ EPS := by decide +kernel
  have h2 : (2 : F32) / 1 = 2 := by decide +kernel
  have h3 : ([1, -1] : List F32).map (· * F32.min 2 (1 / 1)) = [1, -1] := by decide +kernel
  simp only [normalizePeak, hpk, if_neg h1, hT, h2, h3]
  rfl

/-- **C04-C06 (totality).** Normalisation never panics: it returns `Ok` or one of three errors. -/
theorem C04_normalize_no_panic (M : Libm) (samples : List F32) (c : Config) (sr : F32) :
    normalize M samples c sr ≠ R.panic ∧ normalize M samples c sr ≠ R.outOfFuel := by
  have hpk : ∀ hd, ∀ f, normalizePeak M samples hd = .error f → f = .err .invalidInput := by
    intro hd f h
    simp only [normalizePeak] at h
    split_ifs at h
    exact (Except.error.inj h).symm
  have hl : ∀ f, calculateLufs M samples sr = .error f → ∃ k, f = .err k := by
    intro f h
    simp only [calculateLufs] at h
    split_ifs at h with h0 h1 h2
    · exact ⟨_, (Except.error.inj h).symm⟩
    · exact ⟨_, (Except.error.inj h).symm⟩
    · exact ⟨_, (Except.error.inj h).symm⟩
    · generalize (KFilter.new M sr).run samples = fl at h
      generalize (sr * 400 / 1000).toUsize = b at h h2
      have hb : 0 < b := Nat.pos_of_ne_zero h2
      have hm : (List.range ((fl.length + b - 1) / b)).mapM (fun i => (do
          let seg ← slice fl (i * b) (Nat.min (i * b + b) fl.length)
          pure (meanSq seg) : R F32)) =
          .ok ((List.range ((fl.length + b - 1) / b)).map
            (fun i => meanSq ((fl.drop (i * b)).take (Nat.min (i * b + b) fl.length - i * b)))) := by
        apply Silence.mapM_ok
        intro i hi
        have hi' : i < (fl.length + b - 1) / b := by simpa using hi
        have := (Nat.lt_div_iff_mul_lt hb).1 hi'
        have h3 : i * b ≤ fl.length := by
          have : b * i = i * b := Nat.mul_comm _ _
          omega
        rw [slice_ok (Nat.le_min.2 ⟨Nat.le_add_right _ _, h3⟩) (Nat.min_le_right _ _)]
        rfl
      rw [hm] at h
      simp only [R.ok_bind] at h
      split_ifs at h
      · exact ⟨_, (Except.error.inj h).symm⟩
      · simp at h
      · exact ⟨_, (Except.error.inj h).symm⟩
      · simp at h
  have key : ∀ f, normalize M samples c sr = .error f → ∃ k, f = .err k := by
    intro f h
    unfold normalize at h
    split at h
    · exact ⟨_, hpk _ f h⟩
    · simp only [normalizeRms] at h
      split_ifs at h
      exact ⟨_, (Except.error.inj h).symm⟩
    · simp only [normalizeLufs] at h
      split_ifs at h with h0
      · exact ⟨_, (Except.error.inj h).symm⟩
      · cases hc : calculateLufs M samples sr with
        | error f' =>
          rw [hc] at h
          obtain ⟨k, rfl⟩ := hl f' hc
          exact ⟨k, (Except.error.inj h).symm⟩
        | ok v =>
          rw [hc] at h
          simp only [R.ok_bind] at h
          split_ifs at h
          · exact ⟨_, hpk _ f h⟩
          · simp at h
          · simp at h
  constructor <;> intro h <;> obtain ⟨k, hk⟩ := key _ h <;> simp at hk

/-! Non-vacuity: a libm with `10^x = 0.5`; peak of `[0.25, -2, NaN]` is scaled to 0.5. -/
example : PowNonneg { Libm.demo with powf := fun _ _ => 0.5 } := by
  intro y
  show ¬ (0.5 : F32) < 0
  decide +kernel
example : (normalize { Libm.demo with powf := fun _ _ => 0.5 } [0.25, -2, F32.nan] ⟨-14, 1, .peak⟩ 44100).map
    Prod.fst = .ok [0.0625, -0.5, F32.nan] := by decide +kernel
example : ∀ x ∈ ([0.25, -2, F32.nan] : List F32), x.isFinite = true → x.abs ≤ rnd (pow2 126) := by
  decide +kernel
/-! RMS: `[3, -3]` with target 0.5. -/
example : (normalize { Libm.demo with powf := fun _ _ => 0.5 } [3, -3] ⟨-14, 1, .rms⟩ 44100).map
    Prod.fst = .ok [0.5, -0.5] := by decide +kernel
/-! Loudness: the measured loudness is a number and the limiter engages. -/
example : (normalize { Libm.demo with powf := fun _ _ => 0.01 } [3, -3, 0] ⟨-14, 1, .loudness⟩ 10).map
    (fun r => (r.1, r.2.lufs.isSome)) = .ok ([0.01, -0.01, 0], true) := by decide +kernel
/-! The range hypotheses of `C05_loudness_limit_partial` for that signal: target 0.01, peak 3. -/
example : pow2 (-60) ≤ (0.01 : F32).val ∧ (0.01 : F32).val ≤ pow2 60 ∧ (0.01 : F32).isFinite = true ∧
    peakOf [3, -3, 0] = 3 ∧ pow2 (-60) ≤ (3 : F32).val ∧ (3 : F32).val ≤ pow2 60 := by decide +kernel
/-! Silent input of `C04_silent_unchanged`. -/
example : ∀ x ∈ ([1e-11, F32.nan, -1e-12] : List F32), x = F32.nan ∨ x.abs ≤ 1e-10 := by decide +kernel
/-! `C04_violated` / `C06_violated`: such libms exist. -/
example : (1 : F32) ≤ { Libm.demo with powf := fun _ _ => 2 }.powf 10 ((0 - -6) / 20) := by decide +kernel

end Verif.Props
