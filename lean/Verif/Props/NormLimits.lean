/-
C05 without side conditions on the size of the signal: src/preprocessing/normalization.rs.
-/
import Verif.Props.Normalization
import Verif.F32.Sqrt

namespace Verif.Props
open Verif Verif.Norm Verif.F32

/-- A signal of at most `2^64` samples with a finite sample beyond 1 has an RMS above `1e-10`. -/
theorem rms_of_loud {l : List F32} (hl : l.length ≤ 2 ^ 64) {x : F32} (hx : x ∈ l) (h1 : 1 < x.abs) :
    ¬ F32.sqrt (meanSq l) ≤ EPS := by
  intro hle
  have hnan : ∀ y ∈ l, y ≠ F32.nan := by
    rintro y hy rfl
    have : F32.nan ∈ l.map (fun x => x * x) := List.mem_map.2 ⟨_, hy, rfl⟩
    have h1 : meanSq l = F32.nan := by unfold meanSq; rw [sum_nan this]; rfl
    rw [h1] at hle
    exact absurd hle (by decide +kernel)
  have hsq : ∀ y ∈ l.map (fun x => x * x), 0 ≤ y := by
    intro y hy
    obtain ⟨z, hz, rfl⟩ := List.mem_map.1 hy
    have := hnan z hz
    rcases z with _ | s | ⟨v, hv⟩
    · exact absurd rfl this
    · cases s <;> decide +kernel
    · rw [mul_fin]; exact rnd_nonneg (mul_self_nonneg v)
  have hxx : 1 ≤ x * x := by
    have := hnan x hx
    rcases x with _ | s | ⟨v, hv⟩
    · exact absurd rfl this
    · cases s <;> decide +kernel
    · rw [abs_fin, one_def, fin_lt_fin] at h1
      rw [mul_fin, ← rnd_one]
      refine rnd_mono ?_
      rw [← abs_mul_abs_self]
      nlinarith
  have hS : 1 ≤ F32.sum (l.map (fun x => x * x)) := le_trans hxx (le_sum hsq (List.mem_map_of_mem hx))
  have hpos : 0 < l.length := List.length_pos_of_mem hx
  have hN1 := one_le_ofNat hpos
  have hfin := ofNat_finite (n := l.length) (hl.trans (by norm_num))
  obtain ⟨m, hm, em⟩ := isFinite_iff.1 hfin
  have hN2 : F32.ofNat l.length ≤ F32.ofNat (2 ^ 64) := ofNat_mono hl
  have e64 : F32.ofNat (2 ^ 64) = fin (2 ^ 64) (by decide +kernel) := by decide +kernel
  rw [em, e64, fin_le_fin] at hN2
  rw [em, one_def, fin_le_fin] at hN1
  have hm0 : 0 < m := by linarith
  have key : rnd (1 / 2 ^ 64) ≤ meanSq l := by
    unfold meanSq
    rw [em]
    generalize F32.sum (l.map (fun x => x * x)) = S at hS
    rcases S with _ | s | ⟨v, hv⟩
    · rw [one_def] at hS; simp at hS
    · cases s
      · rw [inf_div_fin, decide_eq_false (not_lt.2 hm0.le)]
        decide +kernel
      · rw [one_def] at hS; simp at hS
    · rw [one_def, fin_le_fin] at hS
      rw [div_fin hm0.ne']
      refine rnd_mono ?_
      rw [div_le_div_iff₀ (by norm_num) hm0]
      nlinarith
  have eq64 : rnd (1 / 2 ^ 64) = fin (1 / 2 ^ 64) (by decide +kernel) := by decide +kernel
  rw [eq64] at key
  generalize meanSq l = Q at key hle
  rcases Q with _ | s | ⟨v, hv⟩
  · simp at key
  · cases s
    · exact absurd hle (by decide +kernel)
    · simp at key
  · rw [fin_le_fin] at key
    have := fin_le_sqrt (v := v) (x := 1 / 2 ^ 32) (hv := hv) (hx := by decide +kernel) (by linarith [show (0:ℚ) ≤ 1 / 2 ^ 64 by norm_num]) (by norm_num)
      (by rw [← mul_div_mul_comm, ← pow_add]; linarith)
    exact absurd (le_trans this hle) (by decide +kernel)

/-- **C05 (RMS), without exception.**  On every signal that fits in memory, RMS normalisation keeps the length and
leaves no finite sample beyond 1 in magnitude, including the signals that it returns unchanged. -/
theorem C05_rms_all (M : Libm) (hM : PowNonneg M) (samples : List F32) (hn : samples.length ≤ 2 ^ 64) (c : Config)
    (sr : F32) (hc : c.method = .rms) (out : List F32) (m : Meta) (h : normalize M samples c sr = .ok (out, m)) :
    out.length = samples.length ∧
    ∀ (i : ℕ) (x y : F32), samples[i]? = some x → out[i]? = some y → x.isFinite = true → ¬ 1 < y.abs := by
  rcases C05_rms_never_clips M hM samples c sr hc out m h with ⟨rfl, hr⟩ | h'
  · refine ⟨rfl, fun i x y hx hy _ h1 => ?_⟩
    exact rms_of_loud hn (List.mem_of_getElem? hy) h1 hr
  · exact h'

/-- error of one rounding, for every magnitude -/
theorem rndQ_err_any (q : ℚ) : |rndQ q - q| ≤ |q| * pow2 (-24) + pow2 (-150) := by
  rcases le_total (pow2 (-126)) |q| with h | h
  · have := abs_rndQ_sub_le_rel h
    have := pow2_pos (-150)
    linarith
  · have := abs_rndQ_sub_le_sub h
    have : 0 ≤ |q| * pow2 (-24) := _root_.mul_nonneg (_root_.abs_nonneg _) (pow2_pos _).le
    linarith

/-- **C05 (loudness, partial).**  Full claim: after loudness normalisation no finite sample exceeds the requested
headroom peak `T = 10^(-headroom/20)` by more than rounding.  Proved for every finite signal, silent or as loud as
`f32` allows, and every `T` from 0 to `2^126`, unless the limiting gain `T / peak` itself overflows: a sample ends up
at most at `T` plus relative `2^-22`, plus a `2^-149`th of the original peak, plus one subnormal.
What is missing is refuted by `C05_violated`. -/
theorem C05_loudness_any_partial (M : Libm) (samples : List F32) (c : Config)
    (sr : F32) (hc : c.method = .loudness) (out : List F32) (m : Meta) (L : F32)
    (h : normalize M samples c sr = .ok (out, m)) (hL : m.lufs = some L)
    (hg : PowNonneg M)
    (T : ℚ) (hT : OnGrid T ∧ |T| < pow2 128)
    (hTe : M.powf 10 ((0 - c.headroomDb) / 20) = fin T hT) (hT0 : 0 ≤ T) (hT2 : T ≤ pow2 126)
    (p : ℚ) (hp : OnGrid p ∧ |p| < pow2 128) (hpe : peakOf samples = fin p hp) (hpT : T ≤ p * pow2 126) :
    ∀ (i : ℕ) (x y : F32), samples[i]? = some x → out[i]? = some y → x.isFinite = true →
      y = F32.nan ∨ ∃ v hv, y = fin v hv ∧ |v| ≤ T * (1 + pow2 (-22)) + p * pow2 (-149) + pow2 (-149) := by
  obtain ⟨p0', pub, _⟩ := peakOf_spec samples
  have hp0 : 0 ≤ p := by rw [hpe, zero_def, fin_le_fin] at p0'; exact p0'
  have hp128 : p < pow2 128 := by have := hp.2; rwa [abs_of_nonneg hp0] at this
  unfold normalize at h
  rw [hc] at h
  simp only [normalizeLufs] at h
  split_ifs at h with h0
  obtain ⟨meas, hmeas, h⟩ := R.bind_eq_ok.1 h
  split_ifs at h with hinf hcl
  · exfalso
    simp only [normalizePeak] at h
    split_ifs at h <;>
    · simp only [Except.ok.injEq, Prod.mk.injEq] at h
      obtain ⟨-, rfl⟩ := h
      simp at hL
  · have h' := (Prod.mk.inj (Except.ok.inj h)).1
    subst h'
    intro i x y hx hy hf
    rw [List.getElem?_map, hx] at hy
    obtain rfl := Option.some.inj hy
    have hxp := pub x (List.mem_of_getElem? hx) (ne_nan_of_isFinite hf)
    obtain ⟨a, ha, rfl⟩ := isFinite_iff.1 hf
    rw [hpe, abs_fin] at hxp
    have hap := fin_le_fin.1 hxp
    have hp00 : p ≠ 0 := by
      rintro rfl
      rw [hTe, hpe] at hcl
      generalize M.powf 10 ((c.targetLufs - meas) / 20) = g at hcl
      rcases g with _ | s | ⟨g, hgg⟩
      · simp at hcl
      · rw [fin_mul_inf, if_pos rfl] at hcl; simp at hcl
      · rw [mul_fin, zero_mul, rnd_zero, zero_def, fin_lt_fin] at hcl
        linarith
    have hpp : 0 < p := lt_of_le_of_ne hp0 (Ne.symm hp00)
    right
    dsimp only
    rw [hTe, hpe, div_fin hp00]
    have hq0 : 0 ≤ T / p := by positivity
    have hq2 : T / p ≤ pow2 126 := by rw [div_le_iff₀ hpp, _root_.mul_comm]; exact hpT
    have g127 : OnGrid (pow2 127) ∧ |pow2 127| < pow2 128 :=
      ⟨onGrid_pow2 (by norm_num), by rw [abs_of_pos (pow2_pos _)]; exact pow2_lt (by norm_num)⟩
    obtain ⟨hr, e, _⟩ := rnd_finite_of_abs_le g127
      (by rw [abs_of_nonneg hq0]; exact hq2.trans (pow2_le (by norm_num)))
    have herr := (abs_le.1 (rndQ_err_any (T / p))).2
    rw [abs_of_nonneg hq0] at herr
    have hr0 : 0 ≤ rndQ (T / p) := rndQ_nonneg hq0
    rw [e, mul_fin]
    have hb : |a * rndQ (T / p)| ≤ T * (1 + pow2 (-24)) + p * pow2 (-150) := by
      rw [_root_.abs_mul, abs_of_nonneg hr0]
      calc |a| * rndQ (T / p) ≤ p * (T / p + T / p * pow2 (-24) + pow2 (-150)) :=
            _root_.mul_le_mul hap (by linarith) hr0 hp0
        _ = T * (1 + pow2 (-24)) + p * pow2 (-150) := by field_simp
    have hpow : pow2 127 = 2 * pow2 126 := by
      have : (2 : ℚ) = pow2 1 := by rw [pow2_eq]; norm_num
      rw [this, ← pow2_add]; norm_num
    have e24 : pow2 (-24) = 1 / 2 ^ 24 := by rw [pow2_eq]; norm_num
    have e22 : pow2 (-22) = 1 / 2 ^ 22 := by rw [pow2_eq]; norm_num
    have e149 : pow2 (-149) = 2 * pow2 (-150) := by
      have : (2 : ℚ) = pow2 1 := by rw [pow2_eq]; norm_num
      rw [this, ← pow2_add]; norm_num
    have hpe2 : p * pow2 (-150) ≤ pow2 (-22) := by
      have := _root_.mul_le_mul_of_nonneg_right hp128.le (pow2_pos (-150)).le
      rwa [← pow2_add] at this
    have h126 : 1 ≤ pow2 126 := by rw [pow2_eq]; norm_num
    have hbb : |a * rndQ (T / p)| ≤ pow2 127 := by
      rw [e22] at hpe2
      rw [e24] at hb
      rw [hpow]
      nlinarith
    obtain ⟨hv, e2, _⟩ := rnd_finite_of_abs_le g127 hbb
    refine ⟨_, hv, e2, ?_⟩
    have hfin := rndQ_err_any (a * rndQ (T / p))
    have h3 : |rndQ (a * rndQ (T / p))| ≤ |a * rndQ (T / p)| + (|a * rndQ (T / p)| * pow2 (-24) + pow2 (-150)) := by
      have := abs_sub_abs_le_abs_sub (rndQ (a * rndQ (T / p))) (a * rndQ (T / p))
      linarith
    have hp150 := pow2_pos (-150)
    have hpp150 : 0 ≤ p * pow2 (-150) := by positivity
    generalize |a * rndQ (T / p)| = z at hb h3
    generalize |rndQ (a * rndQ (T / p))| = w at h3 ⊢
    rw [e149, e22]
    rw [e24] at hb h3
    generalize pow2 (-150) = u at *
    nlinarith
  · have h' := (Prod.mk.inj (Except.ok.inj h)).1
    subst h'
    intro i x y hx hy hf
    rw [List.getElem?_map, hx] at hy
    obtain rfl := Option.some.inj hy
    have hxp := pub x (List.mem_of_getElem? hx) (ne_nan_of_isFinite hf)
    obtain ⟨a, ha, rfl⟩ := isFinite_iff.1 hf
    rw [hpe, abs_fin] at hxp
    have hap := fin_le_fin.1 hxp
    have hgain := hg ((c.targetLufs - meas) / 20)
    rw [hTe, hpe] at hcl
    generalize M.powf 10 ((c.targetLufs - meas) / 20) = g at hcl hgain
    have hslack : T ≤ T * (1 + pow2 (-22)) + p * pow2 (-149) + pow2 (-149) := by
      have h1 := pow2_pos (-22)
      have h2 := pow2_pos (-149)
      have h3 := _root_.mul_nonneg hT0 h1.le
      have h4 := _root_.mul_nonneg hp0 h2.le
      nlinarith
    dsimp only
    rcases g with _ | s | ⟨g, hgg⟩
    · left; simp
    · by_cases hp00 : p = 0
      · left
        subst hp00
        have : a = 0 := abs_eq_zero.1 (_root_.le_antisymm hap (_root_.abs_nonneg _))
        rw [fin_mul_inf, if_pos this]
      · exfalso
        rw [fin_mul_inf, if_neg hp00] at hcl
        cases s
        · simp [not_lt.2 hp0] at hcl
        · rw [zero_def] at hgain; simp at hgain
    · right
      rw [zero_def, fin_lt_fin, not_lt] at hgain
      rw [mul_fin] at hcl ⊢
      have hle : rnd (p * g) ≤ fin T hT := le_of_not_lt (by simp) (by simp) hcl
      have hab : rnd |a * g| ≤ fin T hT := by
        refine le_trans (rnd_mono ?_) hle
        rw [_root_.abs_mul, abs_of_nonneg hgain]
        exact _root_.mul_le_mul_of_nonneg_right hap hgain
      rw [← abs_rnd] at hab
      rcases hr : rnd (a * g) with _ | s | ⟨v, hv⟩
      · exact absurd hr (rnd_ne_nan _)
      · rw [hr] at hab; simp [F32.abs] at hab
      · rw [hr, abs_fin, fin_le_fin] at hab
        exact ⟨v, hv, rfl, hab.trans hslack⟩

/-- coarse powers of ten, exact at `10^38` and infinite beyond -/
def topLibm : Libm := { Libm.demo with powf := fun _ y => if y ≤ 0 then 0.01 else if y ≤ 38 then 1e38 else inf false }

/-- **C05 (loudness) is violated where the limiting gain overflows**: with a requested peak of `10^38` and a target
loudness of 1000 LUFS, the samples of a signal with peak `1/4` become infinite. -/
theorem C05_violated : PowNonneg topLibm ∧ ∃ (c : Config) (out : List F32) (m : Meta),
    c.method = .loudness ∧ normalize topLibm [0.25, -0.25, 0] c 10 = .ok (out, m) ∧ m.lufs.isSome = true ∧
    topLibm.powf 10 ((0 - c.headroomDb) / 20) = 1e38 ∧ out = [inf false, inf true, nan] := by
  refine ⟨fun y => ?_, ⟨1000, -760, .loudness⟩, ?_⟩
  · show ¬ (if y ≤ 0 then (0.01 : F32) else if y ≤ 38 then 1e38 else inf false) < 0
    split_ifs <;> decide +kernel
  have h : (match normalize topLibm [0.25, -0.25, 0] ⟨1000, -760, .loudness⟩ 10 with
    | .ok (out, m) => m.lufs.isSome && decide (out = [inf false, inf true, nan]) | _ => false) = true := by decide +kernel
  rcases e : normalize topLibm [0.25, -0.25, 0] ⟨1000, -760, .loudness⟩ 10 with err | ⟨out, m⟩
  · rw [e] at h; simp at h
  rw [e] at h
  simp only [Bool.and_eq_true, decide_eq_true_eq] at h
  exact ⟨out, m, rfl, rfl, h.1, by decide +kernel, h.2⟩

/-! The limiter at work (requested peak 0.01, signal peak 3), within the hypotheses of `C05_loudness_any_partial`; an
RMS-normalised signal that is returned unchanged. -/
example : (normalize { Libm.demo with powf := fun _ _ => 0.01 } [3, -3, 0] ⟨-14, 1, .loudness⟩ 10).map
      (fun r => (r.1, r.2.lufs.isSome)) = .ok ([0.01, -0.01, 0], true) ∧
    0 ≤ (0.01 : F32).val ∧ (0.01 : F32).val ≤ pow2 126 ∧ peakOf [3, -3, 0] = 3 ∧
    (0.01 : F32).val ≤ (3 : F32).val * pow2 126 := by decide +kernel
example : (normalize Libm.demo [1e-11, -1e-12] ⟨-14, 1, .rms⟩ 44100).map Prod.fst = .ok [1e-11, -1e-12] := by
  decide +kernel

end Verif.Props
