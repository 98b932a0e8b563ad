/-
RMS and loudness normalization of full-scale audio: the result is again within full scale
(src/preprocessing/normalization.rs lines 325-484).
-/
import Verif.Props.Loudness
import Verif.Props.WholeSpec

namespace Verif.Props
open Verif Verif.Norm F32

/-- what is assumed of `powf` for the two methods: `10^y` is at most 1 for the two targets (-0.6 and -0.05), with some room for
the headroom of 1 dB -/
structure GainLib (M : Libm) : Prop where
  lufs : LufsLib M
  rms : 0 ≤ M.powf 10 ((-14 + 3 - 1) / 20) ∧ M.powf 10 ((-14 + 3 - 1) / 20) ≤ 1
  head : rnd (pow2 (-20)) ≤ M.powf 10 ((0 - 1) / 20) ∧ M.powf 10 ((0 - 1) / 20) ≤ 0.95
  nonneg : PowNonneg M

theorem abs_le_one_of {y : F32} (h : ¬ 1 < y.abs) (hn : y ≠ nan) : y.abs ≤ 1 :=
  F32.le_of_not_lt (abs_ne_nan hn) (by decide +kernel) h

theorem full_ne_nan {x : List F32} (h : FullScale x) : ∀ v ∈ x, v.isFinite = true := by
  intro v hv
  have h1 := h v hv
  have hn : v ≠ nan := by rintro rfl; exact ne_nan_left h1 rfl
  have hf : v.abs.isFinite = true := isFinite_of_between (lo := 0) (by decide +kernel) (by decide +kernel) (F32.abs_nonneg hn) h1
  rwa [isFinite_abs] at hf

/-- the mean power of full-scale audio is at most `2^24` -/
theorem meanSq_full {x : List F32} (h : FullScale x) (h0 : x ≠ []) : 0 ≤ meanSq x ∧ meanSq x ≤ rnd (pow2 24) := by
  have key : ∀ (l : List F32), (∀ v ∈ l, 0 ≤ v ∧ v ≤ 1) → ∀ a : F32, 0 ≤ a → a ≤ rnd (pow2 24) →
      0 ≤ l.foldl (· + ·) a ∧ l.foldl (· + ·) a ≤ rnd (pow2 24) := by
    intro l
    induction l with
    | nil => intro _ a h0 h1; exact ⟨h0, h1⟩
    | cons x l ih =>
      intro h a h0 h1
      obtain ⟨x0, x1⟩ := h x (by simp)
      have hs := F32.add_nonneg h0 x0
      exact ih (fun y hy => h y (by simp [hy])) _ hs
        (F32.le_trans (F32.add_le_add h1 x1 (ne_nan_right hs) (by decide +kernel)) (by decide +kernel))
  obtain ⟨s0, s1⟩ := key (x.map (fun v => v * v)) (fun v hv => by
    obtain ⟨w, hw, rfl⟩ := List.mem_map.1 hv
    have h1 := h w hw
    rw [one_def] at h1
    obtain ⟨a, ha, rfl, la⟩ := fin_of_abs_le h1
    rw [mul_fin]
    refine ⟨rnd_nonneg (mul_self_nonneg a), F32.le_trans (rnd_mono (?_ : a * a ≤ 1)) (by decide +kernel)⟩
    rw [← abs_mul_abs_self]
    exact mul_le_one₀ la (_root_.abs_nonneg a) la) 0 (by decide +kernel) (by decide +kernel)
  unfold meanSq F32.sum
  generalize (x.map (fun v => v * v)).foldl (· + ·) 0 = s at s0 s1
  have hn := one_le_ofNat (List.length_pos_iff.2 h0)
  obtain ⟨g, e⟩ : ∃ g, rnd (pow2 24) = fin (pow2 24) g := ⟨by decide +kernel, by decide +kernel⟩
  rw [e] at s1 ⊢
  rw [zero_def] at s0
  obtain ⟨v, hv, rfl, v0, v1⟩ := between_cases s0 s1
  rcases nonneg_cases (ofNat_nonneg x.length) with en | ⟨n, gn, en, n0⟩ <;> rw [en] at hn ⊢
  · rw [fin_div_inf, ← e]; decide +kernel
  · rw [one_def, fin_le_fin] at hn
    rw [div_fin (by linarith)]
    refine ⟨rnd_nonneg (_root_.div_nonneg v0 n0), ?_⟩
    rw [← e]
    exact rnd_mono ((div_le_self v0 hn).trans v1)

theorem map_full {x : List F32} (hx : FullScale x) {g : F32} (hg : g.isFinite = true)
    (h : ∀ (i : ℕ) (a y : F32), x[i]? = some a → (x.map (· * g))[i]? = some y → a.isFinite = true → y = nan ∨ y.abs ≤ 1) :
    FullScale (x.map (· * g)) := by
  intro v hv
  obtain ⟨i, hi, rfl⟩ := List.mem_iff_getElem.1 hv
  have hi' : i < x.length := by simpa using hi
  have hf := full_ne_nan hx _ (List.getElem_mem hi')
  rcases h i x[i] _ (List.getElem?_eq_getElem hi') (List.getElem?_eq_getElem hi) hf with e | e
  · rw [List.getElem_map] at e
    exact absurd e (mul_fin_ne_nan hf hg)
  · exact e

/-- RMS normalization of full-scale audio succeeds and stays within full scale -/
theorem rms_full {M : Libm} (hM : GainLib M) {x : List F32} (h0 : x ≠ []) (hx : FullScale x) (sr : F32) :
    ∃ y m, normalize M x ⟨-14, 1, .rms⟩ sr = .ok (y, m) ∧ y.length = x.length ∧ FullScale y := by
  have hfin := full_ne_nan hx
  obtain ⟨y, m, e⟩ : ∃ y m, normalize M x ⟨-14, 1, .rms⟩ sr = .ok (y, m) := by
    unfold normalize
    simp only [normalizeRms, if_neg h0]
    split_ifs <;> exact ⟨_, _, rfl⟩
  refine ⟨y, m, e, (C05_common_gain M x _ sr y m e).1, ?_⟩
  have hcl := C05_rms_never_clips M hM.nonneg x ⟨-14, 1, .rms⟩ sr rfl y m e
  rcases hcl with ⟨rfl, -⟩ | ⟨-, hcl⟩
  · exact hx
  have hb : ∀ g, y = x.map (· * g) → g.isFinite = true → FullScale y := by
    rintro g rfl hg
    refine map_full hx hg (fun i a y h1 h2 h3 => ?_)
    by_cases hn : y = nan
    · exact .inl hn
    · exact .inr (abs_le_one_of (hcl i a y h1 h2 h3) hn)
  unfold normalize at e
  simp only [normalizeRms, if_neg h0] at e
  obtain ⟨q0, q1⟩ := meanSq_full hx h0
  have r0 := sqrt_nonneg q0
  have r1 : F32.sqrt (meanSq x) ≤ rnd (pow2 12) := F32.le_trans (sqrt_mono q0 q1) (by decide +kernel)
  split_ifs at e with h1 h2
  · simp only [Except.ok.injEq, Prod.mk.injEq] at e
    rw [← e.1]; exact hx
  · simp only [Except.ok.injEq, Prod.mk.injEq] at e
    have ht : M.powf 10 ((-14 + 3 - 1) / 20) ≠ nan := ne_nan_right hM.rms.1
    obtain ⟨p0, p1⟩ := peak_range_of_clip h0 ht h1 h2
    refine hb _ e.1.symm ?_
    obtain ⟨ga, ea⟩ : ∃ g, rnd (pow2 (-100)) = fin (pow2 (-100)) g := ⟨by decide +kernel, by decide +kernel⟩
    obtain ⟨gb, eb⟩ : ∃ g, rnd (pow2 126) = fin (pow2 126) g := ⟨by decide +kernel, by decide +kernel⟩
    rw [ea] at p0
    rw [eb] at p1
    obtain ⟨p, hp, ep, l0, l1⟩ := between_cases p0 p1
    have hp0 : 0 < p := lt_of_lt_of_le (pow2_pos _) l0
    rw [ep, one_def, div_fin hp0.ne']
    have hg : OnGrid (pow2 100) ∧ |pow2 100| < pow2 128 := by decide +kernel
    obtain ⟨h, e, -⟩ := rnd_finite_of_abs_le hg (q := 1 / p) (by
      rw [abs_of_pos (by positivity), div_le_iff₀ hp0]
      calc (1 : ℚ) = pow2 100 * pow2 (-100) := by rw [← pow2_add]; norm_num [pow2_eq]
        _ ≤ pow2 100 * p := mul_le_mul_of_nonneg_left l0 (pow2_pos _).le)
    rw [e]; rfl
  · simp only [Except.ok.injEq, Prod.mk.injEq] at e
    refine hb _ e.1.symm ?_
    obtain ⟨t0, t1⟩ := hM.rms
    generalize M.powf 10 ((-14 + 3 - 1) / 20) = t at t0 t1
    generalize F32.sqrt (meanSq x) = r at *
    have hr : EPS ≤ r := F32.le_of_not_lt EPS_ne_nan (ne_nan_right r0) (fun h => h1 (F32.le_of_lt h))
    obtain ⟨gE, eE⟩ : ∃ g, EPS = fin EPS.val g := ⟨by decide +kernel, by decide +kernel⟩
    have hE : (1 / 2 ^ 40 : ℚ) ≤ EPS.val := by decide +kernel
    obtain ⟨gb, eb⟩ : ∃ g, rnd (pow2 12) = fin (pow2 12) g := ⟨by decide +kernel, by decide +kernel⟩
    rw [eE] at hr
    rw [eb] at r1
    rw [zero_def] at t0
    rw [one_def] at t1
    obtain ⟨r, gr, rfl, l0, l1⟩ := between_cases hr r1
    obtain ⟨t, gt, rfl, t0, t1⟩ := between_cases t0 t1
    have hr0 : (1 / 2 ^ 40 : ℚ) ≤ r := hE.trans l0
    have hr1 : (0 : ℚ) < r := lt_of_lt_of_le (by norm_num) hr0
    rw [div_fin hr1.ne']
    have hg : OnGrid (2 ^ 40 : ℚ) ∧ |(2 ^ 40 : ℚ)| < pow2 128 := by decide +kernel
    obtain ⟨h, e, -⟩ := rnd_finite_of_abs_le hg (q := t / r) (by
      rw [abs_of_nonneg (_root_.div_nonneg t0 hr1.le), div_le_iff₀ hr1]
      have := mul_le_mul_of_nonneg_left hr0 (by norm_num : (0 : ℚ) ≤ 2 ^ 40)
      norm_num at this ⊢
      linarith)
    rw [e]; rfl

/-- loudness normalization of full-scale audio whose peak is at least `2^-60` succeeds and stays within full scale -/
theorem loudness_full {M : Libm} (hM : GainLib M) {x : List F32} (h0 : x ≠ []) (hl : x.length ≤ 2 ^ 30) (hx : FullScale x)
    (hp : ∃ v ∈ x, rnd (pow2 (-60)) ≤ v.abs) {sr : ℕ} (hsr : 1000 ≤ sr) :
    ∃ y m, normalize M x ⟨-14, 1, .loudness⟩ (F32.ofNat sr) = .ok (y, m) ∧ y.length = x.length ∧ FullScale y := by
  have hfin := full_ne_nan hx
  obtain ⟨-, -, L, -, -, -, -, eL, hLn, -, -⟩ := C94_measurement M hM.lufs x h0 hl sr hsr
  obtain ⟨y, m, e⟩ : ∃ y m, normalize M x ⟨-14, 1, .loudness⟩ (F32.ofNat sr) = .ok (y, m) := by
    unfold normalize
    simp only [normalizeLufs, if_neg h0]
    rw [eL, R.ok_bind]
    simp only [normalizePeak, if_neg h0]
    split_ifs <;> exact ⟨_, _, rfl⟩
  refine ⟨y, m, e, (C05_common_gain M x _ _ y m e).1, ?_⟩
  -- the peak
  obtain ⟨q0, qub, qmem⟩ := peakOf_spec x
  obtain ⟨v, hv, hv60⟩ := hp
  have p0 : rnd (pow2 (-60)) ≤ peakOf x := F32.le_trans hv60 (qub v hv (ne_nan_of_isFinite (hfin v hv)))
  have p1 : peakOf x ≤ 1 := by
    rcases qmem with h | ⟨w, hw, h⟩
    · rw [h]; decide +kernel
    · rw [h]; exact hx w hw
  obtain ⟨ga, ea⟩ : ∃ g, rnd (pow2 (-60)) = fin (pow2 (-60)) g := ⟨by decide +kernel, by decide +kernel⟩
  rw [ea] at p0
  rw [one_def] at p1
  obtain ⟨p, gp, ep, l0, l1⟩ := between_cases p0 p1
  have hp0 : 0 < p := lt_of_lt_of_le (pow2_pos _) l0
  -- the target
  obtain ⟨t0, t1⟩ := hM.head
  obtain ⟨g20, e20⟩ : ∃ g, rnd (pow2 (-20)) = fin (pow2 (-20)) g := ⟨by decide +kernel, by decide +kernel⟩
  obtain ⟨g95, e95⟩ : ∃ g, (0.95 : F32) = fin (0.95 : F32).val g := ⟨by decide +kernel, by decide +kernel⟩
  have h95 : (0.95 : F32).val * (1 + pow2 (-22)) ≤ 1 := by decide +kernel
  have h95' : (0.95 : F32).val ≤ 1 := by decide +kernel
  rw [e20] at t0
  rw [e95] at t1
  obtain ⟨T, gT, eT, T0, T1⟩ := between_cases t0 t1
  have hT0 : 0 < T := lt_of_lt_of_le (pow2_pos _) T0
  have e' := e
  unfold normalize at e
  simp only [normalizeLufs, if_neg h0] at e
  rw [eL, R.ok_bind] at e
  by_cases hinf : L.feq negInf = true
  · rw [if_pos hinf] at e
    have e2 : normalize M x ⟨-14, 1, .peak⟩ (F32.ofNat sr) = .ok (y, m) := e
    obtain ⟨hl', hy⟩ := C04_peak_never_clips_partial M hM.nonneg x ⟨-14, 1, .peak⟩ (F32.ofNat sr) rfl y m e2
      (fun w hw _ => F32.le_trans (hx w hw) (by decide +kernel))
    intro w hw
    obtain ⟨i, hi, rfl⟩ := List.mem_iff_getElem.1 hw
    have hi' : i < x.length := by omega
    exact hy i x[i] y[i] (List.getElem?_eq_getElem hi') (List.getElem?_eq_getElem hi) (hfin _ (List.getElem_mem hi'))
  rw [if_neg hinf] at e
  have hlu : m.lufs = some L := by
    split_ifs at e <;>
    · simp only [R.pure_eq_ok, Except.ok.injEq, Prod.mk.injEq] at e
      rw [← e.2]
  have hlim := C05_loudness_limit_partial M x ⟨-14, 1, .loudness⟩ (F32.ofNat sr) rfl y m L e' hlu hM.nonneg T gT eT
    (le_trans (pow2_le (by norm_num)) T0) (T1.trans (h95'.trans (by rw [pow2_eq]; norm_num))) p gp ep l0
    (l1.trans (by rw [pow2_eq]; norm_num))
  have hb : ∀ g, y = x.map (· * g) → g.isFinite = true → FullScale y := by
    rintro g rfl hg
    refine map_full hx hg (fun i a z k1 k2 k3 => ?_)
    rcases hlim i a z k1 k2 k3 with h | ⟨w, hw, rfl, hle⟩
    · exact .inl h
    · right
      rw [abs_fin, one_def, fin_le_fin]
      exact hle.trans ((_root_.mul_le_mul_of_nonneg_right T1 (by have := pow2_pos (-22); linarith)).trans h95)
  split_ifs at e with hcl
  · simp only [R.pure_eq_ok, Except.ok.injEq, Prod.mk.injEq] at e
    refine hb _ e.1.symm ?_
    rw [eT, ep, div_fin hp0.ne']
    have hg : OnGrid (pow2 60) ∧ |pow2 60| < pow2 128 := by decide +kernel
    obtain ⟨h, e, -⟩ := rnd_finite_of_abs_le hg (q := T / p) (by
      rw [abs_of_pos (by positivity), div_le_iff₀ hp0]
      calc T ≤ 1 := T1.trans h95'
        _ = pow2 60 * pow2 (-60) := by rw [← pow2_add]; norm_num [pow2_eq]
        _ ≤ pow2 60 * p := mul_le_mul_of_nonneg_left l0 (pow2_pos _).le)
    rw [e]; rfl
  · simp only [R.pure_eq_ok, Except.ok.injEq, Prod.mk.injEq] at e
    refine hb _ e.1.symm ?_
    have hg0 := hM.nonneg ((-14 - L) / 20)
    have hgn : M.powf 10 ((-14 - L) / 20) ≠ nan := by
      refine hM.lufs.pow _ ?_
      obtain ⟨g14, e14⟩ : ∃ g, (-14 : F32) = fin (-14) g := ⟨by decide +kernel, by decide +kernel⟩
      obtain ⟨g20', e20'⟩ : ∃ g, (20 : F32) = fin 20 g := ⟨by decide +kernel, by decide +kernel⟩
      rw [e14, e20']
      rcases L with _ | s | ⟨w, hw⟩
      · exact absurd rfl hLn
      · cases s <;> (show (_ : F32) / fin 20 g20' ≠ nan; rw [show ∀ s, (fin (-14) g14 - inf s : F32) = inf (!s) from fun s => rfl, inf_div_fin]; simp)
      · rw [sub_fin]
        have := rnd_ne_nan (-14 - w)
        generalize rnd (-14 - w) = r at this ⊢
        rcases r with _ | s | ⟨r, hr⟩
        · exact absurd rfl this
        · rw [inf_div_fin]; simp
        · rw [div_fin (by norm_num)]; exact rnd_ne_nan _
    rw [eT, ep] at hcl
    generalize M.powf 10 ((-14 - L) / 20) = g at *
    rcases g with _ | s | ⟨g, hg⟩
    · exact absurd rfl hgn
    · exfalso
      rw [fin_mul_inf, if_neg hp0.ne'] at hcl
      cases s
      · simp [not_lt.2 hp0.le] at hcl
      · rw [zero_def] at hg0; simp at hg0
    · rfl

end Verif.Props
