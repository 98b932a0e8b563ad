/-
C34 (tempo segmentation terminates) and C35 (tempo segments are well formed).
-/
import Verif.F32.Bounds
import Verif.Props.TimeSig

namespace Verif.Props
open Verif Verif.Beat F32

/-! ### helper lemmas -/

theorem litG : ∀ n : ℕ, n ≤ 2 ^ 24 → ∃ h, F32.ofNat n = fin n h := fun _ h => ⟨grid_nat h, ofNat_exact h⟩

/-- the segment length is in [4,8] and the step is half of it -/
theorem dur_spec {total : F32} (h : total ≠ nan) : ∃ d hd, F32.clamp (total / 4) 4 8 = fin d hd ∧ 4 ≤ d ∧ d ≤ 8 ∧
    ∃ hs, F32.clamp (total / 4) 4 8 - F32.clamp (total / 4) 4 8 * 0.5 = fin (d / 2) hs := by
  obtain ⟨h4, e4⟩ : ∃ h, (4 : F32) = fin 4 h := ⟨by decide +kernel, by decide +kernel⟩
  obtain ⟨h8, e8⟩ : ∃ h, (8 : F32) = fin 8 h := ⟨by decide +kernel, by decide +kernel⟩
  obtain ⟨h5, e5⟩ : ∃ h, (0.5 : F32) = fin (1 / 2) h := ⟨by decide +kernel, by decide +kernel⟩
  have hn : total / 4 ≠ nan := by
    rcases total with _ | s | ⟨v, hv⟩
    · exact absurd rfl h
    · rw [e4, inf_div_fin]; simp
    · exact div_fin_ne_nan rfl (by decide +kernel)
  obtain ⟨c1, c2⟩ := clamp_mem hn (show (4 : F32) ≤ 8 by decide +kernel)
  generalize F32.clamp (total / 4) 4 8 = c at c1 c2
  rw [e4] at c1; rw [e8] at c2
  obtain ⟨d, hd, rfl, d1, d2⟩ := between_cases c1 c2
  have hg : OnGrid (d / 2) ∧ |d / 2| < pow2 128 := by
    constructor
    · have hd1 := hd.1
      have hne : d ≠ 0 := by intro h0; rw [h0] at d1; norm_num at d1
      have hlog : Int.log 2 |d| ≤ 3 := log_le_of_lt hne (by
        rw [abs_of_nonneg (by linarith), pow2_eq]; norm_num; linarith)
      have hlog2 : 2 ≤ Int.log 2 |d| := le_log_of_le (by
        rw [abs_of_nonneg (by linarith), pow2_eq]; norm_num; linarith)
      have hu : -21 ≤ ulpExp d := by unfold ulpExp; omega
      rw [onGrid_iff]
      refine ⟨roundEven (d / pow2 (ulpExp d)), ulpExp d - 1, roundEven_ulp_le d, by omega, ?_⟩
      have h1 : (roundEven (d / pow2 (ulpExp d)) : ℚ) * pow2 (ulpExp d) = d := hd1
      have h2 : pow2 (ulpExp d - 1) = pow2 (ulpExp d) / 2 := by
        have : ulpExp d = (ulpExp d - 1) + 1 := by ring
        conv_rhs => rw [this, pow2_add]
        simp [pow2_eq]
      rw [h2, ← mul_div_assoc, h1]
    · have := hd.2
      rw [abs_of_nonneg (by linarith)] at this ⊢
      linarith
  refine ⟨d, hd, rfl, d1, d2, hg, ?_⟩
  rw [e5, mul_fin, mul_one_div, rnd_val hg, sub_fin]
  have : d - d / 2 = d / 2 := by ring
  rw [this, rnd_val hg]

/-- the loop with a fixed point never ends -/
theorem segLoop_stuck {beats : List F32} {nominal last dur start : F32} (h1 : start < last)
    (h2 : start + (dur - dur * 0.5) = start) : ∀ fuel, segLoop beats nominal last dur fuel start = R.outOfFuel
  | 0 => rfl
  | fuel + 1 => by rw [segLoop, if_pos h1, h2, segLoop_stuck h1 h2 fuel]; rfl

theorem step_progress {v d : ℚ} {hv hs} (hb : |v| ≤ 2 ^ 24) (h4 : 4 ≤ d) (h8 : d ≤ 8) :
    ∃ w hw, (fin v hv : F32) + fin (d / 2) hs = fin w hw ∧ v + 1 / 2 ≤ w := by
  rw [add_fin]
  have hv1 := _root_.abs_le.1 hb
  have hg : OnGrid (pow2 25) ∧ |pow2 25| < pow2 128 := by
    refine ⟨onGrid_pow2 (by norm_num), ?_⟩
    rw [abs_of_pos (pow2_pos _)]; exact pow2_lt (by norm_num)
  have h25 : pow2 25 = 2 ^ 25 := by have := pow2_nat 25; exact_mod_cast this
  have habs : |v + d / 2| ≤ 2 ^ 25 := by
    rw [_root_.abs_le]; constructor <;> norm_num at hv1 ⊢ <;> linarith [hv1.1, hv1.2]
  obtain ⟨hq, he, _⟩ := rnd_finite_of_abs_le (q := v + d / 2) hg (by rw [h25]; exact habs)
  refine ⟨_, hq, he, ?_⟩
  have herr : |rndQ (v + d / 2) - (v + d / 2)| ≤ 5 / 4 := by
    rcases _root_.le_total (pow2 (-126)) |v + d / 2| with h1 | h1
    · have := abs_rndQ_sub_le_rel h1
      rw [pow2_m24'] at this
      have habs2 : |v + d / 2| ≤ 2 ^ 24 + 4 := by
        rw [_root_.abs_le]; constructor <;> norm_num at hv1 ⊢ <;> linarith [hv1.1, hv1.2]
      unfold eps at this
      norm_num at this habs2 ⊢
      linarith
    · have := abs_rndQ_sub_le_sub h1
      rw [pow2_m150'] at this
      unfold eta at this
      norm_num at this ⊢
      linarith
  linarith [(_root_.abs_le.1 herr).1]

theorem segLoop_ok {beats : List F32} {nominal dur : F32} {L d : ℚ} {hL hs} (hLb : L ≤ 2 ^ 24) (h4 : 4 ≤ d) (h8 : d ≤ 8)
    (hd : dur - dur * 0.5 = fin (d / 2) hs) : ∀ (fuel : ℕ) (v : ℚ) (hv), -2 ^ 24 ≤ v → L < v + fuel / 2 →
    ∃ l, segLoop beats nominal (fin L hL) dur (fuel + 1) (fin v hv) = .ok l
  | 0, v, hv, _, hlt => by
    refine ⟨[], ?_⟩
    rw [segLoop, if_neg]
    intro hc
    have := fin_lt_fin.1 hc
    norm_num at hlt
    linarith
  | fuel + 1, v, hv, hlo, hlt => by
    rw [segLoop]
    by_cases hc : (fin v hv : F32) < fin L hL
    · rw [if_pos hc, hd]
      have h1 := fin_lt_fin.1 hc
      obtain ⟨w, hw, e, hp⟩ := step_progress (hv := hv) (hs := hs) (_root_.abs_le.2 ⟨by linarith, by linarith⟩) h4 h8
      push_cast at hlt
      obtain ⟨l, hl⟩ := segLoop_ok (hs := hs) hLb h4 h8 hd fuel w hw (by linarith) (by linarith)
      rw [e, hl]
      exact ⟨_, rfl⟩
    · exact ⟨[], by rw [if_neg hc]⟩

/-! ### C34 -/

/-- **C34** (partial: time stamps up to 2^24 seconds): the segmentation returns, Ok or Err, never a panic, with a loop
count bound independent of the list.  Beyond about 2^25 seconds the claim is false, see `C34_violated`. -/
theorem C34_terminates_partial (beats : List F32) (nominal : F32)
    (hb : ∀ b ∈ beats, -16777216 ≤ b ∧ b ≤ 16777216) (fuel : ℕ) (hf : 2 ^ 27 ≤ fuel) :
    (∃ segs, tempoSegments fuel beats nominal = .ok segs) ∨ tempoSegments fuel beats nominal = R.err .invalidInput := by
  unfold tempoSegments
  by_cases h1 : beats.length < 4
  · rw [if_pos h1]; exact Or.inl ⟨_, rfl⟩
  rw [if_neg h1]
  by_cases h2 : nominal ≤ EPS
  · rw [if_pos h2]; exact Or.inr rfl
  rw [if_neg h2]
  dsimp only
  by_cases h3 : beats.getLastD 0 - beats.headD 0 < 2
  · rw [if_pos h3]; exact Or.inl ⟨_, rfl⟩
  rw [if_neg h3]
  left
  obtain ⟨hB, eB⟩ : ∃ h, (16777216 : F32) = fin (2 ^ 24) h := ⟨by decide +kernel, by decide +kernel⟩
  obtain ⟨hA, eA⟩ : ∃ h, (-16777216 : F32) = fin (-2 ^ 24) h := ⟨by decide +kernel, by decide +kernel⟩
  have hne : beats ≠ [] := by rintro rfl; simp at h1
  have hcase : ∀ b ∈ beats, ∃ v hv, b = fin v hv ∧ -2 ^ 24 ≤ v ∧ v ≤ 2 ^ 24 := by
    intro b hm
    obtain ⟨b1, b2⟩ := hb b hm
    rw [eA] at b1; rw [eB] at b2
    exact between_cases b1 b2
  obtain ⟨f, hfv, ef, f1, f2⟩ := hcase (beats.headD 0) (by cases beats with | nil => simp at hne | cons a l => simp)
  obtain ⟨L, hL, eL, l1, l2⟩ := hcase (beats.getLastD 0) (by
    rw [List.getLastD_eq_getLast?, List.getLast?_eq_some_getLast hne]; exact List.getLast_mem hne)
  rw [ef, eL]
  obtain ⟨d, hd, e1, d1, d2, hs, e2⟩ := dur_spec (sub_fin_ne_nan (a := fin L hL) (b := fin f hfv) rfl rfl)
  obtain ⟨k, rfl⟩ : ∃ k, fuel = k + 1 := ⟨fuel - 1, by omega⟩
  have hk : (134217727 : ℚ) ≤ (k : ℚ) := by
    have : 134217727 ≤ k := by omega
    exact_mod_cast this
  obtain ⟨l, hl⟩ := segLoop_ok (beats := beats) (nominal := nominal) (hL := hL) (hs := hs) l2 d1 d2 e2 k f hfv f1
    (by norm_num at l2 f1 ⊢; linarith)
  rw [hl]
  exact ⟨_, rfl⟩

/-- non-vacuity: a list in range whose segmentation runs the loop -/
example : (match tempoSegments 100 [0, 1, 2, 3, 4, 5, 6, 7] 60 with
    | .ok s => s.map (fun x => (x.start, x.stop, x.bpm)) | .error _ => []) =
    [(0, 4, 60), (2, 6, 60), (4, 7, 60)] := by decide +kernel

/-- **C34 violated**: four beats 32 s apart at 2^28 s make the loop run forever: adding the step does not change the
segment start. -/
theorem C34_violated : ∃ beats : List F32, beats.Pairwise (· < ·) ∧ (∀ b ∈ beats, b.isFinite = true) ∧
    ∀ fuel, tempoSegments fuel beats 120 = R.outOfFuel := by
  refine ⟨[268435456, 268435488, 268435520, 268435552], by decide +kernel, by decide +kernel, fun fuel => ?_⟩
  unfold tempoSegments
  rw [if_neg (by decide +kernel), if_neg (by decide +kernel)]
  dsimp only
  rw [if_neg (by decide +kernel), segLoop_stuck (by decide +kernel) (by decide +kernel)]
  rfl

/-! ### C35 -/

theorem sum_small_aux {l : List F32} (h : ∀ x ∈ l, 0 ≤ x ∧ x ≤ 16) : ∀ a : F32, 0 ≤ a → a ≤ 536870912 →
    l.foldl (· + ·) a ≤ 536870912 := by
  induction l with
  | nil => intro a _ ha; exact ha
  | cons x l ih =>
    intro a ha0 ha
    have hx := h x (by simp)
    rw [List.foldl_cons]
    refine ih (fun y hy => h y (by simp [hy])) _ (F32.add_nonneg ha0 hx.1) ?_
    have hn := ne_nan_right (F32.add_nonneg ha0 hx.1)
    exact F32.le_trans (F32.add_le_add ha hx.2 hn (by decide +kernel)) (by decide +kernel)

theorem sum_small {l : List F32} (h : ∀ x ∈ l, 0 ≤ x ∧ x ≤ 16) : F32.sum l ≤ 536870912 :=
  sum_small_aux h 0 (F32.le_refl zero_ne_nan) (by decide +kernel)

theorem mem_gaps {l : List F32} {x : F32} (h : x ∈ gaps l) : 0 < x ∧ ∃ a ∈ l, ∃ b ∈ l, x = b - a := by
  unfold gaps at h
  rw [List.mem_filter] at h
  refine ⟨by simpa using h.2, ?_⟩
  have := h.1
  rw [List.mem_iff_getElem] at this
  obtain ⟨i, hi, e⟩ := this
  rw [List.getElem_zipWith] at e
  exact ⟨_, List.getElem_mem _, _, List.mem_of_mem_tail (List.getElem_mem _), e.symm⟩

/-- coefficient of variation of the gaps (zero for a mean of at most 1e-10 s) -/
def gapVariation (iv : List F32) : F32 :=
  let m := F32.sum iv / F32.ofNat iv.length
  if 1e-10 < m then
    F32.sqrt (F32.sum (iv.map (fun x => (x - m) * (x - m))) / F32.ofNat iv.length) / m
  else 0

/-- the beats of a segment -/
def beatsIn (beats : List F32) (a b : F32) : List F32 := beats.filter (fun x => decide (a ≤ x) && decide (x ≤ b))

/-- A measured segment: at least three beats and one positive gap inside; tempo, confidence and flag follow from the
gaps between the beats inside. -/
structure Measured (beats : List F32) (nominal : F32) (s : Seg) : Prop where
  three : 3 ≤ (beatsIn beats s.start s.stop).length
  gap : gaps (beatsIn beats s.start s.stop) ≠ []
  flag : s.isVar = true ↔ 0.15 < gapVariation (gaps (beatsIn beats s.start s.stop))
  conf : s.conf = F32.max (1 - F32.min (gapVariation (gaps (beatsIn beats s.start s.stop)) / 0.3) 1) 0
  bpm : s.bpm = nominal ∨ s.bpm = 60 / (F32.sum (gaps (beatsIn beats s.start s.stop)) /
    F32.ofNat (gaps (beatsIn beats s.start s.stop)).length)

theorem gapVariation_cases (iv : List F32) : gapVariation iv = nan ∨ 0 ≤ gapVariation iv := by
  unfold gapVariation
  dsimp only
  by_cases hm : 1e-10 < F32.sum iv / F32.ofNat iv.length
  · rw [if_pos hm]
    generalize F32.sum iv / F32.ofNat iv.length = m at hm ⊢
    generalize F32.sum (iv.map (fun x => (x - m) * (x - m))) / F32.ofNat iv.length = v
    have hm0 : 0 < m := F32.lt_trans (by decide +kernel) hm
    by_cases hn : F32.sqrt v / m = nan
    · exact Or.inl hn
    · right
      refine F32.div_nonneg ?_ (F32.le_of_lt hm0) hn
      have hv : v ≠ nan ∧ ¬ v < 0 := by
        constructor
        · rintro rfl; exact hn (by simp [F32.sqrt])
        · intro hneg
          apply hn
          have : F32.sqrt v = nan := by
            rcases v with _ | s | ⟨w, hw⟩
            · rfl
            · cases s
              · exact absurd hneg (by decide +kernel)
              · rfl
            · rw [zero_def] at hneg
              have := fin_lt_fin.1 hneg
              simp [F32.sqrt, this]
          rw [this]; simp
      exact F32.sqrt_nonneg (le_of_not_lt zero_ne_nan hv.1 hv.2)
  · rw [if_neg hm]; exact Or.inr (F32.le_refl zero_ne_nan)

theorem conf_spec {cv : F32} (h : cv = nan ∨ 0 ≤ cv) :
    0 ≤ F32.max (1 - F32.min (cv / 0.3) 1) 0 ∧ F32.max (1 - F32.min (cv / 0.3) 1) 0 ≤ 1 ∧
    (0.15 < cv → F32.max (1 - F32.min (cv / 0.3) 1) 0 ≤ 0.5) := by
  obtain ⟨h3, e3⟩ : ∃ h, (0.3 : F32) = fin (10066330 / 33554432) h := ⟨by decide +kernel, by decide +kernel⟩
  have hmain : ∀ y : F32, 0 ≤ y → y ≤ 1 → 0 ≤ F32.max (1 - y) 0 ∧ F32.max (1 - y) 0 ≤ 1 ∧
      (0.5 ≤ y → F32.max (1 - y) 0 ≤ 0.5) := by
    intro y hy0 hy1
    obtain ⟨v, hv, rfl, v0, v1⟩ := unit_cases hy0 hy1
    rw [one_def, sub_fin]
    refine ⟨F32.le_max_right zero_ne_nan, F32.max_le (rnd_le_fin (by linarith)) ?_, fun h => F32.max_le ?_ (by decide +kernel)⟩
    · rw [← one_def]; exact F32.zero_le_one
    · obtain ⟨h5, e5⟩ := (⟨by decide +kernel, by decide +kernel⟩ : ∃ h, (0.5 : F32) = fin (1 / 2) h)
      rw [e5] at h ⊢
      have := fin_le_fin.1 h
      exact rnd_le_fin (by linarith)
  rcases h with rfl | h
  · have e : F32.min (nan / 0.3) 1 = 1 := by decide +kernel
    rw [e]
    refine ⟨(hmain 1 F32.zero_le_one (F32.le_refl one_ne_nan)).1, (hmain 1 F32.zero_le_one (F32.le_refl one_ne_nan)).2.1,
      fun hc => absurd rfl (ne_nan_right' hc)⟩
  · have hn : cv / 0.3 ≠ nan := by
      rcases nonneg_cases h with e | ⟨v, hv, e, _⟩
      · rw [e, e3, inf_div_fin]; simp
      · rw [e]; exact div_fin_ne_nan rfl (by decide +kernel)
    have hd := F32.div_nonneg h (by decide +kernel) hn
    have h1 : 0 ≤ F32.min (cv / 0.3) 1 := F32.le_min hd F32.zero_le_one
    have h2 : F32.min (cv / 0.3) 1 ≤ 1 := F32.min_le_right one_ne_nan
    obtain ⟨m1, m2, m3⟩ := hmain _ h1 h2
    refine ⟨m1, m2, fun hc => m3 ?_⟩
    refine F32.le_min ?_ (by decide +kernel)
    exact F32.le_trans (by decide +kernel) (F32.div_le_div_right (F32.le_of_lt hc) (by decide +kernel) (by decide +kernel) hn)

theorem variance_eq (iv : List F32) (m : F32) : variance iv m =
    F32.sum (iv.map (fun x => (x - m) * (x - m))) / F32.ofNat iv.length := rfl

theorem segOf_measured {beats : List F32} {nominal a b : F32} (h3 : 3 ≤ (beatsIn beats a b).length)
    (hg : gaps (beatsIn beats a b) ≠ []) : Measured beats nominal (segOf nominal a b (gaps (beatsIn beats a b))) := by
  refine ⟨h3, hg, ?_, rfl, ?_⟩
  · show decide _ = true ↔ _
    rw [decide_eq_true_iff]; exact Iff.rfl
  · show (if _ then _ else _) = _ ∨ (if _ then _ else _) = _
    by_cases hm : EPS < mean (gaps (beatsIn beats a b))
    · right; rw [if_pos hm]; rfl
    · left; rw [if_neg hm]

/-- a window holds at most one segment, which is well formed -/
theorem window_spec {beats : List F32} {nominal : F32} {L d v : ℚ} {hL hd hv} (h8 : d ≤ 8) (h0 : 0 < d)
    (hlt : v < L) (hnom : 0 < nominal) (s : Seg) (hs : s ∈ window beats nominal (fin L hL) (fin d hd) (fin v hv)) :
    s.start = fin v hv ∧ s.start ≤ s.stop ∧ s.stop ≤ fin L hL ∧ 0 ≤ s.conf ∧ s.conf ≤ 1 ∧ 0 < s.bpm ∧
      (s.isVar = true → s.conf ≤ 0.5) ∧ Measured beats nominal s := by
  unfold window at hs
  dsimp only at hs
  have hstop : (fin v hv : F32) ≤ F32.min (fin v hv + fin d hd) (fin L hL) := by
    refine F32.le_min ?_ (fin_le_fin.2 hlt.le)
    rw [add_fin]; exact fin_le_rnd (by linarith)
  have hstop2 : F32.min (fin v hv + fin d hd) (fin L hL) ≤ fin L hL := F32.min_le_right (by simp)
  have hstop3 : F32.min (fin v hv + fin d hd) (fin L hL) ≤ fin v hv + fin d hd := F32.min_le_left (add_fin_ne_nan rfl (by simp))
  generalize F32.min (fin v hv + fin d hd) (fin L hL) = stop at hs hstop hstop2 hstop3
  rw [posIntervals_eq] at hs
  change s ∈ (if 3 ≤ (beatsIn beats (fin v hv) stop).length then
    (if gaps (beatsIn beats (fin v hv) stop) ≠ [] then
      [segOf nominal (fin v hv) stop (gaps (beatsIn beats (fin v hv) stop))] else []) else []) at hs
  by_cases h3 : 3 ≤ (beatsIn beats (fin v hv) stop).length
  swap
  · rw [if_neg h3] at hs; simp at hs
  rw [if_pos h3] at hs
  by_cases hg : gaps (beatsIn beats (fin v hv) stop) ≠ []
  swap
  · rw [if_neg hg] at hs; simp at hs
  rw [if_pos hg] at hs
  rw [List.mem_singleton] at hs
  have hM := segOf_measured (nominal := nominal) h3 hg
  rw [← hs] at hM
  have hstart : s.start = fin v hv := by rw [hs]; rfl
  have hstop' : s.stop = stop := by rw [hs]; rfl
  obtain ⟨c1, c2, c3⟩ := conf_spec (gapVariation_cases (gaps (beatsIn beats s.start s.stop)))
  refine ⟨hstart, by rw [hstart, hstop']; exact hstop, by rw [hstop']; exact hstop2, by rw [hM.conf]; exact c1,
    by rw [hM.conf]; exact c2, ?_, fun hv => by rw [hM.conf]; exact c3 (hM.flag.1 hv), hM⟩
  have hgap : ∀ x ∈ gaps (beatsIn beats (fin v hv) stop), 0 ≤ x ∧ x ≤ 16 := by
    intro x hx
    obtain ⟨x0, a, ha, b, hb, e⟩ := mem_gaps hx
    refine ⟨F32.le_of_lt x0, ?_⟩
    unfold beatsIn at ha hb
    simp only [List.mem_filter, Bool.and_eq_true, decide_eq_true_eq] at ha hb
    have hb2 := F32.le_trans hb.2.2 hstop2
    obtain ⟨q, hq, eb, _, _⟩ := between_cases hb.2.1 hb2
    obtain ⟨p, hp, ea, p1, _⟩ := between_cases ha.2.1 (F32.le_trans ha.2.2 hstop2)
    rw [e, ea, eb, sub_fin]
    obtain ⟨h16, e16⟩ : ∃ h, (16 : F32) = fin 16 h := ⟨by decide +kernel, by decide +kernel⟩
    rw [e16]
    apply rnd_le_fin
    have hqs := F32.le_trans hb.2.2 hstop3
    rw [eb, add_fin] at hqs
    have hqle : q ≤ rndQ (v + d) := by
      have h1 : |rndQ (v + d)| < pow2 128 ∨ ¬ |rndQ (v + d)| < pow2 128 := em _
      rcases h1 with h1 | h1
      · rw [rnd_of_lt h1] at hqs; exact fin_le_fin.1 hqs
      · have hv2 := hv.2
        have hq2 := hq.2
        have hge : v ≤ rndQ (v + d) := le_rndQ_of_onGrid hv.1 (by linarith)
        have h2 : pow2 128 ≤ rndQ (v + d) := by
          rcases abs_cases (rndQ (v + d)) with ⟨h3, _⟩ | ⟨h3, _⟩
          · rw [h3] at h1; linarith
          · rw [h3] at h1
            have := neg_abs_le v
            linarith
        have := le_abs_self q
        linarith
    have hnear := rndQ_nearest (v + d) hv.1
    have h2 : |v - (v + d)| = d := by
      have : v - (v + d) = -d := by ring
      rw [this, abs_neg, abs_of_pos h0]
    rw [h2] at hnear
    have := (_root_.abs_le.1 hnear).2
    linarith
  rcases hM.bpm with hb | hb
  · rw [hb]; exact hnom
  · by_cases hz : s.bpm = nominal
    · rw [hz]; exact hnom
    have hE : EPS < mean (gaps (beatsIn beats (fin v hv) stop)) := by
      by_contra hc
      apply hz
      rw [hs]; show (if _ then _ else _) = _
      rw [if_neg hc]
    rw [hb, hstart, hstop']
    change 0 < 60 / mean (gaps (beatsIn beats (fin v hv) stop))
    have hmle : mean (gaps (beatsIn beats (fin v hv) stop)) ≤ 536870912 := by
      unfold mean
      have hs0 := F32.sum_nonneg (fun x hx => (hgap x hx).1)
      have hs1 := sum_small hgap
      have hlen : 0 < (gaps (beatsIn beats (fin v hv) stop)).length := List.length_pos_of_ne_nil hg
      generalize F32.sum (gaps (beatsIn beats (fin v hv) stop)) = S at hs0 hs1 hE
      generalize (gaps (beatsIn beats (fin v hv) stop)).length = n at hlen
      obtain ⟨hBB, eBB⟩ : ∃ h, (536870912 : F32) = fin 536870912 h := ⟨by decide +kernel, by decide +kernel⟩
      rw [zero_def] at hs0; rw [eBB] at hs1 ⊢
      obtain ⟨t, ht, rfl, t0, t1⟩ := between_cases hs0 hs1
      have ho := one_le_ofNat hlen
      rcases nonneg_cases (ofNat_nonneg n) with e | ⟨w, hw, e, _⟩
      · rw [e, fin_div_inf, zero_def]; exact fin_le_fin.2 (by norm_num)
      · rw [e] at ho ⊢
        rw [one_def] at ho
        have hw1 := fin_le_fin.1 ho
        rw [div_fin (by linarith)]
        exact rnd_le_fin (_root_.le_trans (div_le_self t0 hw1) t1)
    generalize mean (gaps (beatsIn beats (fin v hv) stop)) = m at hE hmle
    obtain ⟨hBB, eBB⟩ : ∃ h, (536870912 : F32) = fin 536870912 h := ⟨by decide +kernel, by decide +kernel⟩
    obtain ⟨hEE, eEE⟩ : ∃ h, EPS = fin EPS.val h := ⟨by decide +kernel, by decide +kernel⟩
    have hEl := F32.le_of_lt hE
    rw [eEE] at hEl; rw [eBB] at hmle
    obtain ⟨t, ht, rfl, t0, t1⟩ := between_cases hEl hmle
    have hEpos : (0 : ℚ) < EPS.val := by decide +kernel
    obtain ⟨h60, e60⟩ : ∃ h, (60 : F32) = fin 60 h := ⟨by decide +kernel, by decide +kernel⟩
    rw [e60, div_fin (by linarith)]
    refine lt_of_lt_of_le (b := 60 / 536870912) (by decide +kernel) ?_
    rw [e60, eBB, div_fin (by norm_num)]
    apply rnd_mono
    exact div_le_div_of_nonneg_left (by norm_num) (by linarith) t1

theorem segLoop_spec {beats : List F32} {nominal : F32} {L d : ℚ} {hL hd hs} (h8 : d ≤ 8) (h0 : 0 < d)
    (hdur : (fin d hd : F32) - fin d hd * 0.5 = fin (d / 2) hs) (hnom : 0 < nominal) :
    ∀ (fuel : ℕ) (v : ℚ) (hv) (l : List Seg), segLoop beats nominal (fin L hL) (fin d hd) fuel (fin v hv) = .ok l →
    (∀ s ∈ l, fin v hv ≤ s.start ∧ s.start ≤ s.stop ∧ s.stop ≤ fin L hL ∧ 0 ≤ s.conf ∧ s.conf ≤ 1 ∧ 0 < s.bpm ∧
      (s.isVar = true → s.conf ≤ 0.5) ∧ Measured beats nominal s) ∧ l.Pairwise (fun s t => s.start ≤ t.start)
  | 0, v, hv, l, h => by simp [segLoop] at h
  | fuel + 1, v, hv, l, h => by
    rw [segLoop] at h
    by_cases hc : (fin v hv : F32) < fin L hL
    · rw [if_pos hc, hdur] at h
      have hlt := fin_lt_fin.1 hc
      cases hr : segLoop beats nominal (fin L hL) (fin d hd) fuel (fin v hv + fin (d / 2) hs) with
      | error e => rw [hr] at h; simp [Bind.bind, Except.bind] at h
      | ok r =>
        rw [hr] at h
        have h' : window beats nominal (fin L hL) (fin d hd) (fin v hv) ++ r = l := Except.ok.inj h
        have hge : (fin v hv : F32) ≤ fin v hv + fin (d / 2) hs := by rw [add_fin]; exact fin_le_rnd (by linarith)
        have hw := window_spec (beats := beats) (nominal := nominal) (hL := hL) (hd := hd) (hv := hv) h8 h0 hlt hnom
        have hrest : (∀ s ∈ r, (fin v hv : F32) ≤ s.start ∧ s.start ≤ s.stop ∧ s.stop ≤ fin L hL ∧ 0 ≤ s.conf ∧ s.conf ≤ 1 ∧
            0 < s.bpm ∧ (s.isVar = true → s.conf ≤ 0.5) ∧ Measured beats nominal s) ∧ r.Pairwise (fun s t => s.start ≤ t.start) := by
          rcases hx : (fin v hv : F32) + fin (d / 2) hs with _ | sg | ⟨w, hw'⟩
          · rw [hx] at hge; exact absurd rfl (ne_nan_right hge)
          · rw [hx] at hr
            cases fuel with
            | zero => simp [segLoop] at hr
            | succ k =>
              rw [segLoop] at hr
              cases sg
              · rw [if_neg (by rw [lt_def]; simp [toW])] at hr
                have := Except.ok.inj hr
                subst this
                simp
              · rw [hx] at hge
                exfalso
                rw [le_def] at hge
                simp [toW] at hge
          · rw [hx] at hr
            obtain ⟨i1, i2⟩ := segLoop_spec h8 h0 hdur hnom fuel w hw' r hr
            rw [hx] at hge
            exact ⟨fun s hs => ⟨F32.le_trans hge (i1 s hs).1, (i1 s hs).2⟩, i2⟩
        subst h'
        constructor
        · intro s hs
          rcases List.mem_append.1 hs with hs | hs
          · obtain ⟨w1, w2⟩ := hw s hs
            exact ⟨by rw [w1]; exact F32.le_refl (by simp), w2⟩
          · exact hrest.1 s hs
        · rw [List.pairwise_append]
          refine ⟨?_, hrest.2, ?_⟩
          · unfold window
            dsimp only
            split_ifs <;> simp
          · intro s hs t ht
            rw [(hw s hs).1]; exact (hrest.1 t ht).1
    · rw [if_neg hc] at h
      have := Except.ok.inj h
      subst this
      simp

/-- **C35**: whenever the segmentation of sorted finite beats returns, there is at least one segment; each one lies
between the first and the last beat (0 and 0 without beats), has a confidence in [0,1] and a positive tempo; starts are
non-decreasing; a segment flagged variable has confidence at most 0.5; and the result is either one unflagged segment
with the nominal tempo, or consists of measured segments, flagged exactly when the variation of the gaps inside
exceeds 0.15. -/
theorem C35_segments (fuel : ℕ) (beats : List F32) (nominal : F32) (segs : List Seg)
    (hsort : beats.Pairwise (· ≤ ·)) (hfin : ∀ b ∈ beats, b.isFinite = true) (hnom : 0 < nominal)
    (h : tempoSegments fuel beats nominal = .ok segs) :
    segs ≠ [] ∧
    (∀ s ∈ segs, beats.headD 0 ≤ s.start ∧ s.start ≤ s.stop ∧ s.stop ≤ beats.getLastD 0 ∧
      0 ≤ s.conf ∧ s.conf ≤ 1 ∧ 0 < s.bpm ∧ (s.isVar = true → s.conf ≤ 0.5)) ∧
    segs.Pairwise (fun s t => s.start ≤ t.start) ∧
    ((∃ c, segs = [⟨beats.headD 0, beats.getLastD 0, nominal, c, false⟩]) ∨ ∀ s ∈ segs, Measured beats nominal s) ∧
    (hasVariation segs = true ↔ ∃ s ∈ segs, s.isVar = true) := by
  have hbounds : beats.headD 0 ≤ beats.getLastD 0 ∧ ∃ a ha b hb, beats.headD 0 = fin a ha ∧ beats.getLastD 0 = fin b hb := by
    cases beats with
    | nil => exact ⟨F32.le_refl zero_ne_nan, 0, grid_zero, 0, grid_zero, zero_def, zero_def⟩
    | cons a l =>
      have hl : (a :: l).getLastD 0 = (a :: l).getLast (by simp) := by
        rw [List.getLastD_eq_getLast?, List.getLast?_eq_some_getLast (by simp)]; rfl
      have hm : (a :: l).getLastD 0 ∈ a :: l := by rw [hl]; exact List.getLast_mem _
      have hah := hfin a (by simp)
      obtain ⟨x, hx, ex⟩ := isFinite_iff.1 hah
      obtain ⟨y, hy, ey⟩ := isFinite_iff.1 (hfin _ hm)
      refine ⟨?_, x, hx, y, hy, ex, ey⟩
      rcases List.mem_cons.1 hm with hm | hm
      · rw [hm]; exact F32.le_refl (ne_nan_of_isFinite hah)
      · exact (List.pairwise_cons.1 hsort).1 _ hm
  obtain ⟨hle, a, ha, b, hb, ea, eb⟩ := hbounds
  have hsingle : ∀ c : F32, 0 ≤ c → c ≤ 1 → segs = [⟨beats.headD 0, beats.getLastD 0, nominal, c, false⟩] →
      segs ≠ [] ∧ (∀ s ∈ segs, beats.headD 0 ≤ s.start ∧ s.start ≤ s.stop ∧ s.stop ≤ beats.getLastD 0 ∧
      0 ≤ s.conf ∧ s.conf ≤ 1 ∧ 0 < s.bpm ∧ (s.isVar = true → s.conf ≤ 0.5)) ∧
      segs.Pairwise (fun s t => s.start ≤ t.start) ∧
      ((∃ c, segs = [⟨beats.headD 0, beats.getLastD 0, nominal, c, false⟩]) ∨ ∀ s ∈ segs, Measured beats nominal s) := by
    intro c c0 c1 e
    refine ⟨by rw [e]; simp, ?_, by rw [e]; simp, Or.inl ⟨c, e⟩⟩
    intro s hs
    rw [e, List.mem_singleton] at hs
    subst hs
    exact ⟨F32.le_refl (ne_nan_left hle), hle, F32.le_refl (ne_nan_right hle), c0, c1, hnom, fun h => by simp at h⟩
  have hmain : segs ≠ [] ∧ (∀ s ∈ segs, beats.headD 0 ≤ s.start ∧ s.start ≤ s.stop ∧ s.stop ≤ beats.getLastD 0 ∧
      0 ≤ s.conf ∧ s.conf ≤ 1 ∧ 0 < s.bpm ∧ (s.isVar = true → s.conf ≤ 0.5)) ∧
      segs.Pairwise (fun s t => s.start ≤ t.start) ∧
      ((∃ c, segs = [⟨beats.headD 0, beats.getLastD 0, nominal, c, false⟩]) ∨ ∀ s ∈ segs, Measured beats nominal s) := by
    unfold tempoSegments at h
    by_cases h1 : beats.length < 4
    · rw [if_pos h1] at h
      exact hsingle 0.5 (by decide +kernel) (by decide +kernel) (Except.ok.inj h).symm
    rw [if_neg h1] at h
    by_cases h2 : nominal ≤ EPS
    · rw [if_pos h2] at h; simp at h
    rw [if_neg h2] at h
    dsimp only at h
    by_cases h3 : beats.getLastD 0 - beats.headD 0 < 2
    · rw [if_pos h3] at h
      exact hsingle 0.8 (by decide +kernel) (by decide +kernel) (Except.ok.inj h).symm
    rw [if_neg h3] at h
    obtain ⟨d, hd, e1, d1, d2, hs, e2⟩ := dur_spec (total := beats.getLastD 0 - beats.headD 0)
      (by rw [ea, eb]; exact sub_fin_ne_nan rfl rfl)
    rw [e1] at h e2
    cases hr : segLoop beats nominal (beats.getLastD 0) (fin d hd) fuel (beats.headD 0) with
    | error e => rw [hr] at h; simp [Bind.bind, Except.bind] at h
    | ok l =>
      rw [hr] at h
      have h' := Except.ok.inj h
      by_cases hl : l = []
      · rw [if_pos hl] at h'
        exact hsingle 0.8 (by decide +kernel) (by decide +kernel) h'.symm
      · rw [if_neg hl] at h'
        subst h'
        rw [ea, eb] at hr ⊢
        obtain ⟨i1, i2⟩ := segLoop_spec d2 (by linarith) e2 hnom fuel a ha l hr
        refine ⟨hl, fun s hs => ?_, i2, Or.inr (fun s hs => (i1 s hs).2.2.2.2.2.2.2)⟩
        obtain ⟨j1, j2, j3, j4, j5, j6, j7, _⟩ := i1 s hs
        exact ⟨j1, j2, j3, j4, j5, j6, j7⟩
  refine ⟨hmain.1, hmain.2.1, hmain.2.2.1, hmain.2.2.2, ?_⟩
  unfold hasVariation
  rw [List.any_eq_true]

/-- non-vacuity: a beat list with an irregular passage; one segment is flagged -/
example : ([0, 1, 2, 3, 4, 4.4, 6, 7] : List F32).Pairwise (· ≤ ·) ∧
    (∀ b ∈ ([0, 1, 2, 3, 4, 4.4, 6, 7] : List F32), b.isFinite = true) ∧
    (match tempoSegments 100 [0, 1, 2, 3, 4, 4.4, 6, 7] 60 with
    | .ok s => s.map (fun x => (x.start, x.stop, x.isVar)) | .error _ => []) =
    [(0, 4, false), (2, 6, true), (4, 7, true)] := by decide +kernel

end Verif.Props
