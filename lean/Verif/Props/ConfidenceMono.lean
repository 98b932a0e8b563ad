/-
Better estimates and the overall confidence (C118): src/analysis/confidence.rs.
-/
import Verif.Props.Confidence
import Verif.Props.KeyEvidence

namespace Verif.Props
open Verif Verif.Confidence F32

/-- Specification: the analysis `r'` is in no respect worse than `r`: no lower confidence, key clarity or
grid stability, no tempo lost, no warning added. -/
structure NoWorse (r r' : Result) : Prop where
  bpm : r'.bpm ≤ 0 → r.bpm ≤ 0
  bpmConf : r.bpmConf ≤ r'.bpmConf
  keyConf : r.keyConf ≤ r'.keyConf
  keyClarity : r.keyClarity ≤ r'.keyClarity
  gridStab : r.gridStab ≤ r'.gridStab
  warnings : ∀ w ∈ r'.warnings, w ∈ r.warnings

theorem clamp01_mono {x y : F32} (h : x ≤ y) : F32.clamp x 0 1 ≤ F32.clamp y 0 1 := by
  have hx := ne_nan_left h
  have hy := ne_nan_right h
  by_cases h1 : (1 : F32) ≤ y
  · rw [clamp_eq_hi unit1.1 h1]; exact (clamp01 hx).2
  · have hy1 := F32.le_of_lt (F32.lt_of_not_le hy (by decide +kernel) h1)
    by_cases h0 : (0 : F32) ≤ x
    · rw [clamp_eq_self h0 (F32.le_trans h hy1), clamp_eq_self (F32.le_trans h0 h) hy1]; exact h
    · have hx0 := F32.lt_of_not_le hx zero_ne_nan h0
      have : F32.clamp x 0 1 = 0 := by
        unfold F32.clamp
        dsimp only
        rw [if_pos hx0, if_neg (by decide +kernel)]
      rw [this]
      exact (clamp01 hy).1

theorem unit_mul_mono {a a' c c' : F32} (h : a ≤ a') (hc : c ≤ c') (ha : 0 ≤ a) (ha' : a' ≤ 1) (hc0 : 0 ≤ c) (hc' : c' ≤ 1) :
    a * c ≤ a' * c' := by
  have fa := isFinite_of_unit ha (F32.le_trans h ha')
  have fa' := isFinite_of_unit (F32.le_trans ha h) ha'
  have fc := isFinite_of_unit hc0 (F32.le_trans hc hc')
  have fc' := isFinite_of_unit (F32.le_trans hc0 hc) hc'
  exact F32.le_trans (mul_le_mul_of_nonneg_right h hc0 (mul_fin_ne_nan fa fc) (mul_fin_ne_nan fa' fc))
    (mul_le_mul_of_nonneg_left hc (F32.le_trans ha h) (mul_fin_ne_nan fa' fc) (mul_fin_ne_nan fa' fc'))

theorem warned_mono {ws ws' : List (List Char)} (h : ∀ w ∈ ws', w ∈ ws) (p : List Char → Bool) :
    (if ws.any p then (0.7 : F32) else 1) ≤ (if ws'.any p then (0.7 : F32) else 1) := by
  by_cases h1 : ws'.any p = true
  · have : ws.any p = true := by
      rw [List.any_eq_true] at *
      obtain ⟨w, hw, e⟩ := h1
      exact ⟨w, h w hw, e⟩
    rw [if_pos h1, if_pos this]; decide +kernel
  · rw [if_neg h1]
    split_ifs <;> decide +kernel

theorem clarity_mono {x y : F32} (h : x ≤ y) :
    (if x < 0.2 then (0.6 : F32) else if x < 0.5 then 0.85 else 1) ≤ (if y < 0.2 then (0.6 : F32) else if y < 0.5 then 0.85 else 1) := by
  by_cases h1 : y < 0.2
  · rw [if_pos (F32.lt_of_le_of_lt h h1), if_pos h1]; decide +kernel
  · rw [if_neg h1]
    by_cases h2 : y < 0.5
    · rw [if_pos h2, if_pos (F32.lt_of_le_of_lt h h2)]
      split_ifs <;> decide +kernel
    · rw [if_neg h2]
      split_ifs <;> decide +kernel

/-- **C118, the three components.** A better analysis never has a lower tempo, key or grid score. -/
theorem C118_components {r r' : Result} (h : NoWorse r r') :
    (computeConfidence r).bpm ≤ (computeConfidence r').bpm ∧ (computeConfidence r).key ≤ (computeConfidence r').key ∧
      (computeConfidence r).grid ≤ (computeConfidence r').grid := by
  have n1 := ne_nan_left h.bpmConf
  have n1' := ne_nan_right h.bpmConf
  have n2 := ne_nan_left h.keyConf
  have n2' := ne_nan_right h.keyConf
  refine ⟨?_, ?_, clamp01_mono h.gridStab⟩
  · show bpmConfidence r ≤ bpmConfidence r'
    have key : ∀ q : Result, ¬ q.bpm ≤ 0 → bpmConfidence q =
        F32.clamp q.bpmConf 0 1 * (if q.warnings.any (fun w => contains w "BPM".toList) then (0.7 : F32) else 1) := by
      intro q hq
      unfold bpmConfidence
      rw [if_neg hq]
      dsimp only
      split_ifs
      · rfl
      · rw [mul_one']
    by_cases h0 : r.bpm ≤ 0
    · have : bpmConfidence r = 0 := by unfold bpmConfidence; rw [if_pos h0]
      rw [this]; exact (bpmConfidence_unit n1').1
    · rw [key r h0, key r' (fun h' => h0 (h.bpm h'))]
      refine unit_mul_mono (clamp01_mono h.bpmConf) (warned_mono h.warnings _) (clamp01 n1).1 (clamp01 n1').2 ?_ ?_ <;>
        split_ifs <;> decide +kernel
  · show keyConfidence r ≤ keyConfidence r'
    by_cases h0 : r.keyConf ≤ 0
    · have : keyConfidence r = 0 := by unfold keyConfidence; rw [if_pos h0]
      rw [this]; exact (keyConfidence_unit n2').1
    · unfold keyConfidence
      rw [if_neg h0, if_neg (fun h' => h0 (F32.le_trans h.keyConf h'))]
      dsimp only
      have hc : ∀ x : F32, (0 : F32) ≤ (if x < 0.2 then (0.6 : F32) else if x < 0.5 then 0.85 else 1) ∧
          (if x < 0.2 then (0.6 : F32) else if x < 0.5 then 0.85 else 1) ≤ (1 : F32) := by
        intro x; split_ifs <;> decide +kernel
      refine unit_mul_mono (unit_mul_mono (clamp01_mono h.keyConf) (clarity_mono h.keyClarity) (clamp01 n2).1 (clamp01 n2').2
        (hc _).1 (hc _).2) (warned_mono h.warnings _) (Verif.F32.unit_mul (clamp01 n2).1 (clamp01 n2).2 (hc _).1 (hc _).2).1
        (Verif.F32.unit_mul (clamp01 n2').1 (clamp01 n2').2 (hc _).1 (hc _).2).2 ?_ ?_ <;> split_ifs <;> decide +kernel

/-- **C118, the overall confidence (partial).** A better analysis has no lower overall confidence, unless
it has both a tempo and a key where the other one has only one of the two (`C118_violated`). -/
theorem C118_overall_partial {r r' : Result} (h : NoWorse r r')
    (hboth : 0 < (computeConfidence r').bpm → 0 < (computeConfidence r').key →
      (0 < (computeConfidence r).bpm ↔ 0 < (computeConfidence r).key)) :
    (computeConfidence r).overall ≤ (computeConfidence r').overall := by
  obtain ⟨h1, h2, h3⟩ := C118_components h
  have ub := bpmConfidence_unit (ne_nan_left h.bpmConf)
  have uk := keyConfidence_unit (ne_nan_left h.keyConf)
  have ug := clamp01 (ne_nan_left h.gridStab)
  have ub' := bpmConfidence_unit (ne_nan_right h.bpmConf)
  have uk' := keyConfidence_unit (ne_nan_right h.keyConf)
  have ug' := clamp01 (ne_nan_right h.gridStab)
  have hn := (overall_bounds ub uk ug).1
  have hn' := (overall_bounds ub' uk' ug').1
  unfold computeConfidence at *
  dsimp only at *
  generalize bpmConfidence r = b at *
  generalize keyConfidence r = k at *
  generalize bpmConfidence r' = b' at *
  generalize keyConfidence r' = k' at *
  generalize F32.clamp r.gridStab 0 1 = g at *
  generalize F32.clamp r'.gridStab 0 1 = g' at *
  have l4 : (0 : F32) ≤ 0.4 ∧ (0.4 : F32) ≤ 1 := by decide +kernel
  have l3 : (0 : F32) ≤ 0.3 ∧ (0.3 : F32) ≤ 1 := by decide +kernel
  have refl4 : (0.4 : F32) ≤ 0.4 := by decide +kernel
  have refl3 : (0.3 : F32) ≤ 0.3 := by decide +kernel
  have refl6 : (0.6 : F32) ≤ 0.6 := by decide +kernel
  have pos6 : ∀ {x : F32}, 0 ≤ x → x ≤ 1 → 0 ≤ x * 0.6 := fun a b => (Verif.F32.unit_mul a b unit06.1 unit06.2).1
  by_cases hb : 0 < b <;> by_cases hk : 0 < k
  · rw [if_pos ⟨hb, hk⟩, if_pos ⟨F32.lt_of_lt_of_le hb h1, F32.lt_of_lt_of_le hk h2⟩]
    apply clamp01_mono
    have e1 := unit_mul_mono h1 refl4 ub.1 ub'.2 l4.1 l4.2
    have e2 := unit_mul_mono h2 refl3 uk.1 uk'.2 l3.1 l3.2
    have e3 := unit_mul_mono h3 refl3 ug.1 ug'.2 l3.1 l3.2
    have nn : b * 0.4 + k * 0.3 ≠ nan := fun h => hn (by rw [h]; rfl)
    have nn' : b' * 0.4 + k' * 0.3 ≠ nan := fun h => hn' (by rw [h]; rfl)
    exact F32.add_le_add (F32.add_le_add e1 e2 nn nn') e3 hn hn'
  · have hb' := F32.lt_of_lt_of_le hb h1
    have hk' : ¬ 0 < k' := fun hk' => hk ((hboth hb' hk').1 hb)
    rw [if_neg (fun h => hk h.2), if_pos hb, if_neg (fun h => hk' h.2), if_pos hb']
    exact unit_mul_mono h1 refl6 ub.1 ub'.2 unit06.1 unit06.2
  · have hk' := F32.lt_of_lt_of_le hk h2
    have hb' : ¬ 0 < b' := fun hb' => hb ((hboth hb' hk').2 hk)
    rw [if_neg (fun h => hb h.1), if_neg hb, if_pos hk, if_neg (fun h => hb' h.1), if_neg hb', if_pos hk']
    exact unit_mul_mono h2 refl6 uk.1 uk'.2 unit06.1 unit06.2
  · rw [if_neg (fun h => hb h.1), if_neg hb, if_neg hk]
    split_ifs
    · exact (clamp01 hn').1
    · exact pos6 ub'.1 ub'.2
    · exact pos6 uk'.1 uk'.2
    · decide +kernel

/-- **C118 is violated.** A key that is found with little confidence (together with the grid at most half
the tempo score) makes the overall confidence lower than if no key had been found at all. -/
theorem C118_violated (r : Result) (n1 : r.bpmConf ≠ nan) (n2 : r.keyConf ≠ nan) (n3 : r.gridStab ≠ nan)
    (n4 : r.keyClarity ≠ nan)
    (hb : (0.01 : F32) ≤ (computeConfidence r).bpm) (hk : 0 < (computeConfidence r).key)
    (hlow : (computeConfidence r).key.val + (computeConfidence r).grid.val ≤ (computeConfidence r).bpm.val / 2) :
    NoWorse { r with keyConf := 0 } r ∧
      (computeConfidence r).overall < (computeConfidence { r with keyConf := 0 }).overall := by
  have hk0 : ¬ r.keyConf ≤ 0 := by
    intro h
    have : keyConfidence r = 0 := by unfold keyConfidence; rw [if_pos h]
    change 0 < keyConfidence r at hk
    rw [this] at hk
    exact F32.lt_irrefl _ hk
  refine ⟨⟨id, F32.le_refl n1, F32.le_of_lt (F32.lt_of_not_le (a := 0) (b := r.keyConf) zero_ne_nan n2 hk0), F32.le_refl n4, F32.le_refl n3, fun _ h => h⟩, ?_⟩
  have ub := bpmConfidence_unit n1
  have uk := keyConfidence_unit n2
  have ug := clamp01 n3
  have e0 : (computeConfidence { r with keyConf := 0 }).overall = if 0 < bpmConfidence r then bpmConfidence r * 0.6 else 0 := by
    have hz : keyConfidence { r with keyConf := 0 } = 0 := by
      unfold keyConfidence; rw [if_pos (show (0 : F32) ≤ 0 by decide +kernel)]
    have hbb : bpmConfidence { r with keyConf := 0 } = bpmConfidence r := rfl
    unfold computeConfidence
    dsimp only
    rw [hz, hbb, if_neg (fun h => F32.lt_irrefl _ h.2), if_neg (F32.lt_irrefl _)]
  rw [e0]
  change (0.01 : F32) ≤ bpmConfidence r at hb
  change 0 < keyConfidence r at hk
  change (keyConfidence r).val + (F32.clamp r.gridStab 0 1).val ≤ (bpmConfidence r).val / 2 at hlow
  have hb0 : 0 < bpmConfidence r := F32.lt_of_lt_of_le (by decide +kernel) hb
  rw [if_pos hb0]
  have e1 : (computeConfidence r).overall =
      F32.clamp (bpmConfidence r * 0.4 + keyConfidence r * 0.3 + F32.clamp r.gridStab 0 1 * 0.3) 0 1 := by
    unfold computeConfidence
    dsimp only
    rw [if_pos ⟨hb0, hk⟩]
  rw [e1]
  generalize bpmConfidence r = b at *
  generalize keyConfidence r = k at *
  generalize F32.clamp r.gridStab 0 1 = g at *
  obtain ⟨bv, hbv, rfl, b0, b1⟩ := unit_cases ub.1 ub.2
  obtain ⟨kv, hkv, rfl, k0, k1⟩ := unit_cases uk.1 uk.2
  obtain ⟨gv, hgv, rfl, g0, g1⟩ := unit_cases ug.1 ug.2
  obtain ⟨h4, e4⟩ := lit04
  obtain ⟨h3, e3⟩ := lit03
  have e6 : ∃ h, (0.6 : F32) = fin (10066330 / 16777216) h := ⟨by decide +kernel, by decide +kernel⟩
  obtain ⟨h6, e6⟩ := e6
  have hbig : (1 : ℚ) / 128 ≤ bv := by
    have h1 : rnd (1 / 128) ≤ (0.01 : F32) := by decide +kernel
    have h2 := F32.le_trans h1 hb
    rw [rnd_val (v := 1 / 128) (by decide +kernel)] at h2
    exact fin_le_fin.1 h2
  simp only [F32.val] at hlow
  rw [e4, e3, e6, mul_fin, mul_fin, mul_fin, mul_fin]
  have n1 : 0 ≤ bv * (13421773 / 33554432) := by positivity
  have n2 : 0 ≤ kv * (10066330 / 33554432) := by positivity
  have n3 : 0 ≤ gv * (10066330 / 33554432) := by positivity
  have n6 : 0 ≤ bv * (10066330 / 16777216) := by positivity
  obtain ⟨ha, ea, ba⟩ := rnd_finite_of_abs_le (q := bv * (13421773 / 33554432)) grid_one
    (by rw [abs_of_nonneg n1]; linarith)
  obtain ⟨hc, ec, bc⟩ := rnd_finite_of_abs_le (q := kv * (10066330 / 33554432)) grid_one
    (by rw [abs_of_nonneg n2]; linarith)
  obtain ⟨hd, ed, bd⟩ := rnd_finite_of_abs_le (q := gv * (10066330 / 33554432)) grid_one
    (by rw [abs_of_nonneg n3]; linarith)
  obtain ⟨hf, ef, bf⟩ := rnd_finite_of_abs_le (q := bv * (10066330 / 16777216)) grid_one
    (by rw [abs_of_nonneg n6]; linarith)
  rw [ea, ec, ed, ef, add_fin]
  have u1 := rndQ_up n1
  have u2 := rndQ_up n2
  have u3 := rndQ_up n3
  have d6 := rndQ_down n6
  have p1 := rndQ_nonneg n1
  have p2 := rndQ_nonneg n2
  have p3 := rndQ_nonneg n3
  clear ea ec ed ef
  revert ha hc hd hf
  generalize rndQ (bv * (13421773 / 33554432)) = x at *
  generalize rndQ (kv * (10066330 / 33554432)) = y at *
  generalize rndQ (gv * (10066330 / 33554432)) = z at *
  generalize rndQ (bv * (10066330 / 16777216)) = t at *
  intro ha hc hd hf
  unfold eps eta at *
  have n4 : 0 ≤ x + y := by linarith
  have s4 : x + y ≤ 1 := by norm_num at *; linarith
  obtain ⟨he, ee, be⟩ := rnd_finite_of_abs_le (q := x + y) grid_one (by rw [abs_of_nonneg n4]; exact s4)
  have u4 := rndQ_up n4
  have p4 := rndQ_nonneg n4
  rw [ee, add_fin]
  clear ee
  revert he
  generalize rndQ (x + y) = w at *
  intro he
  have n5 : 0 ≤ w + z := by linarith
  unfold eps eta at u4
  have s5 : w + z ≤ 1 := by norm_num at *; linarith
  obtain ⟨hg, eg, bg⟩ := rnd_finite_of_abs_le (q := w + z) grid_one (by rw [abs_of_nonneg n5]; exact s5)
  have u5 := rndQ_up n5
  have p5 := rndQ_nonneg n5
  unfold eps eta at u5
  rw [eg, clamp_eq_self (by rw [zero_def]; exact fin_le_fin.2 p5) (by rw [one_def]; exact fin_le_fin.2 (by
    rw [abs_of_nonneg p5] at bg; exact bg))]
  rw [fin_lt_fin]
  clear eg
  generalize rndQ (w + z) = o at *
  norm_num at *
  linarith

/-- a tempo found with full confidence, no beat grid: without a key the confidence is 0.6 (medium), with
the key found at 0.1 it is 0.43 (low) -/
example : let r : Result := ⟨120, 1, 0.1, 1, 0, [], []⟩
    (computeConfidence r).level = "Low".toList ∧ (computeConfidence { r with keyConf := 0 }).level = "Medium".toList ∧
      (0.01 : F32) ≤ (computeConfidence r).bpm ∧ 0 < (computeConfidence r).key ∧
      (computeConfidence r).key.val + (computeConfidence r).grid.val ≤ (computeConfidence r).bpm.val / 2 := by
  decide +kernel

/-- non-vacuity of the positive part -/
example : ∃ r r' : Result, NoWorse r r' ∧ (computeConfidence r).overall < (computeConfidence r').overall ∧
    0 < (computeConfidence r).bpm ∧ 0 < (computeConfidence r).key := by
  refine ⟨⟨120, 0.5, 0.4, 0.3, 0.2, ["Low BPM confidence".toList], []⟩, ⟨120, 0.7, 0.4, 0.6, 0.2, [], []⟩,
    ⟨fun h => h, by decide +kernel, by decide +kernel, by decide +kernel, by decide +kernel, fun w h => by simp at h⟩, ?_⟩
  decide +kernel
